import Verif.Sdk.Store
import Verif.Sdk.HintStores
/-!
# C122: the key-value stores on disk (sdk/kvstore/badger, sdk/kvstore/lmdb)

As in C121 the two libraries are ordered maps of byte strings that refuse some keys; disk errors are not modelled. `Get` and `Update` copy what they read and the libraries copy
what they are given, so the buffers of the program do not matter. The operations, their observable results and the mathematical map are those of C71.
-/

set_option autoImplicit false

namespace GoNostr.Sdk

open GoNostr.HintStores (KV Backend)

/-- `txn.Delete` / `txn.Del` of a key that is there. -/
def kvDel (s : KV) (k : Bytes) : KV := s.filter (fun e => ¬ e.1 = k)

/-- Which keys can be written and read: those of `Backend.accepts` and not empty. -/
def keyOk (b : Backend) (k : Bytes) : Bool := b.accepts k && !k.isEmpty

/-- Removing a key: Badger writes a tombstone in any case, LMDB answers `NotFound` when the key is not there (badger/store.go:51-55, 85-87; lmdb/store.go:83-87, 113-115). -/
def removeKey (b : Backend) (s : KV) (k : Bytes) : KV × Obs := match b, s.get k with
  | .lmdb, none => (s, .failed)
  | _, _ => (kvDel s k, .done)

/-- badger/store.go:23-90, lmdb/store.go:56-118: one call. A key the library refuses is an error (for `Get` of LMDB with an overlong key this is a simplification: no such key is
there). A nil value is stored as an empty one. `mutate` is the program writing to one of its own buffers. -/
def diskStep (b : Backend) (s : KV) : Op → KV × Obs
  | .get k => if keyOk b k then (s, .value (s.get k)) else (s, .failed)
  | .set k v => if keyOk b k then (s.put k (v.getD []), .done) else (s, .failed)
  | .delete k => if keyOk b k then removeKey b s k else (s, .failed)
  | .update k f => if keyOk b k then
      match f (s.get k) with
      | .noop => (s, .done)
      | .err => (s, .failed)
      | .val none => removeKey b s k
      | .val (some v) => (s.put k v, .done)
    else (s, .failed)
  | .close => (s, .done)
  | .mutate _ _ => (s, .done)

/-- A history of calls with the answers. -/
def diskRun (b : Backend) (s : KV) : List Op → List Obs
  | [] => []
  | o :: os => (diskStep b s o).2 :: diskRun b (diskStep b s o).1 os

/-! ## Specification -/

/-- Spec: the map of C71, except that removing a key that is not there fails. -/
def PMap.strictStep (m : PMap) : Op → PMap × Obs
  | .get k => (m, .value (m k))
  | .set k v => (m.put k v, .done)
  | .delete k => if m k = none then (m, .failed) else (m.put k none, .done)
  | .update k f => match f (m k) with
    | .noop => (m, .done)
    | .err => (m, .failed)
    | .val none => if m k = none then (m, .failed) else (m.put k none, .done)
    | .val (some v) => (m.put k (some v), .done)
  | .close => (m, .done)
  | .mutate _ _ => (m, .done)

/-- Spec: operations one after the other. -/
def PMap.strictRun (m : PMap) : List Op → List Obs
  | [] => []
  | o :: os => (m.strictStep o).2 :: PMap.strictRun (m.strictStep o).1 os

/-- Spec: calls with keys of 1 to 511 bytes (for Badger: to 65000, and not its own) and with values that are not nil, on an open store. -/
def Proper (b : Backend) : Op → Prop
  | .get k => keyOk b k = true
  | .set k v => keyOk b k = true ∧ v ≠ none
  | .delete k => keyOk b k = true
  | .update k _ => keyOk b k = true
  | .close => False
  | .mutate _ _ => True

/-! ## C122 -/

theorem kvDel_sorted {s : KV} (hs : HintStores.Sorted s) (k : Bytes) : HintStores.Sorted (kvDel s k) := List.Pairwise.sublist List.filter_sublist hs

theorem get_kvDel (s : KV) (k x : Bytes) : (kvDel s k).get x = if x = k then none else s.get x := by
  unfold kvDel
  induction s with
  | nil => simp [KV.get]
  | cons e s ih =>
    obtain ⟨k', v⟩ := e
    by_cases hk : k' = k
    · rw [List.filter_cons_of_neg (by simp [hk]), ih]
      by_cases hx : x = k
      · simp [hx]
      · have : ¬ x = k' := fun h => hx (h.trans hk)
        simp [hx, KV.get, this]
    · rw [List.filter_cons_of_pos (by simp [hk])]
      by_cases hx : x = k'
      · have : ¬ x = k := fun h => hk (hx.symm.trans h)
        simp [hx, KV.get, hk]
      · rw [KV.get, if_neg hx, ih, KV.get, if_neg hx]

theorem put_eq {s : KV} (hs : HintStores.Sorted s) (k v : Bytes) : (s.put k v).get = PMap.put s.get k (some v) := by
  funext x; rw [HintStores.get_put hs]; rfl

theorem kvDel_eq (s : KV) (k : Bytes) : (kvDel s k).get = PMap.put s.get k none := by
  funext x; rw [get_kvDel]; rfl

theorem put_none_self {m : PMap} {k : Bytes} (h : m k = none) : m.put k none = m := by
  funext x
  unfold PMap.put
  split
  · next e => rw [e, h]
  · rfl

theorem diskStep_badger {s : KV} (hs : HintStores.Sorted s) {o : Op} (ho : Proper .badger o) :
    HintStores.Sorted (diskStep .badger s o).1 ∧ (diskStep .badger s o).1.get = (PMap.step s.get o).1 ∧ (diskStep .badger s o).2 = (PMap.step s.get o).2 := by
  cases o with
  | get k => rw [diskStep, if_pos (show keyOk _ k = true from ho)]; exact ⟨hs, rfl, rfl⟩
  | set k v =>
    rw [diskStep, if_pos ho.1]
    cases v with
    | none => exact absurd rfl ho.2
    | some v => exact ⟨HintStores.put_sorted hs _ _, put_eq hs k v, rfl⟩
  | delete k => rw [diskStep, if_pos (show keyOk _ k = true from ho)]; exact ⟨kvDel_sorted hs k, kvDel_eq s k, rfl⟩
  | update k f =>
    rw [diskStep, if_pos (show keyOk _ k = true from ho)]
    simp only [PMap.step]
    cases f (s.get k) with
    | noop => exact ⟨hs, rfl, rfl⟩
    | err => exact ⟨hs, rfl, rfl⟩
    | val v => cases v with
      | none => exact ⟨kvDel_sorted hs k, kvDel_eq s k, rfl⟩
      | some v => exact ⟨HintStores.put_sorted hs _ _, put_eq hs k v, rfl⟩
  | close => exact absurd ho (by simp [Proper])
  | mutate r b => exact ⟨hs, rfl, rfl⟩

theorem removeKey_lmdb {s : KV} (hs : HintStores.Sorted s) (k : Bytes) :
    HintStores.Sorted (removeKey .lmdb s k).1 ∧ (removeKey .lmdb s k).1.get = (if s.get k = none then s.get else PMap.put s.get k none) ∧
    (removeKey .lmdb s k).2 = if s.get k = none then .failed else .done := by
  unfold removeKey
  cases hg : s.get k with
  | none => exact ⟨hs, by simp, by simp⟩
  | some v => exact ⟨kvDel_sorted hs k, by simpa using kvDel_eq s k, by simp⟩

theorem diskStep_lmdb {s : KV} (hs : HintStores.Sorted s) {o : Op} (ho : Proper .lmdb o) :
    HintStores.Sorted (diskStep .lmdb s o).1 ∧ (diskStep .lmdb s o).1.get = (PMap.strictStep s.get o).1 ∧ (diskStep .lmdb s o).2 = (PMap.strictStep s.get o).2 := by
  cases o with
  | get k => rw [diskStep, if_pos (show keyOk _ k = true from ho)]; exact ⟨hs, rfl, rfl⟩
  | set k v =>
    rw [diskStep, if_pos ho.1]
    cases v with
    | none => exact absurd rfl ho.2
    | some v => exact ⟨HintStores.put_sorted hs _ _, put_eq hs k v, rfl⟩
  | delete k =>
    rw [diskStep, if_pos (show keyOk _ k = true from ho)]
    obtain ⟨h1, h2, h3⟩ := removeKey_lmdb hs k
    refine ⟨h1, h2.trans ?_, h3.trans ?_⟩ <;> · unfold PMap.strictStep; simp only; split <;> rfl
  | update k f =>
    rw [diskStep, if_pos (show keyOk _ k = true from ho)]
    simp only [PMap.strictStep]
    cases f (s.get k) with
    | noop => exact ⟨hs, rfl, rfl⟩
    | err => exact ⟨hs, rfl, rfl⟩
    | val v => cases v with
      | none =>
        obtain ⟨h1, h2, h3⟩ := removeKey_lmdb hs k
        refine ⟨h1, h2.trans ?_, h3.trans ?_⟩ <;> · simp only; split <;> rfl
      | some v => exact ⟨HintStores.put_sorted hs _ _, put_eq hs k v, rfl⟩
  | close => exact absurd ho (by simp [Proper])
  | mutate r b => exact ⟨hs, rfl, rfl⟩

/-- **C122, Badger.** On every history of proper calls the Badger store answers exactly like a partial map, whatever the program does with its own buffers in between. -/
theorem C122_badger_is_map (ops : List Op) (h : ∀ o ∈ ops, Proper .badger o) : diskRun .badger [] ops = PMap.run (fun _ => none) ops := by
  have gen : ∀ (ops : List Op) (s : KV), HintStores.Sorted s → (∀ o ∈ ops, Proper .badger o) → diskRun .badger s ops = PMap.run s.get ops := by
    intro ops
    induction ops with
    | nil => intros; rfl
    | cons o os ih =>
      intro s hs hp
      obtain ⟨h1, h2, h3⟩ := diskStep_badger hs (hp o (by simp))
      rw [diskRun, PMap.run, ih _ h1 (fun x hx => hp x (by simp [hx])), h2, h3]
  exact gen ops [] List.Pairwise.nil h

/-- **C122, LMDB.** So does the LMDB store, except that removing a key that is not there is an error. -/
theorem C122_lmdb_is_strict_map (ops : List Op) (h : ∀ o ∈ ops, Proper .lmdb o) : diskRun .lmdb [] ops = PMap.strictRun (fun _ => none) ops := by
  have gen : ∀ (ops : List Op) (s : KV), HintStores.Sorted s → (∀ o ∈ ops, Proper .lmdb o) → diskRun .lmdb s ops = PMap.strictRun s.get ops := by
    intro ops
    induction ops with
    | nil => intros; rfl
    | cons o os ih =>
      intro s hs hp
      obtain ⟨h1, h2, h3⟩ := diskStep_lmdb hs (hp o (by simp))
      rw [diskRun, PMap.strictRun, ih _ h1 (fun x hx => hp x (by simp [hx])), h2, h3]
  exact gen ops [] List.Pairwise.nil h

/-- The strict map keeps the same contents as the map: only the answer of removing an absent key differs. -/
theorem C122_strict_contents (m : PMap) (o : Op) : (m.strictStep o).1 = (m.step o).1 ∧
    ((m.strictStep o).2 = (m.step o).2 ∨ ((m.strictStep o).2 = .failed ∧ (m.step o).2 = .done ∧ ∃ k, m k = none ∧ (m.step o).1 = m)) := by
  cases o with
  | get k => exact ⟨rfl, .inl rfl⟩
  | set k v => exact ⟨rfl, .inl rfl⟩
  | delete k =>
    simp only [PMap.strictStep, PMap.step]
    by_cases hk : m k = none
    · rw [if_pos hk]; exact ⟨(put_none_self hk).symm, .inr ⟨rfl, trivial, k, hk, put_none_self hk⟩⟩
    · rw [if_neg hk]; exact ⟨rfl, .inl rfl⟩
  | update k f =>
    simp only [PMap.strictStep, PMap.step]
    cases f (m k) with
    | noop => exact ⟨rfl, .inl rfl⟩
    | err => exact ⟨rfl, .inl rfl⟩
    | val v => cases v with
      | some v => exact ⟨rfl, .inl rfl⟩
      | none =>
        simp only
        by_cases hk : m k = none
        · rw [if_pos hk]; exact ⟨(put_none_self hk).symm, .inr ⟨rfl, trivial, k, hk, put_none_self hk⟩⟩
        · rw [if_neg hk]; exact ⟨rfl, .inl rfl⟩
  | close => exact ⟨rfl, .inl rfl⟩
  | mutate r b => exact ⟨rfl, .inl rfl⟩

/-- **C122, the three stores are interchangeable** for programs that use proper keys and values, do not write to buffers they handed over, and never remove a key that is not
there (in memory). -/
theorem C122_interchangeable (ops : List Op) (hc : Clean ops) (hb : ∀ o ∈ ops, Proper .badger o) (hl : ∀ o ∈ ops, Proper .lmdb o)
    (hs : PMap.strictRun (fun _ => none) ops = PMap.run (fun _ => none) ops) :
    Mem.new.run ops = .val (diskRun .badger [] ops) ∧ Mem.new.run ops = .val (diskRun .lmdb [] ops) := by
  rw [C71_refines_map ops hc, C122_badger_is_map ops hb, C122_lmdb_is_strict_map ops hl, hs]
  exact ⟨rfl, rfl⟩

/-- The hypotheses are met by a history with every kind of call. -/
example : let ops := [.set [1] (some [7]), .get [1], .update [1] (fun v => .val (v.map (· ++ [8]))), .get [1], .update [2] (fun _ => .noop), .update [1] (fun _ => .err), .delete [1], .get [1]]
    Clean ops ∧ (∀ o ∈ ops, Proper .badger o) ∧ (∀ o ∈ ops, Proper .lmdb o) ∧ PMap.strictRun (fun _ => none) ops = PMap.run (fun _ => none) ops ∧
    diskRun .lmdb [] ops = [.done, .value (some [7]), .done, .value (some [7, 8]), .done, .failed, .done, .value none] := by
  refine ⟨by simp [Clean], ?_, ?_, by decide +kernel, by decide +kernel⟩ <;>
  · intro o ho
    simp only [List.mem_cons, List.not_mem_nil, or_false] at ho
    rcases ho with rfl | rfl | rfl | rfl | rfl | rfl | rfl | rfl <;> simp [Proper, keyOk, Backend.accepts] <;> decide +kernel

/-- **C122, where they differ.** A nil value reads back as nil from memory and as an empty value from disk; removing an absent key fails with LMDB only; an empty key works in
memory only. -/
theorem C122_differences :
    (Mem.new.run [.set [1] none, .get [1]] = .val [.done, .value none] ∧ diskRun .badger [] [.set [1] none, .get [1]] = [.done, .value (some [])]) ∧
    (Mem.new.run [.delete [1]] = .val [.done] ∧ diskRun .badger [] [.delete [1]] = [.done] ∧ diskRun .lmdb [] [.delete [1]] = [.failed]) ∧
    (Mem.new.run [.set [] (some [7])] = .val [.done] ∧ diskRun .badger [] [.set [] (some [7])] = [.failed]) := by
  refine ⟨⟨?_, ?_⟩, ⟨?_, ?_, ?_⟩, ?_, ?_⟩ <;> decide +kernel

/-- **C122, refused keys** change nothing and are reported. -/
theorem C122_refused (b : Backend) (s : KV) (k : Bytes) (h : keyOk b k = false) (v : Option Bytes) (f : Option Bytes → Upd) :
    diskStep b s (.set k v) = (s, .failed) ∧ diskStep b s (.delete k) = (s, .failed) ∧ diskStep b s (.update k f) = (s, .failed) := by
  simp [diskStep, h]

/-! ## Calls at the same time, with Badger

`db.Update` runs its function on a snapshot and commits unless a key it read was written since, in which case `ErrConflict` is returned to the caller. -/

/-- An `Update` in progress: the value it read and the version it read at. -/
structure Pending where
  k : Bytes
  f : Option Bytes → Upd
  read : Option Bytes
  at_ : Nat

/-- The store, when each key was last written, the number of commits, the calls in progress. -/
structure Live where
  s : PMap := fun _ => none
  written : Bytes → Nat := fun _ => 0
  clock : Nat := 0
  calls : List Pending := []

/-- What can happen: a `Set` or a `Delete` (they read nothing), the read of an `Update`, its end. -/
inductive Act
  | set (k v : Bytes)
  | delete (k : Bytes)
  | begin (k : Bytes) (f : Option Bytes → Upd)
  | finish (n : Nat)

/-- A write reaches the disk. -/
def Live.write (c : Live) (k : Bytes) (v : Option Bytes) : Live :=
  { c with s := c.s.put k v, written := fun x => if x = k then c.clock + 1 else c.written x, clock := c.clock + 1 }

/-- badger/store.go:45-90 -/
def Live.step (c : Live) : Act → Option (Live × Obs)
  | .set k v => some (c.write k (some v), .done)
  | .delete k => some (c.write k none, .done)
  | .begin k f => some ({ c with calls := c.calls ++ [⟨k, f, c.s k, c.clock⟩] }, .done)
  | .finish n => match c.calls[n]? with
    | none => none
    | some p =>
      let c := { c with calls := c.calls.eraseIdx n }
      match p.f p.read with
      | .noop => some (c, .done)
      | .err => some (c, .failed)
      | .val v => if p.at_ < c.written p.k then some (c, .failed) else some (c.write p.k v, .done)

/-- What every run keeps true. -/
structure LiveInv (c : Live) : Prop where
  written : ∀ k, c.written k ≤ c.clock
  reads : ∀ p ∈ c.calls, p.at_ ≤ c.clock ∧ (c.written p.k ≤ p.at_ → p.read = c.s p.k)

/-- The runs. -/
inductive Runs : Live → Prop
  | init : Runs {}
  | step {c c' : Live} {a : Act} {o : Obs} : Runs c → c.step a = some (c', o) → Runs c'

theorem write_inv {c : Live} (hi : LiveInv c) (k : Bytes) (v : Option Bytes) : LiveInv (c.write k v) := by
  refine ⟨fun x => ?_, fun p hp => ?_⟩
  · have := hi.written x
    simp only [Live.write]
    split <;> omega
  · obtain ⟨h1, h2⟩ := hi.reads p hp
    refine ⟨by simp only [Live.write]; omega, ?_⟩
    simp only [Live.write]
    intro hw
    by_cases hk : p.k = k
    · rw [if_pos hk] at hw; omega
    · rw [if_neg hk] at hw
      rw [PMap.put, if_neg hk]; exact h2 hw

theorem live_inv {c : Live} (h : Runs c) : LiveInv c := by
  induction h with
  | init => exact ⟨fun _ => Nat.le_refl _, by simp⟩
  | @step c c' a o _ hs hi =>
    cases a with
    | set k v => cases hs; exact write_inv hi _ _
    | delete k => cases hs; exact write_inv hi _ _
    | begin k f =>
      cases hs
      refine ⟨hi.written, fun p hp => ?_⟩
      rcases List.mem_append.1 hp with hp | hp
      · exact hi.reads p hp
      · rw [List.mem_singleton] at hp; subst hp; exact ⟨Nat.le_refl _, fun _ => rfl⟩
    | finish n =>
      simp only [Live.step] at hs
      cases hn : c.calls[n]? with
      | none => rw [hn] at hs; cases hs
      | some p =>
        rw [hn] at hs
        have he : LiveInv { c with calls := c.calls.eraseIdx n } := ⟨hi.written, fun x hx => hi.reads x (List.mem_of_mem_eraseIdx hx)⟩
        simp only at hs
        split at hs
        · cases hs; exact he
        · cases hs; exact he
        · split at hs
          · cases hs; exact he
          · cases hs; exact write_inv he _ _

/-- **C122, `Update` is atomic with Badger.** However the calls overlap, the end of an `Update` that answers without an error either changes nothing because its function said so, or
does to the store of that moment exactly what an undisturbed `Update` would do; one that answers with an error changes nothing. -/
theorem C122_update_atomic {c c' : Live} (h : Runs c) {n : Nat} {p : Pending} {o : Obs} (hp : c.calls[n]? = some p) (hs : c.step (.finish n) = some (c', o)) :
    (o = .done → (p.f p.read = .noop ∧ c'.s = c.s) ∨ (p.read = c.s p.k ∧ c'.s = (c.s.step (.update p.k p.f)).1 ∧ (c.s.step (.update p.k p.f)).2 = .done)) ∧
    (o ≠ .done → o = .failed ∧ c'.s = c.s) := by
  have hi := (live_inv h).reads p (List.mem_of_getElem? hp)
  simp only [Live.step, hp] at hs
  cases hf : p.f p.read with
  | noop => rw [hf] at hs; cases hs; exact ⟨fun _ => .inl ⟨rfl, rfl⟩, fun h => absurd rfl h⟩
  | err => rw [hf] at hs; cases hs; exact ⟨fun h => (by cases h), fun _ => ⟨rfl, rfl⟩⟩
  | val v =>
    rw [hf] at hs
    simp only at hs
    split at hs
    · cases hs; exact ⟨fun h => (by cases h), fun _ => ⟨rfl, rfl⟩⟩
    · next hw =>
      cases hs
      refine ⟨fun _ => .inr ?_, fun h => absurd rfl h⟩
      have hr := hi.2 (by omega)
      refine ⟨hr, ?_, ?_⟩
      · simp only [PMap.step, ← hr, hf]; rfl
      · simp only [PMap.step, ← hr, hf]

/-- **C122, but not always carried out**: of two overlapping `Update`s of one key the second fails. The recording of the relays of an event ignores that error. -/
theorem C122_overlapping_update_fails : ∃ c c', Runs c ∧ c.calls.length = 1 ∧ c.s [1] = some [7] ∧ c.step (.finish 0) = some (c', .failed) ∧ c'.s [1] = some [7] := by
  refine ⟨_, _, .step (a := .finish 0) (.step (a := .begin [1] (fun v => .val (some (v.getD [] ++ [8])))) (.step (a := .begin [1] (fun v => .val (some (v.getD [] ++ [7])))) .init rfl) rfl) rfl,
    rfl, rfl, rfl, rfl⟩

end GoNostr.Sdk
