import Verif.Base.Num
/-!
# C71 (memory key-value store), C72 (relay lists of events), C77 (`appendUnique`), C80 (`RelayStream`), C81 (cache keys)
-/

set_option autoImplicit false

namespace GoNostr.Sdk

/-! ## C71: sdk/kvstore/memory -/

/-- A Go `[]byte`: nil or a reference to a buffer. -/
abbrev Ref := Option Nat

/-- Go's `map[string][]byte` as an association list without repeated keys: lookup, assignment, deletion. -/
def mget (m : List (Bytes × Ref)) (k : Bytes) : Option Ref := (m.find? (fun p => p.1 = k)).map (·.2)
/-- `delete(m, k)`. -/
def mdel (m : List (Bytes × Ref)) (k : Bytes) : List (Bytes × Ref) := m.filter (fun p => ¬ p.1 = k)
/-- `m[k] = v`. -/
def mset (m : List (Bytes × Ref)) (k : Bytes) (v : Ref) : List (Bytes × Ref) := (k, v) :: mdel m k

/-- The store and the buffers of the program; `data = none` is the nil map after `Close`. -/
structure Mem where
  heap : List Bytes
  data : Option (List (Bytes × Ref))
  deriving DecidableEq, Repr

/-- store.go:16-20 `NewStore`. -/
def Mem.new : Mem := { heap := [], data := some [] }

/-- The bytes behind a slice; nil has none. -/
def Mem.read (s : Mem) : Ref → Option Bytes
  | none => none
  | some r => s.heap[r]?

/-- What the function passed to `Update` answers: a new value (`none` is nil), the `NoOp` error, another error. -/
inductive Upd
  | val (v : Option Bytes)
  | noop
  | err
  deriving DecidableEq, Repr

/-- A call by the program. `set` takes a slice over a fresh buffer holding the given bytes (or nil); `mutate r b` overwrites the contents of a buffer
the program still holds. -/
inductive Op
  | get (k : Bytes)
  | set (k : Bytes) (v : Option Bytes)
  | delete (k : Bytes)
  | update (k : Bytes) (f : Option Bytes → Upd)
  | close
  | mutate (r : Nat) (b : Bytes)

/-- What the caller observes. -/
inductive Obs
  | value (v : Option Bytes)
  | done
  | failed
  deriving DecidableEq, Repr

/-- Put a value in a fresh buffer. -/
def Mem.alloc (s : Mem) : Option Bytes → Mem × Ref
  | none => (s, none)
  | some b => ({ s with heap := s.heap ++ [b] }, some s.heap.length)

/-- store.go:22-70, each operation under the store's lock. -/
def Mem.step (s : Mem) : Op → Out (Mem × Obs)
  -- 22-30 (reading a nil map finds nothing)
  | .get k => .val (s, .value (((mget (s.data.getD []) k).bind (s.read))))
  -- 32-38 (assigning to a nil map panics)
  | .set k v => match s.data with
    | none => .panic
    | some m => let (s', r) := s.alloc v
      .val ({ s' with data := some (mset m k r) }, .done)
  -- 40-45
  | .delete k => .val ({ s with data := s.data.map (fun m => mdel m k) }, .done)
  -- 47-52
  | .close => .val ({ s with data := none }, .done)
  -- 54-73
  | .update k f => match f ((mget (s.data.getD []) k).bind (s.read)) with
    | .noop => .val (s, .done)
    | .err => .val (s, .failed)
    | .val none => .val ({ s with data := s.data.map (fun m => mdel m k) }, .done)
    | .val (some b) => match s.data with
      | none => .panic
      | some m => let (s', r) := s.alloc (some b)
        .val ({ s' with data := some (mset m k r) }, .done)
  | .mutate r b => .val ({ s with heap := s.heap.set r b }, .done)

/-- A history of calls with the answers. -/
def Mem.run (s : Mem) : List Op → Out (List Obs)
  | [] => .val []
  | o :: os => match s.step o with
    | .panic => .panic
    | .val (s', b) => match s'.run os with
      | .panic => .panic
      | .val bs => .val (b :: bs)

/-- Spec: a mathematical partial map, keys to byte strings. Storing nil is forgetting. -/
abbrev PMap := Bytes → Option Bytes

/-- Spec: assignment. -/
def PMap.put (m : PMap) (k : Bytes) (v : Option Bytes) : PMap := fun x => if x = k then v else m x

/-- Spec: one operation. -/
def PMap.step (m : PMap) : Op → PMap × Obs
  | .get k => (m, .value (m k))
  | .set k v => (m.put k v, .done)
  | .delete k => (m.put k none, .done)
  | .update k f => match f (m k) with
    | .noop => (m, .done)
    | .err => (m, .failed)
    | .val v => (m.put k v, .done)
  | .close => (m, .done)
  | .mutate _ _ => (m, .done)

/-- A schedule: the actions one after the other. -/
def PMap.run (m : PMap) : List Op → List Obs
  | [] => []
  | o :: os => (m.step o).2 :: PMap.run (m.step o).1 os

/-- Histories in which the store is not closed and no buffer is written to after it was handed over. -/
def Clean : List Op → Prop
  | [] => True
  | .close :: _ => False
  | .mutate _ _ :: _ => False
  | _ :: os => Clean os

/-- The store's contents. -/
def Mem.abs (s : Mem) : PMap := fun k => (mget (s.data.getD []) k).bind s.read

theorem mget_mdel (m : List (Bytes × Ref)) (k x : Bytes) : mget (mdel m k) x = if x = k then none else mget m x := by
  unfold mget mdel
  induction m with
  | nil => simp
  | cons p m ih =>
    by_cases hp : p.1 = k
    · rw [List.filter_cons_of_neg (by simp [hp]), ih]
      by_cases hx : x = k
      · simp [hx]
      · have : ¬ p.1 = x := by rw [hp]; exact fun h => hx h.symm
        simp [hx, List.find?_cons_of_neg, this]
    · rw [List.filter_cons_of_pos (by simp [hp])]
      by_cases hx : p.1 = x
      · have : ¬ x = k := by rw [← hx]; exact hp
        simp [List.find?_cons_of_pos, hx, this]
      · rw [List.find?_cons_of_neg (by simp [hx]), List.find?_cons_of_neg (by simp [hx]), ih]

theorem mget_mset (m : List (Bytes × Ref)) (k x : Bytes) (v : Ref) : mget (mset m k v) x = if x = k then some v else mget m x := by
  unfold mset
  by_cases hx : x = k
  · subst hx
    simp [mget]
  · have h := mget_mdel m k x
    rw [if_neg hx] at h ⊢
    rw [← h]
    have : ¬ k = x := fun h => hx h.symm
    simp [mget, List.find?_cons_of_neg, this]

/-- Every reference of the map lies in the heap. -/
def Mem.Wf (s : Mem) : Prop := ∃ m, s.data = some m ∧ ∀ k r, mget m k = some (some r) → r < s.heap.length

theorem read_alloc {s : Mem} {b : Bytes} {r : Ref} (h : ∀ n, r = some n → n < s.heap.length) :
    ({ s with heap := s.heap ++ [b] } : Mem).read r = s.read r := by
  cases r with
  | none => rfl
  | some n => simp [Mem.read, List.getElem?_append_left (h n rfl)]

theorem put_abs {s : Mem} (hw : s.Wf) {m : List (Bytes × Ref)} (hm : s.data = some m) (k : Bytes) (v : Option Bytes) :
    let s' := { (s.alloc v).1 with data := some (mset m k (s.alloc v).2) }
    Mem.Wf s' ∧ Mem.abs s' = PMap.put s.abs k v := by
  obtain ⟨m', hm', hr⟩ := hw
  rw [hm] at hm'
  cases hm'
  cases v with
  | none =>
    refine ⟨⟨_, rfl, ?_⟩, ?_⟩
    · intro x r hx
      rw [mget_mset] at hx
      split at hx
      · cases hx
      · exact hr x r hx
    · funext x
      simp only [Mem.abs, Mem.alloc, PMap.put, Option.getD_some, mget_mset, hm]
      by_cases hx : x = k
      · simp [hx, Mem.read]
      · simp only [if_neg hx]; rfl
  | some b =>
    refine ⟨⟨_, rfl, ?_⟩, ?_⟩
    · intro x r hx
      rw [mget_mset] at hx
      simp only [Mem.alloc, List.length_append, List.length_cons, List.length_nil]
      split at hx
      · simp only [Mem.alloc, Option.some.injEq] at hx; omega
      · have := hr x r hx; omega
    · funext x
      simp only [Mem.abs, Mem.alloc, PMap.put, Option.getD_some, mget_mset, hm]
      by_cases hx : x = k
      · simp [hx, Mem.read]
      · simp only [if_neg hx]
        cases hg : mget m x with
        | none => rfl
        | some r =>
          have h1 : ∀ n, r = some n → n < s.heap.length := fun n hn => hr x n (by rw [hg, hn])
          cases r with
          | none => rfl
          | some n => simp [Mem.read, List.getElem?_append_left (h1 n rfl)]

theorem del_abs {s : Mem} (hw : s.Wf) (k : Bytes) :
    let s' := { s with data := s.data.map (fun m => mdel m k) }
    Mem.Wf s' ∧ Mem.abs s' = PMap.put s.abs k none := by
  obtain ⟨m, hm, hr⟩ := hw
  refine ⟨⟨mdel m k, by simp [hm], ?_⟩, ?_⟩
  · intro x r hx
    rw [mget_mdel] at hx
    split at hx
    · cases hx
    · exact hr x r hx
  · funext x
    simp only [Mem.abs, PMap.put, hm, Option.map_some, Option.getD_some, mget_mdel]
    by_cases hx : x = k
    · simp [hx]
    · simp only [if_neg hx]; rfl

theorem step_refines {s : Mem} (hw : s.Wf) {o : Op} (ho : Clean [o]) :
    ∃ s', s.step o = .val (s', (s.abs.step o).2) ∧ s'.Wf ∧ s'.abs = (s.abs.step o).1 := by
  have hw0 := hw
  obtain ⟨m, hm, -⟩ := hw0
  cases o with
  | get k => exact ⟨s, rfl, hw, rfl⟩
  | set k v =>
    have := put_abs hw hm k v
    refine ⟨_, ?_, this.1, this.2⟩
    simp only [Mem.step, hm]
    rfl
  | delete k =>
    have := del_abs hw k
    exact ⟨_, rfl, this.1, this.2⟩
  | update k f =>
    have e : (mget (s.data.getD []) k).bind s.read = s.abs k := rfl
    simp only [Mem.step, PMap.step, e]
    cases hf : f (s.abs k) with
    | noop => exact ⟨s, rfl, hw, rfl⟩
    | err => exact ⟨s, rfl, hw, rfl⟩
    | val v => cases v with
      | none =>
        have := del_abs hw k
        exact ⟨_, rfl, this.1, this.2⟩
      | some b =>
        have := put_abs hw hm k (some b)
        refine ⟨_, ?_, this.1, this.2⟩
        simp only [hm]
  | close => exact absurd ho (by simp [Clean])
  | mutate r b => exact absurd ho (by simp [Clean])

/-- **C71**. On every history of `Get`, `Set`, `Delete` and `Update` calls the memory store answers exactly like a partial map: `Update` computes from the
current value, leaves everything unchanged on `NoOp` or on an error, deletes on nil. -/
theorem C71_refines_map (ops : List Op) (h : Clean ops) : Mem.new.run ops = .val (PMap.run (fun _ => none) ops) := by
  have gen : ∀ (ops : List Op) (s : Mem), s.Wf → Clean ops → s.run ops = .val (PMap.run s.abs ops) := by
    intro ops
    induction ops with
    | nil => intro s _ _; rfl
    | cons o os ih =>
      intro s hw hc
      have h1 : Clean [o] ∧ Clean os := by cases o <;> simp_all [Clean]
      obtain ⟨s', hs, hw', ha⟩ := step_refines hw h1.1
      simp only [Mem.run, hs, PMap.run]
      rw [ih s' hw' h1.2, ha]
  have := gen ops Mem.new ⟨[], rfl, by intro k r h; simp [mget] at h⟩ h
  rw [this]
  rfl

/-- **C71 refuted (shared buffers).** The store keeps the caller's slice: writing to it afterwards changes what `Get` returns. -/
theorem C71_buffer_aliasing : Mem.new.run [.set (b! "k") (some (b! "old")), .mutate 0 (b! "new"), .get (b! "k")] =
    .val [.done, .done, .value (some (b! "new"))] := by decide +kernel

/-- **C71** (closed store). After `Close` a read finds nothing, a write panics. -/
theorem C71_closed : (∀ (s : Mem) k, s.data = none → s.step (.get k) = .val (s, .value none)) ∧
    (∀ (s : Mem) k v, s.data = none → s.step (.set k v) = .panic) := by
  refine ⟨?_, ?_⟩
  · intro s k h; simp [Mem.step, h, mget]
  · intro s k v h; simp [Mem.step, h]

example : Mem.new.run [.update (b! "a") (fun v => if v = none then .val (some [1]) else .err), .update (b! "a") (fun v => .val (v.map (2 :: ·))),
    .update (b! "a") (fun _ => .noop), .get (b! "a"), .update (b! "a") (fun _ => .val none), .get (b! "a")] =
    .val [.done, .done, .done, .value (some [2, 1]), .done, .value none] := by decide +kernel

/-! ## C72: sdk/event_relays.go -/

/-- `encodeRelayList` (event_relays.go:25-48): the buffer is filled from left to right, so it is the concatenation; urls longer than 256 bytes
are skipped, `uint8(len(relay))` wraps. -/
def encodeRelayList : List Bytes → Bytes
  | [] => []
  | r :: rs => if r.length > 256 then encodeRelayList rs else UInt8.ofNat r.length :: r ++ encodeRelayList rs

/-- The loop of `decodeRelayList` (event_relays.go:52-74) on what remains of the data; `none` is the nil of malformed data. -/
def decodeRelayList : Nat → Bytes → Option (List Bytes)
  | _, [] => some []
  | 0, _ :: _ => none
  | n + 1, c :: rest => if rest.length < c.toNat then none
    else (decodeRelayList n (rest.drop c.toNat)).map (rest.take c.toNat :: ·)

/-- Enough rounds: every round consumes at least one byte. -/
def decode (data : Bytes) : Option (List Bytes) := decodeRelayList data.length data

theorem decode_mono : ∀ (n m : Nat) (data : Bytes), data.length ≤ n → data.length ≤ m → decodeRelayList n data = decodeRelayList m data
  | n, m, [], _, _ => by cases n <;> cases m <;> rfl
  | 0, _, _ :: _, h, _ => by simp at h
  | _, 0, _ :: _, _, h => by simp at h
  | n + 1, m + 1, c :: rest, h1, h2 => by
    simp only [List.length_cons, Nat.add_le_add_iff_right] at h1 h2
    have := decode_mono n m (rest.drop c.toNat) (by simp; omega) (by simp; omega)
    simp [decodeRelayList, this]

theorem decode_cons (r : Bytes) (rest : Bytes) (h : r.length ≤ 255) :
    decode (UInt8.ofNat r.length :: r ++ rest) = (decode rest).map (r :: ·) := by
  have hn : (UInt8.ofNat r.length).toNat = r.length := by simp [UInt8.toNat_ofNat']; omega
  unfold decode
  rw [List.cons_append, List.length_cons, decodeRelayList, hn]
  rw [if_neg (by simp)]
  simp only [List.drop_left, List.take_left]
  rw [decode_mono (r ++ rest).length rest.length rest (by simp) (Nat.le_refl _)]

/-- **C72** (codec). Lists of urls of at most 255 bytes survive encoding; of others, those longer than 256 bytes are dropped. -/
theorem C72_codec : ∀ (l : List Bytes), (∀ r ∈ l, r.length ≠ 256) → decode (encodeRelayList l) = some (l.filter (fun r => r.length ≤ 255))
  | [], _ => rfl
  | r :: rs, h => by
    have ih := C72_codec rs (fun x hx => h x (List.mem_cons_of_mem _ hx))
    have hr := h r List.mem_cons_self
    by_cases hl : r.length > 256
    · rw [encodeRelayList, if_pos hl, ih, List.filter_cons_of_neg (by simp; omega)]
    · rw [encodeRelayList, if_neg hl, decode_cons r _ (by omega), ih, List.filter_cons_of_pos (by simp; omega)]
      rfl

/-- The function `trackEventRelay` passes to `Update` (event_relays.go:90-112). -/
def trackFn (relay : Bytes) (onlyIfItExists : Bool) : Option Bytes → Upd
  | some data =>
    if relay ∈ (decode data).getD [] then .noop
    else .val (some (encodeRelayList ((decode data).getD [] ++ [relay])))
  | none => if onlyIfItExists then .noop else .val (some (encodeRelayList [relay]))

/-- `makeEventRelayKey` of a decoded id (event_relays.go:15-21, 78-86); `none` if the id is refused. -/
def relayKey (eventID : Bytes) : Option Bytes :=
  match hexDec eventID with
  | some id => if id.length < 8 then none else some (114 :: id.take 8)
  | none => none

/-- `trackEventRelay` (event_relays.go:78-110). -/
def track (m : PMap) (eventID relay : Bytes) (onlyIfItExists : Bool) : PMap :=
  match relayKey eventID with
  | none => m
  | some k => (m.step (.update k (trackFn relay onlyIfItExists))).1

/-- `GetEventRelays` (event_relays.go:114-134); the outer `none` is the error for an invalid id, the inner one nil. -/
def getEventRelays (m : PMap) (eventID : Bytes) : Option (Option (List Bytes)) :=
  (relayKey eventID).map (fun k => (m k).bind decode)

/-- A history of `trackEventRelay` calls: event, relay, flag. -/
def trackAll (m : PMap) : List (Bytes × Bytes × Bool) → PMap
  | [] => m
  | (e, r, b) :: rest => trackAll (track m e r b) rest

/-- Spec: the relays recorded for the events with a given key: nothing until the first unconditional report, then every reported relay once, in order. -/
def report (r : Bytes) (b : Bool) : Option (List Bytes) → Option (List Bytes)
  | none => if b then none else some [r]
  | some l => some (if r ∈ l then l else l ++ [r])

/-- A value of the examples. -/
def recorded (k : Bytes) (acc : Option (List Bytes)) : List (Bytes × Bytes × Bool) → Option (List Bytes)
  | [] => acc
  | (e, r, b) :: rest => if relayKey e = some k then recorded k (report r b acc) rest else recorded k acc rest

theorem encode_short {l : List Bytes} (h : ∀ r ∈ l, r.length ≤ 255) : decode (encodeRelayList l) = some l := by
  rw [C72_codec l (fun r hr => by have := h r hr; omega)]
  congr 1
  exact List.filter_eq_self.2 (fun r hr => by simp [h r hr])

theorem trackAll_recorded (k : Bytes) : ∀ (h : List (Bytes × Bytes × Bool)) (m : PMap) (acc : Option (List Bytes)),
    (∀ x ∈ h, x.2.1.length ≤ 255) → (∀ l, acc = some l → ∀ r ∈ l, r.length ≤ 255) → m k = acc.map encodeRelayList →
    (trackAll m h k).bind decode = recorded k acc h
  | [], m, acc, _, ha, hm => by
    rw [trackAll, hm, recorded]
    cases acc with
    | none => rfl
    | some l => simp [encode_short (ha l rfl)]
  | (e, r, b) :: rest, m, acc, hl, ha, hm => by
    have hr : r.length ≤ 255 := hl _ List.mem_cons_self
    have hl' : ∀ x ∈ rest, x.2.1.length ≤ 255 := fun x hx => hl x (List.mem_cons_of_mem _ hx)
    rw [trackAll, recorded]
    by_cases hk : relayKey e = some k
    · rw [if_pos hk]
      cases acc with
      | none =>
        simp only [Option.map_none] at hm
        cases b with
        | true =>
          simp only [report, if_true]
          exact trackAll_recorded k rest _ none hl' (by simp) (by simp [track, hk, PMap.step, hm, trackFn])
        | false =>
          simp only [report, Bool.false_eq_true, if_false]
          refine trackAll_recorded k rest _ (some [r]) hl' ?_ ?_
          · intro l hl2 x hx
            cases hl2
            simp only [List.mem_singleton] at hx
            rw [hx]; exact hr
          · simp [track, hk, PMap.step, hm, trackFn, PMap.put]
      | some l =>
        simp only [Option.map_some] at hm
        have hd := encode_short (ha l rfl)
        by_cases hin : r ∈ l
        · simp only [report, if_pos hin]
          exact trackAll_recorded k rest _ (some l) hl' ha (by simp [track, hk, PMap.step, hm, trackFn, hd, hin])
        · simp only [report, if_neg hin]
          refine trackAll_recorded k rest _ (some (l ++ [r])) hl' ?_ ?_
          · intro l2 hl2 x hx
            cases hl2
            rcases List.mem_append.1 hx with hx | hx
            · exact ha l rfl x hx
            · simp only [List.mem_singleton] at hx
              rw [hx]; exact hr
          · simp [track, hk, PMap.step, hm, trackFn, hd, hin, PMap.put]
    · rw [if_neg hk]
      refine trackAll_recorded k rest _ acc hl' ha ?_
      rw [← hm]
      unfold track
      cases hk2 : relayKey e with
      | none => rfl
      | some k2 =>
        have hne : ¬ k = k2 := by rintro rfl; exact hk hk2
        simp only [PMap.step]
        split <;> simp [PMap.put, hne]

theorem recorded_nodup (k : Bytes) : ∀ (h : List (Bytes × Bytes × Bool)) (acc : Option (List Bytes)), (∀ l, acc = some l → l.Nodup) →
    ∀ l, recorded k acc h = some l → l.Nodup ∧ ∀ r, r ∈ l → (∃ l0, acc = some l0 ∧ r ∈ l0) ∨ ∃ e b, (e, r, b) ∈ h ∧ relayKey e = some k
  | [], acc, ha, l, h => by
    rw [recorded] at h
    exact ⟨ha l h, fun r hr => Or.inl ⟨l, h, hr⟩⟩
  | (e, r, b) :: rest, acc, ha, l, h => by
    rw [recorded] at h
    split at h
    · rename_i hk
      cases acc with
      | none =>
        simp only [report] at h
        obtain ⟨h1, h2⟩ := recorded_nodup k rest _ (by intro l0 h0; split at h0 <;> cases h0; simp) l h
        refine ⟨h1, ?_⟩
        intro x hx
        rcases h2 x hx with ⟨l0, h0, hx0⟩ | ⟨e', b', h3, h4⟩
        · split at h0 <;> cases h0
          simp only [List.mem_singleton] at hx0
          subst hx0
          exact Or.inr ⟨e, b, List.mem_cons_self, hk⟩
        · exact Or.inr ⟨e', b', List.mem_cons_of_mem _ h3, h4⟩
      | some l1 =>
        simp only [report] at h
        have hnd := ha l1 rfl
        obtain ⟨h1, h2⟩ := recorded_nodup k rest _ (by
          intro l0 h0
          cases h0
          split
          · exact hnd
          · rename_i hin
            exact List.nodup_append.2 ⟨hnd, by simp, by
              intro a ha b hb
              simp only [List.mem_singleton] at hb
              subst hb
              rintro rfl
              exact hin ha⟩) l h
        refine ⟨h1, ?_⟩
        intro x hx
        rcases h2 x hx with ⟨l0, h0, hx0⟩ | ⟨e', b', h3, h4⟩
        · cases h0
          split at hx0
          · exact Or.inl ⟨l1, rfl, hx0⟩
          · rcases List.mem_append.1 hx0 with hx0 | hx0
            · exact Or.inl ⟨l1, rfl, hx0⟩
            · simp only [List.mem_singleton] at hx0
              subst hx0
              exact Or.inr ⟨e, b, List.mem_cons_self, hk⟩
        · exact Or.inr ⟨e', b', List.mem_cons_of_mem _ h3, h4⟩
    · obtain ⟨h1, h2⟩ := recorded_nodup k rest acc ha l h
      refine ⟨h1, ?_⟩
      intro x hx
      rcases h2 x hx with h0 | ⟨e', b', h3, h4⟩
      · exact Or.inl h0
      · exact Or.inr ⟨e', b', List.mem_cons_of_mem _ h3, h4⟩

theorem recorded_mem (k : Bytes) : ∀ (h : List (Bytes × Bytes × Bool)) (l0 : List Bytes),
    ∃ l, recorded k (some l0) h = some l ∧ (∀ r ∈ l0, r ∈ l) ∧ ∀ e r b, (e, r, b) ∈ h → relayKey e = some k → r ∈ l
  | [], l0 => ⟨l0, rfl, fun _ hr => hr, by simp⟩
  | (e, r, b) :: rest, l0 => by
    rw [recorded]
    split
    · simp only [report]
      obtain ⟨l, h1, h2, h3⟩ := recorded_mem k rest (if r ∈ l0 then l0 else l0 ++ [r])
      refine ⟨l, h1, ?_, ?_⟩
      · intro x hx
        apply h2
        split
        · exact hx
        · exact List.mem_append_left _ hx
      · intro e' r' b' hm hk'
        rcases List.mem_cons.1 hm with hm | hm
        · simp only [Prod.mk.injEq] at hm
          obtain ⟨rfl, rfl, rfl⟩ := hm
          apply h2
          split
          · assumption
          · exact List.mem_append_right _ (by simp)
        · exact h3 e' r' b' hm hk'
    · rename_i hk
      obtain ⟨l, h1, h2, h3⟩ := recorded_mem k rest l0
      refine ⟨l, h1, h2, ?_⟩
      intro e' r' b' hm hk'
      rcases List.mem_cons.1 hm with hm | hm
      · simp only [Prod.mk.injEq] at hm
        obtain ⟨rfl, rfl, rfl⟩ := hm
        exact absurd hk' hk
      · exact h3 e' r' b' hm hk'

/-- **C72**. On a fresh store, after any history of reports with urls of at most 255 bytes, `GetEventRelays` returns for every event exactly the relays
recorded for its key, each once; after an unconditional report for the event nothing reported since is missing. -/
theorem C72_event_relays_partial (hist : List (Bytes × Bytes × Bool)) (hl : ∀ x ∈ hist, x.2.1.length ≤ 255) (id k : Bytes) (hk : relayKey id = some k) :
    getEventRelays (trackAll (fun _ => none) hist) id = some (recorded k none hist) ∧
    (∀ l, recorded k none hist = some l → l.Nodup ∧ ∀ r ∈ l, ∃ e b, (e, r, b) ∈ hist ∧ relayKey e = some k) ∧
    (∀ pre e r post, hist = pre ++ (e, r, false) :: post → relayKey e = some k →
      ∃ l, recorded k none hist = some l ∧ r ∈ l ∧ ∀ e' r' b', (e', r', b') ∈ post → relayKey e' = some k → r' ∈ l) := by
  refine ⟨?_, ?_, ?_⟩
  · unfold getEventRelays
    rw [hk, Option.map_some, trackAll_recorded k hist _ none hl (by simp) rfl]
  · intro l h
    obtain ⟨h1, h2⟩ := recorded_nodup k hist none (by simp) l h
    refine ⟨h1, ?_⟩
    intro r hr
    rcases h2 r hr with ⟨l0, h0, -⟩ | h3
    · cases h0
    · exact h3
  · intro pre e r post hh hk'
    have split : ∀ (pre : List (Bytes × Bytes × Bool)) (acc : Option (List Bytes)) (rest : List (Bytes × Bytes × Bool)),
        recorded k acc (pre ++ rest) = recorded k (recorded k acc pre) rest := by
      intro pre
      induction pre with
      | nil => intro acc rest; rfl
      | cons x pre ih =>
        intro acc rest
        obtain ⟨e, r, b⟩ := x
        rw [List.cons_append, recorded, recorded]
        split
        · exact ih _ rest
        · exact ih _ rest
    rw [hh, split, recorded, if_pos hk']
    cases hacc : recorded k none pre with
    | none =>
      simp only [report, Bool.false_eq_true, if_false]
      obtain ⟨l, h1, h2, h3⟩ := recorded_mem k post [r]
      exact ⟨l, h1, h2 r (by simp), h3⟩
    | some l1 =>
      simp only [report]
      obtain ⟨l, h1, h2, h3⟩ := recorded_mem k post (if r ∈ l1 then l1 else l1 ++ [r])
      refine ⟨l, h1, h2 r ?_, h3⟩
      split
      · assumption
      · simp

/-- **C72 refuted (256 bytes).** A url of exactly 256 bytes is stored with length byte 0 and makes the record unreadable: the relays known before are lost. -/
theorem C72_length_256_loses_record : let id := hexEnc (List.replicate 32 7)
    let m := trackAll (fun _ => none) [(id, b! "wss://a", false), (id, List.replicate 256 97, false)]
    getEventRelays m id = some none ∧
    getEventRelays (track m id (b! "wss://b") true) id = some (some [b! "wss://b"]) := by
  decide +kernel

/-- **C72 refuted (key collisions).** Only the first eight bytes of an id are used: events sharing them share their relays. -/
theorem C72_prefix_collision : let id1 := hexEnc (List.replicate 32 7)
    let id2 := hexEnc (List.replicate 8 7 ++ List.replicate 24 9)
    id1 ≠ id2 ∧ getEventRelays (trackAll (fun _ => none) [(id1, b! "wss://a", false)]) id2 = some (some [b! "wss://a"]) := by
  decide +kernel

/-! ## C77 -/

/-- `appendUnique` (helpers.go:13-21). -/
def appendUnique {α : Type} [DecidableEq α] (arr : List α) : List α → List α
  | [] => arr
  | x :: xs => if x ∈ arr then arr else appendUnique (arr ++ [x]) xs

/-- **C77** (what it computes). The items are added up to the first one that is already there, and no further. -/
theorem C77_characterisation_partial {α : Type} [DecidableEq α] : ∀ (arr items : List α), ∃ added rest, items = added ++ rest ∧
    appendUnique arr items = arr ++ added ∧ (arr.Nodup → (arr ++ added).Nodup) ∧ (rest = [] ∨ ∃ x r, rest = x :: r ∧ x ∈ arr ++ added)
  | arr, [] => ⟨[], [], rfl, by simp [appendUnique], by simp, Or.inl rfl⟩
  | arr, x :: xs => by
    by_cases h : x ∈ arr
    · exact ⟨[], x :: xs, rfl, by simp [appendUnique, h], by simp, Or.inr ⟨x, xs, rfl, by simpa using h⟩⟩
    · obtain ⟨added, rest, h1, h2, h3, h4⟩ := C77_characterisation_partial (arr ++ [x]) xs
      refine ⟨x :: added, rest, by simp [h1], ?_, ?_, ?_⟩
      · simp only [appendUnique, if_neg h, h2]; simp
      · intro hn
        have := h3 (List.nodup_append.2 ⟨hn, by simp, by
          intro a ha b hb
          simp only [List.mem_singleton] at hb
          subst hb
          rintro rfl
          exact h ha⟩)
        simpa using this
      · simpa using h4

/-- **C77** (no loss). The original elements stay, and when the items are new and distinct all of them are added. -/
theorem C77_complete_when_new {α : Type} [DecidableEq α] (arr items : List α) :
    (∀ x ∈ arr, x ∈ appendUnique arr items) ∧
    (items.Nodup → (∀ x ∈ items, x ∉ arr) → appendUnique arr items = arr ++ items) := by
  obtain ⟨added, rest, h1, h2, h3, h4⟩ := C77_characterisation_partial arr items
  refine ⟨fun x hx => by rw [h2]; exact List.mem_append_left _ hx, ?_⟩
  intro hn hd
  rcases h4 with rfl | ⟨x, r, rfl, hx⟩
  · rw [h2, h1, List.append_nil]
  · exfalso
    rcases List.mem_append.1 hx with hx | hx
    · exact hd x (by rw [h1]; simp) hx
    · rw [h1] at hn
      exact (List.nodup_append.1 hn).2.2 x hx x List.mem_cons_self rfl

/-- **C77 refuted.** An item already present stops the loop, and the new items after it are lost. -/
theorem C77_stops_at_duplicate : appendUnique [b! "wss://a"] [b! "wss://a", b! "wss://b"] = [b! "wss://a"] := by decide +kernel

example : appendUnique [1, 2] [3, 4, 2, 5] = [1, 2, 3, 4] := by decide

/-! ## C80 -/

/-- Go's `int` increment: wraps at 2^63. -/
def incr (n : Int) : Int := if n + 1 ≥ 2 ^ 63 then n + 1 - 2 ^ 64 else n + 1

/-- `RelayStream.Next` (system.go:77-80): the new serial and the url; a modulus by zero and a negative index panic. `%` truncates towards zero. -/
def next (urls : List Bytes) (serial : Int) : Out (Int × Bytes) :=
  if urls.length = 0 then .panic
  else match goIndex urls (Int.tmod (incr serial) urls.length) with
    | .val u => .val (incr serial, u)
    | .panic => .panic

/-- `n` calls in a row. -/
def nexts (urls : List Bytes) (serial : Int) : Nat → Out (List Bytes)
  | 0 => .val []
  | n + 1 => match next urls serial with
    | .panic => .panic
    | .val (s, u) => match nexts urls s n with
      | .panic => .panic
      | .val us => .val (u :: us)

theorem next_val (urls : List Bytes) (h : urls ≠ []) (s : Nat) (hs : s + 1 < 2 ^ 63) :
    next urls s = .val ((s + 1 : Nat), urls[(s + 1) % urls.length]'(Nat.mod_lt _ (List.length_pos_iff.2 h))) := by
  have hl : 0 < urls.length := List.length_pos_iff.2 h
  have hi : incr s = ((s + 1 : Nat) : Int) := by
    unfold incr
    rw [if_neg (by omega)]
    omega
  unfold next
  rw [if_neg (by omega), hi]
  have ht : Int.tmod ((s + 1 : Nat) : Int) (urls.length : Int) = (((s + 1) % urls.length : Nat) : Int) := Int.ofNat_tmod _ _
  rw [ht]
  unfold goIndex
  rw [if_pos (by omega), Int.toNat_natCast, List.getElem?_eq_getElem (Nat.mod_lt _ hl)]

theorem nexts_val (urls : List Bytes) (h : urls ≠ []) : ∀ (n s : Nat), s + n < 2 ^ 63 →
    nexts urls s n = .val ((List.range n).map (fun i => urls[(s + 1 + i) % urls.length]'(Nat.mod_lt _ (List.length_pos_iff.2 h))))
  | 0, s, _ => rfl
  | n + 1, s, hs => by
    rw [nexts, next_val urls h s (by omega)]
    simp only []
    rw [nexts_val urls h n (s + 1) (by omega)]
    simp only [List.range_succ_eq_map, List.map_cons, List.map_map, Nat.add_zero]
    congr 2
    apply List.map_congr_left
    intro i _
    simp only [Function.comp_apply, Nat.succ_eq_add_one]
    congr 1
    congr 1
    omega

/-- **C80** (rotation). Below the overflow of the counter, `Next` never panics, returns elements of the list, and any `len(URLs)` consecutive calls return
every position exactly once: the list rotated. -/
theorem C80_rotation_partial (urls : List Bytes) (h : urls ≠ []) (s : Nat) :
    (∀ n, s + n < 2 ^ 63 → ∃ us, nexts urls s n = .val us ∧ us.length = n ∧ ∀ u ∈ us, u ∈ urls) ∧
    (s + urls.length < 2 ^ 63 →
      nexts urls s urls.length = .val (urls.drop ((s + 1) % urls.length) ++ urls.take ((s + 1) % urls.length))) := by
  have hl : 0 < urls.length := List.length_pos_iff.2 h
  constructor
  · intro n hn
    refine ⟨_, nexts_val urls h n s hn, by simp, ?_⟩
    intro u hu
    simp only [List.mem_map] at hu
    obtain ⟨i, -, rfl⟩ := hu
    exact List.getElem_mem _
  · intro hs
    rw [nexts_val urls h _ s hs]
    congr 1
    apply List.ext_getElem
    · simp; have := Nat.mod_lt (s + 1) hl; omega
    · intro i h1 h2
      simp only [List.length_map, List.length_range] at h1
      simp only [List.getElem_map, List.getElem_range]
      have hm := Nat.mod_lt (s + 1) hl
      have e : (s + 1 + i) % urls.length = ((s + 1) % urls.length + i) % urls.length := by rw [Nat.mod_add_mod]
      by_cases hi : i < urls.length - (s + 1) % urls.length
      · rw [List.getElem_append_left (by simp; exact hi), List.getElem_drop]
        congr 1
        rw [e, Nat.mod_eq_of_lt (by omega)]
      · rw [List.getElem_append_right (by simp; omega), List.getElem_take]
        congr 1
        rw [e, List.length_drop]
        have h3 : (s + 1) % urls.length + i = ((s + 1) % urls.length + i - urls.length) + urls.length := by omega
        rw [h3, Nat.add_mod_right, Nat.mod_eq_of_lt (by omega)]
        omega

/-- **C80 refuted (overflow).** The counter starts at a random 63-bit number and wraps to negative: with two or more urls one of the first two calls after the wrap
panics; without urls every call panics. -/
theorem C80_overflow_panics (urls : List Bytes) :
    (2 ≤ urls.length → (next urls (2 ^ 63 - 1) = .panic ∨ next urls (-(2 ^ 63)) = .panic)) ∧ (∀ s, next [] s = .panic) := by
  constructor
  · intro h
    have h1 : incr (2 ^ 63 - 1) = -(2 ^ 63) := by decide
    have h2 : incr (-(2 ^ 63)) = -(2 ^ 63) + 1 := by decide
    by_cases hz : Int.tmod (-(2 ^ 63)) (urls.length : Int) < 0
    · left
      unfold next
      rw [if_neg (by omega), h1]
      unfold goIndex
      rw [if_neg (by omega)]
    · right
      unfold next
      rw [if_neg (by omega), h2]
      have hneg : Int.tmod (-(2 ^ 63) + 1) (urls.length : Int) < 0 := by
        rw [show (-(2 ^ 63) + 1 : Int) = -((2 ^ 63 - 1 : Nat) : Int) by decide, Int.neg_tmod]
        rw [show (-(2 ^ 63) : Int) = -((2 ^ 63 : Nat) : Int) by decide, Int.neg_tmod] at hz
        have e1 := Int.ofNat_tmod (2 ^ 63 - 1) urls.length
        have e2 := Int.ofNat_tmod (2 ^ 63) urls.length
        rw [← e1]
        rw [← e2] at hz
        have hz0 : 2 ^ 63 % urls.length = 0 := by omega
        have : (2 ^ 63 - 1) % urls.length ≠ 0 := by
          intro hc
          have : urls.length ∣ 1 := by
            have d1 : urls.length ∣ 2 ^ 63 := Nat.dvd_of_mod_eq_zero hz0
            have d2 : urls.length ∣ 2 ^ 63 - 1 := Nat.dvd_of_mod_eq_zero hc
            have := Nat.dvd_sub d1 d2
            simpa using this
          have := Nat.le_of_dvd (by decide) this
          omega
        omega
      unfold goIndex
      rw [if_neg (by omega)]
  · intro s; rfl

example : nexts [b! "a", b! "b", b! "c"] 7 4 = .val [b! "c", b! "a", b! "b", b! "c"] := by decide +kernel

/-! ## C81 -/

/-- `binary.BigEndian.Uint32`. -/
def be32 : Bytes → Nat := fun b => b.foldl (fun n c => n * 256 + c.toNat) 0

/-- `shortUint64` (sdk/cache/memory/cache.go:38-48): the last eight characters, as hex. -/
def shortUint64 (key : Bytes) : Nat :=
  if key.length < 8 then 0
  else match hexDec (key.drop (key.length - 8)) with
    | none => 0
    | some b => be32 b

/-- The cache as used by `RistrettoCache` (cache.go:14-32): ristretto finds entries by the hash alone (`KeyToHash` returns conflict 0). Ristretto may refuse
or evict entries at any time; `drop` is such an eviction (also TTL expiry), `refused` a set that is not taken up. -/
inductive CacheOp (V : Type)
  | set (k : Bytes) (v : V)
  | refused (k : Bytes) (v : V)
  | delete (k : Bytes)
  | drop (h : Nat)

/-- *library* what ristretto may do (sdk/cache/memory/cache.go:25-48). -/
def cacheStep {V : Type} (c : Nat → Option V) : CacheOp V → Nat → Option V
  | .set k v => fun h => if h = shortUint64 k then some v else c h
  | .refused _ _ => c
  | .delete k => fun h => if h = shortUint64 k then none else c h
  | .drop x => fun h => if h = x then none else c h

/-- A schedule: the actions one after the other. -/
def cacheRun {V : Type} (c : Nat → Option V) : List (CacheOp V) → Nat → Option V
  | [] => c
  | o :: os => cacheRun (cacheStep c o) os

/-- sdk/cache/memory/cache.go:25-28 -/
def cacheGet {V : Type} (c : Nat → Option V) (k : Bytes) : Option V := c (shortUint64 k)

/-- **C81** (what a hit means). On every history a value found under a key was stored under a key with the same last eight hex characters. -/
theorem C81_hit_partial {V : Type} (ops : List (CacheOp V)) (k : Bytes) (v : V) (h : cacheGet (cacheRun (fun _ => none) ops) k = some v) :
    (∃ k', CacheOp.set k' v ∈ ops ∧ shortUint64 k' = shortUint64 k) ∧
    ((∀ k' v', CacheOp.set k' v' ∈ ops → shortUint64 k' = shortUint64 k → k' = k) → CacheOp.set k v ∈ ops) := by
  have gen : ∀ (ops : List (CacheOp V)) (c : Nat → Option V), cacheRun c ops (shortUint64 k) = some v →
      c (shortUint64 k) = some v ∨ ∃ k', CacheOp.set k' v ∈ ops ∧ shortUint64 k' = shortUint64 k := by
    intro ops
    induction ops with
    | nil => intro c h; exact Or.inl h
    | cons o os ih =>
      intro c h
      rcases ih (cacheStep c o) h with h1 | ⟨k', h1, h2⟩
      · cases o with
        | set k' v' =>
          simp only [cacheStep] at h1
          split at h1
          · rename_i he
            cases h1
            exact Or.inr ⟨k', List.mem_cons_self, he.symm⟩
          · exact Or.inl h1
        | refused k' v' => exact Or.inl h1
        | delete k' =>
          simp only [cacheStep] at h1
          split at h1
          · cases h1
          · exact Or.inl h1
        | drop x =>
          simp only [cacheStep] at h1
          split at h1
          · cases h1
          · exact Or.inl h1
      · exact Or.inr ⟨k', List.mem_cons_of_mem _ h1, h2⟩
  have h1 : ∃ k', CacheOp.set k' v ∈ ops ∧ shortUint64 k' = shortUint64 k := by
    rcases gen ops _ h with h1 | h1
    · cases h1
    · exact h1
  refine ⟨h1, ?_⟩
  intro hu
  obtain ⟨k', h2, h3⟩ := h1
  rw [← hu k' v h2 h3]
  exact h2

theorem hexEnc_append : ∀ (a b : Bytes), hexEnc (a ++ b) = hexEnc a ++ hexEnc b
  | [], _ => rfl
  | x :: a, b => by simp [hexEnc, hexEnc_append a b]

theorem shortUint64_hexEnc (a b : Bytes) (hb : b.length = 4) : shortUint64 (hexEnc (a ++ b)) = be32 b := by
  have h1 := length_hexEnc (a ++ b)
  have h2 := length_hexEnc a
  rw [List.length_append, hb] at h1
  unfold shortUint64
  rw [if_neg (by omega), hexEnc_append, List.drop_left' (by rw [← hexEnc_append]; omega), hexDec_hexEnc]

/-- **C81 (slots).** Two 32-byte keys share a slot exactly if their last four bytes agree. -/
theorem C81_slot_iff (a b : Bytes) (ha : a.length = 32) (hb : b.length = 32) :
    shortUint64 (hexEnc a) = shortUint64 (hexEnc b) ↔ a.drop 28 = b.drop 28 := by
  have la : (a.drop 28).length = 4 := by simp [ha]
  have lb : (b.drop 28).length = 4 := by simp [hb]
  have ea : shortUint64 (hexEnc a) = be32 (a.drop 28) := by
    have := shortUint64_hexEnc (a.take 28) (a.drop 28) la
    rwa [List.take_append_drop] at this
  have eb : shortUint64 (hexEnc b) = be32 (b.drop 28) := by
    have := shortUint64_hexEnc (b.take 28) (b.drop 28) lb
    rwa [List.take_append_drop] at this
  rw [ea, eb]
  generalize a.drop 28 = x at la
  generalize b.drop 28 = y at lb
  refine ⟨?_, fun h => by rw [h]⟩
  match x, la, y, lb with
  | [x1, x2, x3, x4], _, [y1, y2, y3, y4], _ =>
    intro h
    simp only [be32, List.foldl_cons, List.foldl_nil] at h
    have b1 := x1.toNat_lt; have b2 := x2.toNat_lt; have b3 := x3.toNat_lt; have b4 := x4.toNat_lt
    have c1 := y1.toNat_lt; have c2 := y2.toNat_lt; have c3 := y3.toNat_lt; have c4 := y4.toNat_lt
    have e1 : x1 = y1 := UInt8.toNat_inj.1 (by omega)
    have e2 : x2 = y2 := UInt8.toNat_inj.1 (by omega)
    have e3 : x3 = y3 := UInt8.toNat_inj.1 (by omega)
    have e4 : x4 = y4 := UInt8.toNat_inj.1 (by omega)
    rw [e1, e2, e3, e4]

/-- **C81 refuted.** Two public keys sharing their last four bytes share a cache slot: one user's data is returned for the other. -/
theorem C81_suffix_collision : let a := hexEnc (List.replicate 28 1 ++ [9, 9, 9, 9])
    let b := hexEnc (List.replicate 28 2 ++ [9, 9, 9, 9])
    a ≠ b ∧ cacheGet (cacheRun (fun _ => none) [.set a 17]) b = some 17 := by decide +kernel

example : let a := hexEnc (List.replicate 32 1)
    let b := hexEnc (List.replicate 32 2)
    cacheGet (cacheRun (fun _ => none) [.set a 17, .set b 18, .drop 5]) a = some 17 := by decide +kernel

end GoNostr.Sdk
