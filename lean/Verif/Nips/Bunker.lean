import Verif.Filter.Theorems
import Verif.Helpers.Model
/-!
# C86, C87: remote signing (nip46)

The signer's sessions and the decision what to answer. Key agreement, encryption, JSON and signing are parameters.
-/

set_option autoImplicit false

namespace GoNostr.Bunker

/-! ## Sessions -/

/-- `slices.BinarySearch` of the standard library: the loop. -/
def bsearch (keys : List Bytes) (k : Bytes) (i j : Nat) : Nat :=
  if i < j then
    let h := (i + j) / 2
    if compareStrings (keys[h]?.getD []) k = -1 then bsearch keys k (h + 1) j else bsearch keys k i h
  else i
termination_by j - i

/-- `slices.BinarySearch`: position and whether it is there. -/
def binarySearch (keys : List Bytes) (k : Bytes) : Nat × Bool :=
  let i := bsearch keys k 0 keys.length
  (i, i < keys.length && keys[i]?.getD [] == k)

/-- The two parallel slices (static-key-signer.go:20-21, dynamic-signer.go:18-19); `S` is `Session`. -/
structure Table (S : Type) where
  keys : List Bytes
  sessions : List S
  deriving DecidableEq

variable {S : Type}

/-- `GetSession` (static-key-signer.go:36-42, dynamic-signer.go:60-66). -/
def Table.get (t : Table S) (client : Bytes) : Out (Option S) :=
  let (idx, found) := binarySearch t.keys client
  if found then (goIndex t.sessions idx).bind (fun s => .val (some s)) else .val none

/-- `copy(l[idx+1:], l[idx:])`. -/
def shift {α : Type} (l : List α) (idx : Nat) : List α := l.take (idx + 1) ++ (l.drop idx).take (l.length - (idx + 1))

/-- The six statements that insert a session (static-key-signer.go:75-80, dynamic-signer.go:78-83). -/
def insertStmts (zero : S) (idx : Nat) (client : Bytes) (s : S) : List (Table S → Table S) :=
  [fun t => { t with keys := t.keys ++ [[]] },
   fun t => { t with sessions := t.sessions ++ [zero] },
   fun t => { t with keys := shift t.keys idx },
   fun t => { t with sessions := shift t.sessions idx },
   fun t => { t with keys := t.keys.set idx client },
   fun t => { t with sessions := t.sessions.set idx s }]

/-- The first `n` of these statements. -/
def insertSteps (zero : S) (t : Table S) (idx : Nat) (client : Bytes) (s : S) (n : Nat) : Table S :=
  ((insertStmts zero idx client s).take n).foldl (fun t f => f t) t

/-- `getOrCreateSession` (static-key-signer.go:44-83) and the session part of `DynamicSigner.HandleRequest` with `setSession` (dynamic-signer.go:112-135, 68-84): the session found, or a new one if
it can be made. The slices are only written under the lock. -/
def Table.getOrCreate (zero : S) (t : Table S) (client : Bytes) (fresh : Option S) : Out (Option S × Table S) :=
  let (idx, found) := binarySearch t.keys client
  if found then (goIndex t.sessions idx).bind (fun s => .val (some s, t))
  else match fresh with
    | none => .val (none, t)
    | some s => .val (some s, insertSteps zero t idx client s 6)

/-- The sessions after a history of requests: each is the client's key and the session made for it, if there is none yet. -/
def Table.run (zero : S) : Table S → List (Bytes × Option S) → Out (Table S)
  | t, [] => .val t
  | t, (client, fresh) :: rest => (t.getOrCreate zero client fresh).bind (fun r => Table.run zero r.2 rest)

/-! ### Specification -/

/-- The session first made for each client. -/
def firstSession (client : Bytes) : List (Bytes × Option S) → Option S
  | [] => none
  | (c, some s) :: rest => if c = client then some s else firstSession client rest
  | (_, none) :: rest => firstSession client rest

/-! ### Proofs -/

theorem less_iff (a b : Bytes) : compareStrings a b = -1 ↔ LexLt a b := by
  rcases compareStrings_spec a b with ⟨h1, h2, -, -⟩ | ⟨h1, rfl⟩ | ⟨h1, -, h3, -⟩
  · simp [h1, h2]
  · simp [h1, lexLt_irrefl]
  · simp [h1, h3]

theorem lex_total (a b : Bytes) : LexLt a b ∨ a = b ∨ LexLt b a := by
  rcases compareStrings_spec a b with ⟨-, h, -⟩ | ⟨-, h⟩ | ⟨-, h, -⟩
  · exact .inl h
  · exact .inr (.inl h)
  · exact .inr (.inr h)

/-- Specification: the order of `url.Values.Encode`. -/
def Sorted (keys : List Bytes) : Prop := keys.Pairwise LexLt

theorem sorted_lt {keys : List Bytes} (h : Sorted keys) {i j : Nat} {a b : Bytes} (hij : i < j) (ha : keys[i]? = some a) (hb : keys[j]? = some b) : LexLt a b := by
  obtain ⟨h1, rfl⟩ := List.getElem?_eq_some_iff.1 ha
  obtain ⟨h2, rfl⟩ := List.getElem?_eq_some_iff.1 hb
  exact List.pairwise_iff_getElem.1 h i j h1 h2 hij

/-- The binary search finds the boundary between smaller and other keys. -/
theorem bsearch_spec {keys : List Bytes} (hs : Sorted keys) (k : Bytes) : ∀ (n i j : Nat), j - i = n → i ≤ j → j ≤ keys.length →
    (∀ m a, m < i → keys[m]? = some a → LexLt a k) → (∀ m a, j ≤ m → keys[m]? = some a → ¬ LexLt a k) →
    bsearch keys k i j ≤ keys.length ∧ (∀ m a, m < bsearch keys k i j → keys[m]? = some a → LexLt a k) ∧
      (∀ m a, bsearch keys k i j ≤ m → keys[m]? = some a → ¬ LexLt a k) := by
  intro n
  induction n using Nat.strongRecOn with
  | _ n ih =>
    intro i j hn hij hj hlo hhi
    rw [bsearch]
    by_cases h : i < j
    · rw [if_pos h]
      simp only
      have hh : (i + j) / 2 < keys.length := by omega
      have hg : keys[(i + j) / 2]? = some keys[(i + j) / 2] := List.getElem?_eq_getElem hh
      rw [hg, Option.getD_some]
      by_cases hc : compareStrings keys[(i + j) / 2] k = -1
      · rw [if_pos hc]
        refine ih (j - ((i + j) / 2 + 1)) (by omega) _ _ rfl (by omega) hj ?_ hhi
        intro m a hm ha
        rcases Nat.lt_or_ge m ((i + j) / 2) with hlt | hge
        · exact lexLt_trans (sorted_lt hs hlt ha hg) ((less_iff _ _).1 hc)
        · have : m = (i + j) / 2 := by omega
          subst this
          rw [hg] at ha
          cases ha
          exact (less_iff _ _).1 hc
      · rw [if_neg hc]
        refine ih ((i + j) / 2 - i) (by omega) _ _ rfl (by omega) (by omega) hlo ?_
        intro m a hm ha hl
        rcases Nat.lt_or_ge ((i + j) / 2) m with hlt | hge
        · exact hc ((less_iff _ _).2 (lexLt_trans (sorted_lt hs hlt hg ha) hl))
        · have : m = (i + j) / 2 := by omega
          subst this
          rw [hg] at ha
          cases ha
          exact hc ((less_iff _ _).2 hl)
    · rw [if_neg h]
      have : i = j := by omega
      subst this
      exact ⟨hj, hlo, hhi⟩

/-- On a sorted slice: the position of the key, or the position at which it has to be inserted. -/
theorem binarySearch_spec {keys : List Bytes} (hs : Sorted keys) (k : Bytes) :
    ∃ i, binarySearch keys k = (i, decide (k ∈ keys)) ∧ i ≤ keys.length ∧ (k ∈ keys → keys[i]? = some k) ∧
      (∀ a ∈ keys.take i, LexLt a k) ∧ (k ∉ keys → ∀ a ∈ keys.drop i, LexLt k a) := by
  obtain ⟨h1, h2, h3⟩ := bsearch_spec hs k keys.length 0 keys.length (by omega) (by omega) (by omega) (by intro m a h; omega)
    (by intro m a h ha; have := (List.getElem?_eq_some_iff.1 ha).1; omega)
  have hmem : k ∈ keys → keys[bsearch keys k 0 keys.length]? = some k := by
    intro hk
    obtain ⟨m, hm⟩ := List.mem_iff_getElem?.1 hk
    rcases Nat.lt_trichotomy m (bsearch keys k 0 keys.length) with h | h | h
    · exact absurd (h2 m k h hm) (lexLt_irrefl k)
    · rw [← h]; exact hm
    · have hml := (List.getElem?_eq_some_iff.1 hm).1
      have hg : keys[bsearch keys k 0 keys.length]? = some (keys[bsearch keys k 0 keys.length]'(by omega)) := List.getElem?_eq_getElem (by omega)
      exact absurd (sorted_lt hs h hg hm) (h3 _ _ (Nat.le_refl _) hg)
  refine ⟨bsearch keys k 0 keys.length, ?_, h1, hmem, ?_, ?_⟩
  · unfold binarySearch
    simp only [Prod.mk.injEq, true_and]
    by_cases hk : k ∈ keys
    · have hg := hmem hk
      have := (List.getElem?_eq_some_iff.1 hg).1
      have hg2 : keys[bsearch keys k 0 keys.length] = k := (List.getElem?_eq_some_iff.1 hg).2
      simp [hk, this, hg2]
    · simp only [hk, decide_false, Bool.and_eq_false_iff, decide_eq_false_iff_not]
      by_cases hl : bsearch keys k 0 keys.length < keys.length
      · right
        rw [List.getElem?_eq_getElem hl, Option.getD_some]
        have : keys[bsearch keys k 0 keys.length] ≠ k := fun h => hk (h ▸ List.getElem_mem hl)
        simpa using this
      · exact .inl hl
  · intro a ha
    obtain ⟨m, hm⟩ := List.mem_iff_getElem?.1 ha
    rw [List.getElem?_take] at hm
    split at hm
    · next hlt => exact h2 m a hlt hm
    · cases hm
  · intro hk a ha
    obtain ⟨m, hm⟩ := List.mem_iff_getElem?.1 ha
    rw [List.getElem?_drop] at hm
    have := h3 _ a (Nat.le_add_right _ m) hm
    rcases lex_total a k with h | h | h
    · exact absurd h this
    · exact absurd (h ▸ List.mem_of_getElem? hm) hk
    · exact h

/-- The six statements together insert at the position. -/
theorem insertSteps_eq (zero : S) (t : Table S) (idx : Nat) (client : Bytes) (s : S) (h1 : idx ≤ t.keys.length) (h2 : idx ≤ t.sessions.length) :
    insertSteps zero t idx client s 6 = ⟨t.keys.take idx ++ client :: t.keys.drop idx, t.sessions.take idx ++ s :: t.sessions.drop idx⟩ := by
  have gen : ∀ {α : Type} (l : List α) (z x : α), idx ≤ l.length → (shift (l ++ [z]) idx).set idx x = l.take idx ++ x :: l.drop idx := by
    intro α l z x hl
    apply List.ext_getElem?
    intro i
    have hlen : (shift (l ++ [z]) idx).length = l.length + 1 := by simp [shift]; omega
    rcases Nat.lt_trichotomy i idx with h | h | h
    · rw [List.getElem?_set_ne (by omega), List.getElem?_append_left (by simp; omega), List.getElem?_take, if_pos h]
      unfold shift
      rw [List.getElem?_append_left (by simp; omega), List.getElem?_take, if_pos (by omega), List.getElem?_append_left (by omega)]
    · subst h
      rw [List.getElem?_set_self (by omega), List.getElem?_append_right (by simp; omega)]
      simp [List.length_take, Nat.min_eq_left hl]
    · rw [List.getElem?_set_ne (by omega), List.getElem?_append_right (by simp; omega)]
      simp only [List.length_take, Nat.min_eq_left hl]
      obtain ⟨d, rfl⟩ : ∃ d, i = idx + 1 + d := ⟨i - idx - 1, by omega⟩
      rw [show idx + 1 + d - idx = d + 1 by omega, List.getElem?_cons_succ, List.getElem?_drop]
      unfold shift
      rw [List.getElem?_append_right (by simp; omega)]
      simp only [List.length_take, List.length_append, List.length_cons, List.length_nil]
      rw [show idx + 1 + d - min (idx + 1) (l.length + (0 + 1)) = d by omega, List.getElem?_take]
      by_cases hd : d < l.length + (0 + 1) - (idx + 1)
      · rw [if_pos hd, List.getElem?_drop, List.getElem?_append_left (by omega)]
      · rw [if_neg hd, List.getElem?_eq_none (by omega)]
  simp only [insertSteps, insertStmts, List.take_succ_cons, List.take_zero, List.foldl_cons, List.foldl_nil]
  rw [gen t.keys [] client h1, gen t.sessions zero s h2]

/-- What the table means: sorted keys, as many sessions, and the pairs are the graph of `tbl`. -/
structure Inv (t : Table S) (tbl : Bytes → Option S) : Prop where
  sorted : Sorted t.keys
  len : t.sessions.length = t.keys.length
  graph : ∀ k s, (k, s) ∈ t.keys.zip t.sessions ↔ tbl k = some s

theorem mem_keys_iff {t : Table S} {tbl : Bytes → Option S} (h : Inv t tbl) (k : Bytes) : k ∈ t.keys ↔ (tbl k).isSome := by
  constructor
  · intro hk
    obtain ⟨i, hi⟩ := List.mem_iff_getElem?.1 hk
    have hl := (List.getElem?_eq_some_iff.1 hi).1
    have hs : t.sessions[i]? = some (t.sessions[i]'(by rw [h.len]; exact hl)) := List.getElem?_eq_getElem (by rw [h.len]; exact hl)
    have : (k, t.sessions[i]'(by rw [h.len]; exact hl)) ∈ t.keys.zip t.sessions := List.mem_iff_getElem?.2 ⟨i, by rw [List.getElem?_zip_eq_some]; exact ⟨hi, hs⟩⟩
    rw [(h.graph _ _).1 this]
    rfl
  · intro hk
    obtain ⟨s, hs⟩ := Option.isSome_iff_exists.1 hk
    exact (List.of_mem_zip ((h.graph k s).2 hs)).1

theorem lookup_at {t : Table S} {tbl : Bytes → Option S} (h : Inv t tbl) {i : Nat} {k : Bytes} (hi : t.keys[i]? = some k) :
    ∃ s, goIndex t.sessions i = .val s ∧ tbl k = some s := by
  have hl := (List.getElem?_eq_some_iff.1 hi).1
  have hs : t.sessions[i]? = some (t.sessions[i]'(by rw [h.len]; exact hl)) := List.getElem?_eq_getElem (by rw [h.len]; exact hl)
  refine ⟨_, ?_, (h.graph _ _).1 (List.mem_iff_getElem?.2 ⟨i, by rw [List.getElem?_zip_eq_some]; exact ⟨hi, hs⟩⟩)⟩
  unfold goIndex
  simp [hs]

theorem get_spec {t : Table S} {tbl : Bytes → Option S} (h : Inv t tbl) (k : Bytes) : t.get k = .val (tbl k) := by
  obtain ⟨i, h1, h2, h3, -, -⟩ := binarySearch_spec h.sorted k
  unfold Table.get
  rw [h1]
  simp only
  by_cases hk : k ∈ t.keys
  · obtain ⟨s, e1, e2⟩ := lookup_at h (h3 hk)
    simp only [hk, decide_true, if_true]
    rw [e1, e2]
    rfl
  · simp only [hk, decide_false, Bool.false_eq_true, if_false]
    have : ¬ (tbl k).isSome := fun hh => hk ((mem_keys_iff h k).2 hh)
    rw [Option.not_isSome_iff_eq_none.1 this]

theorem getOrCreate_spec (zero : S) {t : Table S} {tbl : Bytes → Option S} (h : Inv t tbl) (k : Bytes) (fresh : Option S) :
    ∃ t', t.getOrCreate zero k fresh = .val ((tbl k).or fresh, t') ∧ Inv t' (fun x => if x = k then (tbl k).or fresh else tbl x) := by
  obtain ⟨i, h1, h2, h3, h4, h5⟩ := binarySearch_spec h.sorted k
  unfold Table.getOrCreate
  rw [h1]
  simp only
  by_cases hk : k ∈ t.keys
  · obtain ⟨s, e1, e2⟩ := lookup_at h (h3 hk)
    refine ⟨t, ?_, ?_⟩
    · simp only [hk, decide_true, if_true]
      rw [e1, e2]
      rfl
    · refine ⟨h.sorted, h.len, fun x s' => ?_⟩
      rw [h.graph]
      by_cases hx : x = k
      · subst hx
        simp [e2]
      · simp [hx]
  · have hn : tbl k = none := Option.not_isSome_iff_eq_none.1 (fun hh => hk ((mem_keys_iff h k).2 hh))
    simp only [hk, decide_false, Bool.false_eq_true, if_false]
    cases fresh with
    | none =>
      refine ⟨t, by rw [hn]; rfl, h.sorted, h.len, fun x s' => ?_⟩
      rw [h.graph]
      by_cases hx : x = k
      · subst hx
        simp [hn]
      · simp [hx]
    | some s =>
      simp only
      refine ⟨_, by rw [hn]; rfl, ?_⟩
      rw [insertSteps_eq zero t i k s h2 (by rw [h.len]; exact h2)]
      have hsort : t.keys.Pairwise LexLt := h.sorted
      rw [← List.take_append_drop i t.keys, List.pairwise_append] at hsort
      refine ⟨?_, ?_, fun x s' => ?_⟩
      · refine List.pairwise_append.2 ⟨hsort.1, List.pairwise_cons.2 ⟨h5 hk, hsort.2.1⟩, ?_⟩
        intro a ha b hb
        rcases List.mem_cons.1 hb with rfl | hb
        · exact h4 a ha
        · exact hsort.2.2 a ha b hb
      · simp [h.len]
      · have hz : t.keys.zip t.sessions = (t.keys.take i).zip (t.sessions.take i) ++ (t.keys.drop i).zip (t.sessions.drop i) := by
          conv => lhs; rw [← List.take_append_drop i t.keys, ← List.take_append_drop i t.sessions]
          exact List.zip_append (by simp [h.len])
        have hg := h.graph x s'
        rw [hz, List.mem_append] at hg
        simp only
        rw [List.zip_append (by simp [h.len]), List.zip_cons_cons, List.mem_append, List.mem_cons]
        by_cases hx : x = k
        · subst hx
          rw [hn] at hg
          simp only [hn, if_true, Option.none_or, Option.some.injEq, Prod.mk.injEq, true_and]
          constructor
          · rintro (hh | hh | hh)
            · exact absurd (hg.1 (.inl hh)) (by simp)
            · exact hh.symm
            · exact absurd (hg.1 (.inr hh)) (by simp)
          · intro hh
            exact .inr (.inl hh.symm)
        · simp only [hx, if_false, Prod.mk.injEq, false_and, false_or]
          exact hg

theorem run_spec (zero : S) : ∀ (reqs : List (Bytes × Option S)) (t : Table S) (tbl : Bytes → Option S), Inv t tbl →
    ∃ t', t.run zero reqs = .val t' ∧ Inv t' (fun k => (tbl k).or (firstSession k reqs))
  | [], t, tbl, h => ⟨t, rfl, by simpa [firstSession] using h⟩
  | (c, fresh) :: rest, t, tbl, h => by
    obtain ⟨t1, e1, h1⟩ := getOrCreate_spec zero h c fresh
    obtain ⟨t2, e2, h2⟩ := run_spec zero rest t1 _ h1
    refine ⟨t2, by rw [Table.run, e1]; exact e2, ?_⟩
    have : (fun k => (if k = c then (tbl c).or fresh else tbl k).or (firstSession k rest)) = (fun k => (tbl k).or (firstSession k ((c, fresh) :: rest))) := by
      funext k
      by_cases hk : k = c
      · subst hk
        simp only [if_true]
        cases fresh with
        | none => simp [firstSession]
        | some s => simp [firstSession]
      · have : ¬ c = k := fun hh => hk hh.symm
        cases fresh with
        | none => simp [firstSession, hk]
        | some s => simp [firstSession, hk, this]
    rw [← this]
    exact h2

/-- **C86 (sequential).** After any history of requests, `GetSession` gives for every client the session first made for that client, and nothing for a client without one; it never panics.
With a static key the session is a function of the client's key, so it is *the* session of that client (`C86_static`).
Missing for the full property: reads concurrent with an insertion (`C86_unlocked_read`) and dynamic signers with several handlers (`C86_dynamic_other_handler`). -/
theorem C86_sessions_partial (zero : S) (reqs : List (Bytes × Option S)) :
    ∃ t, (⟨[], []⟩ : Table S).run zero reqs = .val t ∧ ∀ k, t.get k = .val (firstSession k reqs) := by
  obtain ⟨t, e, h⟩ := run_spec zero reqs ⟨[], []⟩ (fun _ => none) ⟨List.Pairwise.nil, rfl, by simp⟩
  refine ⟨t, e, fun k => ?_⟩
  rw [get_spec h k]
  simp

/-- **C86 (static key).** The session found for a client is the one computed from that client's key. -/
theorem C86_static (zero : S) (make : Bytes → Option S) (clients : List Bytes) :
    ∃ t, (⟨[], []⟩ : Table S).run zero (clients.map (fun c => (c, make c))) = .val t ∧
      ∀ k, t.get k = .val (if k ∈ clients then make k else none) := by
  obtain ⟨t, e, h⟩ := C86_sessions_partial zero (clients.map (fun c => (c, make c)))
  refine ⟨t, e, fun k => ?_⟩
  rw [h k]
  congr 1
  clear e h
  induction clients with
  | nil => simp [firstSession]
  | cons c cs ih =>
    by_cases hc : c = k
    · subst hc
      cases hm : make c with
      | some s => simp [firstSession, hm]
      | none =>
        simp only [List.map_cons, hm, firstSession, List.mem_cons, true_or, if_true]
        rw [ih]
        split
        · exact hm
        · rfl
    · have hc' : ¬ k = c := fun h => hc h.symm
      cases hm : make c with
      | some s => simp [firstSession, hm, hc, hc', ih]
      | none => simp [firstSession, hm, hc', ih]

example : (⟨[], []⟩ : Table Nat).run 0 [(b! "cc", some 3), (b! "aa", some 1), (b! "bb", some 2), (b! "aa", some 9), (b! "dd", none)] =
    .val ⟨[b! "aa", b! "bb", b! "cc"], [1, 2, 3]⟩ := by decide +kernel

/-- **C86 is false under concurrency.** `GetSession`, and `HandleRequest` of the dynamic signer, read the slices without the lock. A read between the fifth and the sixth statement of an insertion finds the
new client's key beside another client's session. -/
theorem C86_unlocked_read : let t : Table Nat := ⟨[b! "aa", b! "cc"], [1, 3]⟩
    (insertSteps 0 t 1 (b! "bb") 2 5).keys = [b! "aa", b! "bb", b! "cc"] ∧ (insertSteps 0 t 1 (b! "bb") 2 5).sessions = [1, 3, 3] ∧
    (insertSteps 0 t 1 (b! "bb") 2 5).get (b! "bb") = .val (some 3) ∧ (insertSteps 0 t 1 (b! "bb") 2 6).get (b! "bb") = .val (some 2) := by decide +kernel

/-- **C86 is false for a dynamic signer with several handlers.** Sessions are kept by client only: a client that talks to a second handler gets the session, and with it the keys, of the first. -/
theorem C86_dynamic_other_handler (zero : S) (make : Bytes → Bytes → S) (client h1 h2 : Bytes) :
    ∃ t, (⟨[], []⟩ : Table S).run zero [(client, some (make client h1))] = .val t ∧
      t.getOrCreate zero client (some (make client h2)) = .val (some (make client h1), t) := by
  refine ⟨⟨[client], [make client h1]⟩, ?_, ?_⟩
  · simp [Table.run, Table.getOrCreate, binarySearch, bsearch, insertSteps, insertStmts, shift, Out.bind]
  · have : ¬ LexLt client client := lexLt_irrefl client
    simp [Table.getOrCreate, binarySearch, bsearch, less_iff, this, goIndex, Out.bind]

end GoNostr.Bunker
