import Verif.Base.Bytes
/-!
# C42: the paginator (paginator.go)
-/

set_option autoImplicit false

namespace GoNostr.Pager

/-- What the paginator looks at in an event. -/
structure Ev where
  id : Bytes
  ts : Int
  deriving DecidableEq, Repr

/-- The paginator's variables (paginator.go:14-33). `repeatedCache` and `nextRepeatedCache` are, from the second page on, slices of the
same backing array (paginator.go:61-62): `arr` is that array, `rl` and `nl` their lengths. (The initial `repeatedCache` is an empty
slice of another array. A reallocation in `append` changes nothing: by then every position `repeatedCache` shows has been
overwritten in both copies.) `until` is `nextUntil`, to which `filter.Until` points. -/
structure St where
  arr : List Bytes
  rl : Nat
  nl : Nat
  count : Nat
  untilTs : Int
  out : List Ev
  deriving DecidableEq, Repr

/-- `nextRepeatedCache = append(nextRepeatedCache, id)` on the shared array. -/
def push (arr : List Bytes) (nl : Nat) (id : Bytes) : List Bytes := arr.take nl ++ [id] ++ arr.drop (nl + 1)

/-- The loop over one page (paginator.go:37-55). The second component is set when the limit made the paginator return. -/
def onPage (limit : Nat) : St → List Ev → St × Bool
  | s, [] => (s, false)
  | s, e :: es =>
    if (s.arr.take s.rl).contains e.id then onPage limit s es
    else
      let s1 : St := { s with
        arr := push s.arr s.nl e.id
        nl := s.nl + 1
        out := s.out ++ [e]
        count := s.count + 1 }
      if s1.count ≥ limit then (s1, true)
      else onPage limit { s1 with untilTs := if e.ts < s.untilTs then e.ts else s.untilTs } es

/-- The outer loop (paginator.go:32-63). `fetch n u` is what `FetchMany` yields for the `n`-th page with `until = u`. `none` if the
fuel is not enough. -/
def loop (limit : Nat) (fetch : Nat → Int → List Ev) : Nat → Nat → St → Option St
  | 0, _, _ => none
  | fuel + 1, n, s =>
    match onPage limit s (fetch n s.untilTs) with
    | (s', true) => some s'
    | (s', false) =>
      if s'.count = s.count then some s'
      else loop limit fetch fuel (n + 1) { s' with rl := s'.nl, nl := 0 }

/-- `globalLimit` (paginator.go:19-22): `Limit`, or the largest uint64 if it is zero and `LimitZero` is not set. -/
def globalLimit (limit : Nat) (limitZero : Bool) : Nat := if limit = 0 ∧ limitZero = false then 2 ^ 64 - 1 else limit

/-- `PaginatorWithInterval` (paginator.go:13-67) up to the sleeping; the result is everything sent before the channel is closed. -/
def paginate (limit : Nat) (limitZero : Bool) (untilTs : Int) (fetch : Nat → Int → List Ev) (fuel : Nat) : Option (List Ev) :=
  (loop (globalLimit limit limitZero) fetch fuel 0 ⟨[], 0, 0, 0, untilTs, []⟩).map St.out

/-! ## What holds whatever the relays answer -/

theorem onPage_count (limit : Nat) : ∀ (es : List Ev) (s : St), s.out.length = s.count → (s.count = 0 ∨ s.count < limit) →
    (onPage limit s es).1.out.length = (onPage limit s es).1.count ∧
    ((onPage limit s es).2 = true → (onPage limit s es).1.count ≤ max 1 limit) ∧
    ((onPage limit s es).2 = false → (onPage limit s es).1.count = 0 ∨ (onPage limit s es).1.count < limit)
  | [], s, h1, h2 => ⟨h1, by simp [onPage], fun _ => h2⟩
  | e :: es, s, h1, h2 => by
    unfold onPage
    split
    · exact onPage_count limit es s h1 h2
    · simp only
      split
      · refine ⟨by simp [h1], fun _ => ?_, by simp⟩
        simp only
        omega
      · rename_i hlt
        exact onPage_count limit es _ (by simp [h1]) (Or.inr (by simpa using hlt))

theorem loop_count (limit : Nat) (fetch : Nat → Int → List Ev) : ∀ (fuel n : Nat) (s r : St), s.out.length = s.count →
    (s.count = 0 ∨ s.count < limit) → loop limit fetch fuel n s = some r → r.out.length ≤ max 1 limit
  | 0, _, _, _, _, _, h => by simp [loop] at h
  | fuel + 1, n, s, r, h1, h2, h => by
    have hp := onPage_count limit (fetch n s.untilTs) s h1 h2
    unfold loop at h
    split at h
    · rename_i s' he
      rw [he] at hp
      simp only [Option.some.injEq] at h; subst h
      have := hp.2.1 rfl
      have := hp.1
      simp only at *
      omega
    · rename_i s' he
      rw [he] at hp
      have h3 := hp.2.2 rfl
      have h4 := hp.1
      simp only at h3 h4
      split at h
      · simp only [Option.some.injEq] at h; subst h
        omega
      · exact loop_count limit fetch fuel (n + 1) { s' with rl := s'.nl, nl := 0 } r h4 h3 h

/-- **C42** (limit, partial). Whatever the relays answer, at most `Limit` events are sent - or one, if `Limit` is zero on purpose
(`C42_limit_zero_sends_one`). -/
theorem C42_limit_partial (limit : Nat) (lz : Bool) (u : Int) (fetch : Nat → Int → List Ev) (fuel : Nat) (out : List Ev)
    (h : paginate limit lz u fetch fuel = some out) (hl : limit ≠ 0 ∨ lz = true) : out.length ≤ max 1 limit := by
  unfold paginate at h
  cases hr : loop (globalLimit limit lz) fetch fuel 0 ⟨[], 0, 0, 0, u, []⟩ with
  | none => rw [hr] at h; simp at h
  | some r =>
    rw [hr] at h
    simp only [Option.map_some, Option.some.injEq] at h
    have := loop_count _ fetch fuel 0 _ r rfl (Or.inl rfl) hr
    have hg : globalLimit limit lz = limit := by
      unfold globalLimit
      rw [if_neg]
      rintro ⟨h1, h2⟩
      rcases hl with hl | hl
      · exact hl h1
      · rw [h2] at hl; cases hl
    rw [← h, ← hg]; exact this

theorem onPage_sub (limit : Nat) (P : Ev → Prop) : ∀ (es : List Ev) (s : St), (∀ e ∈ s.out, P e) → (∀ e ∈ es, P e) →
    (∀ e ∈ (onPage limit s es).1.out, P e) ∧ (onPage limit s es).1.untilTs ≤ s.untilTs
  | [], s, h1, _ => ⟨h1, Int.le_refl _⟩
  | e :: es, s, h1, h2 => by
    have h2' : ∀ x ∈ es, P x := fun x hx => h2 x (List.mem_cons_of_mem _ hx)
    have h3 : ∀ x ∈ s.out ++ [e], P x := by
      intro x hx
      rcases List.mem_append.1 hx with hx | hx
      · exact h1 x hx
      · rw [List.mem_singleton.1 hx]; exact h2 e List.mem_cons_self
    unfold onPage
    split
    · exact onPage_sub limit P es s h1 h2'
    · simp only
      split
      · exact ⟨h3, Int.le_refl _⟩
      · have := onPage_sub limit P es { s with arr := push s.arr s.nl e.id, nl := s.nl + 1, out := s.out ++ [e], count := s.count + 1, untilTs := if e.ts < s.untilTs then e.ts else s.untilTs } h3 h2'
        refine ⟨this.1, Int.le_trans this.2 ?_⟩
        simp only
        split <;> omega

theorem loop_sub (limit : Nat) (fetch : Nat → Int → List Ev) (P : Ev → Prop) (u0 : Int) (hf : ∀ n u e, u ≤ u0 → e ∈ fetch n u → P e) :
    ∀ (fuel n : Nat) (s r : St), (∀ e ∈ s.out, P e) → s.untilTs ≤ u0 → loop limit fetch fuel n s = some r → ∀ e ∈ r.out, P e
  | 0, _, _, _, _, _, h => by simp [loop] at h
  | fuel + 1, n, s, r, h1, h2, h => by
    have hp := onPage_sub limit P (fetch n s.untilTs) s h1 (fun e he => hf n _ e h2 he)
    unfold loop at h
    split at h
    · rename_i s' he
      rw [he] at hp
      simp only [Option.some.injEq] at h; subst h
      exact hp.1
    · rename_i s' he
      rw [he] at hp
      simp only at hp
      split at h
      · simp only [Option.some.injEq] at h; subst h
        exact hp.1
      · exact loop_sub limit fetch P u0 hf fuel (n + 1) { s' with rl := s'.nl, nl := 0 } r hp.1 (Int.le_trans hp.2 h2) h

/-- **C42** (range). Every request the paginator makes has an `until` no later than the caller's, so every event sent was yielded for
some such request. -/
theorem C42_only_fetched_in_range (limit : Nat) (lz : Bool) (u : Int) (fetch : Nat → Int → List Ev) (fuel : Nat) (out : List Ev)
    (h : paginate limit lz u fetch fuel = some out) : ∀ e ∈ out, ∃ n v, v ≤ u ∧ e ∈ fetch n v := by
  unfold paginate at h
  cases hr : loop (globalLimit limit lz) fetch fuel 0 ⟨[], 0, 0, 0, u, []⟩ with
  | none => rw [hr] at h; simp at h
  | some r =>
    rw [hr] at h
    simp only [Option.map_some, Option.some.injEq] at h
    rw [← h]
    exact loop_sub _ fetch (fun e => ∃ n v, v ≤ u ∧ e ∈ fetch n v) u (fun n v e hv he => ⟨n, v, hv, he⟩) fuel 0 _ r
      (by simp) (Int.le_refl _) hr

/-! ## One well-behaved relay -/

/-- A relay that holds `store`, newest first, and answers with at most `size` events not newer than `until`. -/
def relay (store : List Ev) (size : Nat) (_ : Nat) (u : Int) : List Ev := (store.filter (fun e => e.ts ≤ u)).take size

/-- Timestamps strictly decrease (so ids are told apart by them) and ids are distinct. -/
def Strict (store : List Ev) : Prop := store.Pairwise (fun a b => a.ts > b.ts) ∧ store.Pairwise (fun a b => a.id ≠ b.id)

theorem push_take_mem (arr : List Bytes) (nl rl : Nat) (id x : Bytes) (h : x ∈ (push arr nl id).take rl) : x = id ∨ x ∈ arr := by
  have := List.mem_of_mem_take h
  simp only [push, List.append_assoc, List.mem_append, List.mem_singleton] at this
  rcases this with h | h | h
  · exact Or.inr (List.mem_of_mem_take h)
  · exact Or.inl h
  · exact Or.inr (List.mem_of_mem_drop h)

theorem push_take (arr : List Bytes) (nl : Nat) (id : Bytes) (h : nl ≤ arr.length) :
    (push arr nl id).take (nl + 1) = arr.take nl ++ [id] ∧ nl + 1 ≤ (push arr nl id).length := by
  unfold push
  constructor
  · rw [List.take_append_of_le_length]
    · rw [List.take_of_length_le]; simp; omega
    · simp; omega
  · simp; omega

/-- On a page of events none of which is in the array, with distinct ids and decreasing timestamps, every event is emitted, up to the
limit, and the array records them. -/
theorem onPage_fresh (limit : Nat) : ∀ (es : List Ev) (s : St), s.count < limit → s.nl ≤ s.arr.length →
    (∀ e ∈ es, e.id ∉ s.arr) → es.Pairwise (fun a b => a.id ≠ b.id) → es.Pairwise (fun a b => a.ts > b.ts) → (∀ e ∈ es, e.ts ≤ s.untilTs) →
    (onPage limit s es).1.out = s.out ++ es.take (limit - s.count) ∧
    ((onPage limit s es).2 = true ↔ limit - s.count ≤ es.length) ∧
    (onPage limit s es).1.rl = s.rl ∧
    ((onPage limit s es).2 = false →
      (onPage limit s es).1.count = s.count + es.length ∧
      (onPage limit s es).1.nl = s.nl + es.length ∧
      (onPage limit s es).1.nl ≤ (onPage limit s es).1.arr.length ∧
      (onPage limit s es).1.arr.take (onPage limit s es).1.nl = s.arr.take s.nl ++ es.map (·.id) ∧
      (∀ x ∈ (onPage limit s es).1.arr, x ∈ s.arr ∨ x ∈ es.map (·.id)) ∧
      (onPage limit s es).1.untilTs = (es.getLast?.map (·.ts)).getD s.untilTs)
  | [], s, hc, hn, _, _, _, _ => by
    refine ⟨by simp [onPage], by simp [onPage]; omega, rfl, fun _ => ⟨rfl, rfl, hn, by simp [onPage], fun x hx => Or.inl hx, rfl⟩⟩
  | e :: es, s, hc, hn, hf, hd, ht, hu => by
    have hnot : (s.arr.take s.rl).contains e.id = false := by
      rw [Bool.eq_false_iff]
      intro hcon
      exact hf e List.mem_cons_self (List.mem_of_mem_take (List.contains_iff_mem.1 hcon))
    have hpt := push_take s.arr s.nl e.id hn
    unfold onPage
    rw [hnot]
    simp only [Bool.false_eq_true, if_false]
    by_cases hl : s.count + 1 ≥ limit
    · rw [if_pos hl]
      have h1 : limit - s.count = 1 := by omega
      refine ⟨by simp [h1], by simp [h1], rfl, by simp⟩
    · rw [if_neg hl]
      obtain ⟨d1, d2⟩ := List.pairwise_cons.1 hd
      obtain ⟨t1, t2⟩ := List.pairwise_cons.1 ht
      have ih := onPage_fresh limit es { s with arr := push s.arr s.nl e.id, nl := s.nl + 1, out := s.out ++ [e], count := s.count + 1, untilTs := if e.ts < s.untilTs then e.ts else s.untilTs }
        (by simp only; omega) hpt.2 (by
          intro x hx hm
          have hm' : x.id ∈ (push s.arr s.nl e.id).take (push s.arr s.nl e.id).length := by rw [List.take_length]; exact hm
          rcases push_take_mem s.arr s.nl _ e.id x.id hm' with h | h
          · exact d1 x hx h.symm
          · exact hf x (List.mem_cons_of_mem _ hx) h) d2 t2 (by
          intro x hx
          have h1 := t1 x hx
          have h2 := hu x (List.mem_cons_of_mem _ hx)
          simp only
          split <;> omega)
      obtain ⟨i1, i2, i3, i4⟩ := ih
      simp only at i1 i2 i3 i4
      have hs : limit - s.count = (limit - (s.count + 1)) + 1 := by omega
      refine ⟨?_, ?_, i3, fun hfalse => ?_⟩
      · rw [i1, hs, List.take_succ_cons, List.append_assoc]; rfl
      · rw [i2, hs, List.length_cons]; omega
      · obtain ⟨j1, j2, j3, j4, j5, j6⟩ := i4 hfalse
        refine ⟨by rw [j1, List.length_cons]; omega, by rw [j2, List.length_cons]; omega, j3, ?_, ?_, ?_⟩
        · rw [j4, hpt.1]; simp
        · intro x hx
          rcases j5 x hx with h | h
          · have hm' : x ∈ (push s.arr s.nl e.id).take (push s.arr s.nl e.id).length := by rw [List.take_length]; exact h
            rcases push_take_mem s.arr s.nl _ e.id x hm' with h | h
            · exact Or.inr (by rw [h]; simp)
            · exact Or.inl h
          · exact Or.inr (by simp only [List.map_cons]; exact List.mem_cons_of_mem _ h)
        · rw [j6]
          cases es with
          | nil =>
            simp only [List.getLast?_nil, Option.map_none, Option.getD_none, List.getLast?_singleton, Option.map_some, Option.getD_some]
            have := hu e List.mem_cons_self
            split <;> omega
          | cons y ys =>
            rw [List.getLast?_cons_cons]
            cases hy : (y :: ys).getLast? with
            | none => simp at hy
            | some z => rfl

/-- The filter with `until` set to the last emitted timestamp gives that event and everything after it. -/
theorem filter_tail : ∀ (A R : List Ev) (x : Ev), Strict (A ++ x :: R) → (A ++ x :: R).filter (fun e => e.ts ≤ x.ts) = x :: R := by
  intro A R x h
  obtain ⟨h1, -⟩ := h
  rw [List.pairwise_append] at h1
  obtain ⟨-, h2, h3⟩ := h1
  rw [List.filter_append]
  have e1 : A.filter (fun e => decide (e.ts ≤ x.ts)) = [] := by
    rw [List.filter_eq_nil_iff]
    intro a ha
    have := h3 a ha x List.mem_cons_self
    simpa using this
  have e2 : (x :: R).filter (fun e => decide (e.ts ≤ x.ts)) = x :: R := by
    rw [List.filter_eq_self]
    intro a ha
    rcases List.mem_cons.1 ha with rfl | ha
    · simp
    · have := (List.pairwise_cons.1 h2).1 a ha
      simp only [decide_eq_true_eq]; omega
  rw [e1, e2]; rfl

/-- The state between pages: `A ++ [x]` has been emitted, `R` remains. -/
structure Mid (store A R : List Ev) (x : Ev) (u : Int) (limit : Nat) (s : St) : Prop where
  split : store.filter (fun e => e.ts ≤ u) = A ++ x :: R
  out : s.out = A ++ [x]
  count : s.count = A.length + 1
  lt : s.count < limit
  last : s.untilTs = x.ts
  le : x.ts ≤ u
  nl : s.nl = 0
  mem : x.id ∈ s.arr.take s.rl
  arr : ∀ y ∈ s.arr, y ∈ (A ++ [x]).map (·.id)

theorem filter_filter_le (store : List Ev) (u v : Int) (h : v ≤ u) :
    store.filter (fun e => e.ts ≤ v) = (store.filter (fun e => e.ts ≤ u)).filter (fun e => e.ts ≤ v) := by
  rw [List.filter_filter]
  congr 1
  funext e
  by_cases h1 : e.ts ≤ v
  · simp [h1]; omega
  · simp [h1]

theorem strict_filter {store : List Ev} (h : Strict store) (p : Ev → Bool) : Strict (store.filter p) := ⟨h.1.filter p, h.2.filter p⟩

theorem loop_mid (store : List Ev) (size limit : Nat) (u : Int) (hs : Strict store) (h2 : 2 ≤ size) :
    ∀ (m n : Nat) (A R : List Ev) (x : Ev) (s : St), R.length ≤ m → Mid store A R x u limit s →
    ∃ r, loop limit (relay store size) (m + 1) n s = some r ∧ r.out = ((store.filter (fun e => e.ts ≤ u))).take limit := by
  intro m
  induction m with
  | zero =>
    intro n A R x s hm hmid
    have hR : R = [] := List.length_eq_zero_iff.1 (by omega)
    subst hR
    obtain ⟨a1, a2, a3, a4, a5, a6, a7, a8, a9⟩ := hmid
    have hstrict := strict_filter hs (fun e => decide (e.ts ≤ u))
    rw [a1] at hstrict
    have hfetch : relay store size n s.untilTs = [x] := by
      unfold relay
      rw [a5, filter_filter_le store u x.ts a6, a1, filter_tail A [] x hstrict, List.take_of_length_le (by simp; omega)]
    refine ⟨s, ?_, ?_⟩
    · unfold loop
      have : onPage limit s [x] = (s, false) := by
        unfold onPage
        rw [if_pos (List.contains_iff_mem.2 a8)]; rfl
      rw [hfetch, this]
      simp
    · rw [a1, a2, List.take_of_length_le (by simp; omega)]
  | succ m ih =>
    intro n A R x s hm hmid
    obtain ⟨a1, a2, a3, a4, a5, a6, a7, a8, a9⟩ := hmid
    have hstrict := strict_filter hs (fun e => decide (e.ts ≤ u))
    rw [a1] at hstrict
    obtain ⟨k, rfl⟩ : ∃ k, size = k + 2 := ⟨size - 2, by omega⟩
    have hfetch : relay store (k + 2) n s.untilTs = x :: R.take (k + 1) := by
      unfold relay
      rw [a5, filter_filter_le store u x.ts a6, a1, filter_tail A R x hstrict]; rfl
    have hskip : onPage limit s (x :: R.take (k + 1)) = onPage limit s (R.take (k + 1)) := by
      rw [onPage, if_pos (List.contains_iff_mem.2 a8)]
    obtain ⟨p1, p2⟩ := hstrict
    rw [List.pairwise_append] at p1 p2
    have t1 := List.pairwise_cons.1 p1.2.1
    have d1 := List.pairwise_cons.1 p2.2.1
    have hfresh := onPage_fresh limit (R.take (k + 1)) s a4 (by omega) (by
        intro e he hm
        have he' := List.mem_of_mem_take he
        have hm' := a9 _ hm
        simp only [List.map_append, List.map_cons, List.map_nil, List.mem_append, List.mem_map, List.mem_singleton] at hm'
        rcases hm' with ⟨b, hb, hb2⟩ | hb
        · exact p2.2.2 b hb e (List.mem_cons_of_mem _ he') hb2
        · exact d1.1 e he' hb.symm)
      (d1.2.sublist (List.take_sublist _ _)) (t1.2.sublist (List.take_sublist _ _)) (by
        intro e he
        have := t1.1 e (List.mem_of_mem_take he)
        omega)
    obtain ⟨f1, f2, f3, f4⟩ := hfresh
    unfold loop
    rw [hfetch, hskip]
    cases hres : onPage limit s (R.take (k + 1)) with
    | mk s' b =>
      rw [hres] at f1 f2 f3 f4
      simp only at f1 f2 f3 f4
      cases b with
      | true =>
        simp only
        refine ⟨s', rfl, ?_⟩
        have hlen := f2.1 rfl
        rw [f1, a2, a1, List.take_take]
        have hl : A.length + 1 < limit := by omega
        have hmin : min (limit - s.count) (k + 1) = limit - s.count := by
          have : (R.take (k + 1)).length ≤ k + 1 := by simp; omega
          omega
        rw [hmin, a3]
        rw [show A ++ x :: R = (A ++ [x]) ++ R by simp, List.take_append, List.take_of_length_le (l := A ++ [x]) (by simp; omega)]
        simp
      | false =>
        obtain ⟨g1, g2, g3, g4, g5, g6⟩ := f4 rfl
        have hlen : ¬ limit - s.count ≤ (R.take (k + 1)).length := fun hcon => by
          have := f2.2 hcon
          cases this
        simp only
        by_cases hRe : R = []
        · subst hRe
          simp only [List.take_nil, List.length_nil, Nat.add_zero, List.append_nil] at g1 f1
          rw [if_pos g1]
          refine ⟨s', rfl, ?_⟩
          rw [f1, a2, a1, List.take_of_length_le (by simp; omega)]
        · obtain ⟨A', y, hAy⟩ : ∃ A' y, R.take (k + 1) = A' ++ [y] := by
            have hne : R.take (k + 1) ≠ [] := by
              intro h
              rcases List.take_eq_nil_iff.1 h with h | h
              · omega
              · exact hRe h
            exact ⟨(R.take (k + 1)).dropLast, (R.take (k + 1)).getLast hne, (List.dropLast_concat_getLast hne).symm⟩
          have hlA : (R.take (k + 1)).length = A'.length + 1 := by rw [hAy]; simp
          rw [if_neg (by omega)]
          have hR : R = A' ++ y :: R.drop (k + 1) := by
            have := (List.take_append_drop (k + 1) R).symm
            rw [hAy, List.append_assoc] at this
            exact this
          apply ih (n + 1) (A ++ x :: A') (R.drop (k + 1)) y
          · rw [List.length_drop]
            have : R.length ≠ 0 := fun h => hRe (List.length_eq_zero_iff.1 h)
            omega
          · constructor
            · have e : x :: R = x :: (A' ++ y :: R.drop (k + 1)) := congrArg (x :: ·) hR
              rw [a1, e]; simp
            · simp only
              rw [f1, a2, List.take_of_length_le (by omega), hAy]; simp
            · simp only
              rw [g1, hlA, a3]; simp; omega
            · simp only; omega
            · simp only
              rw [g6, hAy]; simp
            · have : y ∈ R := List.mem_of_mem_take (by rw [hAy]; simp)
              have := t1.1 y this
              omega
            · rfl
            · simp only
              rw [g4, hAy]; simp
            · intro z hz
              simp only at hz
              rcases g5 z hz with h | h
              · have := a9 z h
                simp only [List.map_append, List.mem_append, List.map_cons, List.map_nil, List.mem_singleton, List.mem_cons] at this ⊢
                grind
              · rw [hAy] at h
                simp only [List.map_append, List.mem_append, List.map_cons, List.map_nil, List.mem_singleton, List.mem_cons] at h ⊢
                grind

/-- **C42** (partial: one relay, distinct timestamps, page size at least 2). The paginator stops, having sent exactly the events not
newer than `until`, newest first, each once, up to the limit. Missing: equal timestamps and several relays, for which it is false. -/
theorem C42_single_relay_partial (store : List Ev) (size limit : Nat) (lz : Bool) (u : Int) (hs : Strict store) (h2 : 2 ≤ size)
    (hl : 1 ≤ globalLimit limit lz) :
    ∃ fuel, paginate limit lz u (relay store (min size (globalLimit limit lz))) fuel =
      some ((store.filter (fun e => e.ts ≤ u)).take (globalLimit limit lz)) := by
  unfold paginate
  generalize globalLimit limit lz = L at hl ⊢
  suffices hsuf : ∃ fuel r, loop L (relay store (min size L)) fuel 0 ⟨[], 0, 0, 0, u, []⟩ = some r ∧
      r.out = (store.filter (fun e => e.ts ≤ u)).take L by
    obtain ⟨fuel, r, e1, e2⟩ := hsuf
    exact ⟨fuel, by rw [e1]; simp [e2]⟩
  have hstrict := strict_filter hs (fun e => decide (e.ts ≤ u))
  have hmem : ∀ e ∈ store.filter (fun e => decide (e.ts ≤ u)), e.ts ≤ u := by
    intro e he
    simpa using (List.mem_filter.1 he).2
  generalize hS : store.filter (fun e => decide (e.ts ≤ u)) = S at hstrict hmem
  have hf := onPage_fresh L (S.take (min size L)) ⟨[], 0, 0, 0, u, []⟩ (show 0 < L by omega) (by simp) (by simp)
    (hstrict.2.sublist (List.take_sublist _ _)) (hstrict.1.sublist (List.take_sublist _ _)) (fun e he => hmem e (List.mem_of_mem_take he))
  obtain ⟨f1, f2, f3, f4⟩ := hf
  have hfetch : relay store (min size L) 0 u = S.take (min size L) := by unfold relay; rw [hS]
  cases hres : onPage L ⟨[], 0, 0, 0, u, []⟩ (S.take (min size L)) with
  | mk s' b =>
    rw [hres] at f1 f2 f3 f4
    simp only [List.nil_append, Nat.sub_zero, Nat.zero_add, List.take_nil, List.not_mem_nil, false_or] at f1 f2 f3 f4
    cases b with
    | true =>
      refine ⟨1, s', ?_, ?_⟩
      · unfold loop; simp only [hfetch, hres]
      · have := f2.1 rfl
        rw [f1, List.take_take]
        have h3 : (S.take (min size L)).length ≤ min size L := by simp; omega
        congr 1; omega
    | false =>
      obtain ⟨g1, g2, g3, g4, g5, g6⟩ := f4 rfl
      have hlen : ¬ L ≤ (S.take (min size L)).length := fun hcon => by
        have := f2.2 hcon
        cases this
      have hL2 : 2 ≤ L ∨ S = [] := by
        rcases Nat.lt_or_ge L 2 with h | h
        · right
          have : L = 1 := by omega
          subst this
          rw [List.length_take] at hlen
          exact List.length_eq_zero_iff.1 (by omega)
        · exact Or.inl h
      by_cases hSe : S = []
      · refine ⟨1, s', ?_, ?_⟩
        · subst hSe
          unfold loop
          simp only [hfetch, hres]
          simp only [List.take_nil, List.length_nil] at g1
          simp [g1]
        · rw [f1, hSe]; simp
      · have hL : 2 ≤ L := by rcases hL2 with h | h; exact h; exact absurd h hSe
        obtain ⟨A', y, hAy⟩ : ∃ A' y, S.take (min size L) = A' ++ [y] := by
          have hne : S.take (min size L) ≠ [] := by
            intro h
            rcases List.take_eq_nil_iff.1 h with h | h
            · omega
            · exact hSe h
          exact ⟨(S.take (min size L)).dropLast, (S.take (min size L)).getLast hne, (List.dropLast_concat_getLast hne).symm⟩
        have hlA : (S.take (min size L)).length = A'.length + 1 := by rw [hAy]; simp
        have hR : S = A' ++ y :: S.drop (min size L) := by
          have := (List.take_append_drop (min size L) S).symm
          rw [hAy, List.append_assoc] at this
          exact this
        obtain ⟨r, e1, e2⟩ := loop_mid store (min size L) L u hs (by omega) (S.drop (min size L)).length 1 A' (S.drop (min size L)) y
          { s' with rl := s'.nl, nl := 0 } (Nat.le_refl _) (by
            constructor
            · rw [hS]; exact hR
            · simp only
              rw [f1, List.take_of_length_le (by omega), hAy]
            · simp only; omega
            · simp only; omega
            · simp only
              rw [g6, hAy]; simp
            · exact hmem y (by rw [hR]; simp)
            · rfl
            · simp only
              rw [g4, hAy]; simp
            · intro z hz
              simp only at hz
              have := g5 z hz
              rw [hAy] at this
              exact this)
        refine ⟨(S.drop (min size L)).length + 1 + 1, r, ?_, by rw [e2, hS]⟩
        unfold loop
        simp only [hfetch, hres]
        rw [if_neg (by omega)]
        exact e1

/-- Five events, pages of two, limit four: the hypotheses are met and the run is not trivial. -/
example : Strict [⟨b! "a", 9⟩, ⟨b! "b", 8⟩, ⟨b! "c", 7⟩, ⟨b! "d", 6⟩, ⟨b! "e", 2⟩] ∧
    paginate 4 false 8 (relay [⟨b! "a", 9⟩, ⟨b! "b", 8⟩, ⟨b! "c", 7⟩, ⟨b! "d", 6⟩, ⟨b! "e", 2⟩] 2) 10 =
      some [⟨b! "b", 8⟩, ⟨b! "c", 7⟩, ⟨b! "d", 6⟩, ⟨b! "e", 2⟩] := by
  refine ⟨⟨by decide +kernel, by decide +kernel⟩, by decide +kernel⟩

/-! ## Where it fails -/

/-- **C42 refuted (limit).** Asked for zero events on purpose, the paginator sends one. -/
theorem C42_limit_zero_sends_one : paginate 0 true 100 (relay [⟨b! "a", 9⟩] 5) 5 = some [⟨b! "a", 9⟩] := by decide +kernel

/-- **C42 refuted (each event once).** One relay with pages of two, and two events with the same timestamp: they are sent twice. The
cache is being overwritten while it is consulted, and remembers only what was new on the last page. -/
theorem C42_sends_twice : paginate 0 false 100 (relay [⟨b! "a", 10⟩, ⟨b! "b", 5⟩, ⟨b! "c", 5⟩] 2) 10 =
    some [⟨b! "a", 10⟩, ⟨b! "b", 5⟩, ⟨b! "c", 5⟩, ⟨b! "b", 5⟩, ⟨b! "c", 5⟩] := by decide +kernel

/-- **C42 refuted (completeness).** Pages of two and three events with the same timestamp: the third, and everything older, is never
sent. -/
theorem C42_loses_ties : paginate 0 false 100 (relay [⟨b! "a", 5⟩, ⟨b! "b", 5⟩, ⟨b! "c", 5⟩, ⟨b! "d", 1⟩] 2) 10 =
    some [⟨b! "a", 5⟩, ⟨b! "b", 5⟩] := by decide +kernel

/-- The loop over one page when deliveries are matched against the subscription's filter (relay.go:281) just after the previous event
was consumed: the filter's `Until` is the paginator's variable, so the match uses its current value (paginator.go:33). -/
def onPageShared (limit : Nat) : St → List Ev → St × Bool
  | s, [] => (s, false)
  | s, e :: es =>
    if e.ts ≤ s.untilTs then
      match onPage limit s [e] with
      | (s', true) => (s', true)
      | (s', false) => onPageShared limit s' es
    else onPageShared limit s es

/-- **C42 refuted (completeness, two relays).** A fast relay's older event arrives first: the slow relay's newer one no longer matches
the shared `until`, and the next page does not ask for it any more. The page ends without the limit being reached. -/
theorem C42_two_relays_lose :
    (onPageShared (2 ^ 64 - 1) ⟨[], 0, 0, 0, 100, []⟩ [⟨b! "old", 10⟩, ⟨b! "new", 20⟩]).1.out = [⟨b! "old", 10⟩] ∧
    (onPageShared (2 ^ 64 - 1) ⟨[], 0, 0, 0, 100, []⟩ [⟨b! "old", 10⟩, ⟨b! "new", 20⟩]).1.untilTs = 10 ∧
    (onPageShared (2 ^ 64 - 1) ⟨[], 0, 0, 0, 100, []⟩ [⟨b! "new", 20⟩, ⟨b! "old", 10⟩]).1.out = [⟨b! "new", 20⟩, ⟨b! "old", 10⟩] ∧
    (onPageShared (2 ^ 64 - 1) ⟨[], 0, 0, 0, 100, []⟩ [⟨b! "old", 10⟩, ⟨b! "new", 20⟩]).2 = false := by
  decide +kernel

end GoNostr.Pager
