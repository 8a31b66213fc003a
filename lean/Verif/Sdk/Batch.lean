import Mathlib.Data.List.Induction
/-!
# C139: giving up on a batch (sdk/replaceable_loader.go:64-142, sdk/addressable_loader.go:43-129)

Requests to the loaders are collected into batches (C74); one function loads the whole batch. For each request a goroutine waits for the caller's context and then counts down; the
last one cancels the common context, which ends the load. The replaceable loader counts with an atomic variable, the addressable one with a plain one: `waiting--` reads
and writes it, and `waiting == 0` reads it again. Which relays are asked and what they answer is the matter of C75 and C76; here they only either end the load (the channel is closed) or do not.
-/

set_option autoImplicit false

namespace GoNostr.GiveUp

/-- A caller and the goroutine that waits for its context: still waiting; context done; `waiting--` has read the variable; and has written it; through. -/
inductive Pc where
  | live
  | gone
  | read (v : Int)
  | wrote
  | over
  deriving DecidableEq, Repr

/-- The callers, the counter, whether the common context is cancelled, whether the load has returned. -/
structure State where
  callers : List Pc
  waiting : Int
  agg : Bool
  returned : Bool
  deriving DecidableEq, Repr

/-- A batch of `n` requests (replaceable_loader.go:77-79, addressable_loader.go:57-58). -/
def init (n : Nat) : State := ⟨List.replicate n .live, n, false, false⟩

/-- A caller's context is done; the relays are done; a goroutine counts down; the load sees the common context done. The last three of `count` are for the plain variable. -/
inductive Lab where
  | cancel (i : Nat)
  | relays
  | count (i : Nat)
  | read (i : Nat)
  | write (i : Nat)
  | check (i : Nat)
  | ret
  deriving DecidableEq, Repr

/-- Steps of the replaceable loader (replaceable_loader.go:116-119, 127-141): `waiting.Add(-1) == 0` is one step. -/
def step (s : State) : Lab → Option State
  | .cancel i => if s.callers[i]? = some .live then some { s with callers := s.callers.set i .gone } else none
  | .relays => if s.returned then none else some { s with returned := true }
  | .count i => if s.callers[i]? = some .gone then
      some { s with callers := s.callers.set i .over, waiting := s.waiting - 1, agg := s.agg || decide (s.waiting - 1 = 0) } else none
  | .ret => if s.agg = true ∧ s.returned = false then some { s with returned := true } else none
  | _ => none

/-- Steps of the addressable loader (addressable_loader.go:91-95, 106-128). -/
def stepPlain (s : State) : Lab → Option State
  | .cancel i => if s.callers[i]? = some .live then some { s with callers := s.callers.set i .gone } else none
  | .relays => if s.returned then none else some { s with returned := true }
  | .count _ => none
  | .read i => if s.callers[i]? = some .gone then some { s with callers := s.callers.set i (.read s.waiting) } else none
  | .write i => match s.callers[i]? with
    | some (.read v) => some { s with callers := s.callers.set i .wrote, waiting := v - 1 }
    | _ => none
  | .check i => if s.callers[i]? = some .wrote then some { s with callers := s.callers.set i .over, agg := s.agg || decide (s.waiting = 0) } else none
  | .ret => if s.agg = true ∧ s.returned = false then some { s with returned := true } else none

/-- Any schedule. -/
def run (st : State → Lab → Option State) (s : State) : List Lab → Option State
  | [] => some s
  | l :: ls => match st s l with
    | none => none
    | some s' => run st s' ls

theorem run_snoc {st : State → Lab → Option State} {s t : State} {ls : List Lab} {l : Lab} (h : run st s (ls ++ [l]) = some t) :
    ∃ u, run st s ls = some u ∧ st u l = some t := by
  induction ls generalizing s with
  | nil =>
    simp only [List.nil_append, run] at h
    cases hs : st s l with
    | none => rw [hs] at h; cases h
    | some u => rw [hs] at h; injection h with h; exact ⟨s, rfl, by rw [hs, h]⟩
  | cons a ls ih =>
    simp only [List.cons_append, run] at h
    cases hs : st s a with
    | none => rw [hs] at h; cases h
    | some u =>
      rw [hs] at h
      obtain ⟨v, h1, h2⟩ := ih h
      exact ⟨v, by simp only [run, hs]; exact h1, h2⟩

/-! ## Counting -/

/-- Auxiliary function of the proofs; models no code. -/
def total (g : Pc → Nat) (l : List Pc) : Nat := (l.map g).sum

theorem total_set (g : Pc → Nat) {l : List Pc} {i : Nat} {a : Pc} (b : Pc) (h : l[i]? = some a) : total g (l.set i b) + g a = total g l + g b := by
  induction l generalizing i with
  | nil => simp at h
  | cons x xs ih =>
    cases i with
    | zero => simp only [List.getElem?_cons_zero, Option.some.injEq] at h; subst h; simp [total]; omega
    | succ i =>
      have := ih (by simpa using h)
      simp only [total, List.set_cons_succ, List.map_cons, List.sum_cons] at this ⊢
      omega

theorem total_zero (g : Pc → Nat) (l : List Pc) : total g l = 0 ↔ ∀ w ∈ l, g w = 0 := by
  induction l with
  | nil => simp [total]
  | cons x xs ih =>
    have e : total g (x :: xs) = g x + total g xs := by simp [total]
    rw [e, List.forall_mem_cons, ← ih]
    omega

/-- Not through. -/
def Pc.open : Pc → Nat
  | .over => 0
  | _ => 1

/-- Each caller is waiting, gone or through, never in between. -/
structure Inv (n : Nat) (s : State) : Prop where
  len : s.callers.length = n
  clean : ∀ p ∈ s.callers, p = .live ∨ p = .gone ∨ p = .over
  waiting : s.waiting = total Pc.open s.callers
  agg : 0 < n → (s.agg = true ↔ ∀ p ∈ s.callers, p = .over)

theorem over_iff {s : State} : total Pc.open s.callers = 0 ↔ ∀ p ∈ s.callers, p = .over := by
  rw [total_zero]
  constructor
  · intro h0 p hp
    have := h0 p hp
    cases p <;> simp [Pc.open] at this ⊢
  · intro h0 p hp; rw [h0 p hp]; rfl

theorem inv_init (n : Nat) : Inv n (init n) := by
  refine ⟨by simp [init], ?_, ?_, ?_⟩
  · intro p hp
    exact Or.inl (List.eq_of_mem_replicate hp)
  · have : ∀ n, total Pc.open (List.replicate n .live) = n := by
      intro n
      induction n with
      | zero => rfl
      | succ n ih =>
        rw [List.replicate_succ]
        have e : total Pc.open (Pc.live :: List.replicate n .live) = 1 + total Pc.open (List.replicate n .live) := by simp [total, Pc.open]
        rw [e, ih]; omega
    simp [init, this]
  · intro hn
    constructor
    · intro h; cases h
    · intro h
      have := h .live (by simp [init]; omega)
      cases this

theorem mem_set_cases {l : List Pc} {i : Nat} {b p : Pc} (h : p ∈ l.set i b) : p ∈ l ∨ p = b := List.mem_or_eq_of_mem_set h

theorem inv_step {n : Nat} {s t : State} {l : Lab} (h : Inv n s) (ht : step s l = some t) : Inv n t := by
  cases l with
  | cancel i =>
    simp only [step] at ht
    split at ht
    · rename_i hi
      injection ht with ht; subst ht
      have e := total_set Pc.open .gone hi
      simp only [Pc.open] at e
      refine ⟨by simp [h.len], ?_, ?_, ?_⟩
      · intro p hp
        rcases mem_set_cases hp with hp | rfl
        · exact h.clean p hp
        · exact Or.inr (Or.inl rfl)
      · simp only; rw [h.waiting]; omega
      · intro hn
        rw [h.agg hn]
        constructor
        · intro ho
          have := ho .live (List.mem_of_getElem? hi)
          cases this
        · intro ho
          have := ho .gone (List.mem_of_getElem? (i := i) (by
            rw [List.getElem?_set_self (by have := List.getElem?_eq_some_iff.1 hi; exact this.1)]))
          cases this
    · cases ht
  | relays =>
    simp only [step] at ht
    split at ht
    · cases ht
    · injection ht with ht; subst ht; exact ⟨h.len, h.clean, h.waiting, h.agg⟩
  | count i =>
    simp only [step] at ht
    split at ht
    · rename_i hi
      injection ht with ht; subst ht
      have e := total_set Pc.open .over hi
      simp only [Pc.open] at e
      have hw := h.waiting
      have hinv : total Pc.open (s.callers.set i .over) = 0 ↔ ∀ p ∈ s.callers.set i .over, p = .over := by
        rw [total_zero]
        constructor
        · intro h0 p hp
          have := h0 p hp
          cases p <;> simp [Pc.open] at this ⊢
        · intro h0 p hp; rw [h0 p hp]; rfl
      refine ⟨by simp [h.len], ?_, ?_, ?_⟩
      · intro p hp
        rcases mem_set_cases hp with hp | rfl
        · exact h.clean p hp
        · exact Or.inr (Or.inr rfl)
      · simp only; omega
      · intro hn
        have hagg : s.agg = false := by
          cases ha : s.agg with
          | false => rfl
          | true =>
            have := (h.agg hn).1 ha .gone (List.mem_of_getElem? hi)
            cases this
        rw [← hinv, hagg, Bool.false_or, decide_eq_true_iff]
        omega
    · cases ht
  | ret =>
    simp only [step] at ht
    split at ht
    · injection ht with ht; subst ht; exact ⟨h.len, h.clean, h.waiting, h.agg⟩
    · cases ht
  | read i => cases ht
  | write i => cases ht
  | check i => cases ht

theorem inv_run {n : Nat} {ls : List Lab} {s : State} (h : run step (init n) ls = some s) : Inv n s := by
  induction ls using List.reverseRecOn generalizing s with
  | nil => injection h with h; rw [← h]; exact inv_init n
  | append_singleton ls l ih =>
    obtain ⟨u, h1, h2⟩ := run_snoc h
    exact inv_step (ih h1) h2

/-- The steps of the program itself, not of callers and relays. -/
def Lab.own : Lab → Bool
  | .cancel _ => false
  | .relays => false
  | _ => true

/-- **C139 (when all give up, it ends).** Replaceable loader, any schedule so far: once every caller's context is done the load needs no relay to return. Its own steps are at most one per
caller and one more, and as long as it has not returned there is one. -/
theorem C139_all_gone_ends (n : Nat) (hn : 0 < n) (ls : List Lab) (s : State) (h : run step (init n) ls = some s) (hg : ∀ p ∈ s.callers, p ≠ .live) :
    (s.returned = false → ∃ l t, l.own = true ∧ step s l = some t) ∧
    (∀ ms t, (∀ l ∈ ms, l.own = true) → run step s ms = some t → ms.length ≤ n + 1) := by
  have hi := inv_run h
  constructor
  · intro hr
    by_cases ha : s.agg = true
    · exact ⟨.ret, { s with returned := true }, rfl, by simp [step, ha, hr]⟩
    · have : ¬ ∀ p ∈ s.callers, p = .over := fun ho => ha ((hi.agg hn).2 ho)
      have ⟨p, hp, hne⟩ : ∃ p ∈ s.callers, p ≠ .over := by
        by_contra hc
        exact this (fun p hp => by by_contra hne; exact hc ⟨p, hp, hne⟩)
      rcases hi.clean p hp with rfl | rfl | rfl
      · exact absurd rfl (hg _ hp)
      · obtain ⟨i, hi⟩ := List.getElem?_of_mem hp
        exact ⟨.count i, _, rfl, by simp only [step]; rw [if_pos hi]⟩
      · exact absurd rfl hne
  · intro ms t hown hrun
    -- steps are bounded by callers not through, and the return
    have key : ∀ (ms : List Lab) (s t : State), (∀ l ∈ ms, l.own = true) → run step s ms = some t →
        ms.length + total Pc.open t.callers + (if t.returned then 0 else 1) ≤ total Pc.open s.callers + (if s.returned then 0 else 1) := by
      intro ms
      induction ms with
      | nil => intro s t _ h; injection h with h; subst h; simp
      | cons l ms ih =>
        intro s t ho h
        simp only [run] at h
        cases hs : step s l with
        | none => rw [hs] at h; cases h
        | some u =>
          rw [hs] at h
          have := ih u t (fun x hx => ho x (List.mem_cons_of_mem _ hx)) h
          have hl := ho l (by simp)
          cases l with
          | cancel i => cases hl
          | relays => cases hl
          | count i =>
            simp only [step] at hs
            split at hs
            · rename_i hi
              injection hs with hs; subst hs
              have e := total_set Pc.open .over hi
              simp only [Pc.open] at e
              simp only [List.length_cons] at this ⊢; omega
            · cases hs
          | ret =>
            simp only [step] at hs
            split at hs
            · rename_i hc
              injection hs with hs; subst hs
              simp only [hc.2, List.length_cons] at this ⊢; simp at this ⊢; omega
            · cases hs
          | read i => cases hs
          | write i => cases hs
          | check i => cases hs
    have := key ms s t hown hrun
    have hle : total Pc.open s.callers ≤ n := by
      rw [← hi.len]
      generalize s.callers = l
      induction l with
      | nil => simp [total]
      | cons x xs ihx =>
        have e : total Pc.open (x :: xs) = x.open + total Pc.open xs := by simp [total]
        have : x.open ≤ 1 := by cases x <;> simp [Pc.open]
        rw [e, List.length_cons]; omega
    split at this <;> split at this <;> omega

/-- **C139 (nobody else's load is ended).** As long as one caller's context is not done, the common context is not cancelled: the load returns only when the relays are done. -/
theorem C139_not_before (n : Nat) (ls : List Lab) (s : State) (h : run step (init n) ls = some s) (i : Nat) (hi : i < n) (hl : Lab.cancel i ∉ ls) :
    s.agg = false ∧ (s.returned = true → Lab.relays ∈ ls) := by
  have hinv := inv_run h
  have hlive : ∀ (ls : List Lab) (s : State), run step (init n) ls = some s → Lab.cancel i ∉ ls → s.callers[i]? = some .live := by
    intro ls
    induction ls using List.reverseRecOn with
    | nil => intro s h _; injection h with h; rw [← h]; simp [init, hi]
    | append_singleton ls l ih =>
      intro s h hl
      obtain ⟨u, h1, h2⟩ := run_snoc h
      have hu := ih u h1 (fun hm => hl (List.mem_append_left _ hm))
      cases l with
      | cancel j =>
        have hj : j ≠ i := by rintro rfl; exact hl (by simp)
        simp only [step] at h2
        split at h2
        · injection h2 with h2; subst h2; simp only; rw [List.getElem?_set_ne hj]; exact hu
        · cases h2
      | relays =>
        simp only [step] at h2
        split at h2
        · cases h2
        · injection h2 with h2; subst h2; exact hu
      | count j =>
        simp only [step] at h2
        split at h2
        · rename_i hg
          have hj : j ≠ i := by rintro rfl; rw [hu] at hg; cases hg
          injection h2 with h2; subst h2; simp only; rw [List.getElem?_set_ne hj]; exact hu
        · cases h2
      | ret =>
        simp only [step] at h2
        split at h2
        · injection h2 with h2; subst h2; exact hu
        · cases h2
      | read i => cases h2
      | write i => cases h2
      | check i => cases h2
  have hagg : ∀ (ls : List Lab) (s : State), run step (init n) ls = some s → Lab.cancel i ∉ ls → s.agg = false := by
    intro ls s h hl
    cases ha : s.agg with
    | false => rfl
    | true =>
      have := ((inv_run h).agg (by omega)).1 ha .live (List.mem_of_getElem? (hlive ls s h hl))
      cases this
  refine ⟨hagg ls s h hl, ?_⟩
  clear hinv
  induction ls using List.reverseRecOn generalizing s with
  | nil => injection h with h; rw [← h]; intro hr; cases hr
  | append_singleton ls l ih =>
    obtain ⟨u, h1, h2⟩ := run_snoc h
    have hl' : Lab.cancel i ∉ ls := fun hm => hl (List.mem_append_left _ hm)
    intro hr
    cases l with
    | relays => simp
    | ret =>
      simp only [step] at h2
      split at h2
      · rename_i hc; rw [hagg ls u h1 hl'] at hc; cases hc.1
      · cases h2
    | cancel j =>
      simp only [step] at h2
      split at h2
      · injection h2 with h2; subst h2; exact List.mem_append_left _ (ih u h1 hl' hr)
      · cases h2
    | count j =>
      simp only [step] at h2
      split at h2
      · injection h2 with h2; subst h2; exact List.mem_append_left _ (ih u h1 hl' hr)
      · cases h2
    | read i => cases h2
    | write i => cases h2
    | check i => cases h2

/-- **C139 is false for a single caller.** A caller whose context is done goes on waiting as long as another caller of the same batch has not given up and the relays are silent: nothing the program can
still do makes the load return. -/
theorem C139_one_waits_for_all (n : Nat) (ls ms : List Lab) (s t : State) (h : run step (init n) ls = some s) (i : Nat) (hi : i < n) (hl : Lab.cancel i ∉ ls ++ ms) (hr : Lab.relays ∉ ls ++ ms)
    (h2 : run step s ms = some t) : t.returned = false := by
  have happ : ∀ (ls ms : List Lab) (a b c : State), run step a ls = some b → run step b ms = some c → run step a (ls ++ ms) = some c := by
    intro ls
    induction ls with
    | nil => intro ms a b c h1 h2; injection h1 with h1; subst h1; exact h2
    | cons l ls ih =>
      intro ms a b c h1 h2
      simp only [run] at h1
      cases hs : step a l with
      | none => rw [hs] at h1; cases h1
      | some u =>
        rw [hs] at h1
        simp only [List.cons_append, run, hs]
        exact ih ms u b c h1 h2
  have := (C139_not_before n (ls ++ ms) t (happ ls ms _ s t h h2) i hi hl).2
  cases ht : t.returned with
  | false => rfl
  | true => exact absurd (this ht) hr

example : ∃ s, run step (init 3) [.cancel 1, .count 1, .cancel 0, .count 0, .cancel 2, .count 2, .ret] = some s ∧ s.returned = true := ⟨_, rfl, rfl⟩

/-- **C139 is false for addressable lists.** When two callers give up at the same time, one of the two updates of the plain counter can be lost. Then all have given up, every goroutine is
through, and still the load only ends when the relays are done: no step of the program is left. -/
theorem C139_lost_update : ∃ (ls : List Lab) (s : State), run stepPlain (init 2) ls = some s ∧ (∀ p ∈ s.callers, p = .over) ∧ s.returned = false ∧ Lab.relays ∉ ls ∧
    ∀ l, l.own = true → stepPlain s l = none := by
  refine ⟨[.cancel 0, .cancel 1, .read 0, .read 1, .write 0, .write 1, .check 0, .check 1], ⟨[.over, .over], 1, false, false⟩, by decide, by decide, rfl, by decide, ?_⟩
  intro l hl
  have hnot : ∀ (i : Nat) (p : Pc), ([Pc.over, Pc.over] : List Pc)[i]? = some p → p = .over := by
    intro i p h
    have := List.mem_of_getElem? h
    simpa using this
  cases l with
  | cancel i => cases hl
  | relays => cases hl
  | count i => rfl
  | read i => simp only [stepPlain]; rw [if_neg]; intro h; cases hnot i _ h
  | write i =>
    simp only [stepPlain]
    split
    · rename_i v h; cases hnot i _ h
    · rfl
  | check i => simp only [stepPlain]; rw [if_neg]; intro h; cases hnot i _ h
  | ret => rfl

/-- **C139 (addressable, one at a time).** If the goroutines never overlap in the counting, the plain counter does as well. -/
theorem C139_plain_partial (n : Nat) (hn : 0 < n) : ∃ s, run stepPlain (init n) ((List.range n).flatMap (fun i => [.cancel i, .read i, .write i, .check i]) ++ [.ret]) = some s ∧ s.returned = true := by
  have key : ∀ k, k ≤ n → run stepPlain (init n) ((List.range k).flatMap (fun i => [.cancel i, .read i, .write i, .check i])) =
      some ⟨List.replicate k .over ++ List.replicate (n - k) .live, (n : Int) - k, decide (k = n), false⟩ := by
    intro k
    induction k with
    | zero =>
      intro _
      have : ¬ 0 = n := by omega
      simp [run, init, this]
    | succ k ih =>
      intro hk
      rw [List.range_succ, List.flatMap_append]
      have happ : ∀ (ls ms : List Lab) (a b : State), run stepPlain a ls = some b → run stepPlain a (ls ++ ms) = run stepPlain b ms := by
        intro ls
        induction ls with
        | nil => intro ms a b h1; injection h1 with h1; subst h1; rfl
        | cons l ls ih =>
          intro ms a b h1
          simp only [run] at h1
          cases hs : stepPlain a l with
          | none => rw [hs] at h1; cases h1
          | some u =>
            rw [hs] at h1
            simp only [List.cons_append, run, hs]
            exact ih ms u b h1
      rw [happ _ _ _ _ (ih (by omega))]
      obtain ⟨m, hm⟩ : ∃ m, n - k = m + 1 := ⟨n - k - 1, by omega⟩
      have hm' : n - (k + 1) = m := by omega
      rw [hm, hm', List.replicate_succ]
      have hget : ∀ (p : Pc) (t : List Pc), (List.replicate k Pc.over ++ p :: t)[k]? = some p := by
        intro p t; rw [List.getElem?_append_right (by simp)]; simp
      have hset : ∀ (p q : Pc) (t : List Pc), (List.replicate k Pc.over ++ p :: t).set k q = List.replicate k Pc.over ++ q :: t := by
        intro p q t; rw [List.set_append_right _ _ (by simp)]; simp
      have hne : ¬ k = n := by omega
      simp only [List.flatMap_cons, List.flatMap_nil, List.append_nil, run, stepPlain, hget, hset, if_true, hne, decide_false, Bool.false_or]
      have e1 : List.replicate k Pc.over ++ Pc.over :: List.replicate m Pc.live = List.replicate (k + 1) Pc.over ++ List.replicate m Pc.live := by
        rw [List.replicate_succ', List.append_assoc]; rfl
      rw [e1]
      simp only [Option.some.injEq, State.mk.injEq, true_and, and_true]
      refine ⟨by omega, ?_⟩
      congr 1
      apply propext
      omega
  refine ⟨⟨List.replicate n .over ++ List.replicate (n - n) .live, (n : Int) - n, true, true⟩, ?_, rfl⟩
  have happ : ∀ (ls ms : List Lab) (a b : State), run stepPlain a ls = some b → run stepPlain a (ls ++ ms) = run stepPlain b ms := by
    intro ls
    induction ls with
    | nil => intro ms a b h1; injection h1 with h1; subst h1; rfl
    | cons l ls ih =>
      intro ms a b h1
      simp only [run] at h1
      cases hs : stepPlain a l with
      | none => rw [hs] at h1; cases h1
      | some u =>
        rw [hs] at h1
        simp only [List.cons_append, run, hs]
        exact ih ms u b h1
  rw [happ _ _ _ _ (key n (Nat.le_refl n))]
  simp [run, stepPlain]

end GoNostr.GiveUp
