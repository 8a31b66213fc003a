import Verif.Base.Num
import Verif.Helpers.Model
import Mathlib.Data.List.Count
import Mathlib.Data.List.Induction
/-!
# C135: loading a web of trust (sdk/wot.go:13-16, 102-167)

`loadWoT` starts a goroutine that goes through the user's follow list and starts a worker for everyone on it, at most 45 at a time; every worker sends the key it is about and then the
keys on that user's follow list; another goroutine closes the channel when all are done. `makeWoTFilter` receives until the channel is closed. What `FetchFollowList`
returns for each user is a parameter, as is the filter library (`Populate` and `Contains`).
-/

set_option autoImplicit false

namespace GoNostr.WotLoad

/-- A worker (wot.go:116-128): it still has to send these keys; it is through and told the wait group; its place in the group is free again. -/
inductive W where
  | busy (rem : List Bytes)
  | through
  | freed
  deriving DecidableEq, Repr

/-- The lister's remaining users, the one it waits to start a worker for, whether it is through; the workers; the wait group's counter; whether the channel is closed; what
was received; whether anything panicked. -/
structure State where
  todo : List Bytes
  pending : Option Bytes
  listed : Bool
  workers : List W
  wg : Int
  closed : Bool
  received : List Bytes
  panicked : Bool
  deriving DecidableEq, Repr

/-- wot.go:103-113 with the follow list of the user. -/
def init (follows : List Bytes) : State := ⟨follows, none, false, [], 1, false, [], false⟩

/-- The atomic actions of the machine; its step function says which lines each of them is. -/
inductive Lab where
  | add
  | go
  | listed
  | send (i : Nat)
  | through (i : Nat)
  | free (i : Nat)
  | close
  deriving DecidableEq, Repr

/-- Workers that count towards the limit. -/
def running (l : List W) : Nat := (l.filter (fun w => w ≠ .freed)).length

/-- One step. `add` is `wg.Add(1)` (wot.go:114), `go` is `g.Go`, which waits for a free place (wot.go:104, 116), `listed` the lister's `wg.Done` (wot.go:131), `send i` a
worker's key being received (wot.go:117, 124), `through i` its `wg.Done` (wot.go:126), `free i` the group taking note of its return (wot.go:127), `close` wot.go:134-137. Sending on a
closed channel, and a negative counter, panic. -/
def step (follows : Bytes → List Bytes) (s : State) : Lab → Option State
  | .add =>
    match s.todo, s.pending with
    | f :: rest, none => some { s with todo := rest, pending := some f, wg := s.wg + 1 }
    | _, _ => none
  | .go =>
    match s.pending with
    | some f => if running s.workers < 45 then some { s with pending := none, workers := s.workers ++ [.busy (f :: follows f)] } else none
    | none => none
  | .listed =>
    if s.todo = [] ∧ s.pending = none ∧ s.listed = false then some { s with listed := true, wg := s.wg - 1, panicked := s.panicked || decide (s.wg - 1 < 0) } else none
  | .send i =>
    match s.workers[i]? with
    | some (.busy (x :: xs)) =>
      if s.closed then some { s with panicked := true } else some { s with workers := s.workers.set i (.busy xs), received := s.received ++ [x] }
    | _ => none
  | .through i =>
    match s.workers[i]? with
    | some (.busy []) => some { s with workers := s.workers.set i .through, wg := s.wg - 1, panicked := s.panicked || decide (s.wg - 1 < 0) }
    | _ => none
  | .free i => if s.workers[i]? = some .through then some { s with workers := s.workers.set i .freed } else none
  | .close => if s.wg = 0 ∧ s.closed = false then some { s with closed := true } else none

/-- Any schedule. -/
def run (follows : Bytes → List Bytes) (s : State) : List Lab → Option State
  | [] => some s
  | l :: ls => match step follows s l with
    | none => none
    | some s' => run follows s' ls

theorem run_snoc {follows : Bytes → List Bytes} {s t : State} {ls : List Lab} {l : Lab} (h : run follows s (ls ++ [l]) = some t) :
    ∃ u, run follows s ls = some u ∧ step follows u l = some t := by
  induction ls generalizing s with
  | nil =>
    simp only [List.nil_append, run] at h
    cases hs : step follows s l with
    | none => rw [hs] at h; cases h
    | some u => rw [hs] at h; injection h with h; exact ⟨s, rfl, by rw [hs, h]⟩
  | cons a ls ih =>
    simp only [List.cons_append, run] at h
    cases hs : step follows s a with
    | none => rw [hs] at h; cases h
    | some u =>
      rw [hs] at h
      obtain ⟨v, h1, h2⟩ := ih h
      exact ⟨v, by simp only [run, hs]; exact h1, h2⟩

/-! ## Specification -/

/-- Everyone the user follows and everyone they follow, with repetitions. -/
def circle (follows : Bytes → List Bytes) (fs : List Bytes) : List Bytes := fs.flatMap (fun f => f :: follows f)

/-! ## Counting -/

/-- Auxiliary function of the proofs; models no code. -/
def total (g : W → Nat) (l : List W) : Nat := (l.map g).sum

theorem total_append (g : W → Nat) (l : List W) (w : W) : total g (l ++ [w]) = total g l + g w := by simp [total]

theorem total_set (g : W → Nat) {l : List W} {i : Nat} {a : W} (b : W) (h : l[i]? = some a) : total g (l.set i b) + g a = total g l + g b := by
  induction l generalizing i with
  | nil => simp at h
  | cons x xs ih =>
    cases i with
    | zero => simp only [List.getElem?_cons_zero, Option.some.injEq] at h; subst h; simp [total]; omega
    | succ i =>
      have := ih (by simpa using h)
      simp only [total, List.set_cons_succ, List.map_cons, List.sum_cons] at this ⊢
      omega

theorem total_zero (g : W → Nat) (l : List W) : total g l = 0 ↔ ∀ w ∈ l, g w = 0 := by
  induction l with
  | nil => simp [total]
  | cons x xs ih =>
    have e : total g (x :: xs) = g x + total g xs := by simp [total]
    rw [e, List.forall_mem_cons, ← ih]
    omega

/-- Counts towards the wait group. -/
def W.holds : W → Nat
  | .busy _ => 1
  | _ => 0

/-- Copies of a key still to be sent. -/
def W.copies (x : Bytes) : W → Nat
  | .busy rem => rem.count x
  | _ => 0

/-- Steps left. -/
def W.left : W → Nat
  | .busy rem => rem.length + 2
  | .through => 1
  | .freed => 0

/-- Invariant used in the proofs; models no code. -/
structure Inv (follows : Bytes → List Bytes) (fs : List Bytes) (s : State) : Prop where
  wg : s.wg = (if s.listed then 0 else 1) + (if s.pending = none then 0 else 1) + total W.holds s.workers
  listed : s.listed = true → s.todo = [] ∧ s.pending = none
  closed : s.closed = true → s.wg = 0
  calm : s.panicked = false
  keys : ∀ x, s.received.count x + total (W.copies x) s.workers + (circle follows s.pending.toList).count x + (circle follows s.todo).count x = (circle follows fs).count x

theorem circle_cons (follows : Bytes → List Bytes) (f : Bytes) (fs : List Bytes) : circle follows (f :: fs) = (f :: follows f) ++ circle follows fs := by simp [circle]

theorem inv_init (follows : Bytes → List Bytes) (fs : List Bytes) : Inv follows fs (init fs) := by
  refine ⟨rfl, ?_, ?_, rfl, ?_⟩
  · intro h; cases h
  · intro h; cases h
  · intro x; simp [init, total, circle]

theorem inv_step {follows : Bytes → List Bytes} {fs : List Bytes} {s t : State} {l : Lab} (h : Inv follows fs s) (ht : step follows s l = some t) : Inv follows fs t := by
  obtain ⟨h1, h2, h3, h4, h5⟩ := h
  cases l with
  | add =>
    simp only [step] at ht
    cases hd : s.todo with
    | nil => simp [hd] at ht
    | cons f rest =>
      cases hp : s.pending with
      | some g => simp [hd, hp] at ht
      | none =>
        simp only [hd, hp, Option.some.injEq] at ht
        subst ht
        have hl : s.listed = false := by
          cases hc : s.listed with
          | false => rfl
          | true => rw [(h2 hc).1] at hd; cases hd
        rw [hp] at h1
        rw [hl] at h1
        refine ⟨?_, ?_, ?_, h4, ?_⟩
        · simp [hl] at h1 ⊢; omega
        · intro h; rw [hl] at h; cases h
        · intro h; have := h3 h; simp at h1; omega
        · intro x
          have := h5 x
          rw [hd, hp, circle_cons, List.count_append] at this
          simp only [Option.toList, circle_cons, List.count_append] at this ⊢
          simp only [circle, List.flatMap_nil, List.count_nil] at this ⊢
          omega
  | go =>
    simp only [step] at ht
    cases hp : s.pending with
    | none => simp [hp] at ht
    | some f =>
      simp only [hp] at ht
      split at ht
      · injection ht with ht; subst ht
        rw [hp] at h1
        refine ⟨?_, ?_, h3, h4, ?_⟩
        · simp only [total_append, W.holds]; simp at h1 ⊢; omega
        · intro h; have := (h2 h).2; rw [hp] at this; cases this
        · intro x
          have := h5 x
          rw [hp] at this
          simp only [Option.toList, circle_cons, List.count_append, total_append, W.copies] at this ⊢
          simp only [circle, List.flatMap_nil, List.count_nil] at this ⊢
          omega
      · cases ht
  | listed =>
    simp only [step] at ht
    split at ht
    · rename_i hc
      injection ht with ht; subst ht
      rw [hc.2.1, hc.2.2] at h1
      simp at h1
      refine ⟨?_, fun _ => ⟨hc.1, hc.2.1⟩, ?_, ?_, h5⟩
      · simp [hc.2.1]; omega
      · intro h; have := h3 h; omega
      · simp [h4]; omega
    · cases ht
  | send i =>
    simp only [step] at ht
    split at ht
    · rename_i x xs hw
      have hpos : total W.holds s.workers = total W.holds (s.workers.set i (.busy xs)) := by
        have := total_set W.holds (.busy xs) hw
        simp only [W.holds] at this; omega
      have h0 := total_set W.holds .freed hw
      simp only [W.holds] at h0
      have hcl : s.closed = false := by
        cases hc : s.closed with
        | false => rfl
        | true => have := h3 hc; split at h1 <;> split at h1 <;> omega
      rw [hcl] at ht
      simp only [Bool.false_eq_true, if_false, Option.some.injEq] at ht
      subst ht
      refine ⟨(by simp only; rw [← hpos]; exact h1), h2, (by simp), h4, ?_⟩
      intro y
      have := h5 y
      have e := total_set (W.copies y) (.busy xs) hw
      simp only [W.copies, List.count_cons] at e
      simp only [List.count_append, List.count_cons, List.count_nil]
      omega
    · cases ht
  | through i =>
    simp only [step] at ht
    split at ht
    · rename_i hw
      injection ht with ht; subst ht
      have h0 := total_set W.holds .through hw
      simp only [W.holds] at h0
      refine ⟨?_, h2, ?_, ?_, ?_⟩
      · simp only; omega
      · intro h; have := h3 h; simp only; split at h1 <;> split at h1 <;> omega
      · simp only [h4, Bool.false_or, decide_eq_false_iff_not]; split at h1 <;> split at h1 <;> omega
      · intro y
        have := h5 y
        have e := total_set (W.copies y) .through hw
        simp only [W.copies, List.count_nil] at e
        simp only; omega
    · cases ht
  | free i =>
    simp only [step] at ht
    split at ht
    · rename_i hw
      injection ht with ht; subst ht
      have h0 := total_set W.holds .freed hw
      simp only [W.holds] at h0
      refine ⟨?_, h2, h3, h4, ?_⟩
      · simp only; omega
      · intro y
        have := h5 y
        have e := total_set (W.copies y) .freed hw
        simp only [W.copies] at e
        simp only; omega
    · cases ht
  | close =>
    simp only [step] at ht
    split at ht
    · rename_i hc
      injection ht with ht; subst ht
      exact ⟨h1, h2, fun _ => hc.1, h4, h5⟩
    · cases ht

theorem inv_run {follows : Bytes → List Bytes} {fs : List Bytes} {ls : List Lab} {s : State} (h : run follows (init fs) ls = some s) : Inv follows fs s := by
  induction ls using List.reverseRecOn generalizing s with
  | nil => injection h with h; rw [← h]; exact inv_init follows fs
  | append_singleton ls l ih =>
    obtain ⟨u, h1, h2⟩ := run_snoc h
    exact inv_step (ih h1) h2

/-- **C135 (everyone is counted).** On every schedule: nothing is sent on a closed channel and the wait group is never misused; and when the channel is closed, exactly the
people the user follows and those they follow were received, each as often as they are listed. -/
theorem C135_complete (follows : Bytes → List Bytes) (fs : List Bytes) (ls : List Lab) (s : State) (h : run follows (init fs) ls = some s) :
    s.panicked = false ∧ (s.closed = true → s.received.Perm (circle follows fs)) ∧ (∀ x ∈ s.received, x ∈ circle follows fs) := by
  obtain ⟨h1, h2, h3, h4, h5⟩ := inv_run h
  refine ⟨h4, fun hc => ?_, fun x hx => ?_⟩
  · have hw := h3 hc
    rw [hw] at h1
    have hl : s.listed = true := by
      cases hl : s.listed with
      | true => rfl
      | false => rw [hl] at h1; simp at h1; split at h1 <;> omega
    obtain ⟨ht, hp⟩ := h2 hl
    rw [hl, hp] at h1
    simp at h1
    have hz : total W.holds s.workers = 0 := by omega
    rw [total_zero] at hz
    rw [List.perm_iff_count]
    intro x
    have := h5 x
    rw [ht, hp] at this
    have hcop : total (W.copies x) s.workers = 0 := by
      rw [total_zero]
      intro w hw
      have := hz w hw
      cases w with
      | busy rem => cases this
      | through => rfl
      | freed => rfl
    rw [hcop] at this
    simpa [circle] using this
  · have := h5 x
    have hpos := List.count_pos_iff.2 hx
    exact List.count_pos_iff.1 (by omega)

/-- Steps left. -/
def measure (follows : Bytes → List Bytes) (s : State) : Nat :=
  (s.todo.map (fun f => (follows f).length + 5)).sum + (s.pending.toList.map (fun f => (follows f).length + 4)).sum + total W.left s.workers +
    (if s.listed then 0 else 1) + (if s.closed then 0 else 1)

theorem measure_step {follows : Bytes → List Bytes} {fs : List Bytes} {s t : State} {l : Lab} (hi : Inv follows fs s) (ht : step follows s l = some t) :
    measure follows t < measure follows s := by
  cases l with
  | add =>
    simp only [step] at ht
    cases hd : s.todo with
    | nil => simp [hd] at ht
    | cons f rest =>
      cases hp : s.pending with
      | some g => simp [hd, hp] at ht
      | none =>
        simp only [hd, hp, Option.some.injEq] at ht
        subst ht
        simp [measure, hd, hp]; omega
  | go =>
    simp only [step] at ht
    cases hp : s.pending with
    | none => simp [hp] at ht
    | some f =>
      simp only [hp] at ht
      split at ht
      · injection ht with ht; subst ht
        simp [measure, hp, total_append, W.left]; omega
      · cases ht
  | listed =>
    simp only [step] at ht
    split at ht
    · rename_i hc
      injection ht with ht; subst ht
      simp [measure, hc.2.2]
    · cases ht
  | send i =>
    simp only [step] at ht
    split at ht
    · rename_i x xs hw
      have hcl : s.closed = false := by
        cases hc : s.closed with
        | false => rfl
        | true =>
          have h0 := total_set W.holds .freed hw
          simp only [W.holds] at h0
          have := hi.closed hc
          have h1 := hi.wg
          split at h1 <;> split at h1 <;> omega
      rw [hcl] at ht
      simp only [Bool.false_eq_true, if_false, Option.some.injEq] at ht
      subst ht
      have e := total_set W.left (.busy xs) hw
      simp only [W.left, List.length_cons] at e
      simp only [measure, hcl]; omega
    · cases ht
  | through i =>
    simp only [step] at ht
    split at ht
    · rename_i hw
      injection ht with ht; subst ht
      have e := total_set W.left .through hw
      simp only [W.left, List.length_nil] at e
      simp only [measure]; omega
    · cases ht
  | free i =>
    simp only [step] at ht
    split at ht
    · rename_i hw
      injection ht with ht; subst ht
      have e := total_set W.left .freed hw
      simp only [W.left] at e
      simp only [measure]; omega
    · cases ht
  | close =>
    simp only [step] at ht
    split at ht
    · rename_i hc
      injection ht with ht; subst ht
      simp [measure, hc.2]
    · cases ht

/-- **C135 (it ends).** No schedule has more than so many steps, and as long as the channel is not closed somebody can move, also when all 45 places are taken: loading always
comes to its end. -/
theorem C135_ends (follows : Bytes → List Bytes) (fs : List Bytes) (ls : List Lab) (s : State) (h : run follows (init fs) ls = some s) :
    ls.length ≤ (fs.map (fun f => (follows f).length + 5)).sum + 2 ∧ (s.closed = false → ∃ l t, step follows s l = some t) := by
  constructor
  · have : ∀ (ls : List Lab) (s : State), run follows (init fs) ls = some s → ls.length + measure follows s ≤ measure follows (init fs) := by
      intro ls
      induction ls using List.reverseRecOn with
      | nil => intro s h; injection h with h; rw [← h]; simp
      | append_singleton ls l ih =>
        intro s h
        obtain ⟨u, h1, h2⟩ := run_snoc h
        have := ih u h1
        have := measure_step (inv_run h1) h2
        simp; omega
    have := this ls s h
    simp [measure, init, total] at this
    omega
  · intro hc
    have hi := inv_run h
    -- a worker that can move
    by_cases hw : ∃ (i : Nat) (w : W), s.workers[i]? = some w ∧ w ≠ .freed
    · obtain ⟨i, w, hw, hne⟩ := hw
      cases w with
      | freed => exact absurd rfl hne
      | through => exact ⟨.free i, _, by simp only [step]; rw [if_pos hw]⟩
      | busy rem =>
        cases rem with
        | nil => exact ⟨.through i, _, by simp only [step, hw]; rfl⟩
        | cons x xs => exact ⟨.send i, { s with workers := s.workers.set i (.busy xs), received := s.received ++ [x] }, by simp [step, hw, hc]⟩
    · have hall : ∀ w ∈ s.workers, w = .freed := by
        intro w hm
        by_contra hne
        obtain ⟨i, hi⟩ := List.getElem?_of_mem hm
        exact hw ⟨i, w, hi, hne⟩
      have hrun : running s.workers = 0 := by
        unfold running
        rw [List.length_eq_zero_iff, List.filter_eq_nil_iff]
        intro w hm; simp [hall w hm]
      cases hp : s.pending with
      | some f => exact ⟨.go, { s with pending := none, workers := s.workers ++ [.busy (f :: follows f)] }, by simp [step, hp, hrun]⟩
      | none =>
        cases hd : s.todo with
        | cons f rest => exact ⟨.add, { s with todo := rest, pending := some f, wg := s.wg + 1 }, by simp [step, hp, hd]⟩
        | nil =>
          cases hl : s.listed with
          | false => exact ⟨.listed, { s with listed := true, wg := s.wg - 1, panicked := s.panicked || decide (s.wg - 1 < 0) }, by simp [step, hp, hd, hl]⟩
          | true =>
            have hz : total W.holds s.workers = 0 := (total_zero _ _).2 (fun w hm => by rw [hall w hm]; rfl)
            have := hi.wg
            rw [hl, hp, hz] at this
            simp at this
            exact ⟨.close, { s with closed := true }, by simp [step, this, hc]⟩

/-- **C135 (at most 45 at a time).** -/
theorem C135_limit (follows : Bytes → List Bytes) (fs : List Bytes) (ls : List Lab) (s : State) (h : run follows (init fs) ls = some s) : running s.workers ≤ 45 := by
  have rs : ∀ {l : List W} {i : Nat} {a b : W}, l[i]? = some a → a ≠ .freed → running (l.set i b) ≤ running l := by
    intro l i a b h1 h2
    have e := total_set (fun w => if w = .freed then 0 else 1) b h1
    have r : ∀ l, running l = total (fun w => if w = .freed then 0 else 1) l := by
      intro l
      induction l with
      | nil => rfl
      | cons x xs ih =>
        unfold running at ih ⊢
        by_cases hx : x = .freed
        · simp [total, hx] at ih ⊢; exact ih
        · simp [total, hx] at ih ⊢; omega
    rw [r, r]
    rw [if_neg h2] at e
    split at e <;> omega
  induction ls using List.reverseRecOn generalizing s with
  | nil => injection h with h; rw [← h]; simp [running, init]
  | append_singleton ls l ih =>
    obtain ⟨u, h1, h2⟩ := run_snoc h
    have := ih u h1
    cases l with
    | add =>
      simp only [step] at h2
      split at h2
      · injection h2 with h2; subst h2; exact this
      · cases h2
    | go =>
      simp only [step] at h2
      split at h2
      · split at h2
        · injection h2 with h2; subst h2; simp [running] at *; omega
        · cases h2
      · cases h2
    | listed =>
      simp only [step] at h2
      split at h2
      · injection h2 with h2; subst h2; exact this
      · cases h2
    | send i =>
      simp only [step] at h2
      split at h2
      · rename_i x xs hw
        split at h2
        · injection h2 with h2; subst h2; exact this
        · injection h2 with h2; subst h2; exact Nat.le_trans (rs hw (by simp)) this
      · cases h2
    | through i =>
      simp only [step] at h2
      split at h2
      · rename_i hw
        injection h2 with h2; subst h2; exact Nat.le_trans (rs hw (by simp)) this
      · cases h2
    | free i =>
      simp only [step] at h2
      split at h2
      · rename_i hw
        injection h2 with h2; subst h2; exact Nat.le_trans (rs hw (by simp)) this
      · cases h2
    | close =>
      simp only [step] at h2
      split at h2
      · injection h2 with h2; subst h2; exact this
      · cases h2

example : ∃ s, run (fun f => if f = [1] then [[3], [2]] else []) (init [[1], [2]]) [.add, .go, .send 0, .add, .send 0, .go, .listed, .send 1, .send 0, .through 1, .through 0, .close, .free 0] = some s ∧
    s.closed = true ∧ s.received = [[1], [3], [2], [2]] := ⟨_, rfl, rfl, rfl⟩

/-! ## The filter -/

/-- `strconv.ParseUint(s, 16, 64)` on at most sixteen characters; 0 on an error. -/
def parseHex64 (s : Bytes) : UInt64 :=
  match s.mapM hexVal with
  | none => 0
  | some ds => ds.foldl (fun n d => n * 16 + d.toUInt64) 0

/-- `PubKeyToShid` (wot.go:13-16); slicing a shorter key panics. Only hexadecimal digits without sign or prefix count as a number; in base 16 that is what `ParseUint` accepts. -/
def shid (pubkey : Bytes) : Out UInt64 := match goSlice pubkey 32 48 with
  | .panic => .panic
  | .val s => .val (parseHex64 s)

/-- The loop of `makeWoTFilter` (wot.go:145-151). -/
def shids : List Bytes → List UInt64 → Out (List UInt64)
  | [], acc => .val acc
  | pk :: rest, acc => match shid pk with
    | .panic => .panic
    | .val x => shids rest (if x ∈ acc then acc else acc ++ [x])

/-- The library: `Populate` may fail (then it returns nil), and `Contains`. -/
structure Lib where
  Filter : Type
  populate : List UInt64 → Option Filter
  contains : Filter → UInt64 → Bool

/-- `makeWoTFilter` (wot.go:142-155): the number of items and the filter; a nil filter is dereferenced. -/
def makeFilter (lib : Lib) (pks : List Bytes) : Out (Nat × lib.Filter) :=
  match shids pks [] with
  | .panic => .panic
  | .val xs => match lib.populate xs with
    | none => .panic
    | some f => .val (xs.length, f)

/-- `Contains` (wot.go:162-167). -/
def wotContains (lib : Lib) (w : Nat × lib.Filter) (pubkey : Bytes) : Out Bool :=
  if w.1 = 0 then .val false
  else match shid pubkey with
    | .panic => .panic
    | .val x => .val (lib.contains w.2 x)

theorem shid_val {pk : Bytes} (h : 48 ≤ pk.length) : shid pk = .val (parseHex64 ((pk.drop 32).take 16)) := by
  unfold shid goSlice
  rw [if_pos (by omega)]
  rfl

theorem shids_spec (pks : List Bytes) (h : ∀ pk ∈ pks, 48 ≤ pk.length) : ∀ acc : List UInt64, acc.Nodup →
    ∃ xs, shids pks acc = .val xs ∧ xs.Nodup ∧ ∀ x, x ∈ xs ↔ x ∈ acc ∨ ∃ pk ∈ pks, shid pk = .val x := by
  induction pks with
  | nil => intro acc hn; exact ⟨acc, rfl, hn, by simp⟩
  | cons pk rest ih =>
    intro acc hn
    have hs := shid_val (h pk (by simp))
    generalize parseHex64 ((pk.drop 32).take 16) = y at hs
    obtain ⟨xs, h1, h2, h3⟩ := ih (fun p hp => h p (List.mem_cons_of_mem _ hp)) (if y ∈ acc then acc else acc ++ [y]) (by
      split
      · exact hn
      · rename_i hy
        rw [List.nodup_append]
        exact ⟨hn, by simp, by intro a ha b hb; rw [List.mem_singleton] at hb; subst hb; rintro rfl; exact hy ha⟩)
    refine ⟨xs, by simp only [shids, hs]; exact h1, h2, fun x => ?_⟩
    rw [h3]
    have : (∃ p ∈ pk :: rest, shid p = .val x) ↔ x = y ∨ ∃ p ∈ rest, shid p = .val x := by
      constructor
      · rintro ⟨p, hp, he⟩
        rcases List.mem_cons.1 hp with rfl | hp
        · rw [hs] at he; injection he with he; exact Or.inl he.symm
        · exact Or.inr ⟨p, hp, he⟩
      · rintro (rfl | ⟨p, hp, he⟩)
        · exact ⟨pk, by simp, hs⟩
        · exact ⟨p, List.mem_cons_of_mem _ hp, he⟩
    rw [this]
    split
    · rename_i hy
      constructor
      · rintro (h | h)
        · exact Or.inl h
        · exact Or.inr (Or.inr h)
      · rintro (h | rfl | h)
        · exact Or.inl h
        · exact Or.inl hy
        · exact Or.inr h
    · rw [List.mem_append, List.mem_singleton]
      constructor
      · rintro ((h | h) | h)
        · exact Or.inl h
        · exact Or.inr (Or.inl h)
        · exact Or.inr (Or.inr h)
      · rintro (h | h | h)
        · exact Or.inl (Or.inl h)
        · exact Or.inl (Or.inr h)
        · exact Or.inr h

/-- **C135 (the filter has them all).** If the library's filters answer yes for everything they were made of, the filter says yes for everyone received, by keys of full
length; its number of items is that of the different short ids; and without any it says no to everybody. -/
theorem C135_filter (lib : Lib) (hlib : ∀ xs f, lib.populate xs = some f → ∀ x ∈ xs, lib.contains f x = true) (pks : List Bytes) (h : ∀ pk ∈ pks, 48 ≤ pk.length)
    (w : Nat × lib.Filter) (hw : makeFilter lib pks = .val w) :
    (∀ pk ∈ pks, wotContains lib w pk = .val true) ∧ (pks = [] → ∀ pk, wotContains lib w pk = .val false) ∧
    ∃ xs : List UInt64, xs.Nodup ∧ (∀ x, x ∈ xs ↔ ∃ pk ∈ pks, shid pk = .val x) ∧ w.1 = xs.length := by
  obtain ⟨xs, h1, h2, h3⟩ := shids_spec pks h [] List.nodup_nil
  unfold makeFilter at hw
  rw [h1] at hw
  simp only at hw
  cases hp : lib.populate xs with
  | none => rw [hp] at hw; cases hw
  | some f =>
    rw [hp] at hw
    injection hw with hw
    subst hw
    refine ⟨fun pk hpk => ?_, fun he pk => ?_, xs, h2, by simpa using h3, rfl⟩
    · have hs := shid_val (h pk hpk)
      have hm := (h3 _).2 (Or.inr ⟨pk, hpk, hs⟩)
      unfold wotContains
      rw [if_neg (by intro h0; simp only at h0; rw [List.length_eq_zero_iff] at h0; rw [h0] at hm; simp at hm), hs]
      simp only [hlib xs f hp _ hm]
    · subst he
      injection h1 with h1
      subst h1
      rfl

/-- **C135 (from the follow lists to the filter).** Whatever the schedule, once the channel is closed the filter made of what was received says yes for everyone the user follows and
everyone they follow, if the keys on the lists are of full length. -/
theorem C135_wot (lib : Lib) (hlib : ∀ xs f, lib.populate xs = some f → ∀ x ∈ xs, lib.contains f x = true) (follows : Bytes → List Bytes) (fs : List Bytes)
    (hk : ∀ pk ∈ circle follows fs, 48 ≤ pk.length) (ls : List Lab) (s : State) (h : run follows (init fs) ls = some s) (hc : s.closed = true)
    (w : Nat × lib.Filter) (hw : makeFilter lib s.received = .val w) : ∀ f ∈ fs, wotContains lib w f = .val true ∧ ∀ g ∈ follows f, wotContains lib w g = .val true := by
  obtain ⟨-, h1, h2⟩ := C135_complete follows fs ls s h
  obtain ⟨h3, -, -⟩ := C135_filter lib hlib s.received (fun pk hp => hk pk (h2 pk hp)) w hw
  intro f hf
  have hm : ∀ x, x ∈ f :: follows f → wotContains lib w x = .val true :=
    fun x hx => h3 x ((h1 hc).mem_iff.2 (List.mem_flatMap.2 ⟨f, hf, hx⟩))
  exact ⟨hm f (by simp), fun g hg => hm g (List.mem_cons_of_mem _ hg)⟩

example : ∃ s, run (fun _ => [hexEnc (List.replicate 32 2)]) (init [hexEnc (List.replicate 32 1)]) [.add, .go, .send 0, .send 0, .listed, .through 0, .close] = some s ∧ s.closed = true ∧
    ∃ w, makeFilter ⟨List UInt64, some, fun f x => decide (x ∈ f)⟩ s.received = .val w ∧ w.1 = 2 := ⟨_, rfl, rfl, _, rfl, by decide +kernel⟩

/-- **C135 (crashes).** A key of fewer than 48 characters, to be put in or asked for, crashes; so does a library that fails. -/
theorem C135_crash (lib : Lib) : (∀ pk rest, pk.length < 48 → makeFilter lib (pk :: rest) = .panic) ∧
    (∀ (w : Nat × lib.Filter) pk, w.1 ≠ 0 → pk.length < 48 → wotContains lib w pk = .panic) ∧
    (∀ pks xs, shids pks [] = .val xs → lib.populate xs = none → makeFilter lib pks = .panic) := by
  have hs : ∀ pk : Bytes, pk.length < 48 → shid pk = .panic := by
    intro pk h
    unfold shid goSlice
    rw [if_neg (by omega)]
  refine ⟨fun pk rest h => ?_, fun w pk h0 h => ?_, fun pks xs h1 h2 => ?_⟩
  · simp [makeFilter, shids, hs pk h]
  · simp [wotContains, h0, hs pk h]
  · simp [makeFilter, h1, h2]

/-- **C135 (strangers).** Keys that share the 16 characters in the middle are the same to the filter, so a stranger can be taken for a friend. -/
theorem C135_stranger (lib : Lib) (w : Nat × lib.Filter) (a b : Bytes) (ha : 48 ≤ a.length) (hb : 48 ≤ b.length) (h : (a.drop 32).take 16 = (b.drop 32).take 16) :
    wotContains lib w a = wotContains lib w b := by
  unfold wotContains
  rw [shid_val ha, shid_val hb, h]

example : shid (hexEnc (List.replicate 32 0xab)) = .val 0xabababababababab := by decide +kernel

end GoNostr.WotLoad
