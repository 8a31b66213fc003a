import Verif.Filter.Theorems
import Verif.Sdk.Feed
import Mathlib.Data.List.Induction
import Mathlib.Tactic.Push
/-!
# C133, C134: `StreamLiveFeed` (sdk/feeds.go:30-94)

Two machines. The first has the goroutines of all users and the channel they share: does the channel close, once, and is nothing sent on it afterwards. The second
has one user's subscription to several relays (`SubscribeMany`, pool.go:414-581) and follows the pointer to the time in its filter: the filter's `Since` points to
the variable `latest` of the goroutine, and all relays' subscriptions test events against that one filter.
-/

set_option autoImplicit false

namespace GoNostr.LiveFeed

/-! ## The channel -/

/-- Where a user's goroutine is: waiting for an event of its subscription, sending one on the channel, or gone. -/
inductive PC where
  | waiting
  | sending
  | gone
  deriving DecidableEq, Repr

/-- `todo` users the main loop has not reached; the counter `active` (an `int32`; wrapping around with more than 2^31 users is left out); how often the channel was
closed; how many events were delivered; whether anything panicked. -/
structure Chan where
  todo : Nat
  active : Int
  procs : List PC
  closed : Nat
  delivered : Nat
  panicked : Bool
  deriving DecidableEq, Repr

/-- feeds.go:35-38: `n` users. -/
def Chan.init (n : Nat) : Chan := ⟨n, n, [], 0, 0, false⟩

/-- `main b`: the loop handles the next user, with (`b`) or without relays; `got i`: goroutine `i` takes an event from its subscription (feeds.go:71-82);
`sent i`: the caller receives it (feeds.go:84); `ended i`: the subscription's channel is closed (feeds.go:87-89). -/
inductive CLab where
  | main (relays : Bool)
  | got (i : Nat)
  | sent (i : Nat)
  | ended (i : Nat)
  deriving DecidableEq, Repr

/-- `if active.Add(-1) == 0 { close(events) }` (feeds.go:44-46, 87-89); closing twice panics. -/
def Chan.done (s : Chan) : Chan :=
  if s.active - 1 = 0 then { s with active := s.active - 1, closed := s.closed + 1, panicked := s.panicked || decide (0 < s.closed) }
  else { s with active := s.active - 1 }

/-- One step of `StreamLiveFeed` (feeds.go:41-91). Sending on a closed channel panics. -/
def Chan.step (s : Chan) : CLab → Option Chan
  | .main b =>
    match s.todo with
    | 0 => none
    | n + 1 => if b then some { s with todo := n, procs := s.procs ++ [.waiting] } else some ({ s with todo := n } : Chan).done
  | .got i => if s.procs[i]? = some .waiting then some { s with procs := s.procs.set i .sending } else none
  | .sent i =>
    if s.procs[i]? = some .sending then
      (if 0 < s.closed then some { s with panicked := true } else some { s with procs := s.procs.set i .waiting, delivered := s.delivered + 1 })
    else none
  | .ended i => if s.procs[i]? = some .waiting then some ({ s with procs := s.procs.set i .gone } : Chan).done else none

/-- Any schedule. -/
def Chan.run (s : Chan) : List CLab → Option Chan
  | [] => some s
  | l :: ls => match s.step l with
    | none => none
    | some s' => s'.run ls

theorem Chan.run_append (s : Chan) (a b : List CLab) : s.run (a ++ b) = (s.run a).bind (fun t => t.run b) := by
  induction a generalizing s with
  | nil => rfl
  | cons l ls ih => simp only [List.cons_append, Chan.run]; cases s.step l with
    | none => rfl
    | some t => exact ih t

/-- Goroutines still there. -/
def alive (l : List PC) : Nat := (l.filter (fun p => p ≠ .gone)).length

theorem alive_append (l : List PC) : alive (l ++ [.waiting]) = alive l + 1 := by simp [alive]

theorem alive_set {l : List PC} {i : Nat} {p q : PC} (h : l[i]? = some p) :
    alive (l.set i q) + (if p = .gone then 0 else 1) = alive l + (if q = .gone then 0 else 1) := by
  induction l generalizing i with
  | nil => simp at h
  | cons x xs ih =>
    cases i with
    | zero =>
      simp only [List.getElem?_cons_zero, Option.some.injEq] at h
      subst h
      unfold alive
      cases x <;> cases q <;> simp
    | succ i =>
      simp only [List.getElem?_cons_succ] at h
      have := ih h
      unfold alive at this ⊢
      simp only [List.set_cons_succ, List.filter_cons]
      by_cases hx : (decide (x ≠ PC.gone)) = true
      · rw [if_pos hx, if_pos hx]; simp only [List.length_cons]; omega
      · rw [if_neg hx, if_neg hx]; exact this

theorem alive_pos {l : List PC} {i : Nat} {p : PC} (h : l[i]? = some p) (hp : p ≠ .gone) : 0 < alive l := by
  have hm := List.mem_of_getElem? h
  unfold alive
  exact List.length_pos_of_mem (List.mem_filter.2 ⟨hm, by simpa using hp⟩)

/-- The counter counts the users not reached and the goroutines still there; the channel was closed (once) exactly if there are none, unless there were no users. -/
structure CInv (n : Nat) (s : Chan) : Prop where
  count : s.active = s.todo + alive s.procs
  open_ : 0 < s.active → s.closed = 0
  shut : s.active = 0 → 0 < n → s.closed = 1
  empty : n = 0 → s.todo = 0 ∧ s.procs = [] ∧ s.closed = 0
  calm : s.panicked = false

theorem cinv_done {n : Nat} {s : Chan} (hc : s.active = s.todo + alive s.procs + 1) (ho : s.closed = 0) (hn : 0 < n) (hp : s.panicked = false) :
    CInv n s.done := by
  unfold Chan.done
  by_cases h : s.active - 1 = 0
  · rw [if_pos h]
    refine ⟨?_, ?_, ?_, ?_, ?_⟩
    · show s.active - 1 = ((s.todo : Nat) : Int) + (alive s.procs : Nat); omega
    · intro h'; simp only at h'; omega
    · intro _ _; show s.closed + 1 = 1; omega
    · intro h'; omega
    · show (s.panicked || decide (0 < s.closed)) = false
      simp [hp, ho]
  · rw [if_neg h]
    refine ⟨?_, ?_, ?_, ?_, ?_⟩
    · show s.active - 1 = ((s.todo : Nat) : Int) + (alive s.procs : Nat); omega
    · intro _; exact ho
    · intro h'; exact absurd h' h
    · intro h'; omega
    · exact hp

theorem cinv_step {n : Nat} {s s' : Chan} {l : CLab} (h : CInv n s) (hs : s.step l = some s') : CInv n s' := by
  obtain ⟨hc, ho, hsh, he, hp⟩ := h
  cases l with
  | main b =>
    simp only [Chan.step] at hs
    cases ht : s.todo with
    | zero => rw [ht] at hs; cases hs
    | succ m =>
      have hn : 0 < n := by
        rcases Nat.eq_zero_or_pos n with h0 | h0
        · have := (he h0).1; omega
        · exact h0
      have ha : 0 < s.active := by rw [hc, ht]; omega
      rw [ht] at hs
      simp only at hs
      cases b with
      | true =>
        simp only [if_true, Option.some.injEq] at hs
        subst hs
        refine ⟨?_, fun _ => ho ha, ?_, fun h0 => absurd hn (by omega), hp⟩
        · simp only [alive_append]; rw [hc, ht]; omega
        · intro h0; simp only at h0; omega
      | false =>
        simp only [Bool.false_eq_true, if_false, Option.some.injEq] at hs
        subst hs
        refine cinv_done ?_ (ho ha) hn hp
        simp only; rw [hc, ht]; omega
  | got i =>
    simp only [Chan.step] at hs
    by_cases hi : s.procs[i]? = some .waiting
    · rw [if_pos hi] at hs; injection hs with hs; subst hs
      have e := alive_set (q := .sending) hi
      simp only [reduceCtorEq, if_false, Nat.add_right_cancel_iff] at e
      refine ⟨?_, ho, hsh, ?_, hp⟩
      · simp only [e]; exact hc
      · intro h0; have := (he h0).2.1; rw [this] at hi; simp at hi
    · rw [if_neg hi] at hs; cases hs
  | sent i =>
    simp only [Chan.step] at hs
    by_cases hi : s.procs[i]? = some .sending
    · rw [if_pos hi] at hs
      have hpos := alive_pos hi (by decide)
      have hcl : s.closed = 0 := ho (by omega)
      rw [if_neg (by omega)] at hs; injection hs with hs; subst hs
      have e := alive_set (q := .waiting) hi
      simp only [reduceCtorEq, if_false, Nat.add_right_cancel_iff] at e
      refine ⟨?_, ho, hsh, ?_, hp⟩
      · simp only [e]; exact hc
      · intro h0; have := (he h0).2.1; rw [this] at hi; simp at hi
    · rw [if_neg hi] at hs; cases hs
  | ended i =>
    simp only [Chan.step] at hs
    by_cases hi : s.procs[i]? = some .waiting
    · rw [if_pos hi] at hs; injection hs with hs; subst hs
      have hpos := alive_pos hi (by decide)
      have hn : 0 < n := by
        rcases Nat.eq_zero_or_pos n with h0 | h0
        · have := (he h0).2.1; rw [this] at hi; simp at hi
        · exact h0
      have e := alive_set (q := .gone) hi
      simp only [reduceCtorEq, if_false, if_true, Nat.add_zero] at e
      refine cinv_done ?_ (ho (by omega)) hn hp
      simp only; omega
    · rw [if_neg hi] at hs; cases hs

theorem cinv_run {n : Nat} {ls : List CLab} {s : Chan} (h : (Chan.init n).run ls = some s) : CInv n s := by
  have gen : ∀ (ls : List CLab) (a : Chan), CInv n a → a.run ls = some s → CInv n s := by
    intro ls
    induction ls with
    | nil => intro a ha h; injection h with h; rw [← h]; exact ha
    | cons l ls ih =>
      intro a ha h
      simp only [Chan.run] at h
      cases hs : a.step l with
      | none => rw [hs] at h; cases h
      | some a' => rw [hs] at h; exact ih a' (cinv_step ha hs) h
  refine gen ls (Chan.init n) ⟨by simp [Chan.init, alive], fun _ => rfl, ?_, fun h => ⟨by simp [Chan.init, h], rfl, rfl⟩, rfl⟩ h
  intro h1 h2
  simp only [Chan.init] at h1; omega

/-- **C133 (closing).** On every schedule: the channel is never closed twice and nothing is sent on it after it was closed; with at least one user it is closed exactly
when every user was handled and all their subscriptions are over. -/
theorem C133_closes_once (n : Nat) (ls : List CLab) (s : Chan) (h : (Chan.init n).run ls = some s) :
    s.panicked = false ∧ s.closed ≤ 1 ∧ (0 < n → (s.closed = 1 ↔ s.todo = 0 ∧ ∀ p ∈ s.procs, p = PC.gone)) := by
  obtain ⟨hc, ho, hsh, he, hp⟩ := cinv_run h
  have ha0 : alive s.procs = 0 ↔ ∀ p ∈ s.procs, p = PC.gone := by
    unfold alive
    rw [List.length_eq_zero_iff, List.filter_eq_nil_iff]
    simp
  refine ⟨hp, ?_, ?_⟩
  · by_cases h0 : 0 < s.active
    · rw [ho h0]; omega
    · rcases Nat.eq_zero_or_pos n with hn | hn
      · rw [(he hn).2.2]; omega
      · rw [hsh (by omega) hn]; exact Nat.le_refl 1
  · intro hn
    rw [← ha0]
    constructor
    · intro h1
      have : ¬ 0 < s.active := fun h2 => by rw [ho h2] at h1; omega
      omega
    · rintro ⟨h1, h2⟩
      exact hsh (by omega) hn

/-- **C133 (it goes on).** Before the channel is closed, as long as the caller receives and subscriptions either yield or end, something can happen; and it
takes no more than one step to handle each user and two to end each goroutine: a schedule to the end exists from every reachable state. -/
theorem C133_can_end (n : Nat) (hn : 0 < n) (ls : List CLab) (s : Chan) (h : (Chan.init n).run ls = some s) :
    ∃ more s', s.run more = some s' ∧ s'.closed = 1 := by
  have fin : ∀ (m : Nat) (s : Chan), CInv n s → s.todo = 0 → 2 * alive s.procs + (s.procs.filter (fun p => p = .sending)).length = m →
      ∃ more s', s.run more = some s' ∧ s'.closed = 1 := by
    intro m
    induction m using Nat.strongRecOn with
    | _ m ih =>
      intro s hi ht hm
      by_cases ha : alive s.procs = 0
      · exact ⟨[], s, rfl, hi.shut (by rw [hi.count, ht, ha]; rfl) hn⟩
      · have : ∃ p ∈ s.procs, p ≠ PC.gone := by
          by_contra hne
          push Not at hne
          apply ha
          unfold alive
          rw [List.length_eq_zero_iff, List.filter_eq_nil_iff]
          intro p hp; simp [hne p hp]
        obtain ⟨p, hp, hg⟩ := this
        obtain ⟨i, hi'⟩ := List.getElem?_of_mem hp
        have cnt : ∀ (l : List PC) (i : Nat) (q : PC), l[i]? = some .sending → q ≠ .sending →
            ((l.set i q).filter (fun p => p = .sending)).length + 1 = (l.filter (fun p => p = .sending)).length := by
          intro l
          induction l with
          | nil => intro i q h; simp at h
          | cons x xs ihl =>
            intro i q h hq
            cases i with
            | zero => simp at h; subst h; simp [hq]
            | succ i =>
              have := ihl i q (by simpa using h) hq
              rw [List.set_cons_succ, List.filter_cons, List.filter_cons]
              by_cases hx : (decide (x = PC.sending)) = true
              · rw [if_pos hx, if_pos hx]; simp only [List.length_cons]; omega
              · rw [if_neg hx, if_neg hx]; exact this
        have cnt' : ∀ (l : List PC) (i : Nat) (q : PC), l[i]? = some .waiting → q ≠ .sending →
            ((l.set i q).filter (fun p => p = .sending)).length = (l.filter (fun p => p = .sending)).length := by
          intro l
          induction l with
          | nil => intro i q h; simp at h
          | cons x xs ihl =>
            intro i q h hq
            cases i with
            | zero => simp at h; subst h; simp [hq]
            | succ i =>
              have := ihl i q (by simpa using h) hq
              rw [List.set_cons_succ, List.filter_cons, List.filter_cons]
              by_cases hx : (decide (x = PC.sending)) = true
              · rw [if_pos hx, if_pos hx]; simp only [List.length_cons]; omega
              · rw [if_neg hx, if_neg hx]; exact this
        cases p with
        | gone => exact absurd rfl hg
        | waiting =>
          have hs : s.step (.ended i) = some ({ s with procs := s.procs.set i .gone } : Chan).done := by simp [Chan.step, hi']
          have e1 := alive_set (q := .gone) hi'
          simp only [reduceCtorEq, if_false, if_true, Nat.add_zero] at e1
          have e2 := cnt' s.procs i .gone hi' (by decide)
          have ht' : (({ s with procs := s.procs.set i .gone } : Chan).done).todo = 0 := by unfold Chan.done; split <;> exact ht
          have hp' : (({ s with procs := s.procs.set i .gone } : Chan).done).procs = s.procs.set i .gone := by unfold Chan.done; split <;> rfl
          obtain ⟨more, s', r1, r2⟩ := ih _ (by rw [hp']; omega) _ (cinv_step hi hs) ht' rfl
          exact ⟨.ended i :: more, s', by simp only [Chan.run, hs]; exact r1, r2⟩
        | sending =>
          have hpos := alive_pos hi' (by decide)
          have hcl : s.closed = 0 := hi.open_ (by have := hi.count; omega)
          have hs : s.step (.sent i) = some { s with procs := s.procs.set i .waiting, delivered := s.delivered + 1 } := by
            simp [Chan.step, hi', hcl]
          have e1 := alive_set (q := .waiting) hi'
          simp only [reduceCtorEq, if_false, Nat.add_right_cancel_iff] at e1
          have e2 := cnt s.procs i .waiting hi' (by decide)
          obtain ⟨more, s', r1, r2⟩ := ih _ (by simp only; omega) _ (cinv_step hi hs) ht rfl
          exact ⟨.sent i :: more, s', by simp only [Chan.run, hs]; exact r1, r2⟩
  have pre : ∀ (m : Nat) (s : Chan), CInv n s → s.todo = m → ∃ more s', s.run more = some s' ∧ s'.closed = 1 := by
    intro m
    induction m with
    | zero => intro s hi ht; exact fin _ s hi ht rfl
    | succ m ihm =>
      intro s hi ht
      have hs : s.step (.main true) = some { s with todo := m, procs := s.procs ++ [.waiting] } := by simp [Chan.step, ht]
      obtain ⟨more, s', r1, r2⟩ := ihm _ (cinv_step hi hs) rfl
      exact ⟨.main true :: more, s', by simp only [Chan.run, hs]; exact r1, r2⟩
  exact pre _ s (cinv_run h) rfl

example : ((Chan.init 2).run [.main true, .got 0, .main false, .sent 0, .ended 0]).map (fun s => (s.closed, s.delivered)) = some (1, 1) := by decide

/-- **C133 refuted (no users).** For an empty list of users the channel is never closed, so whoever ranges over it waits forever. -/
theorem C133_no_users_never_ends (ls : List CLab) (s : Chan) (h : (Chan.init 0).run ls = some s) : s = Chan.init 0 ∧ s.closed = 0 := by
  have h1 : ls = [] := by
    cases ls with
    | nil => rfl
    | cons l ls =>
      have : (Chan.init 0).step l = none := by cases l <;> simp [Chan.step, Chan.init]
      rw [Chan.run, this] at h; cases h
  subst h1
  injection h with h
  rw [← h]; exact ⟨rfl, rfl⟩

/-- **C133 refuted (abandoned).** A goroutine that holds an event waits until the caller receives it, whatever happens to the context: without further receiving, the
goroutine stays, and the channel is never closed. -/
theorem C133_abandoned (n : Nat) (ls : List CLab) (s : Chan) (h : (Chan.init n).run ls = some s) (i : Nat) (hi : s.procs[i]? = some .sending) (more : List CLab)
    (s' : Chan) (hm : s.run more = some s') (hno : ∀ j, CLab.sent j ∉ more) : s'.procs[i]? = some .sending ∧ s'.closed = 0 := by
  have keep : ∀ (more : List CLab) (s : Chan), s.procs[i]? = some .sending → s.run more = some s' → (∀ j, CLab.sent j ∉ more) → s'.procs[i]? = some .sending := by
    intro more
    induction more with
    | nil => intro s hi hm _; injection hm with hm; rw [← hm]; exact hi
    | cons l ls ih =>
      intro s hi hm hno
      simp only [Chan.run] at hm
      cases hs : s.step l with
      | none => rw [hs] at hm; cases hm
      | some t =>
        rw [hs] at hm
        refine ih t ?_ hm (fun j hj => hno j (List.mem_cons_of_mem _ hj))
        have dn : ∀ (x : Chan), x.done.procs = x.procs := by intro x; unfold Chan.done; split <;> rfl
        have hlt : i < s.procs.length := by
          by_contra hc
          rw [List.getElem?_eq_none (by omega)] at hi; cases hi
        cases l with
        | main b =>
          simp only [Chan.step] at hs
          cases ht : s.todo with
          | zero => rw [ht] at hs; cases hs
          | succ m =>
            rw [ht] at hs
            cases b
            · simp at hs; rw [← hs, dn]; exact hi
            · simp at hs; rw [← hs]; simp only [List.getElem?_append_left hlt]; exact hi
        | got k =>
          simp only [Chan.step] at hs
          split at hs
          · rename_i hk
            injection hs with hs; rw [← hs]
            by_cases hki : k = i
            · rw [hki, hi] at hk; cases hk
            · simp only [List.getElem?_set_ne hki]; exact hi
          · cases hs
        | sent k => exact absurd (List.mem_cons_self ..) (hno k)
        | ended k =>
          simp only [Chan.step] at hs
          split at hs
          · rename_i hk
            injection hs with hs; rw [← hs, dn]
            by_cases hki : k = i
            · rw [hki, hi] at hk; cases hk
            · simp only [List.getElem?_set_ne hki]; exact hi
          · cases hs
  have h1 := keep more s hi hm hno
  refine ⟨h1, ?_⟩
  have hrun : (Chan.init n).run (ls ++ more) = some s' := by rw [Chan.run_append, h]; exact hm
  have hI := cinv_run hrun
  exact hI.open_ (by have := hI.count; have := alive_pos h1 (by decide); omega)

example : ∃ s, (Chan.init 1).run [.main true, .got 0] = some s ∧ s.procs[0]? = some .sending := ⟨_, rfl, rfl⟩

/-! ## The shared filter -/

/-- What `filter.Since` points to: nothing, the goroutine's `latest` (feeds.go:60), or the time of a reconnection (pool.go:524-527). -/
inductive Ptr where
  | null
  | latest
  | fixed (t : Int)
  deriving DecidableEq, Repr

/-- A relay's subscription: whether it is there, and whether its EOSE came. -/
structure Sub where
  live : Bool
  eosed : Bool
  deriving DecidableEq, Repr

/-- One user's feed: the pointer, the goroutine's variables, the ids seen (`seenAlready`; they are dropped again after a while, which is left out), the relays'
subscriptions, the events accepted and under way (each in a goroutine of its own, so in no order), the events given to the caller, and the two records in the
key-value store. -/
structure State where
  ptr : Ptr
  latest : Int
  oldest : Int
  serial : Nat
  seen : List Bytes
  sub : Nat → Sub
  queue : List Event
  out : List Event
  mark : Option Int
  low : Option Int

/-- feeds.go:50-67: at the start, with the record of an earlier run if there is one. -/
def init (mark low : Option Int) : State :=
  { ptr := if mark.isSome then .latest else .null, latest := (mark.map Sdk.stamp).getD 0, oldest := 0, serial := 0, seen := [], sub := fun _ => ⟨false, false⟩,
    queue := [], out := [], mark := mark, low := low }

/-- The time the filter has at this moment. -/
def State.since (s : State) : Option Int :=
  match s.ptr with
  | .null => none
  | .latest => some s.latest
  | .fixed t => some t

/-- The filter of feeds.go:63-67 with that time. -/
def feedFilter (pubkey : Bytes) (kinds : Option (List Int)) (since : Option Int) : Filter := { authors := some [pubkey], kinds := kinds, since := since }

/-- `subscribe r`: relay `r` is asked, at first or after a reconnection (pool.go:493); `event r e`: its reader handles an event message (relay.go:222-296);
`eose r` (subscription.go:120-128); `broken r now`: the subscription's channel is closed (pool.go:520-529); `take i`: the goroutine of the feed gets an event under way. -/
inductive Lab where
  | subscribe (r : Nat)
  | event (r : Nat) (e : Event)
  | eose (r : Nat)
  | broken (r : Nat) (now : Int)
  | take (i : Nat)
  deriving DecidableEq, Repr

/-- `sub.match` (relay.go:281, subscription.go:122): with the times before EOSE, without them afterwards. The filter is read at that moment. -/
def State.accepts (s : State) (pubkey : Bytes) (kinds : Option (List Int)) (r : Nat) (e : Event) : Bool :=
  if (s.sub r).eosed then (feedFilter pubkey kinds s.since).matchesIgnoringTimestamps (some e) else (feedFilter pubkey kinds s.since).matches (some e)

/-- The goroutine's loop body (feeds.go:71-84): the event is stored and handed on, and the records are kept. -/
def State.handle (s : State) (e : Event) : State :=
  if s.latest < e.createdAt then
    { s with latest := e.createdAt, serial := s.serial + 1, mark := if (s.serial + 1) % 10 = 0 then some e.createdAt else s.mark, out := s.out ++ [e] }
  else if s.oldest > e.createdAt then { s with oldest := e.createdAt, low := some e.createdAt, out := s.out ++ [e] }
  else { s with out := s.out ++ [e] }

/-- One step. An event message is first checked for its id (relay.go:239-242), then against the filter (relay.go:281), then for its signature (relay.go:287), `auth`. -/
def step (auth : Event → Bool) (pubkey : Bytes) (kinds : Option (List Int)) (s : State) : Lab → Option State
  | .subscribe r => if (s.sub r).live then none else some { s with sub := Function.update s.sub r ⟨true, false⟩ }
  | .event r e =>
    if (s.sub r).live = false then none
    else if e.id ∈ s.seen then some s
    else if s.accepts pubkey kinds r e && auth e then some { s with seen := e.id :: s.seen, queue := s.queue ++ [e] }
    else some { s with seen := e.id :: s.seen }
  | .eose r => if (s.sub r).live then some { s with sub := Function.update s.sub r ⟨true, true⟩ } else none
  | .broken r now => if (s.sub r).live then some { s with sub := Function.update s.sub r ⟨false, false⟩, ptr := .fixed now } else none
  | .take i =>
    match s.queue[i]? with
    | none => none
    | some e => some (({ s with queue := s.queue.eraseIdx i } : State).handle e)

/-- Any schedule. -/
def run (auth : Event → Bool) (pubkey : Bytes) (kinds : Option (List Int)) (s : State) : List Lab → Option State
  | [] => some s
  | l :: ls => match step auth pubkey kinds s l with
    | none => none
    | some s' => run auth pubkey kinds s' ls

section
variable {auth : Event → Bool} {pubkey : Bytes} {kinds : Option (List Int)}

theorem run_snoc {s t : State} {ls : List Lab} {l : Lab} (h : run auth pubkey kinds s (ls ++ [l]) = some t) :
    ∃ u, run auth pubkey kinds s ls = some u ∧ step auth pubkey kinds u l = some t := by
  induction ls generalizing s with
  | nil =>
    simp only [List.nil_append, run] at h
    cases hs : step auth pubkey kinds s l with
    | none => rw [hs] at h; cases h
    | some u => rw [hs] at h; injection h with h; exact ⟨s, rfl, by rw [hs, h]⟩
  | cons a ls ih =>
    simp only [List.cons_append, run] at h
    cases hs : step auth pubkey kinds s a with
    | none => rw [hs] at h; cases h
    | some u =>
      rw [hs] at h
      obtain ⟨v, h1, h2⟩ := ih h
      exact ⟨v, by simp only [run, hs]; exact h1, h2⟩

/-- Induction over runs, from the right. -/
theorem run_induct {P : List Lab → State → Prop} {s0 : State} (h0 : P [] s0)
    (hstep : ∀ ls s l t, run auth pubkey kinds s0 ls = some s → P ls s → step auth pubkey kinds s l = some t → P (ls ++ [l]) t) :
    ∀ ls s, run auth pubkey kinds s0 ls = some s → P ls s := by
  intro ls
  induction ls using List.reverseRecOn with
  | nil => intro s h; injection h with h; rw [← h]; exact h0
  | append_singleton ls l ih =>
    intro t h
    obtain ⟨u, h1, h2⟩ := run_snoc h
    exact hstep ls u l t h1 (ih u h1) h2

/-- The events a goroutine handled are appended, nothing else that matters to delivery changes. -/
theorem handle_parts (s : State) (e : Event) : (s.handle e).out = s.out ++ [e] ∧ (s.handle e).queue = s.queue ∧ (s.handle e).seen = s.seen ∧
    (s.handle e).sub = s.sub ∧ (s.handle e).ptr = s.ptr := by
  unfold State.handle
  split
  · exact ⟨rfl, rfl, rfl, rfl, rfl⟩
  · split <;> exact ⟨rfl, rfl, rfl, rfl, rfl⟩

theorem eraseIdx_perm {l : List Event} {i : Nat} {e : Event} (h : l[i]? = some e) : List.Perm l (e :: l.eraseIdx i) := by
  induction l generalizing i with
  | nil => simp at h
  | cons x xs ih =>
    cases i with
    | zero => simp at h; subst h; simp
    | succ i =>
      have := ih (by simpa using h)
      simp only [List.eraseIdx_cons_succ]
      exact (this.cons x).trans (List.Perm.swap e x _)

/-- What is under way and what was given, up to order. -/
theorem step_perm {s t : State} {l : Lab} (h : step auth pubkey kinds s l = some t) :
    (List.Perm (t.out ++ t.queue) (s.out ++ s.queue) ∧ (t.seen = s.seen ∨ ∃ r e, l = .event r e ∧ e.id ∉ s.seen ∧ t.seen = e.id :: s.seen ∧
      ¬ (s.accepts pubkey kinds r e = true ∧ auth e = true))) ∨
    (∃ r e, l = .event r e ∧ e.id ∉ s.seen ∧ t.seen = e.id :: s.seen ∧ s.accepts pubkey kinds r e = true ∧ auth e = true ∧ t.out ++ t.queue = (s.out ++ s.queue) ++ [e]) := by
  cases l with
  | subscribe r =>
    simp only [step] at h
    split at h
    · cases h
    · injection h with h; subst h; exact Or.inl ⟨List.Perm.refl _, Or.inl rfl⟩
  | event r e =>
    simp only [step] at h
    by_cases h1 : (s.sub r).live = false
    · rw [if_pos h1] at h; cases h
    rw [if_neg h1] at h
    by_cases h2 : e.id ∈ s.seen
    · rw [if_pos h2] at h; injection h with h; subst h; exact Or.inl ⟨List.Perm.refl _, Or.inl rfl⟩
    rw [if_neg h2] at h
    by_cases h3 : (s.accepts pubkey kinds r e && auth e) = true
    · rw [if_pos h3] at h; injection h with h; subst h
      rw [Bool.and_eq_true] at h3
      exact Or.inr ⟨r, e, rfl, h2, rfl, h3.1, h3.2, by simp⟩
    · rw [if_neg h3] at h; injection h with h; subst h
      rw [Bool.and_eq_true] at h3
      exact Or.inl ⟨List.Perm.refl _, Or.inr ⟨r, e, rfl, h2, rfl, h3⟩⟩
  | eose r =>
    simp only [step] at h
    split at h
    · injection h with h; subst h; exact Or.inl ⟨List.Perm.refl _, Or.inl rfl⟩
    · cases h
  | broken r now =>
    simp only [step] at h
    split at h
    · injection h with h; subst h; exact Or.inl ⟨List.Perm.refl _, Or.inl rfl⟩
    · cases h
  | take i =>
    simp only [step] at h
    cases hq : s.queue[i]? with
    | none => rw [hq] at h; cases h
    | some e =>
      rw [hq] at h; injection h with h; subst h
      obtain ⟨a, b, c, d, _⟩ := handle_parts ({ s with queue := s.queue.eraseIdx i } : State) e
      refine Or.inl ⟨?_, Or.inl c⟩
      rw [a, b]
      simp only [List.append_assoc]
      exact ((eraseIdx_perm hq).symm.append_left s.out)

/-- Everything delivered or under way came from a relay, is authentic, is by the user and of the kinds; no id twice; every id was seen. -/
structure Sound (auth : Event → Bool) (pubkey : Bytes) (kinds : Option (List Int)) (ls : List Lab) (s : State) : Prop where
  from_relay : ∀ e ∈ s.out ++ s.queue, ∃ r, Lab.event r e ∈ ls
  genuine : ∀ e ∈ s.out ++ s.queue, auth e = true ∧ e.pubkey = pubkey ∧ ∀ ks, kinds = some ks → e.kind ∈ ks
  once : ((s.out ++ s.queue).map Event.id).Nodup
  seen : ∀ e ∈ s.out ++ s.queue, e.id ∈ s.seen

theorem ignoring_spec {since : Option Int} {e : Event} : (feedFilter pubkey kinds since).matchesIgnoringTimestamps (some e) = true ↔
    e.pubkey = pubkey ∧ ∀ ks, kinds = some ks → e.kind ∈ ks := by
  unfold Filter.matchesIgnoringTimestamps feedFilter
  simp only [passes, tagEntries, matchTagsLoop]
  cases kinds with
  | none => simp
  | some ks => simp [and_comm]

theorem matches_spec {since : Option Int} {e : Event} : (feedFilter pubkey kinds since).matches (some e) = true ↔
    (e.pubkey = pubkey ∧ ∀ ks, kinds = some ks → e.kind ∈ ks) ∧ ∀ t, since = some t → t ≤ e.createdAt := by
  have h := @ignoring_spec pubkey kinds since e
  have hs : ∀ t, (feedFilter pubkey kinds since).since = some t ↔ since = some t := fun t => Iff.rfl
  unfold Filter.matches
  by_cases hm : (feedFilter pubkey kinds since).matchesIgnoringTimestamps (some e) = true
  · rw [← h]
    cases since <;> simp [feedFilter]
  · rw [← h]
    simp [hm]

theorem accepts_genuine {s : State} {r : Nat} {e : Event} (h : s.accepts pubkey kinds r e = true) : e.pubkey = pubkey ∧ ∀ ks, kinds = some ks → e.kind ∈ ks := by
  unfold State.accepts at h
  split at h
  · exact ignoring_spec.1 h
  · exact (matches_spec.1 h).1

theorem sound_run {mark low : Option Int} : ∀ ls s, run auth pubkey kinds (init mark low) ls = some s → Sound auth pubkey kinds ls s := by
  refine run_induct ⟨?_, ?_, ?_, ?_⟩ ?_
  · simp [init]
  · simp [init]
  · simp [init]
  · simp [init]
  intro ls s l t _ hs ht
  rcases step_perm ht with ⟨hp, hseen⟩ | ⟨r, e, rfl, h1, h2, h3, h4, h5⟩
  · refine ⟨fun e he => ?_, fun e he => hs.genuine e (hp.mem_iff.1 he), ?_, fun e he => ?_⟩
    · obtain ⟨r, hr⟩ := hs.from_relay e (hp.mem_iff.1 he)
      exact ⟨r, List.mem_append_left _ hr⟩
    · exact (hp.map _).nodup_iff.2 hs.once
    · have := hs.seen e (hp.mem_iff.1 he)
      rcases hseen with h | ⟨_, _, _, _, h, _⟩
      · rw [h]; exact this
      · rw [h]; exact List.mem_cons_of_mem _ this
  · have hmem : ∀ x, x ∈ t.out ++ t.queue ↔ x ∈ s.out ++ s.queue ∨ x = e := by intro x; rw [h5, List.mem_append, List.mem_singleton]
    refine ⟨fun x hx => ?_, fun x hx => ?_, ?_, fun x hx => ?_⟩
    · rcases (hmem x).1 hx with hx | rfl
      · obtain ⟨r', hr'⟩ := hs.from_relay x hx
        exact ⟨r', List.mem_append_left _ hr'⟩
      · exact ⟨r, by simp⟩
    · rcases (hmem x).1 hx with hx | rfl
      · exact hs.genuine x hx
      · exact ⟨h4, accepts_genuine h3⟩
    · rw [h5, List.map_append, List.nodup_append]
      refine ⟨hs.once, by simp, ?_⟩
      intro a ha b hb
      simp only [List.map_cons, List.map_nil, List.mem_singleton] at hb
      subst hb
      rintro rfl
      obtain ⟨x, hx, hxe⟩ := List.mem_map.1 ha
      exact h1 (hxe ▸ hs.seen x hx)
    · rw [h2]
      rcases (hmem x).1 hx with hx | rfl
      · exact List.mem_cons_of_mem _ (hs.seen x hx)
      · simp

/-- **C134 (only the user's events, once).** On every schedule, what the feed delivers came from one of the relays, is authentic, is by the user and of one of the
kinds asked for, and no event comes twice. -/
theorem C134_sound (mark low : Option Int) (ls : List Lab) (s : State) (h : run auth pubkey kinds (init mark low) ls = some s) :
    (∀ e ∈ s.out, (∃ r, Lab.event r e ∈ ls) ∧ auth e = true ∧ e.pubkey = pubkey ∧ ∀ ks, kinds = some ks → e.kind ∈ ks) ∧ (s.out.map Event.id).Nodup := by
  have hs := sound_run ls s h
  refine ⟨fun e he => ?_, ?_⟩
  · exact ⟨hs.from_relay e (List.mem_append_left _ he), hs.genuine e (List.mem_append_left _ he)⟩
  · have := hs.once
    rw [List.map_append, List.nodup_append] at this
    exact this.1

/-- Spec: the event is one to deliver: authentic, the user's, of a kind asked for. -/
def Wanted (auth : Event → Bool) (pubkey : Bytes) (kinds : Option (List Int)) (e : Event) : Prop :=
  auth e = true ∧ e.pubkey = pubkey ∧ ∀ ks, kinds = some ks → e.kind ∈ ks

/-- **C134 (first run, no disconnection).** If there is no record of an earlier run and no connection breaks, every wanted event a relay sends is delivered or under way,
provided nobody sends something else under its id. -/
theorem C134_complete_partial (low : Option Int) (ls : List Lab) (s : State) (h : run auth pubkey kinds (init none low) ls = some s)
    (hb : ∀ r now, Lab.broken r now ∉ ls) (r : Nat) (e : Event) (he : Lab.event r e ∈ ls) (hw : Wanted auth pubkey kinds e)
    (hid : ∀ r' e', Lab.event r' e' ∈ ls → e'.id = e.id → e' = e) : e ∈ s.out ++ s.queue := by
  have key : ∀ ls s, run auth pubkey kinds (init none low) ls = some s → (∀ r now, Lab.broken r now ∉ ls) → (∀ r' e', Lab.event r' e' ∈ ls → e'.id = e.id → e' = e) →
      s.ptr = .null ∧ ((∃ r, Lab.event r e ∈ ls) → e ∈ s.out ++ s.queue) ∧ (e.id ∈ s.seen → ∃ r, Lab.event r e ∈ ls) := by
    refine run_induct (P := fun ls s => (∀ r now, Lab.broken r now ∉ ls) → (∀ r' e', Lab.event r' e' ∈ ls → e'.id = e.id → e' = e) →
      s.ptr = .null ∧ ((∃ r, Lab.event r e ∈ ls) → e ∈ s.out ++ s.queue) ∧ (e.id ∈ s.seen → ∃ r, Lab.event r e ∈ ls)) ?_ ?_
    · intro _ _; exact ⟨rfl, by simp, by simp [init]⟩
    · intro ls s l t _ ih ht hb hid
      obtain ⟨i1, i2, i3⟩ := ih (fun r now hm => hb r now (List.mem_append_left _ hm)) (fun r' e' hm => hid r' e' (List.mem_append_left _ hm))
      have hptr : t.ptr = .null := by
        cases l with
        | subscribe r => simp only [step] at ht; split at ht <;> [cases ht; (injection ht with ht; subst ht; exact i1)]
        | event r x =>
          simp only [step] at ht
          split at ht
          · cases ht
          · split at ht
            · injection ht with ht; subst ht; exact i1
            · split at ht <;> (injection ht with ht; subst ht; exact i1)
        | eose r => simp only [step] at ht; split at ht <;> [(injection ht with ht; subst ht; exact i1); cases ht]
        | broken r now => exact absurd (List.mem_append_right _ (List.mem_singleton.2 rfl)) (hb r now)
        | take i =>
          simp only [step] at ht
          cases hq : s.queue[i]? with
          | none => rw [hq] at ht; cases ht
          | some x => rw [hq] at ht; injection ht with ht; subst ht; rw [(handle_parts _ x).2.2.2.2]; exact i1
      have hacc : ∀ r, s.accepts pubkey kinds r e = true := by
        intro r
        have : s.since = none := by simp [State.since, i1]
        unfold State.accepts
        rw [this]
        split
        · exact ignoring_spec.2 hw.2
        · exact matches_spec.2 ⟨hw.2, by simp⟩
      refine ⟨hptr, ?_, ?_⟩
      · rintro ⟨r, hr⟩
        rcases List.mem_append.1 hr with hr | hr
        · have hin := i2 ⟨r, hr⟩
          rcases step_perm ht with ⟨hp, _⟩ | ⟨_, _, _, _, _, _, _, h5⟩
          · exact hp.mem_iff.2 hin
          · rw [h5]; exact List.mem_append_left _ hin
        · rw [List.mem_singleton] at hr
          subst hr
          rcases step_perm ht with ⟨hp, hseen⟩ | ⟨r', e', heq, _, _, _, _, h5⟩
          · rcases hseen with hsn | ⟨r', e', heq, _, _, hn⟩
            · by_cases hm : e.id ∈ s.seen
              · exact hp.mem_iff.2 (i2 (i3 hm))
              · -- an unseen event is marked as seen
                exfalso
                simp only [step] at ht
                by_cases hlv : (s.sub r).live = false
                · rw [if_pos hlv] at ht; cases ht
                · rw [if_neg hlv, if_neg hm] at ht
                  by_cases hq : (s.accepts pubkey kinds r e && auth e) = true
                  · rw [if_pos hq] at ht; injection ht with ht; subst ht
                    have : e.id ∈ s.seen := by rw [← hsn]; simp
                    exact hm this
                  · rw [if_neg hq] at ht; injection ht with ht; subst ht
                    have : e.id ∈ s.seen := by rw [← hsn]; simp
                    exact hm this
            · injection heq with h1 h2
              subst h1; subst h2
              exact absurd ⟨hacc r, hw.1⟩ hn
          · injection heq with h1 h2
            subst h2
            rw [h5]; simp
      · intro hsn
        rcases step_perm ht with ⟨_, h | ⟨r', e', heq, _, h, _⟩⟩ | ⟨r', e', heq, _, h, _⟩
        · rw [h] at hsn
          obtain ⟨r, hr⟩ := i3 hsn
          exact ⟨r, List.mem_append_left _ hr⟩
        all_goals
          rw [h, List.mem_cons] at hsn
          rcases hsn with hsn | hsn
          · have hm : Lab.event r' e' ∈ ls ++ [l] := by rw [heq]; simp
            have := hid r' e' hm hsn.symm
            rw [this] at hm
            exact ⟨r', hm⟩
          · obtain ⟨r, hr⟩ := i3 hsn
            exact ⟨r, List.mem_append_left _ hr⟩
  exact (key ls s h hb hid).2.1 ⟨r, he⟩

/-- The newest of some events, or the time to start with. -/
def newest (t : Int) (es : List Event) : Int := es.foldl (fun m e => max m e.createdAt) t

theorem newest_append (t : Int) (es : List Event) (e : Event) : newest t (es ++ [e]) = max (newest t es) e.createdAt := by
  simp [newest]

theorem newest_le (t : Int) (es : List Event) (b : Int) : newest t es ≤ b ↔ t ≤ b ∧ ∀ e ∈ es, e.createdAt ≤ b := by
  induction es using List.reverseRecOn with
  | nil => simp [newest]
  | append_singleton es e ih =>
    rw [newest_append, Int.max_le, ih]
    constructor
    · rintro ⟨⟨h1, h2⟩, h3⟩
      exact ⟨h1, fun x hx => by rcases List.mem_append.1 hx with hx | hx; exacts [h2 x hx, by rw [List.mem_singleton] at hx; rw [hx]; exact h3]⟩
    · rintro ⟨h1, h2⟩
      exact ⟨⟨h1, fun x hx => h2 x (List.mem_append_left _ hx)⟩, h2 e (by simp)⟩

/-- What the goroutine knows: `latest` is the newest time among the record it began with and the events delivered. -/
theorem latest_run {mark low : Option Int} : ∀ ls s, run auth pubkey kinds (init mark low) ls = some s →
    s.latest = newest ((mark.map Sdk.stamp).getD 0) s.out ∧ (s.ptr = .latest → ∃ m, mark = some m) ∧ (s.ptr = .null → mark = none) ∧
    (s.mark = mark ∨ ∃ e ∈ s.out, s.mark = some e.createdAt) ∧ s.oldest ≤ 0 ∧ ((∀ e ∈ s.out, 0 ≤ e.createdAt) → s.low = low) ∧ ((∀ e ∈ s.out, 0 ≤ e.createdAt) → s.oldest = 0) := by
  refine run_induct ⟨?_, ?_, ?_, ?_, ?_, ?_, ?_⟩ ?_
  · simp [init, newest]
  · cases mark <;> simp [init]
  · cases mark <;> simp [init]
  · exact Or.inl rfl
  · simp [init]
  · intro _; rfl
  · intro _; rfl
  intro ls s l t _ ih ht
  obtain ⟨i1, i2, i3, i4, i5, i6, i7⟩ := ih
  cases l with
  | subscribe r => simp only [step] at ht; split at ht <;> [cases ht; (injection ht with ht; subst ht; exact ⟨i1, i2, i3, i4, i5, i6, i7⟩)]
  | event r x =>
    simp only [step] at ht
    split at ht
    · cases ht
    · split at ht
      · injection ht with ht; subst ht; exact ⟨i1, i2, i3, i4, i5, i6, i7⟩
      · split at ht <;> (injection ht with ht; subst ht; exact ⟨i1, i2, i3, i4, i5, i6, i7⟩)
  | eose r => simp only [step] at ht; split at ht <;> [(injection ht with ht; subst ht; exact ⟨i1, i2, i3, i4, i5, i6, i7⟩); cases ht]
  | broken r now =>
    simp only [step] at ht
    split at ht <;> [(injection ht with ht; subst ht; exact ⟨i1, by simp, by simp, i4, i5, i6, i7⟩); cases ht]
  | take i =>
    simp only [step] at ht
    cases hq : s.queue[i]? with
    | none => rw [hq] at ht; cases ht
    | some e =>
      rw [hq] at ht; injection ht with ht; subst ht
      have mk : s.mark = mark ∨ ∃ x ∈ s.out ++ [e], s.mark = some x.createdAt := by
        rcases i4 with h | ⟨x, hx, h⟩
        · exact Or.inl h
        · exact Or.inr ⟨x, List.mem_append_left _ hx, h⟩
      unfold State.handle
      simp only
      by_cases h1 : s.latest < e.createdAt
      · rw [if_pos h1]
        refine ⟨?_, i2, i3, ?_, i5, fun h => i6 (fun x hx => h x (List.mem_append_left _ hx)), fun h => i7 (fun x hx => h x (List.mem_append_left _ hx))⟩
        · simp only [newest_append]; rw [← i1]; omega
        · simp only
          split
          · exact Or.inr ⟨e, by simp, rfl⟩
          · exact mk
      · rw [if_neg h1]
        have hl : newest ((mark.map Sdk.stamp).getD 0) (s.out ++ [e]) = s.latest := by rw [newest_append, ← i1]; omega
        by_cases h2 : s.oldest > e.createdAt
        · rw [if_pos h2]
          refine ⟨by simp only; exact hl.symm, i2, i3, mk, by simp only; omega, ?_, ?_⟩
          all_goals
            intro h
            have h3 := h e (by simp)
            have := i7 (fun x hx => h x (List.mem_append_left _ hx))
            omega
        · rw [if_neg h2]
          exact ⟨by simp only; exact hl.symm, i2, i3, mk, i5, fun h => i6 (fun x hx => h x (List.mem_append_left _ hx)), fun h => i7 (fun x hx => h x (List.mem_append_left _ hx))⟩

/-- **C134 (later runs).** With a record of an earlier run, and as long as no connection breaks, a wanted event whose id is new is still accepted if it is not older than
everything delivered so far and than the record. -/
theorem C134_newer_accepted (mark : Int) (low : Option Int) (ls : List Lab) (s : State) (h : run auth pubkey kinds (init (some mark) low) ls = some s)
    (hp : s.ptr = .latest) (r : Nat) (e : Event) (hl : (s.sub r).live = true) (hw : Wanted auth pubkey kinds e) (hn : e.id ∉ s.seen)
    (h1 : Sdk.stamp mark ≤ e.createdAt) (h2 : ∀ x ∈ s.out, x.createdAt ≤ e.createdAt) :
    ∃ t, step auth pubkey kinds s (.event r e) = some t ∧ e ∈ t.queue := by
  have hlat := (latest_run ls s h).1
  have hle : s.latest ≤ e.createdAt := by
    rw [hlat, newest_le]; exact ⟨by simpa using h1, h2⟩
  have hacc : s.accepts pubkey kinds r e = true := by
    unfold State.accepts
    split
    · exact ignoring_spec.2 hw.2
    · exact matches_spec.2 ⟨hw.2, fun t ht => by simp [State.since, hp] at ht; omega⟩
  refine ⟨{ s with seen := e.id :: s.seen, queue := s.queue ++ [e] }, ?_, ?_⟩
  · simp [step, hl, hn, hacc, hw.1]
  · simp

/-- The times of the events that were newer than everything before them, in the order of delivery. -/
def climbs (t : Int) (es : List Event) : List Int := (es.foldl (fun a e => if a.1 < e.createdAt then (e.createdAt, a.2 ++ [e.createdAt]) else a) (t, [])).2

/-- **C134 (the record is written).** The record for the next run is the time of every tenth event that was newer than all before it. -/
theorem C134_record_of_tenth (mark low : Option Int) (ls : List Lab) (s : State) (h : run auth pubkey kinds (init mark low) ls = some s) :
    let c := climbs ((mark.map Sdk.stamp).getD 0) s.out
    s.mark = if c.length < 10 then mark else c[c.length / 10 * 10 - 1]? := by
  have key : ∀ ls s, run auth pubkey kinds (init mark low) ls = some s →
      (s.out.foldl (fun a e => if a.1 < e.createdAt then (e.createdAt, a.2 ++ [e.createdAt]) else a) ((mark.map Sdk.stamp).getD 0, [])).1 = s.latest ∧
      s.serial = (climbs ((mark.map Sdk.stamp).getD 0) s.out).length ∧
      s.mark = if s.serial < 10 then mark else (climbs ((mark.map Sdk.stamp).getD 0) s.out)[s.serial / 10 * 10 - 1]? := by
    refine run_induct ⟨rfl, rfl, rfl⟩ ?_
    intro ls s l t _ ih ht
    obtain ⟨i1, i2, i3⟩ := ih
    cases l with
    | subscribe r => simp only [step] at ht; split at ht <;> [cases ht; (injection ht with ht; subst ht; exact ⟨i1, i2, i3⟩)]
    | event r x =>
      simp only [step] at ht
      split at ht
      · cases ht
      · split at ht
        · injection ht with ht; subst ht; exact ⟨i1, i2, i3⟩
        · split at ht <;> (injection ht with ht; subst ht; exact ⟨i1, i2, i3⟩)
    | eose r => simp only [step] at ht; split at ht <;> [(injection ht with ht; subst ht; exact ⟨i1, i2, i3⟩); cases ht]
    | broken r now => simp only [step] at ht; split at ht <;> [(injection ht with ht; subst ht; exact ⟨i1, i2, i3⟩); cases ht]
    | take i =>
      simp only [step] at ht
      cases hq : s.queue[i]? with
      | none => rw [hq] at ht; cases ht
      | some e =>
        rw [hq] at ht; injection ht with ht; subst ht
        unfold climbs at i2 i3 ⊢
        unfold State.handle
        simp only
        by_cases h1 : s.latest < e.createdAt
        · rw [if_pos h1]
          simp only [List.foldl_append, List.foldl_cons, List.foldl_nil, i1, if_pos h1, List.length_append, List.length_cons, List.length_nil]
          refine ⟨trivial, by rw [i2], ?_⟩
          generalize hc : (List.foldl (fun a e => if a.1 < e.createdAt then (e.createdAt, a.2 ++ [e.createdAt]) else a) ((Option.map Sdk.stamp mark).getD 0, []) s.out).2 = c at i2 i3 ⊢
          by_cases h2 : (s.serial + 1) % 10 = 0
          · rw [if_pos h2, if_neg (by omega), List.getElem?_append_right (by omega)]
            have : (s.serial + 1) / 10 * 10 - 1 - c.length = 0 := by omega
            rw [this]; rfl
          · rw [if_neg h2, i3]
            by_cases h3 : s.serial < 10
            · rw [if_pos h3, if_pos (by omega)]
            · rw [if_neg h3, if_neg (by omega), List.getElem?_append_left (by omega)]
              have : (s.serial + 1) / 10 = s.serial / 10 := by omega
              rw [this]
        · rw [if_neg h1]
          split <;>
          · simp only [List.foldl_append, List.foldl_cons, List.foldl_nil, i1, if_neg h1]
            exact ⟨trivial, i2, i3⟩
  obtain ⟨_, h2, h3⟩ := key ls s h
  simp only
  rw [← h2]; exact h3

/-- **C134 (records).** The record for the next run is the old one or the time of an event that was delivered, so it is never ahead of what the caller got; and for events
after 1970 the record of the oldest event is never written. -/
theorem C134_records (mark low : Option Int) (ls : List Lab) (s : State) (h : run auth pubkey kinds (init mark low) ls = some s) :
    (s.mark = mark ∨ ∃ e ∈ s.out, s.mark = some e.createdAt) ∧ ((∀ e ∈ s.out, 0 ≤ e.createdAt) → s.low = low) :=
  ⟨(latest_run ls s h).2.2.2.1, (latest_run ls s h).2.2.2.2.2.1⟩

/-- An id that was seen and not accepted never is. -/
theorem lost_forever {s0 : State} (id : Bytes) : ∀ ls s, run auth pubkey kinds s0 ls = some s → id ∈ s0.seen → (∀ e ∈ s0.out ++ s0.queue, e.id ≠ id) →
    id ∈ s.seen ∧ ∀ e ∈ s.out ++ s.queue, e.id ≠ id := by
  refine run_induct (P := fun _ s => id ∈ s0.seen → (∀ e ∈ s0.out ++ s0.queue, e.id ≠ id) → id ∈ s.seen ∧ ∀ e ∈ s.out ++ s.queue, e.id ≠ id) ?_ ?_
  · exact fun a b => ⟨a, b⟩
  · intro ls s l t _ ih ht a b
    obtain ⟨i1, i2⟩ := ih a b
    rcases step_perm ht with ⟨hp, hseen⟩ | ⟨r, e, _, h1, h2, _, _, h5⟩
    · refine ⟨?_, fun e he => i2 e (hp.mem_iff.1 he)⟩
      rcases hseen with h | ⟨_, _, _, _, h, _⟩
      · rw [h]; exact i1
      · rw [h]; exact List.mem_cons_of_mem _ i1
    · refine ⟨by rw [h2]; exact List.mem_cons_of_mem _ i1, ?_⟩
      rw [h5]
      intro x hx
      rcases List.mem_append.1 hx with hx | hx
      · exact i2 x hx
      · rw [List.mem_singleton] at hx
        subst hx
        intro hc; rw [hc] at h1; exact h1 i1

end

/-- Two events of the user 1, made at 300 and at 200. -/
def ev (n : UInt8) (t : Int) : Event := { id := [n], pubkey := [1], createdAt := t, kind := 1, tags := [], content := [], sig := [] }

/-- **C134 refuted (the filter moves).** The feed was last read up to time 100. The relay is asked for everything since 100 and sends what it has, newest first, the
event of 300 and the one of 200. If the first is handed on before the second is read, the second, although asked for, is dropped, and no later message of any relay brings it back. -/
theorem C134_moved_since : ∃ s, run (fun _ => true) [1] none (init (some 100) none) [.subscribe 0, .event 0 (ev 1 300), .take 0, .event 0 (ev 2 200), .eose 0] = some s ∧
    s.out = [ev 1 300] ∧ s.queue = [] ∧
    ∀ more t, run (fun _ => true) [1] none s more = some t → ∀ e ∈ t.out, e.id ≠ (ev 2 200).id := by
  refine ⟨_, rfl, rfl, rfl, ?_⟩
  intro more t ht e he
  exact (lost_forever [2] more t ht (by decide +kernel) (by decide +kernel)).2 e (List.mem_append_left _ he)

/-- **C134 refuted (a broken connection).** Also on a first run: when the connection to one relay breaks, the time of the shared filter is set to the present, and what
another relay still has to send of its stored events is dropped. -/
theorem C134_other_relay_breaks : ∃ s, run (fun _ => true) [1] none (init none none) [.subscribe 0, .subscribe 1, .broken 0 1000, .event 1 (ev 1 300), .event 1 (ev 2 200), .eose 1] = some s ∧
    s.out = [] ∧ s.queue = [] ∧
    ∀ more t, run (fun _ => true) [1] none s more = some t → ∀ e ∈ t.out, e.id ≠ (ev 1 300).id ∧ e.id ≠ (ev 2 200).id := by
  refine ⟨_, rfl, rfl, rfl, ?_⟩
  intro more t ht e he
  exact ⟨(lost_forever [1] more t ht (by decide +kernel) (by decide +kernel)).2 e (List.mem_append_left _ he),
    (lost_forever [2] more t ht (by decide +kernel) (by decide +kernel)).2 e (List.mem_append_left _ he)⟩

/-- The hypotheses of the theorems above are met. -/
example : ∃ s, run (fun _ => true) [1] (some [1]) (init none none) [.subscribe 0, .event 0 (ev 1 300), .take 0, .event 0 (ev 2 200), .eose 0, .take 0] = some s ∧
    s.out = [ev 1 300, ev 2 200] ∧ s.mark = none ∧ Wanted (fun _ => true) [1] (some [1]) (ev 1 300) :=
  ⟨_, rfl, rfl, rfl, rfl, rfl, by decide⟩

example : ∃ s, run (fun _ => true) [1] none (init (some 100) none) [.subscribe 0, .event 0 (ev 1 300), .take 0] = some s ∧ s.ptr = .latest ∧ (s.sub 0).live = true ∧ (ev 2 400).id ∉ s.seen :=
  ⟨_, rfl, rfl, rfl, by decide⟩

end GoNostr.LiveFeed
