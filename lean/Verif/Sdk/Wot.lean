import Verif.Relay.Lemmas
/-!
# C79: concurrent `LoadWoTFilter` calls (sdk/wot.go:18-100)

State machine of one of the eight places (the places are independent): any number of callers, for any pubkeys that fall on the place. Every interleaving of the labelled
atomic actions is a run. The outcome of a load (filter or error) is an arbitrary value.
-/

set_option autoImplicit false

namespace GoNostr.Wot

/-- Where a caller is (wot.go:37-99): `seen c` has read `wotCallsInPlace`, `wait c m` is in the select on the channels at position `m` of call `c`, `other c` waits for `done`, `lead c` runs the load,
`deliver c r` holds `wc.mutex` and sends the outcome, `ret c r` has returned the outcome `r` of call `c`. -/
inductive Pc
  | start | seen (c : Nat) | wait (c m : Nat) | other (c : Nat) | lead (c : Nat) | deliver (c r : Nat) | ret (c r : Nat)
  deriving DecidableEq, Repr

/-- A call of `LoadWoTFilter` for the user `id` (sdk/wot.go:37-99). -/
structure Caller where
  id : Nat
  pc : Pc
  deriving DecidableEq, Repr

/-- A `wotCall` (wot.go:18-24): waiting callers in order of registration, how many were served, `wc.mutex` held by the leader, `done` closed; `outcome` and `leader` are history. -/
structure Call where
  id : Nat
  waiters : List Nat
  next : Nat
  locked : Bool
  closed : Bool
  outcome : Option Nat
  leader : Nat
  deriving DecidableEq, Repr

/-- The callers, the calls in place and `wotCallsInPlace` of one slot (sdk/wot.go:14-35). -/
structure State where
  callers : List Caller
  calls : List Call
  slot : Option Nat
  deriving DecidableEq, Repr

/-- Nobody has called. -/
def init : State := { callers := [], calls := [], slot := none }

/-- The atomic actions of the machine; its step function says which lines each of them is. -/
inductive Lab
  | call (id : Nat)
  | enter (i : Nat)
  | look (i : Nat)
  | load (i r : Nat)
  | send (i : Nat)
  | finish (i : Nat)
  | again (i : Nat)
  deriving DecidableEq, Repr

/-- A caller goes on. -/
def State.setPc (s : State) (i : Nat) (w : Caller) (p : Pc) : State := { s with callers := s.callers.set i { w with pc := p } }

/-- One atomic action. -/
def step (s : State) : Lab → Option State
  | .call id => some { s with callers := s.callers ++ [⟨id, .start⟩] }
  -- wot.go:38-53
  | .enter i => match s.callers[i]? with
    | none => none
    | some w => if w.pc = .start then
        (match s.slot with
        | none => some { s with
            callers := s.callers.set i { w with pc := .lead s.calls.length }
            calls := s.calls ++ [⟨w.id, [], 0, false, false, none, i⟩]
            slot := some s.calls.length }
        | some c => some (s.setPc i w (.seen c)))
      else none
  -- wot.go:55-72
  | .look i => match s.callers[i]? with
    | none => none
    | some w => match w.pc with
      | .seen c => match s.calls[c]? with
        | none => none
        | some k => if k.locked then none
          else if k.id = w.id then some { s with
            callers := s.callers.set i { w with pc := .wait c k.waiters.length }
            calls := s.calls.set c { k with waiters := k.waiters ++ [i] } }
          else some (s.setPc i w (.other c))
      | _ => none
  -- wot.go:78-87
  | .load i r => match s.callers[i]? with
    | none => none
    | some w => match w.pc with
      | .lead c => match s.calls[c]? with
        | none => none
        | some k => some { s with
            callers := s.callers.set i { w with pc := .deliver c r }
            calls := s.calls.set c { k with
              locked := true
              outcome := some r } }
      | _ => none
  -- wot.go:82-90 with 63-68
  | .send i => match s.callers[i]? with
    | none => none
    | some w => match w.pc with
      | .deliver c r => match s.calls[c]? with
        | none => none
        | some k => match k.waiters[k.next]? with
          | none => none
          | some j => match s.callers[j]? with
            | none => none
            | some v => if v.pc = .wait c k.next then some { s with
                callers := s.callers.set j { v with pc := .ret c r }
                calls := s.calls.set c { k with next := k.next + 1 } }
              else none
      | _ => none
  -- wot.go:93-99
  | .finish i => match s.callers[i]? with
    | none => none
    | some w => match w.pc with
      | .deliver c r => match s.calls[c]? with
        | none => none
        | some k => if k.waiters.length ≤ k.next then some { s with
            callers := s.callers.set i { w with pc := .ret c r }
            calls := s.calls.set c { k with
              locked := false
              closed := true }
            slot := none }
          else none
      | _ => none
  -- wot.go:72-74
  | .again i => match s.callers[i]? with
    | none => none
    | some w => match w.pc with
      | .other c => match s.calls[c]? with
        | none => none
        | some k => if k.closed then some (s.setPc i w .start) else none
      | _ => none

/-- A schedule: the actions one after the other. -/
def run (s : State) : List Lab → Option State
  | [] => some s
  | l :: ls => match step s l with
    | none => none
    | some s' => run s' ls

theorem run_inv {P : State → Prop} (hs : ∀ s l s', P s → step s l = some s' → P s') :
    ∀ {ls : List Lab} {s s' : State}, P s → run s ls = some s' → P s' := by
  intro ls
  induction ls with
  | nil => intro s s' hp h; simp only [run, Option.some.injEq] at h; exact h ▸ hp
  | cons l ls ih =>
    intro s s' hp h
    simp only [run] at h
    split at h
    · cases h
    · rename_i s1 h1
      exact ih (hs s l s1 hp h1) h

macro "wot_cases" h:ident : tactic => `(tactic| (
  simp only [step, State.setPc] at $h:ident
  (repeat' split at $h:ident) <;> (try simp only [reduceCtorEq, Option.some.injEq] at $h:ident) <;> (try subst $h:ident)))

/-! ## The late caller -/

/-- Call `c` is over, nobody leads it, and caller `j` waits for it. -/
structure Late (c j m : Nat) (s : State) : Prop where
  exists_ : c < s.calls.length
  closed : ∀ k, s.calls[c]? = some k → k.closed = true
  noLead : ∀ (i : Nat) (w : Caller), s.callers[i]? = some w → w.pc ≠ .lead c ∧ ∀ r, w.pc ≠ .deliver c r
  waits : ∃ w, s.callers[j]? = some w ∧ w.pc = .wait c m

theorem late_step {c j m : Nat} {s s' : State} {l : Lab} (hi : Late c j m s) (h : step s l = some s') : Late c j m s' := by
  obtain ⟨h1, h2, h3, w0, h4, h5⟩ := hi
  wot_cases h
  all_goals first
    | contradiction
    | (refine ⟨?_, ?_, ?_, ?_⟩ <;> grind)

/-- **C79 refuted.** A caller that reads the place just before the running load ends, and registers just after, is never answered: from then on no continuation
whatsoever makes it return. -/
theorem C79_late_caller_waits_forever : ∃ ls s, run init ls = some s ∧ s.callers = [⟨5, .ret 0 7⟩, ⟨5, .wait 0 0⟩] ∧
    ∀ ls' s', run s ls' = some s' → s'.callers[1]? = some ⟨5, .wait 0 0⟩ := by
  refine ⟨[.call 5, .enter 0, .call 5, .enter 1, .load 0 7, .finish 0, .look 1],
    ⟨[⟨5, .ret 0 7⟩, ⟨5, .wait 0 0⟩], [⟨5, [1], 0, false, true, some 7, 0⟩], none⟩, by decide +kernel, by decide +kernel, ?_⟩
  intro ls' s' h
  have hl : Late 0 1 0 s' := by
    refine run_inv (P := Late 0 1 0) (fun _ _ _ => late_step) ?_ h
    refine ⟨by decide, ?_, ?_, ⟨_, rfl, by decide⟩⟩
    · intro k hk; simp at hk; subst hk; rfl
    · intro i w hw
      match i with
      | 0 => simp at hw; subst hw; exact ⟨by decide, by intro r hr; cases hr⟩
      | 1 => simp at hw; subst hw; exact ⟨by decide, by intro r hr; cases hr⟩
      | i + 2 => simp at hw
  have hid : ∃ w, s'.callers[1]? = some w ∧ w.id = 5 := by
    refine run_inv (P := fun s => ∃ w, s.callers[1]? = some w ∧ w.id = 5) ?_ ⟨_, rfl, by decide⟩ h
    intro s l s' ⟨w, hw, hwi⟩ hs
    wot_cases hs
    all_goals first
      | contradiction
      | grind
  obtain ⟨w, hw, hwi⟩ := hid
  obtain ⟨w', hw', hp⟩ := hl.waits
  rw [hw] at hw'
  cases hw'
  rw [hw]
  cases w
  simp_all

/-! ## Everybody else -/

/-- The call a caller leads. -/
def Pc.leads : Pc → Option Nat
  | .lead c => some c
  | .deliver c _ => some c
  | _ => none

/-- Invariant used in the proofs; models no code. -/
structure Inv (s : State) : Prop where
  slot : ∀ c, s.slot = some c → ∃ k, s.calls[c]? = some k ∧ k.closed = false
  open_ : ∀ (c : Nat) (k : Call), s.calls[c]? = some k → k.closed = false → s.slot = some c
  leads : ∀ (i : Nat) (w : Caller) (c : Nat), s.callers[i]? = some w → w.pc.leads = some c → ∃ k, s.calls[c]? = some k ∧ k.closed = false ∧ k.id = w.id ∧ k.leader = i
  led : ∀ (c : Nat) (k : Call), s.calls[c]? = some k → k.closed = false → ∃ (w : Caller), s.callers[k.leader]? = some w ∧ w.pc.leads = some c
  deliver : ∀ (i : Nat) (w : Caller) (c r : Nat), s.callers[i]? = some w → w.pc = .deliver c r → ∃ k, s.calls[c]? = some k ∧ k.outcome = some r
  lead : ∀ (i : Nat) (w : Caller) (c : Nat), s.callers[i]? = some w → w.pc = .lead c → ∃ k, s.calls[c]? = some k ∧ k.locked = false ∧ k.next = 0 ∧ k.outcome = none
  locked : ∀ (c : Nat) (k : Call), s.calls[c]? = some k → k.locked = true → k.closed = false
  seen : ∀ (i : Nat) (w : Caller) (c : Nat), s.callers[i]? = some w → (w.pc = .seen c ∨ w.pc = .other c) → c < s.calls.length
  other : ∀ (i : Nat) (w : Caller) (c : Nat) (k : Call), s.callers[i]? = some w → w.pc = .other c → s.calls[c]? = some k → k.id ≠ w.id
  waits : ∀ (i : Nat) (w : Caller) (c m : Nat), s.callers[i]? = some w → w.pc = .wait c m → ∃ k, s.calls[c]? = some k ∧ k.id = w.id ∧
    k.waiters[m]? = some i ∧ k.next ≤ m
  bound : ∀ (c : Nat) (k : Call), s.calls[c]? = some k → k.next ≤ k.waiters.length
  pending : ∀ (c m j : Nat) (k : Call), s.calls[c]? = some k → k.closed = false → k.waiters[m]? = some j → k.next ≤ m → ∃ v, s.callers[j]? = some v ∧ v.pc = .wait c m
  ret : ∀ (i : Nat) (w : Caller) (c r : Nat), s.callers[i]? = some w → w.pc = .ret c r → ∃ (k : Call), s.calls[c]? = some k ∧ k.id = w.id ∧ k.outcome = some r

theorem inv_init : Inv init := by constructor <;> simp [init]

theorem leads_cases (p : Pc) (c : Nat) : p.leads = some c ↔ p = .lead c ∨ ∃ r, p = .deliver c r := by
  cases p <;> simp [Pc.leads]

theorem get_last {α : Type} (l : List α) (x : α) : (l ++ [x])[l.length]? = some x := by simp

theorem send_pending {s : State} {c j r : Nat} {k : Call} {v : Caller} (hk : s.calls[c]? = some k) (hv : s.callers[j]? = some v) (hp : v.pc = .wait c k.next)
    (h : ∀ (c m j : Nat) (k : Call), s.calls[c]? = some k → k.closed = false → k.waiters[m]? = some j → k.next ≤ m → ∃ v, s.callers[j]? = some v ∧ v.pc = .wait c m)
    (c' m' j' : Nat) (k' : Call) (h1 : (s.calls.set c { k with next := k.next + 1 })[c']? = some k') (h2 : k'.closed = false) (h3 : k'.waiters[m']? = some j')
    (h4 : k'.next ≤ m') : ∃ v', (s.callers.set j { v with pc := .ret c r })[j']? = some v' ∧ v'.pc = .wait c' m' := by
  have key : ∃ v', s.callers[j']? = some v' ∧ v'.pc = .wait c' m' ∧ j ≠ j' := by
    rw [List.getElem?_set] at h1
    split at h1
    · rename_i hc
      subst hc
      split at h1
      · cases h1
        obtain ⟨v', hv', hp'⟩ := h c m' j' k hk h2 h3 (by simp only at h4; omega)
        refine ⟨v', hv', hp', ?_⟩
        rintro rfl
        rw [hv] at hv'; cases hv'
        rw [hp] at hp'; cases hp'
        simp only at h4
        omega
      · cases h1
    · rename_i hc
      obtain ⟨v', hv', hp'⟩ := h c' m' j' k' h1 h2 h3 h4
      refine ⟨v', hv', hp', ?_⟩
      rintro rfl
      rw [hv] at hv'; cases hv'
      rw [hp] at hp'; cases hp'
      exact hc rfl
  obtain ⟨v', hv', hp', hn⟩ := key
  exact ⟨v', by rw [List.getElem?_set_ne hn]; exact hv', hp'⟩

set_option maxHeartbeats 4000000 in
theorem inv_step {s s' : State} {l : Lab} (hi : Inv s) (h : step s l = some s') : Inv s' := by
  obtain ⟨h1, h2, h3, h4, h5, h6, h7, h8, h9, h10, h11, h12, h13⟩ := hi
  wot_cases h
  all_goals first
    | contradiction
    | skip
  all_goals
    constructor
    all_goals (try simp only [])
    all_goals first
      | assumption
      | grind [Pc.leads]
      | grind [Pc.leads, List.getElem?_append, List.getElem?_eq_none]
      | grind [Pc.leads, get_last]
      | (refine send_pending ?_ ?_ ?_ ?_ <;> assumption)
      | (intro c hc; cases hc; exact ⟨_, get_last _ _, rfl⟩)
      | (intro i w c hw hl
         rw [List.getElem?_set] at hw
         split at hw
         · split at hw
           · simp only [Option.some.injEq] at hw
             subst hw
             simp only [Pc.leads, Option.some.injEq, Pc.lead.injEq] at hl
             subst hl
             exact ⟨_, get_last _ _, by simp_all⟩
           · cases hw
         · have hx : ∃ k, s.calls[c]? = some k := by first | exact (h3 i w c hw hl).imp fun _ h => h.1 | exact (h6 i w c hw hl).imp fun _ h => h.1
           obtain ⟨k, hk⟩ := hx
           refine ⟨k, ?_, by grind⟩
           rw [List.getElem?_append_left (List.getElem?_eq_some_iff.1 hk).1]
           exact hk)

theorem inv_run {ls : List Lab} {s : State} (h : run init ls = some s) : Inv s := run_inv (fun _ _ _ => inv_step) inv_init h

/-- At the place there is at most one load at a time: two callers that both load (or hand out results) are the same caller. -/
theorem C79_one_load {ls : List Lab} {s : State} (h : run init ls = some s) {i j c d : Nat} {v w : Caller} (hv : s.callers[i]? = some v) (hw : s.callers[j]? = some w)
    (hi : v.pc.leads = some c) (hj : w.pc.leads = some d) : i = j := by
  have hI := inv_run h
  obtain ⟨k, hk, hc, -, hl⟩ := hI.leads i v c hv hi
  obtain ⟨k', hk', hc', -, hl'⟩ := hI.leads j w d hw hj
  have e1 := hI.open_ c k hk hc
  have e2 := hI.open_ d k' hk' hc'
  rw [e1] at e2
  cases e2
  rw [hk] at hk'
  cases hk'
  rw [← hl, ← hl']

/-- Whatever a caller returns is the outcome of a load for its own key (same 64-bit id), never for the other keys that share the place. -/
theorem C79_own_outcome {ls : List Lab} {s : State} (h : run init ls = some s) {i c r : Nat} {w : Caller} (hw : s.callers[i]? = some w) (hr : w.pc = .ret c r) :
    ∃ k, s.calls[c]? = some k ∧ k.id = w.id ∧ k.outcome = some r := (inv_run h).ret i w c r hw hr

/-- A caller stuck as in the refutation: it registered with a call that is over. -/
def IsLate (s : State) (w : Caller) : Prop := ∃ c m k, w.pc = .wait c m ∧ s.calls[c]? = some k ∧ k.closed = true

/-- **C79, the part that holds.** While some caller has neither returned nor registered too late, somebody can move: the callers never block each other. -/
theorem C79_progress_partial {ls : List Lab} {s : State} (h : run init ls = some s) {i : Nat} {w : Caller} (hw : s.callers[i]? = some w) (hr : ∀ c r, w.pc ≠ .ret c r)
    (hl : ¬ IsLate s w) : ∃ l s', (∀ id, l ≠ .call id) ∧ step s l = some s' := by
  have hI := inv_run h
  -- whoever leads can always move
  have lead : ∀ (j : Nat) (v : Caller) (c : Nat), s.callers[j]? = some v → v.pc.leads = some c → ∃ l s', (∀ id, l ≠ .call id) ∧ step s l = some s' := by
    intro j v c hv hc
    obtain ⟨k, hk, ho, -, -⟩ := hI.leads j v c hv hc
    rcases (leads_cases _ _).1 hc with hp | ⟨r, hp⟩
    · refine ⟨.load j 0, ?_⟩
      simp [step, hv, hp, hk]
    · by_cases hn : k.waiters.length ≤ k.next
      · refine ⟨.finish j, ?_⟩
        simp [step, hv, hp, hk, hn]
      · obtain ⟨u, hu⟩ : ∃ u, k.waiters[k.next]? = some u := ⟨_, List.getElem?_eq_getElem (by omega)⟩
        obtain ⟨x, hx, hxp⟩ := hI.pending c k.next u k hk ho hu (Nat.le_refl _)
        refine ⟨.send j, ?_⟩
        simp [step, hv, hp, hk, hu, hx, hxp]
  have openCall : ∀ (c : Nat) (k : Call), s.calls[c]? = some k → k.closed = false → ∃ l s', (∀ id, l ≠ .call id) ∧ step s l = some s' := by
    intro c k hk hc
    obtain ⟨v, hv, hp⟩ := hI.led c k hk hc
    exact lead _ v c hv hp
  cases hp : w.pc with
  | start =>
    refine ⟨.enter i, ?_⟩
    cases hs : s.slot <;> simp [step, hw, hp, hs]
  | seen c =>
    have hlt := hI.seen i w c hw (Or.inl hp)
    obtain ⟨k, hk⟩ : ∃ k, s.calls[c]? = some k := ⟨_, List.getElem?_eq_getElem hlt⟩
    by_cases hlk : k.locked = true
    · exact openCall c k hk (hI.locked c k hk hlk)
    · refine ⟨.look i, ?_⟩
      by_cases hid : k.id = w.id <;> simp [step, hw, hp, hk, hlk, hid]
  | wait c m =>
    obtain ⟨k, hk, -, -, -⟩ := hI.waits i w c m hw hp
    cases hc : k.closed with
    | true => exact absurd ⟨c, m, k, hp, hk, hc⟩ hl
    | false => exact openCall c k hk hc
  | other c =>
    have hlt := hI.seen i w c hw (Or.inr hp)
    obtain ⟨k, hk⟩ : ∃ k, s.calls[c]? = some k := ⟨_, List.getElem?_eq_getElem hlt⟩
    cases hc : k.closed with
    | true =>
      refine ⟨.again i, ?_⟩
      simp [step, hw, hp, hk, hc]
    | false => exact openCall c k hk hc
  | lead c => exact lead i w c hw (by rw [hp]; rfl)
  | deliver c r => exact lead i w c hw (by rw [hp]; rfl)
  | ret c r => exact absurd hp (hr c r)

/-- Three callers for key 5 and one for key 13 of the same place: one load serves the three, and the fourth restarts and loads its own. -/
example : ∃ s, run init [.call 5, .call 5, .call 13, .call 5, .enter 0, .enter 1, .enter 2, .enter 3, .look 3, .look 1, .look 2, .load 0 7, .send 0, .send 0, .finish 0,
      .again 2, .enter 2, .load 2 8, .finish 2] = some s ∧
    s.callers = [⟨5, .ret 0 7⟩, ⟨5, .ret 0 7⟩, ⟨13, .ret 1 8⟩, ⟨5, .ret 0 7⟩] :=
  ⟨⟨[⟨5, .ret 0 7⟩, ⟨5, .ret 0 7⟩, ⟨13, .ret 1 8⟩, ⟨5, .ret 0 7⟩], [⟨5, [3, 1], 2, false, true, some 7, 0⟩, ⟨13, [], 0, false, true, some 8, 2⟩], none⟩,
    by decide +kernel, rfl⟩

/-- A caller that is neither late nor back, as the progress theorem asks. -/
example : ∃ s w, run init [.call 5, .enter 0, .call 5, .enter 1, .look 1] = some s ∧ s.callers[1]? = some w ∧ (∀ c r, w.pc ≠ .ret c r) ∧ ¬ IsLate s w :=
  ⟨⟨[⟨5, .lead 0⟩, ⟨5, .wait 0 0⟩], [⟨5, [1], 0, false, false, none, 0⟩], some 0⟩, ⟨5, .wait 0 0⟩, by decide +kernel, rfl, (by intro c r h; cases h), by
    rintro ⟨c, m, k, h1, h2, h3⟩
    cases h1
    simp at h2
    subst h2
    cases h3⟩

end GoNostr.Wot
