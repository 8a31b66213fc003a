import Verif.Relay.Model
/-!
# Invariants of the subscription machine
-/

set_option autoImplicit false

namespace GoNostr.Sub

/-- Split a transition into its cases. -/
macro "step_cases" h:ident : tactic => `(tactic| (
  simp only [step, read, dupSkip, handle, dispatchEvent, dispatchEose, dispStep, dispSend, dispAbort, eoseStep, startStep, procStep,
    uStep, State.setDisp] at $h:ident
  (repeat' split at $h:ident) <;> (try simp only [reduceCtorEq, Option.some.injEq] at $h:ident) <;> (try subst $h:ident)))

theorem run_inv {c : Cfg} {P : State → Prop} {Q : Lab → Prop} (hs : ∀ s l s', Q l → P s → step c s l = some s' → P s') :
    ∀ (ls : List Lab) (s s' : State), (∀ l ∈ ls, Q l) → P s → run c s ls = some s' → P s' := by
  intro ls
  induction ls with
  | nil => intro s s' _ hp h; simp only [run, Option.some.injEq] at h; exact h ▸ hp
  | cons l ls ih =>
    intro s s' hq hp h
    simp only [run] at h
    split at h
    · cases h
    · rename_i s1 h1
      exact ih s1 s' (fun x hx => hq x (List.mem_cons_of_mem _ hx)) (hs s l s1 (hq l List.mem_cons_self) hp h1) h

theorem run_inv' {c : Cfg} {P : State → Prop} (hs : ∀ s l s', P s → step c s l = some s' → P s')
    {ls : List Lab} {s s' : State} (hp : P s) (h : run c s ls = some s') : P s' :=
  run_inv (Q := fun _ => True) (fun s l s' _ => hs s l s') ls s s' (fun _ _ => trivial) hp h

/-- Effect of replacing one element on a sum of weights. -/
theorem sum_set {α : Type} (w : α → Nat) : ∀ (l : List α) (i : Nat) (x a : α), l[i]? = some x →
    ((l.set i a).map w).sum + w x = (l.map w).sum + w a
  | [], i, x, a, h => by simp at h
  | y :: l, 0, x, a, h => by simp at h; subst h; simp; omega
  | y :: l, i + 1, x, a, h => by
    have := sum_set w l i x a (by simpa using h)
    simp only [List.set_cons_succ, List.map_cons, List.sum_cons]
    omega

/-- Is the dispatch goroutine inside the critical section? -/
def DPc.inside : DPc → Bool
  | .check | .select | .finish => true
  | _ => false

/-- Weight of a dispatch goroutine in the wait group. -/
def Disp.pending (d : Disp) : Nat := if d.added && d.pc != .dead then 1 else 0

/-- Mutual exclusion. -/
structure LockInv (s : State) : Prop where
  disp : ∀ i d, s.disps[i]? = some d → (d.pc.inside = true ↔ s.lock = some (.disp i))
  ex : ∀ i, s.lock = some (.disp i) → i < s.disps.length
  start : s.lock = some .start ↔ (s.starter = .close ∨ s.starter = .unlock)

theorem lockInv_step {c : Cfg} {s s' : State} {l : Lab} (hi : LockInv s) (h : step c s l = some s') : LockInv s' := by
  obtain ⟨h1, h2, h3⟩ := hi
  step_cases h
  all_goals first
    | contradiction
    | exact ⟨h1, h2, h3⟩
    | (constructor <;> grind [DPc.inside])

/-- The wait group counts the unfinished dispatches accepted before the EOSE. -/
structure WgInv (s : State) : Prop where
  wg : s.storedwg = (s.disps.map Disp.pending).sum
  once : s.eoseGo + s.eoseSent = if s.eosed then 1 else 0
  pre : s.eosed = false → ∀ d ∈ s.disps, d.added = true
  done : s.eoseSent > 0 → ∀ d ∈ s.disps, d.added = true → d.pc = .dead

theorem pending_pos {s : State} {i : Nat} {d : Disp} (h : s.disps[i]? = some d) :
    d.pending ≤ (s.disps.map Disp.pending).sum := by
  have := sum_set Disp.pending s.disps i d { d with pc := .dead } h
  have e : Disp.pending { d with pc := .dead } = 0 := by simp [Disp.pending]
  omega

theorem sum_zero {l : List Disp} (h : (l.map Disp.pending).sum = 0) : ∀ d ∈ l, d.added = true → d.pc = .dead := by
  intro d hd ha
  obtain ⟨i, hi, rfl⟩ := List.getElem_of_mem hd
  have h1 := sum_set Disp.pending l i l[i] { l[i] with pc := .dead } (List.getElem?_eq_getElem hi)
  have e : Disp.pending { l[i] with pc := .dead } = 0 := by simp [Disp.pending]
  have this : (l[i]).pending = 0 := by omega
  generalize l[i] = d at *
  unfold Disp.pending at this
  cases hp : d.pc <;> simp [ha, hp] at this ⊢

theorem wgInv_step {c : Cfg} {s s' : State} {l : Lab} (hi : WgInv s) (h : step c s l = some s') : WgInv s' := by
  obtain ⟨h1, h2, h3, h4⟩ := hi
  have hz := @sum_zero s.disps
  step_cases h
  all_goals first
    | contradiction
    | exact ⟨h1, h2, h3, h4⟩
    | (constructor <;> grind [Disp.pending, sum_set, List.mem_or_eq_of_mem_set])

/-- The channel is closed by `start` only; finished `unsub`s leave the table entry removed. -/
structure EndInv (s : State) : Prop where
  closed : s.chanClosed = true ↔ (s.starter = .unlock ∨ s.starter = .dead)
  closes : s.closes = if s.chanClosed then 1 else 0
  reg : s.registered = true → s.starter ≠ .lock ∧ s.starter ≠ .close ∧ s.starter ≠ .unlock ∧ s.starter ≠ .dead
  regP : s.registered = true → Pc.unsub .ret ∉ s.procs
  ctx : s.ctxDone = false → s.starter = .wait
  ctxP : s.ctxDone = false → ∀ u, Pc.unsub u ∈ s.procs → u = .cancel
  noRet : s.starter ≠ .unsub .ret

theorem endInv_step {c : Cfg} {s s' : State} {l : Lab} (hi : EndInv s) (h : step c s l = some s') : EndInv s' := by
  obtain ⟨h1, h2, h3, h4, h5, h6, h7⟩ := hi
  step_cases h
  all_goals first
    | contradiction
    | exact ⟨h1, h2, h3, h4, h5, h6, h7⟩
    | (constructor <;> grind [List.mem_or_eq_of_mem_set])

/-- Some dispatch goroutine sent event `e` of message `p`. -/
def SentBy (l : List Disp) (p : Nat) (e : Event) : Prop := ∃ d ∈ l, d.pos = p ∧ d.evt = e ∧ d.sent = true

theorem sentBy_append {l : List Disp} {p : Nat} {e : Event} (d : Disp) (h : SentBy l p e) : SentBy (l ++ [d]) p e := by
  obtain ⟨x, hx, h⟩ := h
  exact ⟨x, List.mem_append_left _ hx, h⟩

theorem sentBy_set {l : List Disp} {p : Nat} {e : Event} {i : Nat} {d d' : Disp} (hd : l[i]? = some d) (hp : d'.pos = d.pos)
    (he : d'.evt = d.evt) (hs : d.sent = true → d'.sent = true) (h : SentBy l p e) : SentBy (l.set i d') p e := by
  obtain ⟨x, hx, h1, h2, h3⟩ := h
  obtain ⟨j, hj, rfl⟩ := List.getElem_of_mem hx
  have hi : i < l.length := (List.getElem?_eq_some_iff.1 hd).1
  by_cases hij : i = j
  · subst hij
    have e : l[i] = d := (List.getElem?_eq_some_iff.1 hd).2
    rw [e] at h1 h2 h3
    exact ⟨d', List.mem_set hi d', by rw [hp, h1], by rw [he, h2], hs h3⟩
  · refine ⟨l[j], ?_, h1, h2, h3⟩
    have : (l.set i d')[j]? = some l[j] := by rw [List.getElem?_set_ne hij]; exact List.getElem?_eq_getElem hj
    exact List.mem_of_getElem? this

theorem sentBy_self {l : List Disp} {i : Nat} {d d' : Disp} (hd : l[i]? = some d) (hs : d'.sent = true) :
    SentBy (l.set i d') d'.pos d'.evt :=
  ⟨d', List.mem_set (List.getElem?_eq_some_iff.1 hd).1 d', rfl, rfl, hs⟩

theorem sentBy_index {l : List Disp} {p : Nat} {e : Event} (h : SentBy l p e) : ∃ i : Nat, ∃ d, l[i]? = some d ∧ d.pos = p ∧ d.sent = true := by
  obtain ⟨x, hx, h1, _, h3⟩ := h
  obtain ⟨j, hj, rfl⟩ := List.getElem_of_mem hx
  exact ⟨j, l[j], List.getElem?_eq_getElem hj, h1, h3⟩

/-- Each dispatch goroutine sends at most once, for its own message. -/
structure SendInv (s : State) : Prop where
  sent : ∀ (i : Nat) (d : Disp), s.disps[i]? = some d → d.sent = true → d.pc = .finish ∨ d.pc = .dead
  pos : ∀ (i : Nat) (d : Disp), s.disps[i]? = some d → d.pos < s.inbox.length
  reader : s.reader.isSome = true → 0 < s.inbox.length ∧ ∀ (i : Nat) (d : Disp), s.disps[i]? = some d → d.pos < s.inbox.length - 1
  inj : ∀ (i j : Nat) (d d' : Disp), s.disps[i]? = some d → s.disps[j]? = some d' → d.pos = d'.pos → i = j
  del : ∀ p e, (p, e) ∈ s.delivered → SentBy s.disps p e
  nodup : (s.delivered.map Prod.fst).Nodup

set_option maxHeartbeats 2000000 in
theorem sendInv_step {c : Cfg} {s s' : State} {l : Lab} (hi : SendInv s) (h : step c s l = some s') : SendInv s' := by
  obtain ⟨h1, h2, h3, h4, h5, h6⟩ := hi
  have h7 : ∀ (i : Nat) (d : Disp), s.disps[i]? = some d → d.pc = .select → d.pos ∉ s.delivered.map Prod.fst := by
    intro i d hd hpc hm
    obtain ⟨⟨p, e⟩, hm, rfl⟩ := List.mem_map.1 hm
    obtain ⟨j, d', hj, hp, hs⟩ := sentBy_index (h5 _ _ hm)
    have := h4 _ _ _ _ hj hd hp
    subst this
    rw [hd] at hj; cases hj
    rcases h1 _ _ hd hs with h | h <;> rw [hpc] at h <;> cases h
  step_cases h
  all_goals first
    | contradiction
    | exact ⟨h1, h2, h3, h4, h5, h6⟩
    | (constructor <;> grind [sentBy_append, sentBy_set, sentBy_self])

end GoNostr.Sub
