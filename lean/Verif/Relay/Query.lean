import Verif.Relay.Close
import Mathlib.Data.Nat.Find
/-!
# C128: a query returns what the relay has

`Relay.QuerySync` and `Relay.QueryEvents`: a subscription (the machine of `Verif.Relay.Model`), the goroutine that ends it, and a
consumer that is always ready to receive.
-/

set_option autoImplicit false

namespace GoNostr.Query

open GoNostr.Sub

/-- The goroutine of `QueryEvents` (relay.go:483-494): in its `select`, or past it (it has called `unsub` and returned). -/
inductive QPc
  | wait | left
  deriving DecidableEq, Repr

/-- `sub`: the subscription and its goroutines. `timeUp`: the caller's context (which has a deadline, given or of 7 seconds,
relay.go:504-509) is done. `failed`: `Subscribe` returned an error. -/
structure QState where
  sub : State
  timeUp : Bool
  q : QPc
  failed : Bool

/-- `QuerySync` once `Subscribe` has registered the subscription and is about to write the REQ (relay.go:478, 411-423). -/
def begin (c : Cfg) : QState := { sub := fired c true, timeUp := false, q := .wait, failed := false }

/-- Actions: those of the subscription's own goroutines, of the relay and of the network; the deadline; the four cases of the
goroutine's `select`. -/
inductive QLab
  | sub (l : Lab)
  | timeUp
  | goEose | goClosed | goTime | goConn

/-- What nobody can do to a subscription hidden inside `QuerySync` (the caller has no handle on it). -/
def outside : Lab → Bool
  | .callUnsub | .callFire | .cancel | .setFilters _ | .takeReason => true
  | _ => false

/-- Is this action the REQ's write failing (subscription.go:187-191)? -/
def writeFails (s : State) : Lab → Bool
  | .proc k fail => s.procs[k]? == some .fireWrite && !(s.connected && !fail)
  | _ => false

/-- The goroutine runs: `Subscribe` has returned without an error. -/
def running (s : QState) : Bool := s.q == .wait && !s.failed && !s.sub.procs.contains .fireWrite && !s.sub.panicked

/-- relay.go:491: `sub.unsub`. -/
def leave (s : QState) (sub : State) : QState := { s with sub := { sub with procs := sub.procs ++ [.unsub .cancel] }, q := .left }

/-- relay.go:477-522: one action. Cancelling the caller's context cancels the subscription's, which derives from it
(relay.go:437). -/
def qstep (c : Cfg) (s : QState) : QLab → Option QState
  | .sub l =>
    if outside l then none
    else (step c s.sub l).map (fun t => { s with sub := t, failed := s.failed || writeFails s.sub l })
  | .timeUp => (step c s.sub .cancel).map (fun t => { s with sub := t, timeUp := true })
  | .goEose => if running s ∧ s.sub.eoseSent > 0 then some (leave s s.sub) else none
  | .goClosed => if running s ∧ s.sub.reasons ≠ [] then some (leave s { s.sub with reasons := s.sub.reasons.drop 1 }) else none
  | .goTime => if running s ∧ s.timeUp then some (leave s s.sub) else none
  | .goConn => if running s ∧ s.sub.connected = false then some (leave s s.sub) else none

/-- A run: any schedule. -/
def qrun (c : Cfg) (s : QState) : List QLab → Option QState
  | [] => some s
  | l :: ls => match qstep c s l with
    | none => none
    | some s' => qrun c s' ls

/-- relay.go:511-521: what `QuerySync` has returned, if it has: events and whether there was an error. The loop ends when the channel
is closed. -/
def returned (s : QState) : Option (List Event × Bool) :=
  if s.failed then some ([], true)
  else if s.sub.chanClosed then some (s.sub.delivered.map Prod.snd, false)
  else none

/-! ## What a query promises -/

/-- Message number `k` is the first EOSE for the query. -/
def FirstEose (c : Cfg) (inbox : List Bytes) (k : Nat) : Prop :=
  (∃ m, inbox[k]? = some m ∧ IsEose c m) ∧ ∀ (j : Nat) (m : Bytes), j < k → inbox[j]? = some m → ¬ IsEose c m

/-- The relay closed the query: one of its messages is a CLOSED for it. -/
def Refused (c : Cfg) (inbox : List Bytes) : Prop :=
  ∃ m ∈ inbox, ∃ id reason, c.parse m = some (.closed id reason) ∧ subIdToSerial id = .val c.counter

/-- Nothing went wrong: no deadline passed, the connection is up, the REQ was written, the relay did not close the query. -/
def Smooth (c : Cfg) (s : QState) : Prop :=
  s.timeUp = false ∧ s.sub.connected = true ∧ s.failed = false ∧ ¬ Refused c s.sub.inbox

/-- `events` is: at most one event per message, each message naming the query and bringing an authentic event that matches the filters. -/
def Sound (c : Cfg) (inbox : List Bytes) (events : List Event) (l : List (Nat × Event)) : Prop :=
  events = l.map Prod.snd ∧ (l.map Prod.fst).Nodup ∧ ∀ p e, (p, e) ∈ l → Legit c inbox p e

/-! ## Invariants -/

theorem qrun_inv {c : Cfg} {P : QState → Prop} (hs : ∀ s l s', P s → qstep c s l = some s' → P s') :
    ∀ (ls : List QLab) (s s' : QState), P s → qrun c s ls = some s' → P s' := by
  intro ls
  induction ls with
  | nil => intro s s' hp h; simp only [qrun, Option.some.injEq] at h; exact h ▸ hp
  | cons l ls ih =>
    intro s s' hp h
    simp only [qrun] at h
    split at h
    · cases h
    · rename_i s1 h1
      exact ih s1 s' (hs s l s1 hp h1) h

/-- Every action of the query is one action of the subscription, or two (taking the reason and calling `unsub`). -/
theorem qstep_sub {c : Cfg} {s s' : QState} {l : QLab} (h : qstep c s l = some s') :
    ∃ ls : List Lab, run c s.sub ls = some s'.sub ∧ (∀ fs, Lab.setFilters fs ∉ ls) ∧ Lab.callFire ∉ ls := by
  cases l with
  | sub l =>
    simp only [qstep] at h
    split at h
    · cases h
    · rename_i ho
      cases h1 : step c s.sub l with
      | none => rw [h1] at h; cases h
      | some t =>
        rw [h1] at h; cases h
        refine ⟨[l], by simp [run, h1], ?_, ?_⟩
        · intro fs hf; simp only [List.mem_singleton] at hf; subst hf; exact ho rfl
        · intro hf; simp only [List.mem_singleton] at hf; subst hf; exact ho rfl
  | timeUp =>
    simp only [qstep] at h
    cases h1 : step c s.sub .cancel with
    | none => rw [h1] at h; cases h
    | some t => rw [h1] at h; cases h; exact ⟨[.cancel], by simp [run, h1], by simp, by simp⟩
  | goEose =>
    simp only [qstep] at h
    split at h <;> cases h
    rename_i hg
    have : s.sub.panicked = false := by simp [running] at hg; exact hg.1.2
    exact ⟨[.callUnsub], by simp [run, step, this, leave], by simp, by simp⟩
  | goClosed =>
    simp only [qstep] at h
    split at h <;> cases h
    rename_i hg
    have : s.sub.panicked = false := by simp [running] at hg; exact hg.1.2
    exact ⟨[.takeReason, .callUnsub], by simp [run, step, this, leave], by simp, by simp⟩
  | goTime =>
    simp only [qstep] at h
    split at h <;> cases h
    rename_i hg
    have : s.sub.panicked = false := by simp [running] at hg; exact hg.1.2
    exact ⟨[.callUnsub], by simp [run, step, this, leave], by simp, by simp⟩
  | goConn =>
    simp only [qstep] at h
    split at h <;> cases h
    rename_i hg
    have : s.sub.panicked = false := by simp [running] at hg; exact hg.1.2
    exact ⟨[.callUnsub], by simp [run, step, this, leave], by simp, by simp⟩

theorem run_append {c : Cfg} : ∀ (l1 l2 : List Lab) (s s1 s2 : State), run c s l1 = some s1 → run c s1 l2 = some s2 →
    run c s (l1 ++ l2) = some s2
  | [], l2, s, s1, s2, h1, h2 => by simp only [run, Option.some.injEq] at h1; subst h1; exact h2
  | l :: l1, l2, s, s1, s2, h1, h2 => by
    simp only [run, List.cons_append] at h1 ⊢
    split at h1
    · cases h1
    · exact run_append l1 l2 _ s1 s2 h1 h2

/-- The subscription inside a query is a subscription. -/
theorem qrun_sub {c : Cfg} (ls : List QLab) (s : QState) (h : qrun c (begin c) ls = some s) :
    ∃ ks : List Lab, run c (fired c true) ks = some s.sub ∧ (∀ fs, Lab.setFilters fs ∉ ks) ∧ Lab.callFire ∉ ks := by
  refine qrun_inv (P := fun s => ∃ ks : List Lab, run c (fired c true) ks = some s.sub ∧ (∀ fs, Lab.setFilters fs ∉ ks) ∧ Lab.callFire ∉ ks)
    ?_ ls _ _ ⟨[], rfl, by simp, by simp⟩ h
  rintro s l s' ⟨ks, h1, h2, h3⟩ hs
  obtain ⟨ks', g1, g2, g3⟩ := qstep_sub hs
  exact ⟨ks ++ ks', run_append _ _ _ _ _ h1 g1, fun fs hf => (List.mem_append.1 hf).elim (h2 fs) (g2 fs), fun hf => (List.mem_append.1 hf).elim h3 g3⟩

/-- An accepted event that the EOSE does not wait for came after one. -/
def AddInv (c : Cfg) (s : State) : Prop := ∀ (i : Nat) (d : Disp), s.disps[i]? = some d → d.added = false → EoseBefore c s.inbox d.pos

theorem eos_rd {c : Cfg} {s : State} (hs : SrcInv c s) {m : Bytes} {f : Bool} (hr : s.reader = some (m, f)) (he : s.eosed = true) :
    EoseBefore c s.inbox (s.inbox.length - 1) := by
  have := hs.eos he
  rwa [State.handled, hr] at this

theorem addInv_step {c : Cfg} {s s' : State} {l : Lab} (hs : SrcInv c s) (hi : AddInv c s) (h : step c s l = some s') : AddInv c s' := by
  have h1 := @eos_rd c s hs
  clear hs
  unfold AddInv at *
  step_cases h
  all_goals first
    | contradiction
    | exact hi
    | grind [eoseBefore_append]

theorem refused_of {c : Cfg} {s : State} (hs : SrcInv c s) {m : Bytes} {f : Bool} {id reason : Bytes} (hr : s.reader = some (m, f))
    (hp : c.parse m = some (.closed id reason)) (hm : isMine c id = true) : Refused c s.inbox :=
  ⟨m, List.mem_of_getElem? (hs.rd m f hr).1, id, reason, hp, (isMine_iff c id).1 hm⟩

theorem refused_append {c : Cfg} {a : List Bytes} (m : Bytes) (h : Refused c a) : Refused c (a ++ [m]) := by
  obtain ⟨x, hx, h⟩ := h
  exact ⟨x, List.mem_append_left _ hx, h⟩

/-- Reasons come from CLOSED messages. -/
def RsnInv (c : Cfg) (s : State) : Prop := (∀ r, r ∈ s.reasons → Refused c s.inbox) ∧ (∀ r, Pc.sendClosed r ∈ s.procs → Refused c s.inbox)

theorem rsnInv_step {c : Cfg} {s s' : State} {l : Lab} (hs : SrcInv c s) (hi : RsnInv c s) (h : step c s l = some s') : RsnInv c s' := by
  have r1 := @refused_of c s hs
  clear hs
  unfold RsnInv at *
  obtain ⟨h1, h2⟩ := hi
  have h3 : ∀ (k : Nat) (r : Bytes), s.procs[k]? = some (.sendClosed r) → Refused c s.inbox := fun k r hk => h2 r (List.mem_of_getElem? hk)
  step_cases h
  all_goals first
    | contradiction
    | exact ⟨h1, h2⟩
    | grind [List.mem_or_eq_of_mem_set, refused_append, List.mem_of_mem_drop]

/-- Everything known about the subscription of a query. -/
structure AllInv (c : Cfg) (s : State) : Prop where
  src : SrcInv c s
  send : SendInv s
  endi : EndInv s
  live : LiveInv c s
  del : SentDel s
  wg : WgInv s
  add : AddInv c s
  lock : LockInv s
  rsn : RsnInv c s

theorem allInv_run {c : Cfg} (ks : List Lab) (s s' : State) (hi : AllInv c s) (hf : ∀ fs, Lab.setFilters fs ∉ ks) (h : run c s ks = some s') :
    AllInv c s' :=
  run_inv (P := AllInv c) (Q := fun l => ∀ fs, l ≠ .setFilters fs)
    (fun s l s' hl hp hs => ⟨srcInv_step hl hp.src hs, sendInv_step hp.send hs, endInv_step hp.endi hs,
      liveInv_step hp.src hp.send hp.endi hp.live hs, sentDel_step hp.del hs, wgInv_step hp.wg hs, addInv_step hp.src hp.add hs,
      lockInv_step hp.lock hs, rsnInv_step hp.src hp.rsn hs⟩) ks _ _ (by intro l hl fs e; subst e; exact hf fs hl) hi h

theorem fired_all (c : Cfg) (b : Bool) : AllInv c (fired c b) :=
  ⟨fired_src c b, fired_send c b, fired_end c b, fired_live c b, by simp [SentDel, fired, init], fired_wg c b, by simp [AddInv, fired, init],
    fired_lock c b, by simp [RsnInv, fired, init]⟩

/-- Everything before the first EOSE was received by the consumer. -/
def Full (c : Cfg) (s : State) : Prop := ∃ k, FirstEose c s.inbox k ∧ ∀ p e, p < k → Legit c s.inbox p e → (p, e) ∈ s.delivered

theorem grow_step {c : Cfg} {s s' : State} {l : Lab} (h : step c s l = some s') :
    (s'.inbox = s.inbox ∨ ∃ m, s'.inbox = s.inbox ++ [m]) ∧ (∀ x ∈ s.delivered, x ∈ s'.delivered) ∧ (s'.connected = true → s.connected = true) := by
  step_cases h
  all_goals first
    | contradiction
    | exact ⟨Or.inl rfl, fun x hx => hx, fun h => h⟩
    | grind

theorem full_grow {c : Cfg} {s s' : State} (h1 : s'.inbox = s.inbox ∨ ∃ m, s'.inbox = s.inbox ++ [m]) (h2 : ∀ x ∈ s.delivered, x ∈ s'.delivered)
    (h : Full c s) : Full c s' := by
  obtain ⟨k, ⟨⟨m, f1, f2⟩, f3⟩, f4⟩ := h
  rcases h1 with h1 | ⟨x, h1⟩
  · refine ⟨k, ⟨⟨m, by rw [h1]; exact f1, f2⟩, by rw [h1]; exact f3⟩, ?_⟩
    rw [h1]; exact fun p e hp hl => h2 _ (f4 p e hp hl)
  · have hk : k < s.inbox.length := (List.getElem?_eq_some_iff.1 f1).1
    refine ⟨k, ⟨⟨m, by rw [h1, List.getElem?_append_left hk]; exact f1, f2⟩, ?_⟩, ?_⟩
    · intro j y hj hy
      rw [h1, List.getElem?_append_left (by omega)] at hy
      exact f3 j y hj hy
    · intro p e hp hl
      rw [h1] at hl
      exact h2 _ (f4 p e hp (legit_of_append (by omega) hl))

/-- Nobody is ending the subscription. -/
def Calm (s : State) : Prop := s.ctxDone = false ∧ ∀ p ∈ s.procs, p = .fireWrite ∨ p = .dead

theorem calm_not_ending {s : State} (h : Calm s) : ¬ Ending s := by
  rintro (h1 | ⟨u, h1⟩)
  · rw [h.1] at h1; cases h1
  · rcases h.2 _ h1 with h2 | h2 <;> cases h2

theorem calm_step {c : Cfg} {s s' : State} {l : Lab} (hs : SrcInv c s) (he : EndInv s) (hi : Calm s) (ho : outside l = false)
    (hw : writeFails s l = false) (hc : s.connected = true) (hr : ¬ Refused c s.inbox) (h : step c s l = some s') : Calm s' := by
  have r1 := @refused_of c s hs
  have e1 := he.ctx
  clear hs he
  unfold Calm at *
  obtain ⟨h1, h2⟩ := hi
  have e1 := e1 h1
  have h3 : ∀ (k : Nat) (p : Pc), s.procs[k]? = some p → p = .fireWrite ∨ p = .dead := fun k p hk => h2 p (List.mem_of_getElem? hk)
  step_cases h
  all_goals first
    | contradiction
    | exact ⟨h1, h2⟩
    | grind [List.mem_or_eq_of_mem_set, outside, writeFails]

/-- At the moment the EOSE reaches the goroutine, everything stored has been received. -/
theorem full_of_eose {c : Cfg} {s : State} (hi : AllInv c s) (hk : c.hasCheck = false) (he : ¬ Ending s) (h : s.eoseSent > 0) : Full c s := by
  have heo : s.eosed = true := by
    have := hi.wg.once
    cases hh : s.eosed
    · rw [hh] at this; simp at this; omega
    · rfl
  obtain ⟨q, m, hq, h1, h2⟩ := hi.src.eos heo
  have hex : ∃ k, (∃ m, s.inbox[k]? = some m ∧ IsEose c m) := ⟨q, m, h1, h2⟩
  classical
  let k := Nat.find hex
  have hkq : k ≤ q := Nat.find_min' hex ⟨m, h1, h2⟩
  have hfirst : FirstEose c s.inbox k := ⟨Nat.find_spec hex, fun j y hj hy hy' => Nat.find_min hex hj ⟨y, hy, hy'⟩⟩
  refine ⟨k, hfirst, fun p e hp hl => ?_⟩
  obtain ⟨d, hd, rfl, rfl⟩ := hi.live.acc he hk p e (by omega) hl
  obtain ⟨i, hil, rfl⟩ := List.getElem_of_mem hd
  have hg := List.getElem?_eq_getElem hil
  have hadd : (s.disps[i]).added = true := by
    cases ha : (s.disps[i]).added
    · obtain ⟨j, y, g1, g2, g3⟩ := hi.add i _ hg ha
      exact absurd g3 (hfirst.2 j y (by omega) g2)
    · rfl
  have hdead := hi.wg.done h _ hd hadd
  exact hi.del i _ hg (hi.live.kept he i _ hg (Or.inr hdead))

/-- Invariant used in the proofs; models no code. -/
structure QInv (c : Cfg) (s : QState) : Prop where
  all : AllInv c s.sub
  calm : Smooth c s → s.q = .wait → Calm s.sub
  full : c.hasCheck = false → Smooth c s → s.q = .left → Full c s.sub
  left : s.q = .left → HasUnsub s.sub.procs
  time : s.timeUp = true → s.sub.ctxDone = true
  wait : s.failed = true → s.sub.ctxDone = true

theorem fail_step {c : Cfg} {s s' : State} {l : Lab} (h : step c s l = some s') (hw : writeFails s l = true) : s'.ctxDone = true := by
  step_cases h
  all_goals first
    | contradiction
    | grind [writeFails]

theorem ctx_step {c : Cfg} {s s' : State} {l : Lab} (h : step c s l = some s') (hw : s.ctxDone = true) : s'.ctxDone = true := by
  step_cases h
  all_goals first
    | contradiction
    | grind

theorem hasUnsub_step {c : Cfg} {s s' : State} {l : Lab} (h : step c s l = some s') (he : HasUnsub s.procs) : HasUnsub s'.procs := by
  step_cases h
  all_goals first
    | contradiction
    | exact he
    | grind [hasUnsub_append, hasUnsub_set, hasUnsub_set_new]

theorem refused_grow {c : Cfg} {a b : List Bytes} (h1 : b = a ∨ ∃ m, b = a ++ [m]) (h : ¬ Refused c b) : ¬ Refused c a := by
  rintro ⟨m, hm, hr⟩
  refine h ⟨m, ?_, hr⟩
  rcases h1 with rfl | ⟨x, rfl⟩
  · exact hm
  · exact List.mem_append_left _ hm

theorem qinv_leave {c : Cfg} {s : QState} (hi : QInv c s) (hp : s.sub.panicked = false)
    (hfull : c.hasCheck = false → Smooth c s → Full c s.sub) : QInv c (leave s s.sub) := by
  have hrun : run c s.sub [.callUnsub] = some (leave s s.sub).sub := by simp [run, step, hp, leave]
  exact ⟨allInv_run _ _ _ hi.all (by simp) hrun, fun _ h => by simp [leave] at h, fun hk hs _ => hfull hk hs, fun _ => ⟨.cancel, by simp [leave]⟩,
    hi.time, hi.wait⟩

theorem qinv_step {c : Cfg} {s s' : QState} {l : QLab} (hi : QInv c s) (h : qstep c s l = some s') : QInv c s' := by
  cases l with
  | sub l =>
    simp only [qstep] at h
    split at h
    · cases h
    · rename_i ho
      cases h1 : step c s.sub l with
      | none => rw [h1] at h; cases h
      | some t =>
        rw [h1] at h; cases h
        obtain ⟨g1, g2, g3⟩ := grow_step h1
        have hrun : run c s.sub [l] = some t := by simp [run, h1]
        have back : Smooth c { s with sub := t, failed := s.failed || writeFails s.sub l } → Smooth c s ∧ writeFails s.sub l = false := by
          rintro ⟨k1, k2, k3, k4⟩
          simp only [Bool.or_eq_false_iff] at k3
          exact ⟨⟨k1, g3 k2, k3.1, refused_grow g1 k4⟩, k3.2⟩
        refine ⟨allInv_run [l] _ _ hi.all ?_ hrun, ?_, ?_, fun hq => hasUnsub_step h1 (hi.left hq), fun ht => ctx_step h1 (hi.time ht), ?_⟩
        · intro fs hf; simp only [List.mem_singleton] at hf; subst hf; exact ho rfl
        · intro hs hq
          obtain ⟨b1, b2⟩ := back hs
          exact calm_step hi.all.src hi.all.endi (hi.calm b1 hq) (by simpa using ho) b2 b1.2.1 b1.2.2.2 h1
        · intro hk hs hq
          exact full_grow g1 g2 (hi.full hk (back hs).1 hq)
        · intro hf
          simp only [Bool.or_eq_true] at hf
          rcases hf with hf | hf
          · exact ctx_step h1 (hi.wait hf)
          · exact fail_step h1 hf
  | timeUp =>
    simp only [qstep] at h
    cases h1 : step c s.sub .cancel with
    | none => rw [h1] at h; cases h
    | some t =>
      rw [h1] at h; cases h
      have hrun : run c s.sub [.cancel] = some t := by simp [run, h1]
      have hct : t.ctxDone = true := by
        simp only [step] at h1
        split at h1 <;> cases h1
        rfl
      exact ⟨allInv_run _ _ _ hi.all (by simp) hrun, (fun hs => absurd hs.1 (by simp)), (fun _ hs => absurd hs.1 (by simp)),
        (fun hq => hasUnsub_step h1 (hi.left hq)), (fun _ => hct), (fun _ => hct)⟩
  | goEose =>
    simp only [qstep] at h
    split at h <;> cases h
    rename_i hg
    have hr := hg.1
    simp only [running, Bool.and_eq_true, beq_iff_eq, Bool.not_eq_true'] at hr
    refine qinv_leave hi hr.2 (fun hk hs => ?_)
    exact full_of_eose hi.all hk (calm_not_ending (hi.calm hs hr.1.1.1)) hg.2
  | goClosed =>
    simp only [qstep] at h
    split at h <;> cases h
    rename_i hg
    have hr := hg.1
    simp only [running, Bool.and_eq_true, beq_iff_eq, Bool.not_eq_true'] at hr
    have hne : Refused c s.sub.inbox := by
      cases hrs : s.sub.reasons with
      | nil => exact absurd hrs hg.2
      | cons r t => exact hi.all.rsn.1 r (by rw [hrs]; simp)
    have hrun : run c s.sub [.takeReason, .callUnsub] = some (leave s { s.sub with reasons := s.sub.reasons.drop 1 }).sub := by
      simp [run, step, hr.2, leave]
    exact ⟨allInv_run _ _ _ hi.all (by simp) hrun, fun _ h => by simp [leave] at h, fun hk hs _ => absurd hne hs.2.2.2,
      fun _ => ⟨.cancel, by simp [leave]⟩, hi.time, hi.wait⟩
  | goTime =>
    simp only [qstep] at h
    split at h <;> cases h
    rename_i hg
    have hr := hg.1
    simp only [running, Bool.and_eq_true, beq_iff_eq, Bool.not_eq_true'] at hr
    refine qinv_leave hi hr.2 (fun hk hs => ?_)
    rw [hs.1] at hg; cases hg.2
  | goConn =>
    simp only [qstep] at h
    split at h <;> cases h
    rename_i hg
    have hr := hg.1
    simp only [running, Bool.and_eq_true, beq_iff_eq, Bool.not_eq_true'] at hr
    refine qinv_leave hi hr.2 (fun hk hs => ?_)
    rw [hs.2.1] at hg; cases hg.2

theorem begin_inv (c : Cfg) : QInv c (begin c) :=
  ⟨fired_all c true, fun _ _ => by simp [Calm, begin, fired, init], fun _ _ h => by simp [begin] at h, fun h => by simp [begin] at h,
    fun h => by simp [begin] at h, fun h => by simp [begin] at h⟩

theorem qinv_run {c : Cfg} {ls : List QLab} {s : QState} (h : qrun c (begin c) ls = some s) : QInv c s :=
  qrun_inv (fun _ _ _ hp hs => qinv_step hp hs) ls _ _ (begin_inv c) h

theorem returned_sound {c : Cfg} {s : QState} (hi : QInv c s) {evs : List Event} (hr : returned s = some (evs, false)) :
    s.sub.chanClosed = true ∧ Sound c s.sub.inbox evs s.sub.delivered := by
  unfold returned at hr
  split at hr
  · cases hr
  · split at hr
    · rename_i hcl
      cases hr
      refine ⟨hcl, rfl, hi.all.send.nodup, fun p e hm => ?_⟩
      obtain ⟨d, hd, rfl, rfl, _⟩ := hi.all.send.del p e hm
      obtain ⟨i, hil, rfl⟩ := List.getElem_of_mem hd
      exact hi.all.src.src i _ (List.getElem?_eq_getElem hil)
    · cases hr

/-- **C128 (nothing foreign).** On every schedule, what `QuerySync` returns without an error are events of the relay's messages to
this query, at most one per message, authentic and matching the filter. -/
theorem C128_sound (c : Cfg) (ls : List QLab) (s : QState) (h : qrun c (begin c) ls = some s) (evs : List Event)
    (hr : returned s = some (evs, false)) : ∃ l, Sound c s.sub.inbox evs l := ⟨_, (returned_sound (qinv_run h) hr).2⟩

/-- **C128 (all that is stored).** On every schedule in which `QuerySync` returns without an error, the deadline has not passed, the
connection holds and the relay did not close the query: the relay has said EOSE, and every authentic matching event it sent before
that is in the result, once. -/
theorem C128_all_stored (c : Cfg) (hk : c.hasCheck = false) (ls : List QLab) (s : QState) (h : qrun c (begin c) ls = some s) (evs : List Event)
    (hr : returned s = some (evs, false)) (hs : Smooth c s) :
    ∃ k l, FirstEose c s.sub.inbox k ∧ Sound c s.sub.inbox evs l ∧ ∀ p e, p < k → Legit c s.sub.inbox p e → (p, e) ∈ l := by
  have hi := qinv_run h
  obtain ⟨hcl, hso⟩ := returned_sound hi hr
  have hctx : s.sub.ctxDone = true := by
    cases hx : s.sub.ctxDone with
    | true => rfl
    | false =>
      have h1 := hi.all.endi.ctx hx
      have h2 := hi.all.endi.closed.1 hcl
      rw [h1] at h2
      rcases h2 with h2 | h2 <;> cases h2
  have hq : s.q = .left := by
    cases hq : s.q with
    | left => rfl
    | wait => have := (hi.calm hs hq).1; rw [hctx] at this; cases this
  obtain ⟨k, h1, h2⟩ := hi.full hk hs hq
  exact ⟨k, s.sub.delivered, h1, hso, h2⟩

/-- **C128 (it does not return for nothing).** `QuerySync` returns only because of an EOSE, a CLOSED, the deadline, a lost connection or
a REQ that could not be written. -/
theorem C128_why (c : Cfg) (hk : c.hasCheck = false) (ls : List QLab) (s : QState) (h : qrun c (begin c) ls = some s) (r : List Event × Bool)
    (hr : returned s = some r) :
    (∃ k, FirstEose c s.sub.inbox k) ∨ Refused c s.sub.inbox ∨ s.timeUp = true ∨ s.sub.connected = false ∨ r = ([], true) := by
  obtain ⟨evs, b⟩ := r
  cases b with
  | true =>
    unfold returned at hr
    split at hr
    · cases hr; simp
    · split at hr <;> cases hr
  | false =>
    by_cases hs : Smooth c s
    · obtain ⟨k, -, h1, -⟩ := C128_all_stored c hk ls s h evs hr hs
      exact Or.inl ⟨k, h1⟩
    · have hf : s.failed = false := by
        unfold returned at hr
        split at hr
        · cases hr
        · rename_i hf; simpa using hf
      unfold Smooth at hs
      cases ht : s.timeUp with
      | true => simp
      | false =>
        cases hc : s.sub.connected with
        | false => simp
        | true =>
          have : Refused c s.sub.inbox := by
            by_contra hn
            exact hs ⟨ht, hc, hf, hn⟩
          exact Or.inr (Or.inl this)

/-! ## It does return -/

/-- Is this an action the program does on its own? The consumer of `QuerySync` is always receiving. -/
def QLab.own : QLab → Bool
  | .sub (.dispSend _) => true
  | .sub l => l.internal
  | .timeUp => false
  | _ => true

/-- A CLOSED among the first `n` messages. -/
def RefusedBefore (c : Cfg) (inbox : List Bytes) (n : Nat) : Prop :=
  ∃ (q : Nat) (m : Bytes), q < n ∧ inbox[q]? = some m ∧ ∃ id reason, c.parse m = some (.closed id reason) ∧ subIdToSerial id = .val c.counter

/-- A handled CLOSED that has not led to `unsub` yet. -/
def Closing (l : List Pc) : Prop := (∃ r, Pc.sendClosed r ∈ l) ∨ Pc.storeLive ∈ l

theorem closing_append {l : List Pc} (p : Pc) (h : Closing l) : Closing (l ++ [p]) := by
  rcases h with ⟨r, h⟩ | h
  · exact Or.inl ⟨r, List.mem_append_left _ h⟩
  · exact Or.inr (List.mem_append_left _ h)

theorem closing_new {l : List Pc} (r : Bytes) : Closing (l ++ [.sendClosed r]) := Or.inl ⟨r, by simp⟩

theorem mem_set_other {l : List Pc} {k : Nat} {p q x : Pc} (hp : l[k]? = some p) (hx : x ∈ l) (hne : x ≠ p) : x ∈ l.set k q := by
  obtain ⟨j, hj, e⟩ := List.getElem_of_mem hx
  have hkj : k ≠ j := by
    rintro rfl
    rw [List.getElem?_eq_getElem hj, e] at hp
    exact hne (Option.some.inj hp)
  have : (l.set k q)[j]? = some x := by rw [List.getElem?_set_ne hkj, List.getElem?_eq_getElem hj, e]
  exact List.mem_of_getElem? this

theorem closing_set {l : List Pc} {k : Nat} {p q : Pc} (hp : l[k]? = some p) (h1 : p ≠ .storeLive) (h2 : ∀ r, p ≠ .sendClosed r) (h : Closing l) :
    Closing (l.set k q) := by
  rcases h with ⟨r, h⟩ | h
  · exact Or.inl ⟨r, mem_set_other hp h (fun e => h2 r e.symm)⟩
  · exact Or.inr (mem_set_other hp h (fun e => h1 e.symm))

theorem closing_set_new {l : List Pc} {k : Nat} {p : Pc} (hp : l[k]? = some p) : Closing (l.set k .storeLive) :=
  Or.inr (List.mem_set (List.getElem?_eq_some_iff.1 hp).1 _)

theorem refusedBefore_of_append {c : Cfg} {inbox : List Bytes} {n : Nat} {m : Bytes} (hn : n ≤ inbox.length)
    (h : RefusedBefore c (inbox ++ [m]) n) : RefusedBefore c inbox n := by
  obtain ⟨q, m', h6, h7, h8⟩ := h
  rw [List.getElem?_append_left (by omega)] at h7
  exact ⟨q, m', h6, h7, h8⟩

theorem refused_tests {c : Cfg} {s : State} {m : Bytes} {f : Bool} (hs : SrcInv c s) (hr : s.reader = some (m, f))
    (h : RefusedBefore c s.inbox s.inbox.length) :
    RefusedBefore c s.inbox (s.inbox.length - 1) ∨ ∃ id reason, c.parse m = some (.closed id reason) ∧ isMine c id = true := by
  obtain ⟨r1, r2, r3⟩ := hs.rd m f hr
  obtain ⟨q, m', h6, h7, h8⟩ := h
  by_cases hq : q < s.inbox.length - 1
  · exact Or.inl ⟨q, m', hq, h7, h8⟩
  · right
    have : q = s.inbox.length - 1 := by omega
    subst this
    rw [r1] at h7; cases h7
    obtain ⟨id, reason, h9, h10⟩ := h8
    exact ⟨id, reason, h9, (isMine_iff c id).2 h10⟩

/-- Invariant used in the proofs; models no code. -/
def RefInv (c : Cfg) (s : State) : Prop := ¬ Ending s → c.hasCheck = false → RefusedBefore c s.inbox s.handled → Closing s.procs

theorem refInv_step {c : Cfg} {s s' : State} {l : Lab} (hi : AllInv c s) (hr : RefInv c s) (h : step c s l = some s') : RefInv c s' := by
  have he := ending_step h
  by_cases hE : Ending s'
  · exact fun h => absurd hE h
  have hE0 : ¬ Ending s := fun h => hE (he h)
  have h1 := (hi.live.live hE0).2
  have h2 := hr hE0
  have t1 := fun m f => @refused_tests c s m f hi.src
  have p1 := hi.send.reader
  rw [ending_iff] at hE hE0
  clear he hi hr
  unfold RefInv
  intro _
  step_cases h
  all_goals first
    | contradiction
    | exact h2
    | grind [refusedBefore_of_append, State.handled, closing_append, closing_new, closing_set, closing_set_new, hasUnsub_append, hasUnsub_set,
        hasUnsub_set_new, hasUnsub_new]

theorem refInv_qrun {c : Cfg} {ls : List QLab} {s : QState} (h : qrun c (begin c) ls = some s) : RefInv c s.sub := by
  obtain ⟨ks, h1, h2, -⟩ := qrun_sub ls s h
  have := run_inv (P := fun s => AllInv c s ∧ RefInv c s) (Q := fun l => ∀ fs, l ≠ .setFilters fs)
    (fun s l s' hl hp hs => ⟨allInv_run [l] s s' hp.1 (by intro fs hf; simp only [List.mem_singleton] at hf; exact hl fs hf.symm) (by simp [run, hs]),
      refInv_step hp.1 hp.2 hs⟩) ks _ _ (by intro l hl fs e; subst e; exact h2 fs hl)
    ⟨fired_all c true, fun _ _ h => by obtain ⟨q, m, hq, -⟩ := h; simp [fired, init, State.handled] at hq⟩ h1
  exact this.2

theorem from_init {c : Cfg} (ks : List Lab) (s : State) (h : run c (fired c true) ks = some s) : ∃ ks', run c (init c true) ks' = some s :=
  ⟨[.callFire, .proc 0 false] ++ ks, run_append _ _ _ (fired c true) _ (by rfl) h⟩

theorem internal_inside {l : Lab} (h : l.internal = true) : outside l = false := by
  cases l <;> simp [Lab.internal] at h <;> rfl

/-- **C128 (it returns).** On every schedule: once the relay has sent an EOSE or a CLOSED for the query, or the deadline has passed, or the
connection is lost, `QuerySync` has returned as soon as nothing the program does on its own is left to do (unless the pre-parser
crashed). -/
theorem C128_returns (c : Cfg) (hk : c.hasCheck = false) (ls : List QLab) (s : QState) (h : qrun c (begin c) ls = some s)
    (hp : s.sub.panicked = false) (hq : ∀ l, l.own = true → qstep c s l = none)
    (hev : (∃ m ∈ s.sub.inbox, IsEose c m) ∨ Refused c s.sub.inbox ∨ s.timeUp = true ∨ s.sub.connected = false) :
    ∃ r, returned s = some r := by
  have hi := qinv_run h
  have hri := refInv_qrun h
  obtain ⟨ks, r1, r2, -⟩ := qrun_sub ls s h
  obtain ⟨ks', r3⟩ := from_init ks s.sub r1
  have sq : ∀ l : Lab, l.internal = true ∨ (∃ i, l = .dispSend i) → step c s.sub l = none := by
    intro l hl
    have h1 : (QLab.sub l).own = true := by
      rcases hl with hl | ⟨i, rfl⟩
      · cases l <;> first | exact hl | rfl
      · rfl
    have h2 := hq (.sub l) h1
    have h3 : outside l = false := by
      rcases hl with hl | ⟨i, rfl⟩
      · exact internal_inside hl
      · rfl
    simp only [qstep, h3, Bool.false_eq_true, if_false, Option.map_eq_none_iff] at h2
    exact h2
  have quiet : Quiescent c s.sub := fun l hl => sq l (Or.inl hl)
  have fin : s.sub.ctxDone = true → ∃ r, returned s = some r := by
    intro hctx
    obtain ⟨-, hcl, -⟩ := C27_ends_cleanly c true ks' s.sub r3 hp quiet hctx
    unfold returned
    by_cases hf : s.failed = true
    · exact ⟨_, by rw [if_pos hf]⟩
    · exact ⟨_, by rw [if_neg hf, if_pos hcl]⟩
  cases hctx : s.sub.ctxDone with
  | true => exact fin hctx
  | false =>
    exfalso
    have procQuiet : ∀ p ∈ s.sub.procs, ∀ k, s.sub.procs[k]? = some p → step c s.sub (.proc k false) = none := fun p _ k _ => sq _ (Or.inl rfl)
    have hst := hi.all.endi.ctx hctx
    have noUnsub : ¬ HasUnsub s.sub.procs := by
      rintro ⟨u, hu⟩
      have hu' := hi.all.endi.ctxP hctx u hu
      subst hu'
      obtain ⟨k, hkl, e⟩ := List.getElem_of_mem hu
      have := sq (.proc k false) (Or.inl rfl)
      simp [step, hp, procStep, List.getElem?_eq_getElem hkl, e, uStep] at this
    have noFire : Pc.fireWrite ∉ s.sub.procs := by
      intro hu
      obtain ⟨k, hkl, e⟩ := List.getElem_of_mem hu
      have := sq (.proc k false) (Or.inl rfl)
      cases hc : s.sub.connected <;> simp [step, hp, procStep, List.getElem?_eq_getElem hkl, e, hc] at this
    have hwait : s.q = .wait := by
      cases hx : s.q with
      | wait => rfl
      | left => exact absurd (hi.left hx) noUnsub
    have htime : s.timeUp = false := by
      cases hx : s.timeUp with
      | false => rfl
      | true => have := hi.time hx; rw [hctx] at this; cases this
    have hfail : s.failed = false := by
      cases hx : s.failed with
      | false => rfl
      | true => have := hi.wait hx; rw [hctx] at this; cases this
    have hrun : running s = true := by simp [running, hwait, hfail, noFire, hp]
    have hne : ¬ Ending s.sub := by
      rintro (hx | hx)
      · rw [hctx] at hx; cases hx
      · exact noUnsub hx
    have hreader : s.sub.reader = none := by
      cases hx : s.sub.reader with
      | none => rfl
      | some x =>
        obtain ⟨m, f⟩ := x
        have := sq .handle (Or.inl rfl)
        simp only [step, hp, Bool.false_eq_true, if_false, handle, hx] at this
        split at this
        · split at this
          · cases this
          · split at this
            · cases this
            · split at this <;> cases this
        · split at this <;> cases this
        · split at this <;> cases this
        · cases this
    have hhand : s.sub.handled = s.sub.inbox.length := by rw [State.handled, hreader]; rfl
    have noReason : s.sub.reasons = [] := by
      by_contra hx
      have := hq .goClosed rfl
      simp [qstep, hrun, hx] at this
    rcases hev with ⟨m, hm, he⟩ | ⟨m, hm, he⟩ | hev | hev
    · obtain ⟨q, hql, e⟩ := List.getElem_of_mem hm
      have heo := hi.all.live.eos hne hk ⟨q, m, by omega, by rw [List.getElem?_eq_getElem hql, e], he⟩
      have hon := hi.all.wg.once
      rw [heo] at hon
      simp only [if_true] at hon
      have alldead : ∀ d ∈ s.sub.disps, d.pc = .dead := by
        intro d hd
        by_contra hpc
        obtain ⟨i, t, ht⟩ := C25_progress c true ks' s.sub r3 hp (by rw [hst]; exact ⟨by simp, by simp⟩) d hd hpc
        rcases ht with ht | ht
        · have := sq (.disp i) (Or.inl rfl); rw [this] at ht; cases ht
        · have := sq (.dispSend i) (Or.inr ⟨i, rfl⟩); rw [this] at ht; cases ht
      have hw0 : s.sub.storedwg = 0 := by
        rw [hi.all.wg.wg]
        have : ∀ l : List Disp, (∀ d ∈ l, d.pc = .dead) → (l.map Disp.pending).sum = 0 := by
          intro l hl
          induction l with
          | nil => rfl
          | cons d l ih =>
            have e1 : Disp.pending d = 0 := by simp [Disp.pending, hl d (by simp)]
            simp [e1, ih (fun x hx => hl x (List.mem_cons_of_mem _ hx))]
        exact this _ alldead
      by_cases hgo : s.sub.eoseGo > 0
      · have := sq .eose (Or.inl rfl)
        simp [step, hp, eoseStep, hgo, hw0] at this
      · have := hq .goEose rfl
        have h1 : s.sub.eoseSent > 0 := by omega
        simp [qstep, hrun, h1] at this
    · obtain ⟨q, hql, e⟩ := List.getElem_of_mem hm
      rcases hri hne hk ⟨q, m, by omega, by rw [List.getElem?_eq_getElem hql, e], he⟩ with ⟨r, hr⟩ | hr
      · obtain ⟨k, hkl, e⟩ := List.getElem_of_mem hr
        have := sq (.proc k false) (Or.inl rfl)
        simp [step, hp, procStep, List.getElem?_eq_getElem hkl, e, noReason] at this
      · obtain ⟨k, hkl, e⟩ := List.getElem_of_mem hr
        have := sq (.proc k false) (Or.inl rfl)
        simp [step, hp, procStep, List.getElem?_eq_getElem hkl, e] at this
    · rw [htime] at hev; cases hev
    · have := hq .goConn rfl
      simp [qstep, hrun, hev] at this

/-- The program's own actions are finite: each lowers a number (`State.todo`, plus the goroutine and the receptions). -/
theorem C128_own_terminates (c : Cfg) (s s' : QState) (l : QLab) (ho : l.own = true) (hs : ∀ i, l ≠ .sub (.dispSend i)) (h : qstep c s l = some s') :
    (s'.q = s.q ∧ s'.sub.todo < s.sub.todo) ∨ (s.q = .wait ∧ s'.q = .left) := by
  cases l with
  | sub l =>
    simp only [qstep] at h
    split at h
    · cases h
    · cases h1 : step c s.sub l with
      | none => rw [h1] at h; cases h
      | some t =>
        rw [h1] at h; cases h
        refine Or.inl ⟨rfl, C27_internal_terminates c s.sub t l ?_ h1⟩
        cases l <;> first | exact ho | exact absurd rfl (hs _)
  | timeUp => cases ho
  | goEose =>
    simp only [qstep] at h
    split at h <;> cases h
    rename_i hg
    simp [running] at hg
    exact Or.inr ⟨hg.1.1.1.1, rfl⟩
  | goClosed =>
    simp only [qstep] at h
    split at h <;> cases h
    rename_i hg
    simp [running] at hg
    exact Or.inr ⟨hg.1.1.1.1, rfl⟩
  | goTime =>
    simp only [qstep] at h
    split at h <;> cases h
    rename_i hg
    simp [running] at hg
    exact Or.inr ⟨hg.1.1.1.1, rfl⟩
  | goConn =>
    simp only [qstep] at h
    split at h <;> cases h
    rename_i hg
    simp [running] at hg
    exact Or.inr ⟨hg.1.1.1.1, rfl⟩

/-! ## What goes wrong, and examples -/

/-- A value of the examples. -/
def ev (n : Int) : Event := { demoEvent with createdAt := n }

/-- A value of the examples. -/
def mOld : Bytes := b! "[\"EVENT\",\"7:\",2]"
/-- A value of the examples. -/
def mLate : Bytes := b! "[\"EVENT\",\"7:\",3]"

/-- Query number 7 for kind 1 since time 3; the messages are two events of times 5 and 4, one of time 1, EOSE and CLOSED. -/
def demoQ : Cfg where
  counter := 7
  filters := [{ kinds := some [1], since := some 3 }]
  assumeValid := false
  hasCheck := false
  parse := fun m => if m = mEvent then some (.event (ev 5)) else if m = mOld then some (.event (ev 4)) else if m = mLate then some (.event (ev 1))
    else if m = mEose then some (.eose (b! "7:")) else if m = mClosed then some (.closed (b! "7:") (b! "no")) else none
  sigOk := fun _ => true

/-- What can be seen: the times of the events returned and whether there was an error. -/
def seen (s : Option QState) : Option (List Int × Bool) :=
  match s with
  | none => none
  | some s => (returned s).map (fun r => (r.1.map Event.createdAt, r.2))

/-- A value of the examples. -/
def subs (ls : List Lab) : List QLab := ls.map .sub

/-- Dispatch goroutine `i` from start to end. -/
def dispAll (i : Nat) : List Lab := [.disp i, .disp i, .dispSend i, .disp i]

/-- The end of a query: `unsub` (goroutine `k`), then `start`. -/
def ending (k : Nat) : List QLab := subs (List.replicate 4 (.proc k false) ++ List.replicate 7 (.start false))

/-- Two stored events, EOSE. -/
example : seen (qrun demoQ (begin demoQ) (subs ([.proc 0 false, .read mEvent, .handle, .read mOld, .handle, .read mEose, .handle] ++
    dispAll 0 ++ dispAll 1 ++ [.eose]) ++ [.goEose] ++ ending 1)) = some ([5, 4], false) := by decide +kernel

/-- **C128 refuted (order).** The events are not returned in the order the relay sent them: each is delivered by its own goroutine. -/
theorem C128_order_not_kept : seen (qrun demoQ (begin demoQ) (subs ([.proc 0 false, .read mEvent, .handle, .read mOld, .handle, .read mEose, .handle] ++
    dispAll 1 ++ dispAll 0 ++ [.eose]) ++ [.goEose] ++ ending 1)) = some ([4, 5], false) := by decide +kernel

/-- **C128 refuted (the filter's times).** An event sent after the EOSE and before the subscription is gone is returned too, even one older
than `since`: the result can hold events the filter excludes. -/
theorem C128_excluded_event_returned : seen (qrun demoQ (begin demoQ) (subs ([.proc 0 false, .read mEvent, .handle, .read mEose, .handle, .read mLate, .handle] ++
    dispAll 0 ++ dispAll 1 ++ [.eose]) ++ [.goEose] ++ ending 1)) = some ([5, 1], false) ∧ Filter.matches { kinds := some [1], since := some 3 } (some (ev 1)) = false := by
  decide +kernel

/-- **C128 refuted (errors).** A relay that closes the query, for instance because it refuses it, makes `QuerySync` return no events and
no error; so do the deadline and a lost connection. -/
theorem C128_refusal_is_no_error :
    seen (qrun demoQ (begin demoQ) (subs ([.proc 0 false, .read mClosed, .handle, .proc 1 false]) ++ [.goClosed] ++ ending 2)) = some ([], false) ∧
    seen (qrun demoQ (begin demoQ) ([.sub (.proc 0 false), .timeUp, .goTime] ++ ending 1)) = some ([], false) ∧
    seen (qrun demoQ (begin demoQ) ([.sub (.proc 0 false), .sub .disconnect, .goConn] ++ ending 1)) = some ([], false) := by
  decide +kernel

/-- A REQ that cannot be written is an error. -/
example : seen (qrun demoQ (begin demoQ) (subs [.disconnect, .proc 0 false])) = some ([], true) := by decide +kernel

/-- The runs above meet the hypotheses of `C128_all_stored`: no deadline, connected, no CLOSED. -/
example : (qrun demoQ (begin demoQ) (subs ([.proc 0 false, .read mEvent, .handle, .read mOld, .handle, .read mEose, .handle] ++
    dispAll 0 ++ dispAll 1 ++ [.eose]) ++ [.goEose] ++ ending 1)).map (fun s => (s.timeUp, s.sub.connected, s.failed, s.sub.inbox.map (fun m =>
      match demoQ.parse m with
      | some (.closed _ _) => true
      | _ => false))) = some (false, true, false, [false, false, false]) := by decide +kernel

end GoNostr.Query
