import Verif.Relay.Lemmas
import Verif.Relay.Spec
import Verif.Filter.Theorems
/-!
# C24-C28, C31: the life of a subscription
-/

set_option autoImplicit false

namespace GoNostr.Sub

/-! ## Invariants about sources -/

theorem names_iff (c : Cfg) (m : Bytes) : names c m = true ↔ NamesSub c m := by
  unfold names NamesSub isMine
  cases extractSubID m <;> simp

theorem isMine_iff (c : Cfg) (id : Bytes) : isMine c id = true ↔ subIdToSerial id = .val c.counter := by simp [isMine]

theorem legit_append {c : Cfg} {inbox : List Bytes} {p : Nat} {e : Event} (m : Bytes) (h : Legit c inbox p e) :
    Legit c (inbox ++ [m]) p e := by
  have lift : ∀ (q : Nat) (x : Bytes), inbox[q]? = some x → (inbox ++ [m])[q]? = some x := by
    intro q x hq
    rw [List.getElem?_append_left (List.getElem?_eq_some_iff.1 hq).1]; exact hq
  obtain ⟨x, h1, h2, h3, h4, h5⟩ := h
  refine ⟨x, lift _ _ h1, h2, h3, h4, ?_⟩
  rcases h5 with h | ⟨h, q, m', h6, h7, h8⟩
  · exact Or.inl h
  · exact Or.inr ⟨h, q, m', h6, lift _ _ h7, h8⟩

/-- An EOSE for the subscription was handled before message number `n`. -/
def EoseBefore (c : Cfg) (inbox : List Bytes) (n : Nat) : Prop := ∃ (q : Nat) (m : Bytes), q < n ∧ inbox[q]? = some m ∧ IsEose c m

theorem eoseBefore_append {c : Cfg} {inbox : List Bytes} {n : Nat} (m : Bytes) (h : EoseBefore c inbox n) :
    EoseBefore c (inbox ++ [m]) n := by
  obtain ⟨q, m', h6, h7, h8⟩ := h
  refine ⟨q, m', h6, ?_, h8⟩
  rw [List.getElem?_append_left (List.getElem?_eq_some_iff.1 h7).1]; exact h7

/-- Number of messages completely handled. -/
def State.handled (s : State) : Nat := if s.reader.isSome then s.inbox.length - 1 else s.inbox.length

/-- Where accepted events come from, as long as the filters are not changed. -/
structure SrcInv (c : Cfg) (s : State) : Prop where
  filt : s.filters = c.filters
  bound : s.bound = (c.filters, s.eosed)
  eos : s.eosed = true → EoseBefore c s.inbox s.handled
  rd : ∀ m f, s.reader = some (m, f) → s.inbox[s.inbox.length - 1]? = some m ∧ 0 < s.inbox.length ∧ (f = true → NamesSub c m)
  src : ∀ (i : Nat) (d : Disp), s.disps[i]? = some d → Legit c s.inbox d.pos d.evt

theorem eoseBefore_mono {c : Cfg} {inbox : List Bytes} {n k : Nat} (h : EoseBefore c inbox n) (hk : n ≤ k) : EoseBefore c inbox k := by
  obtain ⟨q, m', h6, h7⟩ := h
  exact ⟨q, m', by omega, h7⟩

theorem legit_new {c : Cfg} {s : State} {m : Bytes} {e : Event} (hi : SrcInv c s) (hr : s.reader = some (m, true))
    (hp : c.parse m = some (.event e)) (hm : ¬ runMatch s.bound e = false)
    (hv : ¬ (c.assumeValid = false ∧ c.sigOk e = false)) : Legit c s.inbox (s.inbox.length - 1) e := by
  obtain ⟨r1, r2, r3⟩ := hi.rd m true hr
  refine ⟨m, r1, r3 rfl, hp, ?_, ?_⟩
  · cases h1 : c.assumeValid <;> cases h2 : c.sigOk e <;> simp [h1, h2] at hv ⊢
  · rw [hi.bound] at hm
    unfold runMatch at hm
    cases he : s.eosed with
    | false =>
      left
      rw [← C07_match_iff_exists]
      simpa [he] using hm
    | true =>
      right
      refine ⟨(C07_matchIgnoring_iff_exists _ _).1 (by simpa [he] using hm), ?_⟩
      have := hi.eos he
      rw [State.handled, hr] at this
      obtain ⟨q, m', h6, h7, h8⟩ := this
      exact ⟨q, m', by simpa using h6, h7, h8⟩

theorem eose_new {c : Cfg} {s : State} {m id : Bytes} {f : Bool} (hi : SrcInv c s) (hr : s.reader = some (m, f))
    (hp : c.parse m = some (.eose id)) (hm : isMine c id = true) : EoseBefore c s.inbox s.inbox.length := by
  obtain ⟨r1, r2, r3⟩ := hi.rd m f hr
  exact ⟨s.inbox.length - 1, m, by omega, r1, id, hp, (isMine_iff c id).1 hm⟩

set_option maxHeartbeats 2000000 in
theorem srcInv_step {c : Cfg} {s s' : State} {l : Lab} (hl : ∀ fs, l ≠ .setFilters fs) (hi : SrcInv c s) (h : step c s l = some s') :
    SrcInv c s' := by
  have hn := @legit_new c s
  have he := @eose_new c s
  have hi' := hi
  obtain ⟨h1, h2, h3, h4, h5⟩ := hi
  step_cases h
  all_goals first
    | contradiction
    | exact ⟨h1, h2, h3, h4, h5⟩
    | (constructor <;> grind [legit_append, eoseBefore_append, eoseBefore_mono, State.handled, names_iff])

theorem init_src (c : Cfg) (b : Bool) : SrcInv c (init c b) := by
  constructor <;> simp [init]

theorem init_send (c : Cfg) (b : Bool) : SendInv (init c b) := by
  constructor <;> simp [init]

/-- **C24.** On every schedule, every delivered event came in a message naming the subscription, is authentic (or the relay
is trusted) and matches the filters: all constraints, or all but the time window if an EOSE came earlier. -/
theorem C24_only_matching_authentic (c : Cfg) (conn : Bool) (ls : List Lab) (s : State) (h : run c (init c conn) ls = some s)
    (hf : ∀ fs, Lab.setFilters fs ∉ ls) : ∀ p e, (p, e) ∈ s.delivered → Legit c s.inbox p e := by
  have h1 : SrcInv c s := run_inv (Q := fun l => ∀ fs, l ≠ .setFilters fs) (fun s l s' hl hp hs => srcInv_step hl hp hs) ls _ _
    (by intro l hl fs e; subst e; exact hf fs hl) (init_src c conn) h
  have h2 : SendInv s := run_inv' (fun s l s' hp hs => sendInv_step hp hs) (init_send c conn) h
  intro p e hm
  obtain ⟨d, hd, rfl, rfl, _⟩ := h2.del p e hm
  obtain ⟨i, hi, rfl⟩ := List.getElem_of_mem hd
  exact h1.src i _ (List.getElem?_eq_getElem hi)

/-- **C25 (at most once).** On every schedule, the delivered events have pairwise distinct source messages. -/
theorem C25_at_most_once (c : Cfg) (conn : Bool) (ls : List Lab) (s : State) (h : run c (init c conn) ls = some s) :
    (s.delivered.map Prod.fst).Nodup ∧ ∀ p e, (p, e) ∈ s.delivered → p < s.inbox.length := by
  have h2 : SendInv s := run_inv' (fun s l s' hp hs => sendInv_step hp hs) (init_send c conn) h
  refine ⟨h2.nodup, ?_⟩
  intro p e hm
  obtain ⟨d, hd, rfl, rfl, _⟩ := h2.del p e hm
  obtain ⟨i, hi, rfl⟩ := List.getElem_of_mem hd
  exact h2.pos i _ (List.getElem?_eq_getElem hi)

/-! ## Nothing is dropped while the subscription lives -/

theorem legit_of_append {c : Cfg} {inbox : List Bytes} {p : Nat} {e : Event} {m : Bytes} (hp : p < inbox.length)
    (h : Legit c (inbox ++ [m]) p e) : Legit c inbox p e := by
  obtain ⟨x, h1, h2, h3, h4, h5⟩ := h
  rw [List.getElem?_append_left hp] at h1
  refine ⟨x, h1, h2, h3, h4, ?_⟩
  rcases h5 with h | ⟨h, q, m', h6, h7, h8⟩
  · exact Or.inl h
  · rw [List.getElem?_append_left (by omega)] at h7
    exact Or.inr ⟨h, q, m', h6, h7, h8⟩

/-- A dispatch goroutine exists for event `e` of message `p`. -/
def HasDisp (l : List Disp) (p : Nat) (e : Event) : Prop := ∃ d ∈ l, d.pos = p ∧ d.evt = e

theorem hasDisp_append {l : List Disp} {p : Nat} {e : Event} (d : Disp) (h : HasDisp l p e) : HasDisp (l ++ [d]) p e := by
  obtain ⟨x, hx, h⟩ := h
  exact ⟨x, List.mem_append_left _ hx, h⟩

theorem hasDisp_new {l : List Disp} (d : Disp) : HasDisp (l ++ [d]) d.pos d.evt := ⟨d, by simp, rfl, rfl⟩

theorem hasDisp_set {l : List Disp} {p : Nat} {e : Event} {i : Nat} {d d' : Disp} (hd : l[i]? = some d) (hp : d'.pos = d.pos)
    (he : d'.evt = d.evt) (h : HasDisp l p e) : HasDisp (l.set i d') p e := by
  obtain ⟨x, hx, h1, h2⟩ := h
  obtain ⟨j, hj, rfl⟩ := List.getElem_of_mem hx
  have hi : i < l.length := (List.getElem?_eq_some_iff.1 hd).1
  by_cases hij : i = j
  · subst hij
    have e : l[i] = d := (List.getElem?_eq_some_iff.1 hd).2
    rw [e] at h1 h2
    exact ⟨d', List.mem_set hi d', by rw [hp, h1], by rw [he, h2]⟩
  · refine ⟨l[j], ?_, h1, h2⟩
    have : (l.set i d')[j]? = some l[j] := by rw [List.getElem?_set_ne hij]; exact List.getElem?_eq_getElem hj
    exact List.mem_of_getElem? this

/-- Complete accounting while the subscription lives. -/
structure LiveInv (c : Cfg) (s : State) : Prop where
  live : ¬ Ending s → s.live = true ∧ s.registered = true
  kept : ¬ Ending s → ∀ (i : Nat) (d : Disp), s.disps[i]? = some d → (d.pc = .finish ∨ d.pc = .dead) → d.sent = true
  found : ¬ Ending s → s.panicked = false → ∀ m f, s.reader = some (m, f) → f = names c m
  eos : ¬ Ending s → c.hasCheck = false → EoseBefore c s.inbox s.handled → s.eosed = true
  acc : ¬ Ending s → c.hasCheck = false → ∀ p e, p < s.handled → Legit c s.inbox p e → HasDisp s.disps p e

theorem eoseBefore_of_append {c : Cfg} {inbox : List Bytes} {n : Nat} {m : Bytes} (hn : n ≤ inbox.length)
    (h : EoseBefore c (inbox ++ [m]) n) : EoseBefore c inbox n := by
  obtain ⟨q, m', h6, h7, h8⟩ := h
  rw [List.getElem?_append_left (by omega)] at h7
  exact ⟨q, m', h6, h7, h8⟩

/-- If the message in hand legitimately brings an event, the handler's tests all pass. -/
theorem legit_tests {c : Cfg} {s : State} {m : Bytes} {f : Bool} {e : Event} (hs : SrcInv c s) (hl : LiveInv c s) (he : ¬ Ending s) (hc : c.hasCheck = false)
    (hpk : s.panicked = false) (hr : s.reader = some (m, f)) (h : Legit c s.inbox (s.inbox.length - 1) e) :
    c.parse m = some (.event e) ∧ f = true ∧ runMatch s.bound e = true ∧ (c.assumeValid = true ∨ c.sigOk e = true) := by
  obtain ⟨r1, r2, r3⟩ := hs.rd m f hr
  obtain ⟨x, h1, h2, h3, h4, h5⟩ := h
  rw [r1] at h1; cases h1
  refine ⟨h3, ?_, ?_, h4⟩
  · rw [hl.found he hpk m f hr, names_iff]; exact h2
  · rw [hs.bound]
    unfold runMatch
    rcases h5 with h5 | ⟨h5, q, m', h6, h7, h8⟩
    · have hm := (C07_match_iff_exists _ _).2 h5
      have hi : Filters.matchIgnoringTimestamps (some e) c.filters = true := by
        obtain ⟨f, hf, hf'⟩ := h5
        exact (C07_matchIgnoring_iff_exists _ _).2 ⟨f, hf, hf'.1⟩
      cases s.eosed <;> simp [hm, hi]
    · have hb := hl.eos he hc (by rw [State.handled, hr]; exact ⟨q, m', by simpa using h6, h7, h8⟩)
      rw [hb]
      simpa using (C07_matchIgnoring_iff_exists _ _).2 h5

/-- If the message in hand is the first EOSE, the handler recognizes it. -/
theorem eose_tests {c : Cfg} {s : State} {m : Bytes} {f : Bool} (hs : SrcInv c s) (hl : LiveInv c s) (he : ¬ Ending s) (hc : c.hasCheck = false)
    (hpk : s.panicked = false) (hr : s.reader = some (m, f)) (h : EoseBefore c s.inbox s.inbox.length) :
    s.eosed = true ∨ ∃ id, c.parse m = some (.eose id) ∧ isMine c id = true ∧ s.registered = true := by
  obtain ⟨r1, r2, r3⟩ := hs.rd m f hr
  obtain ⟨q, m', h6, h7, h8⟩ := h
  by_cases hq : q < s.inbox.length - 1
  · left
    exact hl.eos he hc (by rw [State.handled, hr]; exact ⟨q, m', by simpa using hq, h7, h8⟩)
  · right
    have : q = s.inbox.length - 1 := by omega
    subst this
    rw [r1] at h7; cases h7
    obtain ⟨id, i1, i2⟩ := h8
    exact ⟨id, i1, (isMine_iff c id).2 i2, (hl.live he).2⟩

/-- Somebody is unsubscribing. -/
def HasUnsub (l : List Pc) : Prop := ∃ u, Pc.unsub u ∈ l

theorem hasUnsub_append {l : List Pc} (p : Pc) (h : HasUnsub l) : HasUnsub (l ++ [p]) := by
  obtain ⟨u, h⟩ := h
  exact ⟨u, List.mem_append_left _ h⟩

theorem hasUnsub_new {l : List Pc} (u : UPc) : HasUnsub (l ++ [.unsub u]) := ⟨u, by simp⟩

theorem hasUnsub_set {l : List Pc} {k : Nat} {p q : Pc} (hp : l[k]? = some p) (hq : (∃ u, p = .unsub u) → ∃ u, q = .unsub u)
    (h : HasUnsub l) : HasUnsub (l.set k q) := by
  obtain ⟨u, h⟩ := h
  obtain ⟨j, hj, e⟩ := List.getElem_of_mem h
  have hk := (List.getElem?_eq_some_iff.1 hp).1
  by_cases hkj : k = j
  · subst hkj
    have e' : l[k] = p := (List.getElem?_eq_some_iff.1 hp).2
    obtain ⟨u', hu'⟩ := hq ⟨u, by rw [← e', e]⟩
    exact ⟨u', by rw [hu']; exact List.mem_set hk _⟩
  · refine ⟨u, ?_⟩
    have : (l.set k q)[j]? = some (.unsub u) := by rw [List.getElem?_set_ne hkj, List.getElem?_eq_getElem hj, e]
    exact List.mem_of_getElem? this

theorem hasUnsub_set_new {l : List Pc} {k : Nat} {p : Pc} (hp : l[k]? = some p) (u : UPc) : HasUnsub (l.set k (.unsub u)) :=
  ⟨u, List.mem_set (List.getElem?_eq_some_iff.1 hp).1 _⟩

theorem ending_iff (s : State) : Ending s ↔ s.ctxDone = true ∨ HasUnsub s.procs := Iff.rfl

theorem ending_step {c : Cfg} {s s' : State} {l : Lab} (h : step c s l = some s') (he : Ending s) : Ending s' := by
  rw [ending_iff] at *
  step_cases h
  all_goals first
    | contradiction
    | exact he
    | grind [hasUnsub_append, hasUnsub_set, hasUnsub_set_new]

set_option maxHeartbeats 4000000 in
theorem liveInv_step {c : Cfg} {s s' : State} {l : Lab} (hs : SrcInv c s) (hp : SendInv s) (hen : EndInv s) (hi : LiveInv c s) (h : step c s l = some s') :
    LiveInv c s' := by
  have he := ending_step h
  by_cases hE : Ending s'
  · constructor <;> intro h <;> exact absurd hE h
  have hE0 : ¬ Ending s := fun h => hE (he h)
  have t1 := fun m f e => @legit_tests c s m f e hs hi hE0
  have t2 := fun m f => @eose_tests c s m f hs hi hE0
  have h1 := hi.live hE0
  have h2 := hi.kept hE0
  have h3 := hi.found hE0
  have h4 := hi.eos hE0
  have h5 := hi.acc hE0
  have p1 := hp.reader
  have e1 := hen.ctx
  have e2 := hen.ctxP
  rw [ending_iff] at hE hE0
  clear he hi hp hs hen
  step_cases h
  all_goals first
    | contradiction
    | exact ⟨fun _ => h1, fun _ => h2, fun _ => h3, fun _ => h4, fun _ => h5⟩
    | (constructor <;> intro _ <;> grind [legit_of_append, eoseBefore_of_append, State.handled, hasDisp_append, hasDisp_new, hasDisp_set,
        hasUnsub_append, hasUnsub_set, hasUnsub_set_new, hasUnsub_new])

theorem fired_src (c : Cfg) (b : Bool) : SrcInv c (fired c b) := by constructor <;> simp [fired, init]
theorem fired_send (c : Cfg) (b : Bool) : SendInv (fired c b) := by constructor <;> simp [fired, init]
theorem fired_end (c : Cfg) (b : Bool) : EndInv (fired c b) := by constructor <;> simp [fired, init]
theorem fired_lock (c : Cfg) (b : Bool) : LockInv (fired c b) := by constructor <;> simp [fired, init]
theorem fired_wg (c : Cfg) (b : Bool) : WgInv (fired c b) := by constructor <;> simp [fired, init]
theorem init_end (c : Cfg) (b : Bool) : EndInv (init c b) := by constructor <;> simp [init]
theorem init_lock (c : Cfg) (b : Bool) : LockInv (init c b) := by constructor <;> simp [init]
theorem init_wg (c : Cfg) (b : Bool) : WgInv (init c b) := by constructor <;> simp [init]
theorem fired_live (c : Cfg) (b : Bool) : LiveInv c (fired c b) := by constructor <;> simp [fired, init, State.handled, EoseBefore]

/-- What was sent was delivered. -/
def SentDel (s : State) : Prop := ∀ (i : Nat) (d : Disp), s.disps[i]? = some d → d.sent = true → (d.pos, d.evt) ∈ s.delivered

theorem sentDel_step {c : Cfg} {s s' : State} {l : Lab} (hi : SentDel s) (h : step c s l = some s') : SentDel s' := by
  unfold SentDel at *
  step_cases h
  all_goals first
    | contradiction
    | exact hi
    | grind

/-- **C25 (none dropped).** In every run of a fired subscription with no duplicate check, as long as it is not ending: the
messages handled so far that legitimately bring an event are exactly those delivered or still waiting to be received. -/
theorem C25_none_dropped (c : Cfg) (conn : Bool) (ls : List Lab) (s : State) (h : run c (fired c conn) ls = some s)
    (hf : ∀ fs, Lab.setFilters fs ∉ ls) (hc : c.hasCheck = false) (he : ¬ Ending s) (p : Nat) (e : Event) :
    (p < s.handled ∧ Legit c s.inbox p e) ↔
      ((p, e) ∈ s.delivered ∨ ∃ d ∈ s.disps, d.pos = p ∧ d.evt = e ∧ d.sent = false ∧ (d.pc = .lock ∨ d.pc = .check ∨ d.pc = .select)) := by
  have hall : SrcInv c s ∧ SendInv s ∧ EndInv s ∧ LiveInv c s ∧ SentDel s :=
    run_inv (P := fun s => SrcInv c s ∧ SendInv s ∧ EndInv s ∧ LiveInv c s ∧ SentDel s) (Q := fun l => ∀ fs, l ≠ .setFilters fs)
      (fun s l s' hl hp hs => ⟨srcInv_step hl hp.1 hs, sendInv_step hp.2.1 hs, endInv_step hp.2.2.1 hs,
        liveInv_step hp.1 hp.2.1 hp.2.2.1 hp.2.2.2.1 hs, sentDel_step hp.2.2.2.2 hs⟩) ls _ _
      (by intro l hl fs e; subst e; exact hf fs hl)
      ⟨fired_src c conn, fired_send c conn, fired_end c conn, fired_live c conn, by simp [SentDel, fired, init]⟩ h
  obtain ⟨h1, h2, h3, h4, h5⟩ := hall
  constructor
  · rintro ⟨hp, hl⟩
    obtain ⟨d, hd, rfl, rfl⟩ := h4.acc he hc p e hp hl
    obtain ⟨i, hi, rfl⟩ := List.getElem_of_mem hd
    have hg := List.getElem?_eq_getElem hi
    cases hs : (s.disps[i]).sent with
    | true => exact Or.inl (h5 i _ hg hs)
    | false =>
      right
      refine ⟨_, hd, rfl, rfl, hs, ?_⟩
      have := h4.kept he i _ hg
      cases hpc : (s.disps[i]).pc <;> simp [hpc, hs] at this ⊢
  · intro hx
    have : ∃ d ∈ s.disps, d.pos = p ∧ d.evt = e := by
      rcases hx with hx | ⟨d, hd, h6, h7, _⟩
      · obtain ⟨d, hd, h6, h7, _⟩ := h2.del p e hx
        exact ⟨d, hd, h6, h7⟩
      · exact ⟨d, hd, h6, h7⟩
    obtain ⟨d, hd, rfl, rfl⟩ := this
    obtain ⟨i, hi, rfl⟩ := List.getElem_of_mem hd
    have hg := List.getElem?_eq_getElem hi
    refine ⟨?_, h1.src i _ hg⟩
    unfold State.handled
    split
    · rename_i hr; exact (h2.reader hr).2 i _ hg
    · exact h2.pos i _ hg

/-- **C25 (progress).** While events wait to be received and the consumer receives, some dispatch goroutine can advance, on
every schedule: either on its own or by handing its event over. -/
theorem C25_progress (c : Cfg) (conn : Bool) (ls : List Lab) (s : State) (h : run c (init c conn) ls = some s) (hp : s.panicked = false)
    (hst : s.starter ≠ .close ∧ s.starter ≠ .unlock) (d : Disp) (hd : d ∈ s.disps) (hpc : d.pc ≠ .dead) :
    ∃ i s', step c s (.disp i) = some s' ∨ step c s (.dispSend i) = some s' := by
  have hl : LockInv s := run_inv' (fun s l s' hp hs => lockInv_step hp hs) (init_lock c conn) h
  have inside : ∀ (i : Nat) (d : Disp), s.disps[i]? = some d → d.pc.inside = true →
      ∃ s', step c s (.disp i) = some s' ∨ step c s (.dispSend i) = some s' := by
    intro i d hi hin
    cases hpc : d.pc with
    | lock => simp [DPc.inside, hpc] at hin
    | dead => simp [DPc.inside, hpc] at hin
    | check => by_cases hlv : s.live <;> simp [step, hp, dispStep, hi, hpc, hlv]
    | select => by_cases hlv : s.chanClosed <;> simp [step, hp, dispSend, hi, hpc, hlv]
    | finish =>
      by_cases h1 : d.added <;> by_cases h2 : s.storedwg = 0 <;> simp [step, hp, dispStep, hi, hpc, h1, h2]
  obtain ⟨i, hi, rfl⟩ := List.getElem_of_mem hd
  have hg := List.getElem?_eq_getElem hi
  cases hlk : s.lock with
  | none =>
    refine ⟨i, ?_⟩
    by_cases hin : (s.disps[i]).pc.inside = true
    · have := (hl.disp i _ hg).1 hin
      rw [hlk] at this; cases this
    · cases hpc' : (s.disps[i]).pc with
      | lock => simp [step, hp, dispStep, hg, hpc', hlk]
      | dead => exact absurd hpc' hpc
      | check => simp [DPc.inside, hpc'] at hin
      | select => simp [DPc.inside, hpc'] at hin
      | finish => simp [DPc.inside, hpc'] at hin
  | some w =>
    cases w with
    | start =>
      rcases hl.start.1 hlk with h | h
      · exact absurd h hst.1
      · exact absurd h hst.2
    | disp j =>
      have hj := hl.ex j hlk
      have hgj := List.getElem?_eq_getElem hj
      obtain ⟨s', hs'⟩ := inside j _ hgj ((hl.disp j _ hgj).2 hlk)
      exact ⟨j, s', hs'⟩

/-- **C26 (once).** However many EOSE messages arrive and whatever the schedule, the signal is sent at most once, and only
if an EOSE for this subscription was received. -/
theorem C26_eose_once (c : Cfg) (conn : Bool) (ls : List Lab) (s : State) (h : run c (init c conn) ls = some s) :
    s.eoseSent ≤ 1 ∧ (s.eoseSent = 1 → s.eosed = true) := by
  have hw : WgInv s := run_inv' (fun s l s' hp hs => wgInv_step hp hs) (init_wg c conn) h
  have := hw.once
  cases he : s.eosed <;> simp [he] at this ⊢ <;> omega

/-- The events accepted so far keep their index and whether they were accepted before the EOSE. -/
theorem disps_stable {c : Cfg} {s s' : State} {l : Lab} (h : step c s l = some s') : ∀ (i : Nat) (d : Disp), s.disps[i]? = some d →
    ∃ d', s'.disps[i]? = some d' ∧ d'.added = d.added ∧ d'.pos = d.pos ∧ d'.evt = d.evt := by
  intro i d hd
  step_cases h
  all_goals first
    | contradiction
    | exact ⟨d, hd, rfl, rfl, rfl⟩
    | grind

/-- **C26 (order).** Split a run at the point where the reader handles the first EOSE. Once the signal has been sent, every
event accepted before that point has left its dispatch goroutine: it was handed over, or it was dropped. -/
theorem C26_eose_after_stored (c : Cfg) (conn : Bool) (ls1 ls2 : List Lab) (s1 s2 : State)
    (h1 : run c (init c conn) ls1 = some s1) (hpre : s1.eosed = false) (h2 : run c s1 ls2 = some s2) (hsent : s2.eoseSent > 0) :
    ∀ (i : Nat) (d : Disp), s1.disps[i]? = some d →
      ∃ d', s2.disps[i]? = some d' ∧ d'.pos = d.pos ∧ d'.evt = d.evt ∧ d'.pc = .dead := by
  have w1 : WgInv s1 := run_inv' (fun s l s' hp hs => wgInv_step hp hs) (init_wg c conn) h1
  have w2 : WgInv s2 := run_inv' (fun s l s' hp hs => wgInv_step hp hs) w1 h2
  intro i d hd
  have ha := w1.pre hpre d (List.mem_of_getElem? hd)
  have : ∃ d', s2.disps[i]? = some d' ∧ d'.added = d.added ∧ d'.pos = d.pos ∧ d'.evt = d.evt := by
    refine run_inv' (P := fun s => ∃ d', s.disps[i]? = some d' ∧ d'.added = d.added ∧ d'.pos = d.pos ∧ d'.evt = d.evt) ?_
      ⟨d, hd, rfl, rfl, rfl⟩ h2
    rintro s l s' ⟨d', e1, e2, e3, e4⟩ hs
    obtain ⟨d'', f1, f2, f3, f4⟩ := disps_stable hs i d' e1
    exact ⟨d'', f1, f2.trans e2, f3.trans e3, f4.trans e4⟩
  obtain ⟨d', f1, f2, f3, f4⟩ := this
  exact ⟨d', f1, f3, f4, w2.done hsent d' (List.mem_of_getElem? f1) (by rw [f2, ha])⟩

/-- **C26 (dropped only when ending).** In a run of a fired subscription, an event that left its dispatch goroutine without
being delivered implies that the subscription is ending. -/
theorem C26_dropped_only_when_ending (c : Cfg) (conn : Bool) (ls : List Lab) (s : State) (h : run c (fired c conn) ls = some s)
    (hf : ∀ fs, Lab.setFilters fs ∉ ls) (d : Disp) (hd : d ∈ s.disps) (hpc : d.pc = .dead) :
    (d.pos, d.evt) ∈ s.delivered ∨ Ending s := by
  have hall : SrcInv c s ∧ SendInv s ∧ EndInv s ∧ LiveInv c s ∧ SentDel s :=
    run_inv (P := fun s => SrcInv c s ∧ SendInv s ∧ EndInv s ∧ LiveInv c s ∧ SentDel s) (Q := fun l => ∀ fs, l ≠ .setFilters fs)
      (fun s l s' hl hp hs => ⟨srcInv_step hl hp.1 hs, sendInv_step hp.2.1 hs, endInv_step hp.2.2.1 hs,
        liveInv_step hp.1 hp.2.1 hp.2.2.1 hp.2.2.2.1 hs, sentDel_step hp.2.2.2.2 hs⟩) ls _ _
      (by intro l hl fs e; subst e; exact hf fs hl)
      ⟨fired_src c conn, fired_send c conn, fired_end c conn, fired_live c conn, by simp [SentDel, fired, init]⟩ h
  obtain ⟨h1, h2, h3, h4, h5⟩ := hall
  by_cases he : Ending s
  · exact Or.inr he
  · left
    obtain ⟨i, hi, rfl⟩ := List.getElem_of_mem hd
    have hg := List.getElem?_eq_getElem hi
    exact h5 i _ hg (h4.kept he i _ hg (Or.inr hpc))

/-! ## C27: the Events channel -/

/-- The channel is never written after being closed, provided `Fire` does not run again. -/
structure ChanInv (s : State) : Prop where
  noFire : Pc.fireLive ∉ s.procs
  dead : (s.starter = .lock ∨ s.starter = .close ∨ s.starter = .unlock ∨ s.starter = .dead ∨ s.starter = .unsub .close ∨
    s.starter = .unsub .delete) → s.live = false
  noSel : s.chanClosed = true → ∀ (i : Nat) (d : Disp), s.disps[i]? = some d → d.pc ≠ .select
  ok : s.panicked = true → ∃ m ∈ s.inbox, extractSubID m = .panic

set_option maxHeartbeats 1000000 in
theorem chanInv_step {c : Cfg} {s s' : State} {l : Lab} (hl : l ≠ .callFire) (hk : LockInv s) (hw : WgInv s) (he : EndInv s) (hi : ChanInv s)
    (h : step c s l = some s') : ChanInv s' := by
  obtain ⟨h1, h2, h3, h4⟩ := hi
  have k1 := hk.disp
  have k2 := hk.start
  have w1 := hw.wg
  have w2 := @pending_pos s
  have e1 := he.closed
  clear hk hw he
  step_cases h
  all_goals first
    | contradiction
    | exact ⟨h1, h2, h3, h4⟩
    | (constructor <;> grind [DPc.inside, Disp.pending, List.mem_or_eq_of_mem_set])

/-- **C27 (safety, partial).** In every run of a fired subscription in which `Fire` is not called again, `Events` is closed
at most once and nothing ever sends on it after that: the only possible crash is the pre-parser's on a received message. -/
theorem C27_no_send_after_close_partial (c : Cfg) (conn : Bool) (ls : List Lab) (s : State) (h : run c (fired c conn) ls = some s)
    (hf : Lab.callFire ∉ ls) : s.closes ≤ 1 ∧ (s.panicked = true → ∃ m ∈ s.inbox, extractSubID m = .panic) := by
  have hall : LockInv s ∧ WgInv s ∧ EndInv s ∧ ChanInv s :=
    run_inv (P := fun s => LockInv s ∧ WgInv s ∧ EndInv s ∧ ChanInv s) (Q := fun l => l ≠ .callFire)
      (fun s l s' hl hp hs => ⟨lockInv_step hp.1 hs, wgInv_step hp.2.1 hs, endInv_step hp.2.2.1 hs,
        chanInv_step hl hp.1 hp.2.1 hp.2.2.1 hp.2.2.2 hs⟩) ls _ _
      (by intro l hl e; subst e; exact hf hl)
      ⟨fired_lock c conn, fired_wg c conn, fired_end c conn, by constructor <;> simp [fired, init]⟩ h
  refine ⟨?_, hall.2.2.2.ok⟩
  have := hall.2.2.1.closes
  split at this <;> omega

/-- **C27, C31 (termination).** On every schedule: once the context is done and the program's own actions are exhausted,
`start` has finished, `Events` has been closed exactly once, the table entry is gone and no dispatch goroutine is left. -/
theorem C27_ends_cleanly (c : Cfg) (conn : Bool) (ls : List Lab) (s : State) (h : run c (init c conn) ls = some s)
    (hp : s.panicked = false) (hq : Quiescent c s) (hctx : s.ctxDone = true) :
    s.starter = .dead ∧ s.chanClosed = true ∧ s.closes = 1 ∧ s.registered = false ∧ ∀ d ∈ s.disps, d.pc = .dead := by
  have hl : LockInv s := run_inv' (fun s l s' hp hs => lockInv_step hp hs) (init_lock c conn) h
  have he : EndInv s := run_inv' (fun s l s' hp hs => endInv_step hp hs) (init_end c conn) h
  have inside : ∀ (i : Nat) (d : Disp), s.disps[i]? = some d → d.pc.inside = true → False := by
    intro i d hi hin
    have q1 := hq (.disp i) rfl
    have q2 := hq (.dispAbort i) rfl
    cases hpc : d.pc with
    | lock => simp [DPc.inside, hpc] at hin
    | dead => simp [DPc.inside, hpc] at hin
    | check => by_cases hlv : s.live <;> simp [step, hp, dispStep, hi, hpc, hlv] at q1
    | select => simp [step, hp, dispAbort, hi, hpc, hctx] at q2
    | finish => by_cases h1 : d.added <;> by_cases h2 : s.storedwg = 0 <;> simp [step, hp, dispStep, hi, hpc, h1, h2] at q1
  have qs := hq (.start false) rfl
  have hfree : s.lock = none := by
    cases hlk : s.lock with
    | none => rfl
    | some w =>
      exfalso
      cases w with
      | start =>
        rcases hl.start.1 hlk with h | h
        · by_cases hc : s.chanClosed <;> simp [step, hp, startStep, h, hc] at qs
        · simp [step, hp, startStep, h] at qs
      | disp j =>
        have hj := hl.ex j hlk
        have hgj := List.getElem?_eq_getElem hj
        exact inside j _ hgj ((hl.disp j _ hgj).2 hlk)
  have hst : s.starter = .dead := by
    cases hs : s.starter with
    | wait => simp [step, hp, startStep, hs, hctx] at qs
    | unsub u =>
      cases u with
      | ret => exact absurd hs he.noRet
      | cancel => simp [step, hp, startStep, hs, uStep] at qs
      | cas => by_cases hlv : s.live <;> simp [step, hp, startStep, hs, uStep, hlv] at qs
      | close => by_cases hlv : s.connected <;> simp [step, hp, startStep, hs, uStep, hlv] at qs
      | delete => simp [step, hp, startStep, hs, uStep] at qs
    | lock => simp [step, hp, startStep, hs, hfree] at qs
    | close => by_cases hc : s.chanClosed <;> simp [step, hp, startStep, hs, hc] at qs
    | unlock => simp [step, hp, startStep, hs] at qs
    | dead => rfl
  have hcl := he.closed.2 (Or.inr hst)
  refine ⟨hst, hcl, by simpa [hcl] using he.closes, ?_, ?_⟩
  · cases hr : s.registered with
    | false => rfl
    | true => exact absurd hst (he.reg hr).2.2.2
  · intro d hd
    obtain ⟨i, hi, rfl⟩ := List.getElem_of_mem hd
    have hg := List.getElem?_eq_getElem hi
    cases hpc : (s.disps[i]).pc with
    | dead => rfl
    | lock =>
      have q1 := hq (.disp i) rfl
      simp [step, hp, dispStep, hg, hpc, hfree] at q1
    | check => exact absurd (inside i _ hg (by simp [hpc, DPc.inside])) id
    | select => exact absurd (inside i _ hg (by simp [hpc, DPc.inside])) id
    | finish => exact absurd (inside i _ hg (by simp [hpc, DPc.inside])) id

/-! ### The program's own actions are finite -/

/-- Auxiliary function of the proofs; models no code. -/
def DPc.w : DPc → Nat
  | .lock => 4 | .check => 3 | .select => 2 | .finish => 1 | .dead => 0

/-- Auxiliary function of the proofs; models no code. -/
def UPc.w : UPc → Nat
  | .cancel => 5 | .cas => 4 | .close => 3 | .delete => 2 | .ret => 0

/-- Auxiliary function of the proofs; models no code. -/
def SPc.w : SPc → Nat
  | .wait => 10 | .unsub u => 4 + u.w | .lock => 3 | .close => 2 | .unlock => 1 | .dead => 0

/-- Auxiliary function of the proofs; models no code. -/
def Pc.w : Pc → Nat
  | .sendClosed _ => 7 | .storeLive => 6 | .unsub u => u.w | .fireLive => 2 | .fireWrite => 1 | .dead => 0

/-- How much the program can still do on its own. -/
def State.todo (s : State) : Nat :=
  (if s.panicked then 0 else 1) + (if s.reader.isSome then 10 else 0) + (s.disps.map (fun d => d.pc.w)).sum +
    (s.procs.map Pc.w).sum + s.starter.w + s.eoseGo

/-- **C27 (finiteness).** Every action the program performs on its own decreases `todo`, so after the outside world stops
acting the program comes to rest. -/
theorem C27_internal_terminates (c : Cfg) (s s' : State) (l : Lab) (hi : l.internal = true) (h : step c s l = some s') :
    s'.todo < s.todo := by
  have d1 := sum_set (fun d : Disp => d.pc.w) s.disps
  have p1 := sum_set Pc.w s.procs
  unfold State.todo
  step_cases h
  all_goals first
    | contradiction
    | grind [DPc.w, UPc.w, SPc.w, Pc.w]

end GoNostr.Sub
