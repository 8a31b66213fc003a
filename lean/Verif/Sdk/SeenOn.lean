import Verif.Pool.FetchTheorems
import Verif.Sdk.Store
import Verif.Sdk.Tracker
/-!
# C184: the relays an event was seen on

A `System` has its pool report every event it hands over, and every further copy a relay sends (sdk/system.go:123-124); from these reports `GetEventRelays` knows where an event is. Here the machine of `FetchMany` (`Verif.Pool.Fetch`) runs with
those middlewares: what they are told, in any run, and what is remembered. A middleware is told in the same action in which the event is taken or the copy found; the store's `Update` is atomic (C71, C122).
-/

set_option autoImplicit false

namespace GoNostr.SeenOn
open GoNostr.Fetch GoNostr.Sdk

/-- `TrackEventRelaysD` (tracker.go:147-152): the report it makes, if any. -/
def trackDuplicate (env : TrackEnv) (relay id : Bytes) : Option (Bytes × Bytes × Bool) :=
  if isVirtualRelay env.testing relay then none else some (id, relay, true)

/-- pool.go:674-682: the worker that takes a message from its subscription, and the message. -/
def taken (s : State) : Lab → Option (Nat × Msg)
  | .takeStored i j => match s.workers[i]? with
    | none => none
    | some w => match w.sub with
      | none => none
      | some b => b.stored[j]?.map (fun m => (i, m))
  | .takeLive i j => match s.workers[i]? with
    | none => none
    | some w => match w.sub with
      | none => none
      | some b => b.live[j]?.map (fun m => (i, m))
  | _ => none

/-- pool.go:592-598: the worker whose subscription gets a message with an id that was seen before, and the message. -/
def copy (s : State) : Lab → Option (Nat × Msg)
  | .recv i m => if (check s.seen m.xid).1 then none else some (i, m)
  | .recvOld i m => if (check s.seen m.xid).1 then none else some (i, m)
  | _ => none

/-- What an action makes the system report (sdk/system.go:123-124): `url i` is the relay of worker `i`, `ev` gives the event of an id. -/
def told (env : TrackEnv) (url : Nat → Bytes) (ev : Bytes → Event) (s : State) (l : Lab) : List (Bytes × Bytes × Bool) :=
  (match copy s l with
    | some (i, m) => (trackDuplicate env (url i) m.xid).toList
    | none => []) ++
  (match taken s l with
    | some (i, m) => (trackBoth env (url i) (ev m.id)).1.toList
    | none => [])

/-- All reports of a run, in order. -/
def reports (env : TrackEnv) (url : Nat → Bytes) (ev : Bytes → Event) (hd : Bool) (s : State) : List Lab → List (Bytes × Bytes × Bool)
  | [] => []
  | l :: ls => match step hd s l with
    | none => []
    | some s' => told env url ev s l ++ reports env url ev hd s' ls

/-- What `GetEventRelays` gives after the run, on a store that was fresh before. -/
def relaysOf (env : TrackEnv) (url : Nat → Bytes) (ev : Bytes → Event) (hd : Bool) (n : Nat) (ls : List Lab) (id : Bytes) : Option (Option (List Bytes)) :=
  getEventRelays (trackAll (fun _ => none) (reports env url ev hd (init n) ls)) id

/-! ### Specification -/

/-- Specification: events whose relays are remembered: not ephemeral, no profiles and no relay lists. -/
def Remembered (e : Event) : Prop := ¬ (20000 ≤ e.kind ∧ e.kind < 30000) ∧ e.kind ≠ 0 ∧ e.kind ≠ 10002

/-- Specification: the worker's subscription got the message. -/
def Sent (ls : List Lab) (i : Nat) (m : Msg) : Prop := Lab.recv i m ∈ ls ∨ Lab.recvOld i m ∈ ls

/-! ### Proofs -/

/-- Invariant of the proofs; models no code: who sent and who took what is under way. -/
structure WhoInv (S T : Nat → Msg → Prop) (s : State) : Prop where
  emitted : ∀ m ∈ s.emitted, ∃ i, T i m ∧ S i m
  emit : ∀ (i : Nat) (w : Worker) m, s.workers[i]? = some w → w.pc = .emit m → T i m ∧ S i m
  stored : ∀ (i : Nat) (w : Worker) b m, s.workers[i]? = some w → w.sub = some b → m ∈ b.stored → S i m
  live : ∀ (i : Nat) (w : Worker) b m, s.workers[i]? = some w → w.sub = some b → m ∈ b.live → S i m

theorem whoInv_init (S T : Nat → Msg → Prop) (n : Nat) : WhoInv S T (init n) := by
  constructor <;> simp [init, List.getElem?_replicate, Worker.new] <;> (intros; subst_vars; simp_all)

set_option maxHeartbeats 4000000 in
theorem whoInv_step {S T : Nat → Msg → Prop} {hd : Bool} {s s' : State} {l : Lab} (hi : WhoInv S T s) (h : step hd s l = some s')
    (hS : ∀ i m, l = .recv i m → S i m) (hT : ∀ i m, taken s l = some (i, m) → T i m) : WhoInv S T s' := by
  obtain ⟨h1, h2, h3, h4⟩ := hi
  fetch_cases h
  all_goals first
    | contradiction
    | exact ⟨h1, h2, h3, h4⟩
    | (constructor <;> grind [List.mem_of_mem_eraseIdx, SubSt.accept, SubSt.new, taken, List.mem_of_getElem?])

/-- Auxiliary function of the proofs; models no code: all that was taken in a run. -/
def takes (hd : Bool) (s : State) : List Lab → List (Nat × Msg)
  | [] => []
  | l :: ls => match step hd s l with
    | none => []
    | some s' => (taken s l).toList ++ takes hd s' ls

theorem whoInv_run {S T : Nat → Msg → Prop} {hd : Bool} : ∀ {ls : List Lab} {s s' : State}, WhoInv S T s → run hd s ls = some s' →
    (∀ i m, .recv i m ∈ ls → S i m) → (∀ i m, (i, m) ∈ takes hd s ls → T i m) → WhoInv S T s'
  | [], s, s', hi, h, _, _ => by simp only [run, Option.some.injEq] at h; exact h ▸ hi
  | l :: ls, s, s', hi, h, hS, hT => by
    simp only [run] at h
    cases hs : step hd s l with
    | none => rw [hs] at h; cases h
    | some s1 =>
      rw [hs] at h
      simp only [takes, hs] at hT
      exact whoInv_run (whoInv_step hi hs (fun i m hl => hS i m (hl ▸ List.mem_cons_self)) (fun i m ht => hT i m (by simp [ht]))) h
        (fun i m hm => hS i m (List.mem_cons_of_mem _ hm)) (fun i m hm => hT i m (List.mem_append_right _ hm))

theorem taken_sent {S T : Nat → Msg → Prop} {s : State} (hi : WhoInv S T s) {l : Lab} {i : Nat} {m : Msg} (h : taken s l = some (i, m)) : S i m := by
  obtain ⟨h1, h2, h3, h4⟩ := hi
  unfold taken at h
  split at h
  · split at h
    · cases h
    · next w hw =>
      split at h
      · cases h
      · next b hb =>
        obtain ⟨m', hm, he⟩ := Option.map_eq_some_iff.1 h
        cases he
        exact h3 _ w b m hw hb (List.mem_of_getElem? hm)
  · split at h
    · cases h
    · next w hw =>
      split at h
      · cases h
      · next b hb =>
        obtain ⟨m', hm, he⟩ := Option.map_eq_some_iff.1 h
        cases he
        exact h4 _ w b m hw hb (List.mem_of_getElem? hm)
  · cases h

theorem takes_reports {env : TrackEnv} {url : Nat → Bytes} {ev : Bytes → Event} {hd : Bool} {i : Nat} {m : Msg} {r : Bytes × Bytes × Bool} (hr : (trackBoth env (url i) (ev m.id)).1 = some r) :
    ∀ {ls : List Lab} {s : State}, (i, m) ∈ takes hd s ls → r ∈ reports env url ev hd s ls
  | [], _, h => by simp [takes] at h
  | l :: ls, s, h => by
    unfold takes at h
    unfold reports
    cases hs : step hd s l with
    | none => rw [hs] at h; simp at h
    | some s1 =>
      rw [hs] at h
      simp only at h ⊢
      rcases List.mem_append.1 h with h | h
      · have ht : taken s l = some (i, m) := by simpa using h
        refine List.mem_append_left _ (List.mem_append_right _ ?_)
        simp [ht, hr]
      · exact List.mem_append_right _ (takes_reports hr h)

theorem reports_append {env : TrackEnv} {url : Nat → Bytes} {ev : Bytes → Event} {hd : Bool} : ∀ {l1 l2 : List Lab} {s s1 : State}, run hd s l1 = some s1 →
    reports env url ev hd s (l1 ++ l2) = reports env url ev hd s l1 ++ reports env url ev hd s1 l2
  | [], l2, s, s1, h => by simp only [run, Option.some.injEq] at h; subst h; rfl
  | l :: l1, l2, s, s1, h => by
    simp only [run] at h
    cases hs : step hd s l with
    | none => rw [hs] at h; cases h
    | some s2 =>
      rw [hs] at h
      simp only [reports, List.cons_append, hs, List.append_assoc]
      rw [reports_append h]

/-- Every report names a relay that sent the message it is about. -/
theorem reports_from {S : Nat → Msg → Prop} {env : TrackEnv} {url : Nat → Bytes} {ev : Bytes → Event} {hd : Bool} (hev : ∀ x, (ev x).id = x) {r : Bytes × Bytes × Bool} :
    ∀ {ls : List Lab} {s : State}, WhoInv S (fun _ _ => True) s → (∀ i m, Sent ls i m → S i m) → r ∈ reports env url ev hd s ls →
      ∃ i m, S i m ∧ r.2.1 = url i ∧ (r.1 = m.xid ∨ r.1 = m.id)
  | [], _, _, _, h => by simp [reports] at h
  | l :: ls, s, hi, hS, h => by
    unfold reports at h
    cases hs : step hd s l with
    | none => rw [hs] at h; simp at h
    | some s1 =>
      rw [hs] at h
      simp only at h
      rcases List.mem_append.1 h with h | h
      · unfold told at h
        rcases List.mem_append.1 h with h | h
        · cases hc : copy s l with
          | none => rw [hc] at h; simp at h
          | some p =>
            obtain ⟨i, m⟩ := p
            rw [hc] at h
            simp only [trackDuplicate] at h
            split at h
            · simp at h
            · simp only [Option.toList_some, List.mem_singleton] at h
              subst h
              refine ⟨i, m, hS i m ?_, rfl, Or.inl rfl⟩
              unfold copy at hc
              split at hc
              · split at hc <;> cases hc
                exact Or.inl List.mem_cons_self
              · split at hc <;> cases hc
                exact Or.inr List.mem_cons_self
              · cases hc
        · cases hc : taken s l with
          | none => rw [hc] at h; simp at h
          | some p =>
            obtain ⟨i, m⟩ := p
            rw [hc] at h
            simp only [trackBoth] at h
            refine ⟨i, m, taken_sent hi hc, ?_⟩
            split at h
            · simp at h
            · split at h
              · simp at h
              · split at h
                · simp only [Option.toList_some, List.mem_singleton] at h
                  subst h
                  exact ⟨rfl, Or.inr (hev _)⟩
                · simp at h
      · refine reports_from hev (whoInv_step hi hs (fun i m hl => hS i m (Or.inl (hl ▸ List.mem_cons_self))) (fun _ _ _ => trivial)) (fun i m hm => hS i m ?_) h
        rcases hm with hm | hm
        · exact Or.inl (List.mem_cons_of_mem _ hm)
        · exact Or.inr (List.mem_cons_of_mem _ hm)

theorem reports_len {env : TrackEnv} {url : Nat → Bytes} {ev : Bytes → Event} {hd : Bool} {n : Nat} {ls : List Lab} (hev : ∀ x, (ev x).id = x) (hurl : ∀ i, (url i).length ≤ 255) :
    ∀ r ∈ reports env url ev hd (init n) ls, r.2.1.length ≤ 255 := by
  intro r hr
  obtain ⟨i, m, -, h, -⟩ := reports_from hev (whoInv_init (fun _ _ => True) _ n) (fun _ _ _ => trivial) hr
  rw [h]
  exact hurl i

/-- What is emitted was reported, with the relay it came from. -/
theorem emitted_reported {env : TrackEnv} {url : Nat → Bytes} {ev : Bytes → Event} {hd : Bool} {n : Nat} {ls : List Lab} {s : State} (h : run hd (init n) ls = some s) (hev : ∀ x, (ev x).id = x)
    (hvirt : ∀ i, isVirtualRelay env.testing (url i) = false) {m : Msg} (hm : m ∈ s.emitted) (hr : Remembered (ev m.id)) :
    ∃ i, Sent ls i m ∧ (m.id, url i, false) ∈ reports env url ev hd (init n) ls := by
  obtain ⟨i, h1, h2⟩ := (whoInv_run (S := fun i m => Sent ls i m) (T := fun i m => (i, m) ∈ takes hd (init n) ls) (whoInv_init _ _ n) h (fun i m hm => Or.inl hm) (fun i m hm => hm)).emitted m hm
  refine ⟨i, h2, takes_reports ?_ h1⟩
  obtain ⟨r1, r2, r3⟩ := hr
  have e1 : ¬ ((ev m.id).kind < 30000 ∧ (ev m.id).kind ≥ 20000) := fun hh => r1 ⟨hh.2, hh.1⟩
  simp only [trackBoth, hvirt i, Bool.false_eq_true, if_false, e1, if_pos (show (ev m.id).kind ≠ 0 ∧ (ev m.id).kind ≠ 10002 from ⟨r2, r3⟩), hev]

/-- **C184 (partial: see below).** Whatever the schedule, for every event whose relays are remembered: once the event was handed over, `GetEventRelays` has the relay it came from; every relay that sends a copy after that is in the list from then on; and every relay in the list
sent a message under an id with the same first eight bytes, each relay being there once. Missing, because false: copies that arrive before the first one is taken are forgotten (`C184_early_copy_forgotten`), and a relay that only sends a forgery under the id
is remembered as well (`C184_forger_remembered`). -/
theorem C184_remembered_partial (env : TrackEnv) (url : Nat → Bytes) (ev : Bytes → Event) (hd : Bool) (n : Nat) (ls : List Lab) (s : State) (h : run hd (init n) ls = some s) (hev : ∀ x, (ev x).id = x)
    (hvirt : ∀ i, isVirtualRelay env.testing (url i) = false) (hurl : ∀ i, (url i).length ≤ 255) (hx : ∀ i m, Sent ls i m → m.valid = true → m.xid = m.id)
    (x k : Bytes) (hk : relayKey x = some k) (hr : Remembered (ev x)) :
    (∀ m ∈ s.emitted, m.id = x → ∃ i list, Sent ls i m ∧ relaysOf env url ev hd n ls x = some (some list) ∧ url i ∈ list) ∧
    (∀ pre l i m post s1, l = .recv i m ∨ l = .recvOld i m → ls = pre ++ l :: post → run hd (init n) pre = some s1 → m.xid = x → (∃ m' ∈ s1.emitted, m'.id = x) →
      ∃ list, relaysOf env url ev hd n ls x = some (some list) ∧ url i ∈ list) ∧
    (∀ list, relaysOf env url ev hd n ls x = some (some list) → list.Nodup ∧ ∀ u ∈ list, ∃ i m, Sent ls i m ∧ url i = u ∧ (relayKey m.xid = some k ∨ relayKey m.id = some k)) := by
  obtain ⟨c1, c2, c3⟩ := C72_event_relays_partial (reports env url ev hd (init n) ls) (reports_len hev hurl) x k hk
  refine ⟨?_, ?_, ?_⟩
  · intro m hm hmx
    obtain ⟨i, h1, h2⟩ := emitted_reported h hev hvirt hm (hmx ▸ hr)
    obtain ⟨a, b, hab⟩ := List.append_of_mem h2
    obtain ⟨list, l1, l2, -⟩ := c3 a m.id (url i) b hab (hmx ▸ hk)
    exact ⟨i, list, h1, by unfold relaysOf; rw [c1, l1], l2⟩
  · rintro pre l i m post s1 hl hls hpre hmx ⟨m', hm', hmx'⟩
    obtain ⟨i', h1, h2⟩ := emitted_reported hpre hev hvirt hm' (hmx' ▸ hr)
    have hsrc := run_inv' (P := SrcInv) (fun _ _ _ => srcInv_step) (srcInv_init n) hpre
    obtain ⟨e1, e2⟩ := hsrc.emitted m' hm'
    have hsent : Sent ls i' m' := by
      rw [hls]
      rcases h1 with h1 | h1
      · exact Or.inl (List.mem_append_left _ h1)
      · exact Or.inr (List.mem_append_left _ h1)
    have hseen : m.xid ∈ s1.seen := by
      have := hsrc.seen m' e1
      rw [hx i' m' hsent e2, hmx'] at this
      rw [hmx]; exact this
    have hstep : ∃ s2, step hd s1 l = some s2 := by
      rw [hls, run_append _ _ _ _ hpre, run] at h
      cases hs : step hd s1 l with
      | none => rw [hs] at h; cases h
      | some s2 => exact ⟨s2, rfl⟩
    obtain ⟨s2, hs2⟩ := hstep
    have hrep : reports env url ev hd (init n) ls = reports env url ev hd (init n) pre ++ (told env url ev s1 l ++ reports env url ev hd s2 post) := by
      rw [hls, reports_append hpre]
      simp only [reports, hs2]
    have htold : (x, url i, true) ∈ told env url ev s1 l := by
      refine List.mem_append_left _ ?_
      have hc : copy s1 l = some (i, m) := by rcases hl with rfl | rfl <;> simp [copy, check, hseen]
      rw [hc]
      simp [trackDuplicate, hvirt i, hmx]
    obtain ⟨a, b, hab⟩ := List.append_of_mem h2
    obtain ⟨list, l1, -, l3⟩ := c3 a m'.id (url i') (b ++ (told env url ev s1 l ++ reports env url ev hd s2 post)) (by rw [hrep, hab]; simp) (hmx' ▸ hk)
    exact ⟨list, by unfold relaysOf; rw [c1, l1], l3 x (url i) true (List.mem_append_right _ (List.mem_append_left _ htold)) hk⟩
  · intro list hl
    unfold relaysOf at hl
    rw [c1, Option.some.injEq] at hl
    obtain ⟨d1, d2⟩ := c2 list hl
    refine ⟨d1, fun u hu => ?_⟩
    obtain ⟨e, b, hm, hke⟩ := d2 u hu
    obtain ⟨i, m, q1, q2, q3⟩ := reports_from hev (whoInv_init (fun i m => Sent ls i m) _ n) (fun _ _ hh => hh) hm
    refine ⟨i, m, q1, q2.symm, ?_⟩
    rcases q3 with q3 | q3
    · left; rw [← q3]; exact hke
    · right; rw [← q3]; exact hke

/-! ### Examples and refutations -/

/-- An id for the examples. -/
def anId : Bytes := hexEnc (List.replicate 32 7)
/-- Two relays for the examples. -/
def twoUrls (i : Nat) : Bytes := if i = 0 then b! "wss://a.example" else b! "wss://b.example"
/-- The events of the examples are notes. -/
def notes (x : Bytes) : Event := ⟨x, [], 1, 1, [], [], []⟩
/-- *library* an environment for the examples. -/
def anEnv : TrackEnv := { parsePub := fun _ => false, scheme := fun _ => none, normalize := id, hostDot := fun _ => false, testing := false }

/-- The beginning of the runs: both relays are asked. -/
def asked : List Lab := [.ensure 0 true, .subscribe 0 true, .ensure 1 true, .subscribe 1 true]

/-- The second copy comes after the event was handed over: both relays are remembered. -/
example : ∃ s, run false (init 2) (asked ++ [.recv 0 ⟨anId, anId, true⟩, .takeStored 0 0, .emit 0, .recv 1 ⟨anId, anId, true⟩]) = some s ∧ s.emitted = [⟨anId, anId, true⟩] ∧
    relaysOf anEnv twoUrls notes false 2 (asked ++ [.recv 0 ⟨anId, anId, true⟩, .takeStored 0 0, .emit 0, .recv 1 ⟨anId, anId, true⟩]) anId = some (some [b! "wss://a.example", b! "wss://b.example"]) :=
  ⟨_, rfl, by decide +kernel, by decide +kernel⟩

/-- **C184 is false (early copies).** Both relays are honest and send the event; the copy of the second arrives before the first one is taken from its subscription. There is no record yet to add it to, so the second relay is forgotten, though the fetch ends in order. -/
theorem C184_early_copy_forgotten : ∃ ls s, run false (init 2) ls = some s ∧ (∀ l ∈ ls, Orderly l) ∧ s.closes = 1 ∧ Sent ls 1 ⟨anId, anId, true⟩ ∧ s.emitted = [⟨anId, anId, true⟩] ∧
    relaysOf anEnv twoUrls notes false 2 ls anId = some (some [b! "wss://a.example"]) := by
  refine ⟨asked ++ [.recv 0 ⟨anId, anId, true⟩, .recv 1 ⟨anId, anId, true⟩, .takeStored 0 0, .emit 0, .eoseMsg 0, .selEose 0, .eoseMsg 1, .selEose 1, .closer, .closer, .closer], ?_⟩
  refine ⟨_, rfl, ?_, by decide +kernel, Or.inl (by decide +kernel), by decide +kernel, by decide +kernel⟩
  simp [asked, Orderly]

/-- **C184 is false (forgers).** A relay that has not got the event but sends something else under its id is remembered as one that has it: copies are reported before signatures are checked. -/
theorem C184_forger_remembered : ∃ ls s, run false (init 2) ls = some s ∧ (∀ m, Sent ls 1 m → m.valid = false) ∧
    relaysOf anEnv twoUrls notes false 2 ls anId = some (some [b! "wss://a.example", b! "wss://b.example"]) := by
  refine ⟨asked ++ [.recv 0 ⟨anId, anId, true⟩, .takeStored 0 0, .emit 0, .recv 1 ⟨anId, anId, false⟩], _, rfl, ?_, by decide +kernel⟩
  intro m hm
  simp [Sent, asked] at hm
  rw [hm]

end GoNostr.SeenOn
