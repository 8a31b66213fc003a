import Verif.Pool.Fetch
/-!
# C32, C33, C38: `FetchMany`
-/

set_option autoImplicit false

namespace GoNostr.Fetch

macro "fetch_cases" h:ident : tactic => `(tactic| (
  simp only [step, State.finish, State.setW] at $h:ident
  (repeat' split at $h:ident) <;> (try simp only [reduceCtorEq, Option.some.injEq] at $h:ident) <;> (try subst $h:ident)))

theorem run_inv {hd : Bool} {P : State → Prop} {Q : Lab → Prop} (hs : ∀ s l s', Q l → P s → step hd s l = some s' → P s') :
    ∀ (ls : List Lab) (s s' : State), (∀ l ∈ ls, Q l) → P s → run hd s ls = some s' → P s' := by
  intro ls
  induction ls with
  | nil => intro s s' _ hp h; simp only [run, Option.some.injEq] at h; exact h ▸ hp
  | cons l ls ih =>
    intro s s' hq hp h
    simp only [run] at h
    split at h
    · cases h
    · rename_i s1 h1
      exact ih s1 s' (fun x hx => hq x (List.mem_cons_of_mem _ hx)) (hs s l s1 (hq l List.mem_cons_self) hp h1) h

theorem run_inv' {hd : Bool} {P : State → Prop} (hs : ∀ s l s', P s → step hd s l = some s' → P s')
    {ls : List Lab} {s s' : State} (hp : P s) (h : run hd s ls = some s') : P s' :=
  run_inv (Q := fun _ => True) (fun s l s' _ => hs s l s') ls s s' (fun _ _ => trivial) hp h

theorem run_append {hd : Bool} : ∀ (l1 l2 : List Lab) (s s1 : State), run hd s l1 = some s1 → run hd s (l1 ++ l2) = run hd s1 l2
  | [], _, s, s1, h => by simp only [run, Option.some.injEq] at h; subst h; rfl
  | l :: l1, l2, s, s1, h => by
    simp only [run, List.cons_append] at h ⊢
    split at h
    · cases h
    · rename_i s2 h2
      exact run_append l1 l2 s2 s1 h

/-! ## Counting copies -/

/-- Messages with pre-parsed id `x` in a list. -/
def cnt (x : Bytes) (l : List Msg) : Nat := (l.map (fun m => if m.xid = x then 1 else 0)).sum

theorem cnt_nil (x : Bytes) : cnt x [] = 0 := rfl

theorem cnt_cons (x : Bytes) (m : Msg) (l : List Msg) : cnt x (m :: l) = (if m.xid = x then 1 else 0) + cnt x l := by
  simp [cnt]

theorem cnt_snoc (x : Bytes) (m : Msg) (l : List Msg) : cnt x (l ++ [m]) = (if m.xid = x then 1 else 0) + cnt x l := by
  simp [cnt]; omega

theorem cnt_erase (x : Bytes) : ∀ (l : List Msg) (j : Nat) (m : Msg), l[j]? = some m →
    cnt x (l.eraseIdx j) + (if m.xid = x then 1 else 0) = cnt x l
  | [], j, m, h => by simp at h
  | y :: l, 0, m, h => by simp at h; subst h; simp [cnt]; omega
  | y :: l, j + 1, m, h => by
    have := cnt_erase x l j m (by simpa using h)
    simp only [List.eraseIdx_cons_succ, cnt_cons]
    omega

theorem cnt_erase_le (x : Bytes) (l : List Msg) (j : Nat) : cnt x (l.eraseIdx j) ≤ cnt x l := by
  cases h : l[j]? with
  | none => rw [List.eraseIdx_of_length_le (by simpa using h)]; exact Nat.le_refl _
  | some m => have := cnt_erase x l j m h; omega

/-- Copies waiting in a subscription. -/
def SubSt.weight (x : Bytes) (b : SubSt) : Nat := cnt x b.stored + cnt x b.live

/-- Auxiliary function of the proofs; models no code. -/
def WPc.weight (x : Bytes) : WPc → Nat
  | .emit m => if m.xid = x then 1 else 0
  | _ => 0

/-- Auxiliary function of the proofs; models no code. -/
def optWeight (x : Bytes) : Option SubSt → Nat
  | none => 0
  | some b => b.weight x

/-- Copies held by a worker. -/
def Worker.weight (x : Bytes) (w : Worker) : Nat := w.pc.weight x + optWeight x w.sub

/-- Copies of an id in flight or delivered: at most one, and only if the id was seen. -/
def CountInv (s : State) : Prop :=
  ∀ x, cnt x s.emitted + (s.workers.map (Worker.weight x)).sum ≤ if x ∈ s.seen then 1 else 0

theorem sum_set_le {α : Type} (w : α → Nat) {l : List α} {i : Nat} {x : α} (a : α) (h : l[i]? = some x) (hw : w a ≤ w x) :
    ((l.set i a).map w).sum ≤ (l.map w).sum := by
  have := Sub.sum_set w l i x a h
  omega

theorem weight_accept (x : Bytes) (b : SubSt) (m : Msg) : (b.accept m).weight x = (if m.xid = x then 1 else 0) + b.weight x := by
  simp only [SubSt.accept, SubSt.weight]
  split <;> simp only [cnt_cons] <;> omega

theorem mem_check (seen : List Bytes) (x y : Bytes) : x ∈ (check seen y).2 ↔ (x = y ∨ x ∈ seen) := by
  by_cases h : y ∈ seen <;> simp [check, h]
  rintro rfl; exact h

theorem check_new {seen : List Bytes} {y : Bytes} : (check seen y).1 = true ↔ y ∉ seen := by
  by_cases h : y ∈ seen <;> simp [check, h]

set_option maxHeartbeats 1000000 in
theorem countInv_step {hd : Bool} {s s' : State} {l : Lab} (hi : CountInv s) (h : step hd s l = some s') : CountInv s' := by
  intro x
  have hx := hi x
  have q := Sub.sum_set (Worker.weight x) s.workers
  fetch_cases h
  all_goals first
    | contradiction
    | exact hx
    | (simp only [mem_check]
       grind [cnt_nil, cnt_erase, cnt_erase_le, cnt_snoc, SubSt.new, SubSt.weight, weight_accept, optWeight, WPc.weight, Worker.weight,
        check_new])

/-! ## Workers and the closing goroutine -/

/-- Auxiliary function of the proofs; models no code. -/
def WPc.running : WPc → Nat
  | .done _ => 0
  | _ => 1

/-- Auxiliary function of the proofs; models no code. -/
def Worker.running (w : Worker) : Nat := w.pc.running

/-- The wait group counts the workers that have not returned. -/
structure WgInv (s : State) : Prop where
  wg : s.wg = (s.workers.map Worker.running).sum
  ended : s.closer ≠ .wait → s.wg = 0
  closes : s.closes = if s.closer = .dead then 1 else 0
  ok : s.crashed = false

theorem running_le {l : List Worker} {i : Nat} {w : Worker} (h : l[i]? = some w) : w.pc.running ≤ (l.map Worker.running).sum := by
  have := Sub.sum_set Worker.running l i w { w with pc := .done .ctx } h
  have e : Worker.running { w with pc := .done .ctx } = 0 := rfl
  have e2 : Worker.running w = w.pc.running := rfl
  omega

theorem sum_running_zero {l : List Worker} (h : (l.map Worker.running).sum = 0) :
    ∀ (i : Nat) (w : Worker), l[i]? = some w → ∃ e, w.pc = .done e := by
  intro i w hw
  have := running_le hw
  cases hp : w.pc <;> simp [hp, WPc.running] at this ⊢ <;> omega

theorem wgInv_step {hd : Bool} {s s' : State} {l : Lab} (hi : WgInv s) (h : step hd s l = some s') : WgInv s' := by
  obtain ⟨h1, h2, h3, h4⟩ := hi
  have q := Sub.sum_set Worker.running s.workers
  have q2 := @running_le s.workers
  fetch_cases h
  all_goals first
    | contradiction
    | exact ⟨h1, h2, h3, h4⟩
    | (constructor <;> grind [Worker.running, WPc.running])

theorem wgInv_init (n : Nat) : WgInv (init n) where
  wg := by simp [init, Worker.running, WPc.running, Worker.new]
  ended := by simp [init]
  closes := by simp [init]
  ok := rfl

/-- Authentication bookkeeping of one worker. -/
structure Worker.Auth (w : Worker) : Prop where
  auths : w.auths = if w.hasAuthed then 1 else 0
  auth : w.pc = .auth → w.hasAuthed = false ∧ w.subs = w.auths + 1
  start : w.pc = .ensure → w.subs = 0 ∧ w.hasAuthed = false
  subscribe : w.pc = .subscribe → w.subs = w.auths
  loop : w.pc = .loop → w.subs = w.auths + 1
  emit : ∀ m, w.pc = .emit m → w.subs = w.auths + 1
  done : w.subs ≤ w.auths + 1
  old : w.old = w.subs
  fresh : w.sub = none → w.subs = 0
  haveSub : w.sub ≠ none → 1 ≤ w.subs

theorem auth_step {hd : Bool} {s s' : State} {l : Lab} (hi : ∀ (i : Nat) (w : Worker), s.workers[i]? = some w → w.Auth)
    (h : step hd s l = some s') : ∀ (i : Nat) (w : Worker), s'.workers[i]? = some w → w.Auth := by
  intro i w hw
  have := hi i
  fetch_cases h
  all_goals first
    | contradiction
    | exact hi i w hw
    | (simp only [List.getElem?_set] at hw
       grind [Worker.Auth])

/-! ## Completeness -/

/-- The label is an orderly one: the caller does not cancel, no connection is lost, no relay answers CLOSED. -/
def Orderly : Lab → Prop
  | .cancel => False
  | .disconnect _ => False
  | .closedMsg _ _ => False
  | _ => True

/-- In an orderly run a worker that returned has handed over all stored messages. -/
structure Worker.Tidy (w : Worker) : Prop where
  sub : ∀ b, w.sub = some b → b.ended = false ∧ b.closed = none
  noAuth : w.pc ≠ .auth ∧ w.hasAuthed = false ∧ w.auths = 0
  pre : w.pc = .ensure ∨ w.pc = .subscribe → w.sub = none
  done : ∀ e b, w.pc = .done e → w.sub = some b → b.eosed = true ∧ b.stored = []

theorem wgZero_running {s : State} (hw : WgInv s) (h : s.wg = 0) (i : Nat) (w : Worker) (e : s.workers[i]? = some w) :
    ∃ e, w.pc = .done e :=
  sum_running_zero (by rw [← hw.wg]; exact h) i w e

/-- Invariant used in the proofs; models no code. -/
structure TidyInv (s : State) : Prop where
  tidy : ∀ (i : Nat) (w : Worker), s.workers[i]? = some w → w.Tidy
  ctx : s.ctxDone = true → s.closer ≠ .wait

set_option maxHeartbeats 1000000 in
theorem tidy_step {hd : Bool} {s s' : State} {l : Lab} (ho : Orderly l) (hw : WgInv s) (hi : TidyInv s)
    (h : step hd s l = some s') : TidyInv s' := by
  have hz := wgZero_running hw
  obtain ⟨hi, hc⟩ := hi
  have he := hw.ended
  constructor
  · intro i w hw
    have := hi i
    fetch_cases h
    all_goals first
      | contradiction
      | exact hi i w hw
      | (simp only [Orderly] at ho; done)
      | (simp only [List.getElem?_set] at hw
         constructor <;> grind [→ Worker.Tidy.sub, → Worker.Tidy.noAuth, → Worker.Tidy.pre, → Worker.Tidy.done, SubSt.new, SubSt.accept])
  · fetch_cases h
    all_goals first
      | contradiction
      | exact hc
      | (simp only [Orderly] at ho; done)
      | grind

/-- Auxiliary function of the proofs; models no code. -/
def optKeep (x : Bytes) : Option SubSt → Nat
  | none => 0
  | some b => cnt x b.stored

/-- Copies of an id delivered, being emitted, or waiting among the stored messages. -/
def Worker.keep (x : Bytes) (w : Worker) : Nat := w.pc.weight x + optKeep x w.sub

/-- An id that was seen is on its way to the consumer, unless it came late or with an invalid copy. -/
def KeepInv (x : Bytes) (s : State) : Prop :=
  x ∈ s.seen → x ∈ s.late ∨ (∃ m ∈ s.received, m.xid = x ∧ m.valid = false) ∨
    1 ≤ cnt x s.emitted + (s.workers.map (Worker.keep x)).sum

set_option maxHeartbeats 1000000 in
theorem keep_step {hd : Bool} {x : Bytes} {s s' : State} {l : Lab} (ho : Orderly l) (hw : WgInv s) (ht : TidyInv s)
    (ha : ∀ (i : Nat) (w : Worker), s.workers[i]? = some w → w.Auth) (hi : KeepInv x s) (h : step hd s l = some s') : KeepInv x s' := by
  have hz := wgZero_running hw
  obtain ⟨ht, hc⟩ := ht
  have he := hw.ended
  have q := Sub.sum_set (Worker.keep x) s.workers
  unfold KeepInv at hi ⊢
  fetch_cases h
  all_goals first
    | contradiction
    | exact hi
    | (simp only [Orderly] at ho; done)
    | (simp only [mem_check, List.mem_cons]
       grind [→ Worker.Tidy.sub, → Worker.Tidy.noAuth, → Worker.Tidy.pre, → Worker.Tidy.done, SubSt.new, SubSt.accept, Worker.keep, optKeep,
        cnt_nil, cnt_cons, cnt_erase, cnt_snoc, WPc.weight, check_new])

/-! ## Where emitted events come from -/

/-- Messages in flight were received and are valid. -/
structure SrcInv (s : State) : Prop where
  emitted : ∀ m ∈ s.emitted, m ∈ s.received ∧ m.valid = true
  emit : ∀ (i : Nat) (w : Worker) m, s.workers[i]? = some w → w.pc = .emit m → m ∈ s.received ∧ m.valid = true
  stored : ∀ (i : Nat) (w : Worker) b m, s.workers[i]? = some w → w.sub = some b → m ∈ b.stored → m ∈ s.received ∧ m.valid = true
  live : ∀ (i : Nat) (w : Worker) b m, s.workers[i]? = some w → w.sub = some b → m ∈ b.live → m ∈ s.received ∧ m.valid = true
  seen : ∀ m ∈ s.received, m.xid ∈ s.seen

set_option maxHeartbeats 2000000 in
theorem srcInv_step {hd : Bool} {s s' : State} {l : Lab} (hi : SrcInv s) (h : step hd s l = some s') : SrcInv s' := by
  obtain ⟨h1, h2, h3, h4, h5⟩ := hi
  fetch_cases h
  all_goals first
    | contradiction
    | exact ⟨h1, h2, h3, h4, h5⟩
    | (constructor <;> simp only [mem_check] <;> grind [List.mem_of_mem_eraseIdx, SubSt.accept, SubSt.new])

theorem srcInv_init (n : Nat) : SrcInv (init n) := by
  constructor <;> simp [init, List.getElem?_replicate, Worker.new] <;> (intros; subst_vars; simp_all)

theorem countInv_init (n : Nat) : CountInv (init n) := by
  intro x
  simp [init, cnt, Worker.weight, Worker.new, WPc.weight, optWeight]

theorem auth_init (n : Nat) : ∀ (i : Nat) (w : Worker), (init n).workers[i]? = some w → w.Auth := by
  intro i w h
  simp [init, List.getElem?_replicate] at h
  obtain ⟨-, rfl⟩ := h
  constructor <;> simp [Worker.new]

theorem cnt_le_nodup : ∀ (l : List Msg), (∀ x, cnt x l ≤ 1) → (l.map Msg.xid).Nodup
  | [], _ => by simp
  | m :: l, h => by
    rw [List.map_cons, List.nodup_cons]
    constructor
    · intro hm
      obtain ⟨m', hm', he⟩ := List.mem_map.1 hm
      have := h m.xid
      rw [cnt_cons, if_pos rfl] at this
      obtain ⟨j, hj, rfl⟩ := List.getElem_of_mem hm'
      have h2 := cnt_erase m.xid l j l[j] (List.getElem?_eq_getElem hj)
      rw [if_pos he] at h2
      omega
    · exact cnt_le_nodup l (fun x => by have := h x; rw [cnt_cons] at this; omega)

theorem nodup_map_id {l : List Msg} (h : (l.map Msg.xid).Nodup) (he : ∀ m ∈ l, m.xid = m.id) : (l.map Msg.id).Nodup := by
  rwa [← List.map_congr_left he]

/-- **C32** (at most once). However many relays return an event and however often, whatever the schedule, the consumer never
receives two events under one raw id. -/
theorem C32_at_most_once {hd : Bool} {n : Nat} {ls : List Lab} {s : State} (h : run hd (init n) ls = some s) :
    (s.emitted.map Msg.xid).Nodup := by
  have hc := run_inv' (P := CountInv) (fun _ _ _ => countInv_step) (countInv_init n) h
  refine cnt_le_nodup _ (fun x => ?_)
  have := hc x
  split at this <;> omega

/-- **C32** (at most once, by event id): when the raw ids are the ids of the events. -/
theorem C32_at_most_once_ids {hd : Bool} {n : Nat} {ls : List Lab} {s : State} (h : run hd (init n) ls = some s)
    (ht : ∀ m ∈ s.received, m.valid = true → m.xid = m.id) : (s.emitted.map Msg.id).Nodup := by
  have hs := run_inv' (P := SrcInv) (fun _ _ _ => srcInv_step) (srcInv_init n) h
  exact nodup_map_id (C32_at_most_once h) (fun m hm => ht m (hs.emitted m hm).1 (hs.emitted m hm).2)

/-- **C32** (nothing invented): everything emitted was received from a relay in a message that parses, matches and is
authentic. -/
theorem C32_only_received {hd : Bool} {n : Nat} {ls : List Lab} {s : State} (h : run hd (init n) ls = some s) :
    ∀ m ∈ s.emitted, m ∈ s.received ∧ m.valid = true :=
  (run_inv' (P := SrcInv) (fun _ _ _ => srcInv_step) (srcInv_init n) h).emitted

theorem cnt_pos {x : Bytes} : ∀ {l : List Msg}, 1 ≤ cnt x l → ∃ m ∈ l, m.xid = x
  | [], h => by simp [cnt] at h
  | m :: l, h => by
    rw [cnt_cons] at h
    by_cases hm : m.xid = x
    · exact ⟨m, List.mem_cons_self, hm⟩
    · rw [if_neg hm, Nat.zero_add] at h
      obtain ⟨m', h1, h2⟩ := cnt_pos (l := l) h
      exact ⟨m', List.mem_cons_of_mem _ h1, h2⟩

theorem sum_keep_zero {x : Bytes} : ∀ (l : List Worker), (∀ w ∈ l, w.keep x = 0) → (l.map (Worker.keep x)).sum = 0
  | [], _ => rfl
  | w :: l, h => by
    simp only [List.map_cons, List.sum_cons, h w List.mem_cons_self]
    rw [sum_keep_zero l (fun w hw => h w (List.mem_cons_of_mem _ hw))]

/-- **C32** (none lost, partial). If the caller does not cancel and every relay ends its answer with EOSE (no CLOSED, no lost
connection), then once the channel is closed every id some relay sent was emitted - provided all copies of it are valid and none
arrived after its relay's EOSE. Missing: the last two provisos, without which the claim is false
(`C32_forged_copy_suppresses`, `C32_live_copy_suppresses`), and relays that end with CLOSED. -/
theorem C32_complete_partial {hd : Bool} {n : Nat} {ls : List Lab} {s : State} (h : run hd (init n) ls = some s)
    (ho : ∀ l ∈ ls, Orderly l) (hcl : s.closes = 1) (x : Bytes) (hx : ∃ m ∈ s.received, m.xid = x)
    (hv : ∀ m ∈ s.received, m.xid = x → m.valid = true) (hl : x ∉ s.late) : ∃ m ∈ s.emitted, m.xid = x := by
  have inv := run_inv (hd := hd) (P := fun s => (WgInv s ∧ TidyInv s) ∧ (∀ (i : Nat) (w : Worker), s.workers[i]? = some w → w.Auth) ∧
      KeepInv x s ∧ SrcInv s) (Q := Orderly)
    (fun s l s' q p hs => ⟨⟨wgInv_step p.1.1 hs, tidy_step q p.1.1 p.1.2 hs⟩, auth_step p.2.1 hs,
      keep_step q p.1.1 p.1.2 p.2.1 p.2.2.1 hs, srcInv_step p.2.2.2 hs⟩) ls (init n) s ho
    ⟨⟨wgInv_init n, ?_⟩, auth_init n, ?_, srcInv_init n⟩ h
  · obtain ⟨⟨hw, ht⟩, -, hk, hs⟩ := inv
    obtain ⟨m, hm, rfl⟩ := hx
    rcases hk (hs.seen m hm) with h1 | ⟨m', h1, h2, h3⟩ | h1
    · exact absurd h1 hl
    · rw [hv m' h1 h2] at h3; cases h3
    · have hd : s.closer = .dead := by
        have := hw.closes
        rw [hcl] at this
        split at this <;> simp_all
      have hz := wgZero_running hw (hw.ended (by simp [hd]))
      rw [sum_keep_zero] at h1
      · exact cnt_pos (by omega)
      · intro w hw'
        obtain ⟨i, hi, rfl⟩ := List.getElem_of_mem hw'
        have hi' := List.getElem?_eq_getElem hi
        obtain ⟨e, he⟩ := hz i _ hi'
        have := (ht.tidy i _ hi').done e
        cases hb : s.workers[i].sub with
        | none => simp [Worker.keep, hb, he, WPc.weight, optKeep]
        | some b => simp [Worker.keep, hb, he, WPc.weight, optKeep, (this b he hb).2, cnt]
  · constructor
    · intro i w hw
      simp [init, List.getElem?_replicate] at hw
      obtain ⟨-, rfl⟩ := hw
      constructor <;> simp [Worker.new]
    · simp [init]
  · intro h; simp [init] at h

/-! ### C33 -/

/-- **C33** (safety). At every point of every run the channel was closed at most once, no closed channel was closed or sent on,
and if it is closed every worker has returned (so nothing is sent afterwards). -/
theorem C33_closed_once_at_end {hd : Bool} {n : Nat} {ls : List Lab} {s : State} (h : run hd (init n) ls = some s) :
    s.closes ≤ 1 ∧ s.crashed = false ∧ (s.closes = 1 → ∀ w ∈ s.workers, ∃ e, w.pc = .done e) := by
  have hw := run_inv' (P := WgInv) (fun _ _ _ => wgInv_step) (wgInv_init n) h
  refine ⟨?_, hw.ok, fun hc w hm => ?_⟩
  · rw [hw.closes]; split <;> omega
  · obtain ⟨i, hi, rfl⟩ := List.getElem_of_mem hm
    refine wgZero_running hw (hw.ended ?_) i _ (List.getElem?_eq_getElem hi)
    intro hd'
    rw [hw.closes, hd'] at hc
    simp at hc

theorem emitted_step {hd : Bool} {s s' : State} {l : Lab} (hz : ∀ (i : Nat) (w : Worker), s.workers[i]? = some w → ∃ e, w.pc = .done e)
    (h : step hd s l = some s') : s'.emitted = s.emitted := by
  fetch_cases h
  all_goals first
    | contradiction
    | rfl
    | grind

/-- **C33** (nothing after closing): after the channel was closed no run emits anything any more. -/
theorem C33_nothing_after_close {hd : Bool} {n : Nat} {ls ls' : List Lab} {s s' : State} (h : run hd (init n) ls = some s)
    (hc : s.closes = 1) (h' : run hd s ls' = some s') : s'.emitted = s.emitted := by
  have hw := run_inv' (P := WgInv) (fun _ _ _ => wgInv_step) (wgInv_init n) h
  have hd' : s.closer ≠ .wait := by
    intro hd'
    have := hw.closes
    rw [hc, hd'] at this
    simp at this
  have cl : ∀ {s s' : State} {l : Lab}, s.closer ≠ .wait → step hd s l = some s' → s'.closer ≠ .wait := by
    intro s s' l h1 h2
    fetch_cases h2
    all_goals first
      | contradiction
      | exact h1
      | grind
  refine (run_inv' (P := fun t => WgInv t ∧ t.closer ≠ .wait ∧ t.emitted = s.emitted) ?_ ⟨hw, hd', rfl⟩ h').2.2
  rintro t l t' ⟨a, b, c⟩ hs
  exact ⟨wgInv_step a hs, cl b hs, (emitted_step (wgZero_running a (a.ended b)) hs).trans c⟩

/-- Actions of the library alone, without consumer or relays; `o` fixes how the blocking calls of each worker turn out. -/
def Internal (o : Nat → Bool × Bool × Bool) : Lab → Prop
  | .ensure i ok => ok = (o i).1
  | .subscribe i ok => ok = (o i).2.1
  | .authDone i ok => ok = (o i).2.2
  | .selCtx _ => True
  | .emitCtx _ => True
  | .closer => True
  | _ => False

theorem set_get {l : List Worker} {i : Nat} {w a : Worker} (h : l[i]? = some w) : (l.set i a)[i]? = some a := by
  have : i < l.length := by
    rcases Nat.lt_or_ge i l.length with h' | h'
    · exact h'
    · rw [List.getElem?_eq_none h'] at h; cases h
  simp [this]

/-- With a cancelled context any worker can return on its own. -/
theorem worker_exit (hd : Bool) (o : Nat → Bool × Bool × Bool) (s : State) (i : Nat) (w : Worker) (hw : s.workers[i]? = some w)
    (hc : s.ctxDone = true) (hr : w.pc.running = 1) :
    ∃ ls s' w', (∀ l ∈ ls, Internal o l ∧ l ≠ .closer) ∧ run hd s ls = some s' ∧ s'.ctxDone = true ∧ s'.workers = s.workers.set i w' ∧
      w'.pc.running = 0 := by
  have loop : ∀ (s : State) (w : Worker), s.workers[i]? = some w → s.ctxDone = true → w.pc = .loop →
      ∃ ls s' w', (∀ l ∈ ls, Internal o l ∧ l ≠ .closer) ∧ run hd s ls = some s' ∧ s'.ctxDone = true ∧ s'.workers = s.workers.set i w' ∧
        w'.pc.running = 0 := by
    intro s w hw hc hp
    exact ⟨[.selCtx i], s.finish i w .ctx, { w with pc := .done .ctx }, by simp [Internal],
      by simp [run, step, hw, hp, hc], hc, rfl, rfl⟩
  have sub : ∀ (s : State) (w : Worker), s.workers[i]? = some w → s.ctxDone = true → w.pc = .subscribe →
      ∃ ls s' w', (∀ l ∈ ls, Internal o l ∧ l ≠ .closer) ∧ run hd s ls = some s' ∧ s'.ctxDone = true ∧ s'.workers = s.workers.set i w' ∧
        w'.pc.running = 0 := by
    intro s w hw hc hp
    cases ho : (o i).2.1 with
    | false => exact ⟨[.subscribe i false], s.finish i w .subscribe, { w with pc := .done .subscribe }, by simp [Internal, ho],
        by simp [run, step, hw, hp], hc, rfl, rfl⟩
    | true =>
      obtain ⟨ls, s', w', h1, h2, h3, h4, h5⟩ := loop (s.setW i ⟨.loop, w.hasAuthed, w.auths, w.subs + 1, w.old + 1, some SubSt.new⟩)
        ⟨.loop, w.hasAuthed, w.auths, w.subs + 1, w.old + 1, some SubSt.new⟩ (set_get hw) hc rfl
      refine ⟨.subscribe i true :: ls, s', w', ?_, ?_, h3, by rw [h4]; simp [State.setW], h5⟩
      · intro l hl
        rcases List.mem_cons.1 hl with rfl | hl
        · simp [Internal, ho]
        · exact h1 l hl
      · simp only [run, step, hw, hp, if_true]; exact h2
  cases hp : w.pc with
  | ensure =>
    cases ho : (o i).1 with
    | false => exact ⟨[.ensure i false], s.finish i w .connect, { w with pc := .done .connect }, by simp [Internal, ho],
        by simp [run, step, hw, hp], hc, rfl, rfl⟩
    | true =>
      obtain ⟨ls, s', w', h1, h2, h3, h4, h5⟩ := sub (s.setW i { w with pc := .subscribe }) { w with pc := .subscribe }
        (set_get hw) hc rfl
      refine ⟨.ensure i true :: ls, s', w', ?_, ?_, h3, by rw [h4]; simp [State.setW], h5⟩
      · intro l hl
        rcases List.mem_cons.1 hl with rfl | hl
        · simp [Internal, ho]
        · exact h1 l hl
      · simp only [run, step, hw, hp, if_true]; exact h2
  | subscribe => exact sub s w hw hc hp
  | loop => exact loop s w hw hc hp
  | auth =>
    cases ho : (o i).2.2 with
    | false => exact ⟨[.authDone i false], s.finish i w .closed, { w with pc := .done .closed }, by simp [Internal, ho],
        by simp [run, step, hw, hp], hc, rfl, rfl⟩
    | true =>
      obtain ⟨ls, s', w', h1, h2, h3, h4, h5⟩ := sub (s.setW i { w with pc := .subscribe, hasAuthed := true, auths := w.auths + 1 })
        { w with pc := .subscribe, hasAuthed := true, auths := w.auths + 1 } (set_get hw) hc rfl
      refine ⟨.authDone i true :: ls, s', w', ?_, ?_, h3, by rw [h4]; simp [State.setW], h5⟩
      · intro l hl
        rcases List.mem_cons.1 hl with rfl | hl
        · simp [Internal, ho]
        · exact h1 l hl
      · simp only [run, step, hw, hp, if_true]; exact h2
  | emit m => exact ⟨[.emitCtx i], s.finish i w .ctx, { w with pc := .done .ctx }, by simp [Internal],
      by simp [run, step, hw, hp, hc], hc, rfl, rfl⟩
  | done e => rw [hp] at hr; simp [WPc.running] at hr

theorem all_exit (hd : Bool) (o : Nat → Bool × Bool × Bool) : ∀ (k : Nat) (s : State), (s.workers.map Worker.running).sum = k →
    s.ctxDone = true → ∃ ls s', (∀ l ∈ ls, Internal o l ∧ l ≠ .closer) ∧ run hd s ls = some s' ∧ (s'.workers.map Worker.running).sum = 0 := by
  intro k
  induction k with
  | zero => intro s hk _; exact ⟨[], s, by simp, rfl, hk⟩
  | succ k ih =>
    intro s hk hc
    have : ∃ (i : Nat) (w : Worker), s.workers[i]? = some w ∧ w.pc.running = 1 := by
      apply Classical.byContradiction
      intro hn
      have hz : ∀ w ∈ s.workers, Worker.running w = 0 := by
        intro w hw
        obtain ⟨i, hi, rfl⟩ := List.getElem_of_mem hw
        have hi' := List.getElem?_eq_getElem hi
        cases hp : s.workers[i].pc with
        | done e => simp [Worker.running, WPc.running, hp]
        | _ => exact absurd ⟨i, _, hi', by simp [WPc.running, hp]⟩ hn
      have e : ∀ l : List Worker, (∀ w ∈ l, Worker.running w = 0) → (l.map Worker.running).sum = 0 := by
        intro l
        induction l with
        | nil => simp
        | cons w l ih => intro h; simp [h w, ih (fun w hw => h w (List.mem_cons_of_mem _ hw))]
      rw [e _ hz] at hk
      omega
    obtain ⟨i, w, hw, hr⟩ := this
    obtain ⟨ls, s1, w', h1, h2, h3, h4, h5⟩ := worker_exit hd o s i w hw hc hr
    have q := Sub.sum_set Worker.running s.workers i w w' hw
    obtain ⟨ls2, s2, g1, g2, g3⟩ := ih s1 (by
      rw [h4]
      simp only [Worker.running] at q hk ⊢
      simp only [h5, hr] at q
      omega) h3
    refine ⟨ls ++ ls2, s2, ?_, (run_append ls ls2 s s1 h2).trans g2, g3⟩
    intro l hl
    rcases List.mem_append.1 hl with hl | hl
    · exact h1 l hl
    · exact g1 l hl

/-- **C33** (the end is reached): once every worker has returned, the closing goroutine closes the channel without help. -/
theorem C33_closes_when_all_done {hd : Bool} {n : Nat} {ls : List Lab} {s : State} (h : run hd (init n) ls = some s)
    (ha : ∀ w ∈ s.workers, ∃ e, w.pc = .done e) :
    ∃ k s', k ≤ 3 ∧ run hd s (List.replicate k .closer) = some s' ∧ s'.closes = 1 ∧ s'.emitted = s.emitted := by
  have hw := run_inv' (P := WgInv) (fun _ _ _ => wgInv_step) (wgInv_init n) h
  have hz : s.wg = 0 := by
    rw [hw.wg]
    have : ∀ l : List Worker, (∀ w ∈ l, ∃ e, w.pc = .done e) → (l.map Worker.running).sum = 0 := by
      intro l
      induction l with
      | nil => simp
      | cons w l ih =>
        intro h
        obtain ⟨e, he⟩ := h w List.mem_cons_self
        simp [Worker.running, WPc.running, he]
        exact ih (fun w hw => h w (List.mem_cons_of_mem _ hw))
    exact this _ ha
  have hcl := hw.closes
  cases hc : s.closer with
  | wait => exact ⟨3, { s with closer := .dead, closes := 1, ctxDone := true }, by omega,
      by simp [List.replicate, run, step, hc, hz, hcl], rfl, rfl⟩
  | cancel => exact ⟨2, { s with closer := .dead, closes := 1, ctxDone := true }, by omega,
      by simp [List.replicate, run, step, hc, hcl], rfl, rfl⟩
  | close => exact ⟨1, { s with closer := .dead, closes := 1 }, by omega, by simp [List.replicate, run, step, hc, hcl], rfl, rfl⟩
  | dead => exact ⟨0, s, by omega, rfl, by rw [hcl, hc]; rfl, rfl⟩

/-- **C33** (cancellation ends it): after a cancellation, from every reachable state and however the blocking calls turn out, the
library alone - without the consumer reading and without any relay answering - reaches the closed channel. -/
theorem C33_cancel_closes {hd : Bool} {n : Nat} {ls : List Lab} {s : State} (h : run hd (init n) ls = some s)
    (hc : s.ctxDone = true) (o : Nat → Bool × Bool × Bool) :
    ∃ ls' s', (∀ l ∈ ls', Internal o l) ∧ run hd s ls' = some s' ∧ s'.closes = 1 := by
  obtain ⟨l1, s1, h1, h2, h3⟩ := all_exit hd o _ s rfl hc
  have hr := (run_append ls l1 (init n) s h).trans h2
  obtain ⟨k, s2, -, g1, g2, -⟩ := C33_closes_when_all_done hr (by
    intro w hw
    obtain ⟨i, hi, rfl⟩ := List.getElem_of_mem hw
    exact sum_running_zero h3 i _ (List.getElem?_eq_getElem hi))
  refine ⟨l1 ++ List.replicate k .closer, s2, ?_, (run_append l1 _ s s1 h2).trans g1, g2⟩
  intro l hl
  rcases List.mem_append.1 hl with hl | hl
  · exact (h1 l hl).1
  · rw [List.eq_of_mem_replicate hl]; trivial

/-- **C33** (empty list): for no relays the channel is closed at once, without any event. -/
theorem C33_empty_closes (hd : Bool) : ∃ s, run hd (init 0) [.closer, .closer, .closer] = some s ∧ s.closes = 1 ∧ s.emitted = [] :=
  ⟨_, rfl, rfl, rfl⟩

/-! ### C38 -/

/-- **C38.** However often the relay answers `auth-required`, each worker authenticates successfully at most once, and it
subscribes at most once more than it authenticated; while it listens on a subscription the numbers match exactly. -/
theorem C38_auth_at_most_once {hd : Bool} {n : Nat} {ls : List Lab} {s : State} (h : run hd (init n) ls = some s) :
    ∀ w ∈ s.workers, w.auths ≤ 1 ∧ w.subs ≤ w.auths + 1 ∧ (w.pc = .loop → w.subs = w.auths + 1) := by
  intro w hw
  obtain ⟨i, hi, rfl⟩ := List.getElem_of_mem hw
  have := run_inv' (P := fun s => ∀ (i : Nat) (w : Worker), s.workers[i]? = some w → w.Auth) (fun _ _ _ => auth_step) (auth_init n) h
    i _ (List.getElem?_eq_getElem hi)
  refine ⟨?_, this.done, this.loop⟩
  rw [this.auths]; split <;> omega

/-- **C38** (retry): a successful AUTH is followed by a new subscription attempt; a second `auth-required` ends the worker. -/
theorem C38_retry_then_stop {hd : Bool} {s : State} {i : Nat} {w : Worker} (hw : s.workers[i]? = some w) :
    (w.pc = .auth → ∃ s' w', step hd s (.authDone i true) = some s' ∧ s'.workers[i]? = some w' ∧ w'.pc = .subscribe) ∧
    (∀ b a, w.pc = .loop → w.sub = some b → b.closed = some a → (w.hasAuthed = true ∨ a = false ∨ hd = false) →
      ∃ s' w', step hd s (.selClosed i) = some s' ∧ s'.workers[i]? = some w' ∧ w'.pc = .done .closed) := by
  constructor
  · intro hp
    exact ⟨s.setW i { w with pc := .subscribe, hasAuthed := true, auths := w.auths + 1 },
      { w with pc := .subscribe, hasAuthed := true, auths := w.auths + 1 }, by simp [step, hw, hp], set_get hw, rfl⟩
  · intro b a hp hb ha hx
    have : (a && hd && !w.hasAuthed) = false := by rcases hx with h | h | h <;> simp [h]
    exact ⟨s.finish i w .closed, { w with pc := .done .closed }, by simp [step, hw, hp, hb, ha, this], set_get hw, rfl⟩

/-! ### Witnesses -/

/-- Two relays, one event each plus a common one; both end with EOSE. -/
def sampleRun : List Lab :=
  let a : Msg := ⟨b! "aa", b! "aa", true⟩
  let b : Msg := ⟨b! "bb", b! "bb", true⟩
  let c : Msg := ⟨b! "cc", b! "cc", true⟩
  [.ensure 0 true, .subscribe 0 true, .ensure 1 true, .subscribe 1 true, .recv 0 a, .recv 1 c, .recv 0 c, .recv 1 b,
   .eoseMsg 0, .takeStored 0 0, .emit 0, .selEose 0, .takeStored 1 1, .emit 1, .eoseMsg 1, .takeStored 1 0, .emit 1, .selEose 1,
   .closer, .closer, .closer]

example : ∃ s, run false (init 2) sampleRun = some s ∧ s.closes = 1 ∧
    s.emitted.map Msg.id = [b! "aa", b! "cc", b! "bb"] ∧ s.received.length = 4 ∧ s.late = [] := by
  decide +kernel

example : ∀ l ∈ sampleRun, Orderly l := by
  simp [sampleRun, Orderly]

/-- The claim of C32 for one id: an honest relay delivered it before its EOSE, all ended with EOSE, yet it was not emitted. -/
def Lost (s : State) (x : Bytes) : Prop :=
  s.closes = 1 ∧ (∃ m ∈ s.received, m.xid = x ∧ m.id = x ∧ m.valid = true) ∧ ∀ m ∈ s.emitted, m.xid ≠ x

instance (s : State) (x : Bytes) : Decidable (Lost s x) := by unfold Lost; infer_instance

/-- **C32 refuted (forged copy).** One relay sends a forgery under the id first; the genuine event from the other relay is then
taken for a duplicate before signatures are checked, and is lost. -/
theorem C32_forged_copy_suppresses : ∃ ls s, run false (init 2) ls = some s ∧ (∀ l ∈ ls, Orderly l) ∧ s.late = [] ∧
    Lost s (b! "aa") := by
  refine ⟨[.ensure 0 true, .subscribe 0 true, .ensure 1 true, .subscribe 1 true,
    .recv 0 ⟨b! "aa", b! "aa", false⟩, .recv 1 ⟨b! "aa", b! "aa", true⟩, .eoseMsg 0, .selEose 0, .eoseMsg 1, .selEose 1,
    .closer, .closer, .closer], ?_⟩
  simp only [List.forall_mem_cons, Orderly, List.not_mem_nil, false_imp_iff, implies_true, and_self, true_and]
  exact ⟨_, rfl, by decide +kernel⟩

/-- **C32 refuted (honest relays).** A finished relay pushes a new event live; its worker is gone, but the id counts as seen, and
the other relay's stored copy is dropped as a duplicate. -/
theorem C32_live_copy_suppresses : ∃ ls s, run false (init 2) ls = some s ∧ (∀ l ∈ ls, Orderly l) ∧
    (∀ m ∈ s.received, m.valid = true) ∧ Lost s (b! "aa") := by
  refine ⟨[.ensure 0 true, .subscribe 0 true, .ensure 1 true, .subscribe 1 true, .eoseMsg 0, .selEose 0,
    .recv 0 ⟨b! "aa", b! "aa", true⟩, .recv 1 ⟨b! "aa", b! "aa", true⟩, .eoseMsg 1, .selEose 1,
    .closer, .closer, .closer], ?_⟩
  simp only [List.forall_mem_cons, Orderly, List.not_mem_nil, false_imp_iff, implies_true, and_self, true_and]
  exact ⟨_, rfl, by decide +kernel⟩

/-- A run with one AUTH and a retried subscription. -/
example : ∃ s, run true (init 1) [.ensure 0 true, .subscribe 0 true, .closedMsg 0 true, .selClosed 0, .authDone 0 true, .subscribe 0 true,
    .closedMsg 0 true, .selClosed 0, .closer, .closer, .closer] = some s ∧ s.closes = 1 ∧
    s.workers.map (fun w => (w.auths, w.subs)) = [(1, 2)] := by
  decide +kernel

/-- A cancelled run with a worker blocked on the consumer meets `C33_cancel_closes`. -/
example : ∃ s, run false (init 1) [.ensure 0 true, .subscribe 0 true, .recv 0 ⟨b! "aa", b! "aa", true⟩, .takeStored 0 0, .cancel] = some s ∧
    s.ctxDone = true ∧ s.closes = 0 ∧ s.workers.map (fun w => w.pc) = [.emit ⟨b! "aa", b! "aa", true⟩] := by
  decide +kernel

end GoNostr.Fetch
