import Verif.Relay.Lemmas
/-!
# C37 `PublishMany`, C34 `FetchManyReplaceable`
-/

set_option autoImplicit false

namespace GoNostr.PubMany

/-- What one worker reports: an error or none, and whether a relay is attached. -/
structure Result where
  err : Option Bytes
  hasRelay : Bool
  deriving DecidableEq, Repr

/-- The outcomes of the calls a worker makes; `none` is success. `authRequired` says whether the error text of the first `Publish`
starts with `msg: auth-required:`. -/
structure Outcomes where
  ensure : Option Bytes
  publish : Option Bytes
  authRequired : Bool
  auth : Option Bytes
  publishAgain : Option Bytes
  deriving DecidableEq, Repr

/-- One worker's report (pool.go:227-256). -/
def report (handler : Bool) (o : Outcomes) : Result :=
  match o.ensure with
  | some e => ⟨some e, false⟩
  | none => match o.publish with
    | none => ⟨none, true⟩
    | some e =>
      if o.authRequired && handler then
        match o.auth with
        | none => ⟨o.publishAgain, true⟩
        | some a => ⟨some (b! "failed to auth: " ++ a), true⟩
      else ⟨some e, true⟩

/-- A worker: working, about to send its report, returned. -/
inductive WPc
  | work
  | send (r : Result)
  | done
  deriving DecidableEq, Repr

/-- The channel has capacity `workers.length` (pool.go:218); `taken` is what the caller read, in order, each report with the index of
its url. -/
structure State where
  workers : List WPc
  wg : Nat
  buffer : List (Nat × Result)
  taken : List (Nat × Result)
  closed : Bool
  crashed : Bool
  deriving DecidableEq, Repr

/-- The state at the start. -/
def init (n : Nat) : State where
  workers := List.replicate n .work
  wg := n
  buffer := []
  taken := []
  closed := false
  crashed := false

/-- The atomic actions of the machine; its step function says which lines each of them is. -/
inductive Lab
  | work (i : Nat) (o : Outcomes)
  | send (i : Nat)
  | take
  | close

/-- One atomic action (pool.go:218-263). A send blocks while the buffer is full; a send on the closed channel panics. -/
def step (handler : Bool) (s : State) : Lab → Option State
  | .work i o => match s.workers[i]? with
    | some .work => some { s with workers := s.workers.set i (.send (report handler o)) }
    | _ => none
  | .send i => match s.workers[i]? with
    | some (.send r) =>
      if s.closed then some { s with crashed := true }
      else if s.buffer.length < s.workers.length then some { s with
        buffer := s.buffer ++ [(i, r)]
        workers := s.workers.set i .done
        wg := s.wg - 1 }
      else none
    | _ => none
  | .take => match s.buffer with
    | [] => none
    | x :: rest => some { s with
        buffer := rest
        taken := s.taken ++ [x] }
  | .close => if s.wg = 0 ∧ s.closed = false then some { s with closed := true } else none

/-- A schedule: the actions one after the other. -/
def run (handler : Bool) (s : State) : List Lab → Option State
  | [] => some s
  | l :: ls => match step handler s l with
    | none => none
    | some s' => run handler s' ls

theorem run_inv {hd : Bool} {P : State → Prop} (hs : ∀ s l s', P s → step hd s l = some s' → P s') :
    ∀ {ls : List Lab} {s s' : State}, P s → run hd s ls = some s' → P s' := by
  intro ls
  induction ls with
  | nil => intro s s' hp h; simp only [run, Option.some.injEq] at h; exact h ▸ hp
  | cons l ls ih =>
    intro s s' hp h
    simp only [run] at h
    split at h
    · cases h
    · rename_i s1 h1
      exact ih (hs s l s1 hp h1) h

/-- Auxiliary function of the proofs; models no code. -/
def WPc.left : WPc → Nat
  | .work => 1
  | .send _ => 1
  | .done => 0

theorem left_work : WPc.work.left = 1 := rfl
theorem left_send (r : Result) : (WPc.send r).left = 1 := rfl
theorem left_done : WPc.done.left = 0 := rfl

/-- Reports of worker `i` in a list. -/
def cnt (i : Nat) (l : List (Nat × Result)) : Nat := (l.map (fun x => if x.1 = i then 1 else 0)).sum

theorem cnt_append (i : Nat) (l m : List (Nat × Result)) : cnt i (l ++ m) = cnt i l + cnt i m := by simp [cnt]

theorem cnt_cons (i : Nat) (x : Nat × Result) (l : List (Nat × Result)) : cnt i (x :: l) = (if x.1 = i then 1 else 0) + cnt i l := by
  simp [cnt]

theorem cnt_nil (i : Nat) : cnt i [] = 0 := rfl

/-- Invariant used in the proofs; models no code. -/
structure Inv (n : Nat) (s : State) : Prop where
  len : s.workers.length = n
  wg : s.wg = (s.workers.map WPc.left).sum
  once : ∀ i, cnt i s.buffer + cnt i s.taken = if s.workers[i]? = some .done then 1 else 0
  total : s.buffer.length + s.taken.length + s.wg = n
  closed : s.closed = true → s.wg = 0
  ok : s.crashed = false

theorem left_le {l : List WPc} {i : Nat} {w : WPc} (h : l[i]? = some w) : w.left ≤ (l.map WPc.left).sum := by
  have := Sub.sum_set WPc.left l i w .done h
  have e : WPc.left .done = 0 := rfl
  omega

theorem inv_step {n : Nat} {hd : Bool} {s s' : State} {l : Lab} (hi : Inv n s) (h : step hd s l = some s') : Inv n s' := by
  obtain ⟨h1, h2, h3, h4, h5, h6⟩ := hi
  have q := Sub.sum_set WPc.left s.workers
  have q2 := @left_le s.workers
  simp only [step] at h
  (repeat' split at h) <;> (try simp only [reduceCtorEq, Option.some.injEq] at h) <;> (try subst h)
  all_goals first
    | contradiction
    | exact ⟨h1, h2, h3, h4, h5, h6⟩
    | (constructor <;> grind [left_work, left_send, left_done, cnt_append, cnt_cons, cnt_nil])

theorem cnt_le (i : Nat) : ∀ l : List (Nat × Result), 1 ≤ cnt i l ↔ ∃ r, (i, r) ∈ l
  | [] => by simp [cnt]
  | x :: l => by
    have ih := cnt_le i l
    rw [cnt_cons]
    by_cases hx : x.1 = i
    · subst hx
      simp only [if_true]
      constructor
      · intro _; exact ⟨x.2, List.mem_cons_self⟩
      · intro _; omega
    · rw [if_neg hx, Nat.zero_add, ih]
      constructor
      · rintro ⟨r, h⟩; exact ⟨r, List.mem_cons_of_mem _ h⟩
      · rintro ⟨r, h⟩
        rcases List.mem_cons.1 h with h | h
        · exact absurd (congrArg Prod.fst h).symm hx
        · exact ⟨r, h⟩

theorem inv_init (n : Nat) : Inv n (init n) := by
  constructor <;> simp [init, WPc.left, cnt, List.getElem?_replicate]

theorem inv_run {hd : Bool} {n : Nat} {ls : List Lab} {s : State} (h : run hd (init n) ls = some s) : Inv n s :=
  run_inv (P := Inv n) (fun _ _ _ => inv_step) (inv_init n) h

/-- Once it has been closed and drained, the caller read exactly one report per url. -/
def OneEach (n : Nat) (l : List (Nat × Result)) : Prop := l.length = n ∧ ∀ i, i < n → (l.filter (fun x => x.1 = i)).length = 1

theorem cnt_filter (i : Nat) (l : List (Nat × Result)) : (l.filter (fun x => x.1 = i)).length = cnt i l := by
  induction l with
  | nil => rfl
  | cons x l ih =>
    rw [cnt_cons]
    by_cases hx : x.1 = i <;> simp [hx, ih]
    omega

/-- **C37** (one result per url). When the channel is closed, what the caller has read together with what is still buffered is exactly
one report for each url; the channel is closed only after all reports are in, and nothing is ever sent on it afterwards. -/
theorem C37_one_result_per_url {hd : Bool} {n : Nat} {ls : List Lab} {s : State} (h : run hd (init n) ls = some s) :
    s.crashed = false ∧ (∀ i, (s.taken.filter (fun x => x.1 = i)).length ≤ 1) ∧
    (s.closed = true → OneEach n (s.taken ++ s.buffer)) := by
  have hi := inv_run h
  refine ⟨hi.ok, fun i => ?_, fun hc => ?_⟩
  · rw [cnt_filter]
    have := hi.once i
    split at this <;> omega
  · have hz := hi.closed hc
    refine ⟨by have := hi.total; rw [List.length_append]; omega, fun i hi' => ?_⟩
    rw [cnt_filter, cnt_append]
    have h1 := hi.once i
    have h2 : s.workers[i]? = some .done := by
      have hlt : i < s.workers.length := by rw [hi.len]; exact hi'
      have h3 := List.getElem?_eq_getElem hlt
      have h4 := left_le h3
      rw [h3]
      have hw := hi.wg
      cases hp : s.workers[i] <;> simp [hp, WPc.left] at h4 <;> first | rfl | omega
    rw [if_pos h2] at h1
    omega

/-- **C37** (never blocked): a worker that has its report can always deliver it at once, even if the caller reads nothing. -/
theorem C37_send_never_blocks {hd : Bool} {n : Nat} {ls : List Lab} {s : State} (h : run hd (init n) ls = some s) (i : Nat) (r : Result)
    (hw : s.workers[i]? = some (.send r)) :
    ∃ s', step hd s (.send i) = some s' ∧ s'.workers[i]? = some .done ∧ s'.crashed = false ∧ (i, r) ∈ s'.buffer := by
  have hi := inv_run h
  have h1 := left_le hw
  have h2 := hi.wg
  have h3 := hi.total
  have h5 := hi.len
  have hcl : s.closed = false := by
    cases hc : s.closed with
    | false => rfl
    | true => have := hi.closed hc; simp [WPc.left] at h1; omega
  have hlt : i < s.workers.length := by
    rcases Nat.lt_or_ge i s.workers.length with h' | h'
    · exact h'
    · rw [List.getElem?_eq_none h'] at hw; cases hw
  simp [WPc.left] at h1
  refine ⟨{ s with buffer := s.buffer ++ [(i, r)], workers := s.workers.set i .done, wg := s.wg - 1 }, ?_, by simp [hlt], hi.ok, by simp⟩
  have : s.buffer.length < s.workers.length := by omega
  simp [step, hw, hcl, this]

/-- **C37** (the end): when all workers have reported the channel can be closed. -/
theorem C37_closes {hd : Bool} {n : Nat} {ls : List Lab} {s : State} (h : run hd (init n) ls = some s)
    (hd' : ∀ w ∈ s.workers, w = .done) (hc : s.closed = false) : ∃ s', step hd s .close = some s' ∧ s'.closed = true := by
  have hi := inv_run h
  have hz : s.wg = 0 := by
    rw [hi.wg]
    generalize s.workers = l at hd'
    induction l with
    | nil => rfl
    | cons w l ih =>
      simp only [List.map_cons, List.sum_cons, hd' w List.mem_cons_self]
      rw [ih (fun x hx => hd' x (List.mem_cons_of_mem _ hx))]; rfl
  exact ⟨{ s with closed := true }, by simp [step, hz, hc], rfl⟩

/-- **C37** (what a report says). It carries no error exactly when the relay was reached and accepted the event, either at once or
after a demanded and successful authentication; it carries a relay exactly when the relay was reached. -/
theorem C37_report_meaning (handler : Bool) (o : Outcomes) :
    ((report handler o).err = none ↔ o.ensure = none ∧ (o.publish = none ∨
      (o.publish ≠ none ∧ o.authRequired = true ∧ handler = true ∧ o.auth = none ∧ o.publishAgain = none))) ∧
    ((report handler o).hasRelay = true ↔ o.ensure = none) := by
  obtain ⟨e, p, a, t, q⟩ := o
  cases e <;> cases p <;> cases a <;> cases handler <;> cases t <;> cases q <;> simp [report]

/-- Two urls, one unreachable; the caller reads only after the end. -/
example : ∃ s, run true (init 2) [.work 1 ⟨none, some (b! "x"), true, none, none⟩, .send 1, .work 0 ⟨some (b! "down"), none, false, none, none⟩,
    .send 0, .close, .take, .take] = some s ∧ s.closed = true ∧ s.taken = [(1, ⟨none, true⟩), (0, ⟨some (b! "down"), false⟩)] := by
  decide +kernel

end GoNostr.PubMany

namespace GoNostr.Replaceable

/-- A version of a replaceable event as delivered by some relay: the key (pubkey and d tag) and timestamp the pre-parser reads, the
event's own content and whether it passes parsing, matching and signature check. -/
structure Ver where
  key : Bytes × Bytes
  ts : Int
  id : Bytes
  valid : Bool
  deriving DecidableEq, Repr

/-- `FetchManyReplaceable` (pool.go:317-412): `latest` is `seenAlreadyLatest` (0 if absent), `bag` the versions accepted by the
readers and not yet taken by a worker, `results` the returned map, `received` everything delivered (history, newest first).
Simplification: key and timestamp read by the pre-parser are those of the event. -/
structure State where
  latest : Bytes × Bytes → Int
  bag : List Ver
  results : Bytes × Bytes → Option Ver
  received : List Ver

/-- The state at the start. -/
def init : State where
  latest := fun _ => 0
  bag := []
  results := fun _ => none
  received := []

/-- The atomic actions of the machine; its step function says which lines each of them is. -/
inductive Lab
  | recv (v : Ver)
  | take (j : Nat)
  | drop (j : Nat)

/-- The duplicate check (pool.go:335-345): whether it reports an update - which makes the reader skip the message (relay.go:243-249) -
and the new latest timestamps. -/
def check (latest : Bytes × Bytes → Int) (v : Ver) : Bool × (Bytes × Bytes → Int) :=
  if v.ts > latest v.key then (true, fun k => if k = v.key then v.ts else latest k) else (false, latest)

/-- `FetchManyReplaceable` (pool.go:317-412): a reader gets a version, a worker takes one, or one is lost when the context ends. -/
def step (s : State) : Lab → Option State
  | .recv v =>
    if (check s.latest v).1 || !v.valid then some { s with
      latest := (check s.latest v).2
      received := v :: s.received }
    else some { s with
      latest := (check s.latest v).2
      received := v :: s.received
      bag := v :: s.bag }
  -- pool.go:399-403
  | .take j => match s.bag[j]? with
    | none => none
    | some v => some { s with
        bag := s.bag.eraseIdx j
        results := fun k => if k = v.key then some v else s.results k }
  | .drop j => some { s with bag := s.bag.eraseIdx j }

/-- A schedule: the actions one after the other. -/
def run (s : State) : List Lab → Option State
  | [] => some s
  | l :: ls => match step s l with
    | none => none
    | some s' => run s' ls

theorem run_inv {P : State → Prop} (hs : ∀ s l s', P s → step s l = some s' → P s') :
    ∀ {ls : List Lab} {s s' : State}, P s → run s ls = some s' → P s' := by
  intro ls
  induction ls with
  | nil => intro s s' hp h; simp only [run, Option.some.injEq] at h; exact h ▸ hp
  | cons l ls ih =>
    intro s s' hp h
    simp only [run] at h
    split at h
    · cases h
    · rename_i s1 h1
      exact ih (hs s l s1 hp h1) h

/-- Versions at least as new as `t` delivered for the key. -/
def newer (k : Bytes × Bytes) (t : Int) (l : List Ver) : Nat := (l.filter (fun v => v.key = k ∧ t ≤ v.ts)).length

theorem newer_cons (k : Bytes × Bytes) (t : Int) (v : Ver) (l : List Ver) :
    newer k t (v :: l) = (if v.key = k ∧ t ≤ v.ts then 1 else 0) + newer k t l := by
  unfold newer
  by_cases h : v.key = k ∧ t ≤ v.ts
  · rw [List.filter_cons_of_pos (by simpa using h)]; simp [h]; omega
  · rw [List.filter_cons_of_neg (by simpa using h)]; simp only [h, if_false, Nat.zero_add]

/-- A version that gets through was preceded by one at least as new. -/
def Beaten (s : State) (v : Ver) : Prop := v ∈ s.received ∧ v.valid = true ∧ (0 < v.ts → 2 ≤ newer v.key v.ts s.received)

/-- Invariant used in the proofs; models no code. -/
structure Inv (s : State) : Prop where
  latest : ∀ k t, 0 < t → t ≤ s.latest k → 1 ≤ newer k t s.received
  bag : ∀ v ∈ s.bag, Beaten s v
  res : ∀ k v, s.results k = some v → v.key = k ∧ Beaten s v

theorem beaten_mono {s : State} {v : Ver} (w : Ver) (l : Bytes × Bytes → Int) (b : List Ver) (r : Bytes × Bytes → Option Ver)
    (h : Beaten s v) : Beaten { latest := l, bag := b, results := r, received := w :: s.received } v := by
  obtain ⟨h1, h2, h3⟩ := h
  refine ⟨List.mem_cons_of_mem _ h1, h2, fun hp => ?_⟩
  have := h3 hp
  simp only [newer_cons]
  split <;> omega

theorem inv_step {s s' : State} {l : Lab} (hi : Inv s) (h : step s l = some s') : Inv s' := by
  obtain ⟨h1, h2, h3⟩ := hi
  cases l with
  | recv v =>
    simp only [step] at h
    have hl : ∀ k t, 0 < t → t ≤ (check s.latest v).2 k → 1 ≤ newer k t (v :: s.received) := by
      intro k t ht hk
      rw [newer_cons]
      unfold check at hk
      split at hk
      · simp only at hk
        split at hk
        · rename_i he
          rw [if_pos ⟨he.symm, hk⟩]; omega
        · have := h1 k t ht hk; omega
      · have := h1 k t ht hk; omega
    split at h
    · simp only [Option.some.injEq] at h; subst h
      exact ⟨hl, fun w hw => beaten_mono v _ _ _ (h2 w hw), fun k w hw => ⟨(h3 k w hw).1, beaten_mono v _ _ _ (h3 k w hw).2⟩⟩
    · rename_i hc
      simp only [Option.some.injEq] at h; subst h
      refine ⟨hl, fun w hw => ?_, fun k w hw => ⟨(h3 k w hw).1, beaten_mono v _ _ _ (h3 k w hw).2⟩⟩
      rcases List.mem_cons.1 hw with rfl | hw
      · simp only [check, Bool.or_eq_true, Bool.not_eq_true', not_or] at hc
        obtain ⟨c1, c2⟩ := hc
        refine ⟨List.mem_cons_self, by simpa using c2, fun hp => ?_⟩
        split at c1
        · simp at c1
        · rename_i hn
          have := h1 w.key w.ts hp (by omega)
          rw [newer_cons, if_pos ⟨rfl, Int.le_refl _⟩]
          omega
      · exact beaten_mono v _ _ _ (h2 w hw)
  | take j =>
    simp only [step] at h
    split at h
    · cases h
    · rename_i v hv
      simp only [Option.some.injEq] at h; subst h
      refine ⟨h1, fun w hw => h2 w (List.mem_of_mem_eraseIdx hw), fun k w hw => ?_⟩
      simp only at hw
      split at hw
      · rename_i hk
        cases hw
        exact ⟨hk.symm, h2 _ (List.mem_of_getElem? hv)⟩
      · exact h3 k w hw
  | drop j =>
    simp only [step, Option.some.injEq] at h; subst h
    exact ⟨h1, fun w hw => h2 w (List.mem_of_mem_eraseIdx hw), h3⟩

theorem inv_run {ls : List Lab} {s : State} (h : run init ls = some s) : Inv s :=
  run_inv (P := Inv) (fun _ _ _ => inv_step) ⟨by intro k t h1 h2; simp only [init] at h2; omega, by simp [init], by simp [init]⟩ h

/-- **C34** (soundness, partial). What the map holds for a key is a version of that key some relay delivered, valid. Missing: that it is
the newest, which is false (`C34_newest_never_returned`). -/
theorem C34_returns_delivered_partial {ls : List Lab} {s : State} (h : run init ls = some s) (k : Bytes × Bytes) (v : Ver)
    (hr : s.results k = some v) : v.key = k ∧ v ∈ s.received ∧ v.valid = true := by
  have := (inv_run h).res k v hr
  exact ⟨this.1, this.2.1, this.2.2.1⟩

/-- **C34 refuted.** Whatever is delivered in whatever order: a version (with a positive timestamp) that is strictly newer than all other
deliveries for its key, and was delivered once, is not what the map holds. -/
theorem C34_newest_never_returned {ls : List Lab} {s : State} (h : run init ls = some s) (k : Bytes × Bytes) (v : Ver) (hp : 0 < v.ts)
    (hn : newer k v.ts s.received = 1) : s.results k ≠ some v := by
  intro hr
  have := (inv_run h).res k v hr
  have h2 := this.2.2.2 hp
  rw [this.1] at h2
  omega

/-- Two versions delivered by one relay, all valid, all processed: the map is empty although the newest is version 20; in descending
order it holds the older one. -/
theorem C34_refuted :
    (∃ s, run init [.recv ⟨(b! "p", b! "d"), 10, b! "1", true⟩, .recv ⟨(b! "p", b! "d"), 20, b! "2", true⟩] = some s ∧
      s.bag = [] ∧ s.results (b! "p", b! "d") = none) ∧
    (∃ s, run init [.recv ⟨(b! "p", b! "d"), 20, b! "2", true⟩, .recv ⟨(b! "p", b! "d"), 10, b! "1", true⟩, .take 0] = some s ∧
      s.bag = [] ∧ s.results (b! "p", b! "d") = some ⟨(b! "p", b! "d"), 10, b! "1", true⟩ ∧ newer (b! "p", b! "d") 20 s.received = 1) := by
  refine ⟨⟨_, rfl, by decide +kernel, by decide +kernel⟩, ⟨_, rfl, by decide +kernel, by decide +kernel, by decide +kernel⟩⟩

end GoNostr.Replaceable

