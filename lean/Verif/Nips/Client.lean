import Verif.Base.Num
import Verif.Json.Event
import Verif.Event.Theorems
/-!
# C102–C105: the remote signing client (nip46/client.go)

A machine of any number of concurrent `RPC` calls of one `BunkerClient` and of the goroutine that hands out the answers.

Simplifications: the relay goroutines of a call are started in one action, and what they publish is not modelled (the answers that
arrive are arbitrary); decryption, which may panic (C57, C58), and JSON are parameters; building the request fails or succeeds in one action.
-/

set_option autoImplicit false

namespace GoNostr.Client

/-! ## The model -/

/-- nip46.go:25-29 `Response`. -/
structure Resp where
  id : Bytes
  error : Bytes
  result : Bytes
  deriving DecidableEq, Repr

/-- client.go:127-139: an event of the subscription is decrypted with NIP-44, else with NIP-04, and parsed; `none` is one of the three `continue`s. -/
structure Reader where
  /-- `nip44.Decrypt` with the conversation key -/
  dec44 : Bytes → Out (Option Bytes)
  /-- `nip04.Decrypt` with the shared secret -/
  dec04 : Bytes → Out (Option Bytes)
  /-- `json.Unmarshal` into a `Response` -/
  parse : Bytes → Option Resp

/-- client.go:122-139. 24133 is `KindNostrConnect`. -/
def Reader.read (R : Reader) (kind : Int) (content : Bytes) : Out (Option Resp) :=
  if kind ≠ 24133 then .val none
  else match R.dec44 content with
    | .panic => .panic
    | .val (some plain) => .val (R.parse plain)
    | .val none => match R.dec04 content with
      | .panic => .panic
      | .val (some plain) => .val (R.parse plain)
      | .val none => .val none

/-- client.go:233: the id of the `n`-th call (`serial` is a `uint64`). -/
def callId (pfx : Bytes) (n : Nat) : Bytes := pfx ++ [45] ++ fmtNat (n % 2 ^ 64)

/-- What `RPC` returns (client.go:239-241, 244-246, 254-256, 283, 288, 290-293). -/
inductive Ret where
  | notSent
  | noRelay
  | cancelled
  | remote (err : Bytes)
  | ok (result : Bytes)
  deriving DecidableEq, Repr

/-- client.go:290-293. -/
def Resp.ret (r : Resp) : Ret := if r.error ≠ [] then .remote r.error else .ok r.result

/-- Where a call is: not started, with an id (233), listening with its relay goroutines started (258-277), in the first `select`
(279-285), in the second (287-295), returning (the deferred 261: delete), (262: close), returned. -/
inductive Pc where
  | idle | made | listening | sel1 | sel2
  | leaving (r : Ret)
  | closing (r : Ret)
  | done (r : Ret)
  deriving DecidableEq, Repr

/-- The goroutine of client.go:114-155: waiting for an event, or sending an answer to the channel of a call (151). -/
inductive Disp where
  | idle
  | sending (n : Nat) (r : Resp)
  deriving DecidableEq, Repr

/-- `listeners` maps ids to the channel of a call; `expecting` is `expectingAuth`; `shown` are the urls `onAuth` was called with. -/
structure State where
  serial : Nat
  pc : Nat → Pc
  relays : Nat → Nat
  listeners : Bytes → Option Nat
  closed : Nat → Bool
  disp : Disp
  expecting : Bytes → Bool
  shown : List Bytes
  crashed : Bool

/-- client.go:102-112. -/
def init : State where
  serial := 0
  pc := fun _ => .idle
  relays := fun _ => 0
  listeners := fun _ => none
  closed := fun _ => false
  disp := .idle
  expecting := fun _ => false
  shown := []
  crashed := false

/-- The actions. -/
inductive Lab where
  /-- a call of `RPC` draws its id -/
  | call
  /-- the request cannot be built, encrypted or signed -/
  | refuse (n : Nat)
  /-- the call listens and starts its `k` relay goroutines -/
  | listen (n k : Nat)
  /-- the call arrives at the first `select` -/
  | wait (n : Nat)
  /-- a relay goroutine got its relay: it signals if the call is at the first `select`, and publishes -/
  | relayUp (n : Nat)
  /-- a relay goroutine got an error -/
  | relayDown (n : Nat)
  /-- the context of the call is done -/
  | ctxDone (n : Nat)
  /-- an event arrives -/
  | recv (kind : Int) (content : Bytes)
  /-- the answer is handed over -/
  | deliver
  /-- `listeners.Delete` -/
  | forget (n : Nat)
  /-- `close(respWaiter)` -/
  | close (n : Nat)
  deriving DecidableEq, Repr

/-- Assignment to one place. -/
def upd {α : Type} (f : Nat → α) (n : Nat) (x : α) : Nat → α := fun m => if m = n then x else f m

/-- Assignment to one place. -/
def updB {α : Type} (f : Bytes → α) (n : Bytes) (x : α) : Bytes → α := fun m => if m = n then x else f m

/-- client.go:114-155 and 232-295; `none`: the action is not possible (the goroutine waits). -/
def step (R : Reader) (pfx : Bytes) (st : State) (l : Lab) : Option State :=
  if st.crashed then none
  else match l with
  | .call => some { st with serial := st.serial + 1, pc := upd st.pc (st.serial + 1) .made }
  | .refuse n => if st.pc n = .made then some { st with pc := upd st.pc n (.done .notSent) } else none
  | .listen n k => if st.pc n = .made then some { st with pc := upd st.pc n .listening, relays := upd st.relays n k, listeners := updB st.listeners (callId pfx n) (some n) } else none
  | .wait n => if st.pc n = .listening then some { st with pc := upd st.pc n .sel1 } else none
  | .relayUp n =>
    if st.relays n = 0 then none
    else some { st with relays := upd st.relays n (st.relays n - 1), pc := if st.pc n = .sel1 then upd st.pc n .sel2 else st.pc }
  | .relayDown n => if st.relays n = 0 then none else some { st with relays := upd st.relays n (st.relays n - 1) }
  | .ctxDone n =>
    if st.pc n = .sel1 then some { st with pc := upd st.pc n (.leaving .noRelay) }
    else if st.pc n = .sel2 then some { st with pc := upd st.pc n (.leaving .cancelled) }
    else none
  | .recv kind content =>
    if st.disp = .idle then
      match R.read kind content with
      | .panic => some { st with crashed := true }
      | .val none => some st
      | .val (some resp) =>
        if resp.result = b! "auth_url" then some (if st.expecting resp.id then { st with shown := st.shown ++ [resp.error] } else st)
        else match st.listeners resp.id with
          | some n => some { st with disp := .sending n resp }
          | none => some st
    else none
  | .deliver => match st.disp with
    | .idle => none
    | .sending n resp =>
      if st.closed n then some { st with crashed := true }
      else if st.pc n = .sel2 then some { st with pc := upd st.pc n (.leaving resp.ret), disp := .idle }
      else none
  | .forget n => match st.pc n with
    | .leaving r => some { st with pc := upd st.pc n (.closing r), listeners := updB st.listeners (callId pfx n) none }
    | _ => none
  | .close n => match st.pc n with
    | .closing r => some { st with pc := upd st.pc n (.done r), closed := upd st.closed n true, crashed := (match st.disp with | .sending m _ => m == n | .idle => false) }
    | _ => none

/-- `Trace ls st`: the actions `ls` lead to `st`. -/
inductive Trace (R : Reader) (pfx : Bytes) : List Lab → State → Prop
  | nil : Trace R pfx [] init
  | snoc {ls : List Lab} {st st' : State} {l : Lab} (h : Trace R pfx ls st) (hs : step R pfx st l = some st') : Trace R pfx (ls ++ [l]) st'

/-- A schedule: the actions one after the other. -/
def run (R : Reader) (pfx : Bytes) (st : State) (ls : List Lab) : Option State := ls.foldlM (step R pfx) st

variable {R : Reader} {pfx : Bytes}

theorem Trace.append {ls : List Lab} {st : State} (h : Trace R pfx ls st) (ls' : List Lab) {st' : State} (hr : run R pfx st ls' = some st') : Trace R pfx (ls ++ ls') st' := by
  induction ls' generalizing ls st with
  | nil =>
    simp only [run, List.foldlM_nil, pure, Option.some.injEq] at hr
    subst hr
    simpa using h
  | cons l ls' ih =>
    simp only [run, List.foldlM_cons, Option.bind_eq_bind, Option.bind_eq_some_iff] at hr
    obtain ⟨st1, h1, h2⟩ := hr
    have := ih (h.snoc h1) h2
    simpa using this

theorem Trace.of_run {ls : List Lab} {st : State} (hr : run R pfx init ls = some st) : Trace R pfx ls st := by
  simpa using Trace.append .nil ls hr

/-! ## C102: own answers -/

/-- The call has drawn its id and has not returned. -/
def Pc.active : Pc → Prop
  | .idle => False
  | .done _ => False
  | _ => True

/-- Among the actions `ls`, while call `n` was running, an event arrived that reads as `resp`. -/
def Answered (R : Reader) (pfx : Bytes) (ls : List Lab) (n : Nat) (resp : Resp) : Prop :=
  ∃ l1 kind content l2 st1, ls = l1 ++ .recv kind content :: l2 ∧ Trace R pfx l1 st1 ∧ (st1.pc n).active ∧ R.read kind content = .val (some resp) ∧ resp.id = callId pfx n ∧ resp.result ≠ b! "auth_url"

/-- What a call returns or is about to return. -/
def Pc.ret? : Pc → Option Ret
  | .leaving r => some r
  | .closing r => some r
  | .done r => some r
  | _ => none

/-- The call has its listener. -/
def Pc.listens : Pc → Prop
  | .listening => True
  | .sel1 => True
  | .sel2 => True
  | .leaving _ => True
  | _ => False

theorem Pc.listens.active {p : Pc} (h : p.listens) : p.active := by cases p <;> simp_all [Pc.listens, Pc.active]

/-- Whether the call has returned. -/
def Pc.returned : Pc → Bool
  | .done _ => true
  | _ => false

/-- The outcome comes from an answer. -/
def Ret.answer : Ret → Prop
  | .remote _ => True
  | .ok _ => True
  | _ => False

/-- Invariant used in the proofs; models no code. -/
structure Inv (R : Reader) (pfx : Bytes) (ls : List Lab) (st : State) : Prop where
  lid : ∀ id n, st.listeners id = some n → id = callId pfx n ∧ (st.pc n).listens
  sending : ∀ n resp, st.disp = .sending n resp → Answered R pfx ls n resp
  ret : ∀ n r, (st.pc n).ret? = some r → r.answer → ∃ resp, Answered R pfx ls n resp ∧ resp.ret = r
  fresh : ∀ n, st.serial < n → st.pc n = .idle
  closed : ∀ n, st.closed n = true → (st.pc n).returned = true

theorem Answered.snoc {ls : List Lab} {n : Nat} {resp : Resp} (h : Answered R pfx ls n resp) (l : Lab) : Answered R pfx (ls ++ [l]) n resp := by
  obtain ⟨l1, kind, content, l2, st1, rfl, h⟩ := h
  exact ⟨l1, kind, content, l2 ++ [l], st1, by simp, h⟩

macro "cases_step" h:ident : tactic => `(tactic|
  (simp only [step] at $h:ident; (repeat' split at $h:ident) <;> (try simp only [reduceCtorEq, Option.some.injEq] at $h:ident) <;> (try subst $h:ident)))

theorem Inv.step {ls : List Lab} {st st' : State} {l : Lab} (ht : Trace R pfx ls st) (h : Inv R pfx ls st) (hs : step R pfx st l = some st') : Inv R pfx (ls ++ [l]) st' := by
  have hsend : ∀ n resp, st.disp = .sending n resp → Answered R pfx (ls ++ [l]) n resp := fun n resp hd => (h.sending n resp hd).snoc l
  have hret : ∀ n r, (st.pc n).ret? = some r → r.answer → ∃ resp, Answered R pfx (ls ++ [l]) n resp ∧ resp.ret = r := fun n r hp ha => by
    obtain ⟨resp, h1, h2⟩ := h.ret n r hp ha
    exact ⟨resp, h1.snoc l, h2⟩
  have hf := h.fresh
  have hl := h.lid
  have hc := h.closed
  cases l with
  | recv kind content =>
    cases_step hs
    all_goals (first | exact ⟨hl, hsend, hret, hf, hc⟩ | skip)
    next hn =>
      refine ⟨hl, ?_, hret, hf, hc⟩
      intro m resp' hd
      simp only [Disp.sending.injEq] at hd
      obtain ⟨rfl, rfl⟩ := hd
      obtain ⟨h1, h2⟩ := hl _ _ hn
      exact ⟨ls, kind, content, [], st, rfl, ht, h2.active, by assumption, h1, by assumption⟩
  | deliver =>
    cases_step hs
    next => exact ⟨hl, hsend, hret, hf, hc⟩
    next n resp hd _ hp =>
      have ha := hsend _ _ hd
      refine ⟨?_, by simp, ?_, ?_, ?_⟩
      · intro id m hm
        obtain ⟨h1, h2⟩ := hl id m hm
        refine ⟨h1, ?_⟩
        simp only [upd]
        split
        · trivial
        · exact h2
      · intro m r hr hra
        simp only [upd] at hr
        split at hr
        · next hmn =>
          subst hmn
          simp only [Pc.ret?, Option.some.injEq] at hr
          exact ⟨resp, ha, hr⟩
        · exact hret m r hr hra
      · intro m hm
        have := hf m hm
        grind [upd]
      · intro m hm
        have := hc m hm
        grind [upd, Pc.returned]
  | _ =>
    cases_step hs
    all_goals
      refine ⟨?_, hsend, ?_, ?_, ?_⟩
      · intro id m hm
        have := hl id m
        grind [upd, updB, Pc.listens]
      · intro m r hr hra
        have := hret m r
        grind [upd, updB, Pc.ret?, Ret.answer]
      · intro m hm
        have := hf m
        have := hf (st.serial + 1)
        grind [upd, updB]
      · intro m hm
        have := hc m
        grind [upd, Pc.returned]

theorem inv {ls : List Lab} {st : State} (h : Trace R pfx ls st) : Inv R pfx ls st := by
  induction h with
  | nil => exact ⟨by simp [init], by simp [init], by simp [init, Pc.ret?], by simp [init], by simp [init]⟩
  | snoc ht hs ih => exact ih.step ht hs

/-- C102: whatever the concurrent calls, arriving events, cancellations and their order, a call returns a result only if, while it ran, an event arrived that decrypts to an answer to this call's own
id, with that result and no error. -/
theorem C102_own_answer {ls : List Lab} {st : State} (h : Trace R pfx ls st) {n : Nat} {result : Bytes} (hr : st.pc n = .done (.ok result)) :
    Answered R pfx ls n ⟨callId pfx n, [], result⟩ := by
  obtain ⟨resp, h1, h2⟩ := (inv h).ret n (.ok result) (by rw [hr]; rfl) trivial
  have hid : resp.id = callId pfx n := by obtain ⟨_, _, _, _, _, _, _, _, _, h, _⟩ := h1; exact h
  obtain ⟨id, e, r⟩ := resp
  simp only [Resp.ret] at h2
  split at h2
  · cases h2
  · next he =>
    simp only [ne_eq, Decidable.not_not] at he
    cases h2
    simp only at hid
    subst he
    subst hid
    exact h1

/-- C102: and an error from the signer only if an answer to this call's own id carried that error. -/
theorem C102_own_error {ls : List Lab} {st : State} (h : Trace R pfx ls st) {n : Nat} {err : Bytes} (hr : st.pc n = .done (.remote err)) :
    ∃ resp, Answered R pfx ls n resp ∧ resp.error = err ∧ err ≠ [] := by
  obtain ⟨resp, h1, h2⟩ := (inv h).ret n (.remote err) (by rw [hr]; rfl) trivial
  refine ⟨resp, h1, ?_⟩
  simp only [Resp.ret] at h2
  split at h2
  · next he => cases h2; exact ⟨rfl, he⟩
  · cases h2

/-- C102: no event answers two calls (as long as fewer than 2^64 were made). -/
theorem C102_one_call {ls : List Lab} {st : State} (h : Trace R pfx ls st) (hs : st.serial < 2 ^ 64) {n m : Nat} {resp : Resp} (hn : st.pc n ≠ .idle) (hm : st.pc m ≠ .idle)
    (h1 : Answered R pfx ls n resp) (h2 : Answered R pfx ls m resp) : n = m := by
  have hlt : ∀ k, st.pc k ≠ .idle → k < 2 ^ 64 := by
    intro k hk
    by_cases hk' : st.serial < k
    · exact absurd ((inv h).fresh k hk') hk
    · omega
  have hn := hlt n hn
  have hm := hlt m hm
  obtain ⟨_, _, _, _, _, _, _, _, _, e1, _⟩ := h1
  obtain ⟨_, _, _, _, _, _, _, _, _, e2, _⟩ := h2
  have := fmtNat_injective (List.append_cancel_left (e1.symm.trans e2))
  rwa [Nat.mod_eq_of_lt hn, Nat.mod_eq_of_lt hm] at this

/-- C102: a call that returned has left no listener behind. -/
theorem C102_no_leak {ls : List Lab} {st : State} (h : Trace R pfx ls st) {n : Nat} {r : Ret} (hn : st.pc n = .done r) (id : Bytes) : st.listeners id ≠ some n := by
  intro hl
  have := ((inv h).lid id n hl).2
  rw [hn] at this
  exact this

/-! ### A concrete run: two calls answered in the other order -/

/-- Decryption that does nothing; `x` before the text makes NIP-44 fail, and NIP-04 panics at `x?`. The text is the id, `|`, the result. -/
def toy : Reader where
  dec44 := fun s => match s with
    | 120 :: _ => .val none
    | s => .val (some s)
  dec04 := fun s => if s = b! "x?" then .panic else .val (some (s.drop 1))
  parse := fun s => if 124 ∈ s then some ⟨s.takeWhile (· ≠ 124), [], (s.dropWhile (· ≠ 124)).drop 1⟩ else none

/-- A value of the examples. -/
def swapped : List Lab :=
  [.call, .call, .listen 2 1, .listen 1 2, .wait 1, .wait 2, .relayUp 2, .relayDown 1, .relayUp 1, .recv 24133 (b! "gn-2|two"), .deliver, .recv 1 (b! "gn-1|bad"), .forget 2,
   .recv 24133 (b! "xgn-1|one"), .deliver, .close 2, .forget 1, .close 1]

example : ∃ st, Trace toy (b! "gn") swapped st ∧ st.serial < 2 ^ 64 ∧ st.pc 1 = .done (.ok (b! "one")) ∧ st.pc 2 = .done (.ok (b! "two")) ∧ st.crashed = false :=
  ⟨_, .of_run (st := ((run toy (b! "gn") init swapped).get (by decide +kernel))) (by simp), by decide +kernel, by decide +kernel, by decide +kernel, by decide +kernel⟩

/-! ## C103: crash and stall -/

/-- The ids of the answers among the actions. -/
def answerIds (R : Reader) (ls : List Lab) : List Bytes := ls.filterMap (fun l => match l with
  | .recv kind content => match R.read kind content with
    | .val (some r) => if r.result = b! "auth_url" then none else some r.id
    | _ => none
  | _ => none)

/-- A run that ends with a crash although nothing unusual arrives: the only relay is connected before the call waits for it, so the call never learns of it; the answer arrives and waits to be handed
over; the call's context ends and closes the channel. -/
def crashRun : List Lab := [.call, .listen 1 1, .relayUp 1, .wait 1, .recv 24133 (b! "gn-1|pong"), .ctxDone 1, .forget 1, .close 1]

/-- C103 is false: the process crashes (send on closed channel) in a run with one call, one relay and one answer. -/
theorem C103_crash : ∃ st, Trace toy (b! "gn") crashRun st ∧ st.crashed = true :=
  ⟨_, .of_run (st := ((run toy (b! "gn") init crashRun).get (by decide +kernel))) (by simp), by decide +kernel⟩

/-- C103 is false even if no context ever ends: a second answer to the same call that arrives while the call returns. -/
theorem C103_crash_second_answer : ∃ ls st, (∀ n, Lab.ctxDone n ∉ ls) ∧ Trace toy (b! "gn") ls st ∧ st.crashed = true := by
  let ls : List Lab := [.call, .listen 1 1, .wait 1, .relayUp 1, .recv 24133 (b! "gn-1|pong"), .deliver, .recv 24133 (b! "gn-1|pong"), .forget 1, .close 1]
  exact ⟨ls, _, by simp [ls], .of_run (st := ((run toy (b! "gn") init ls).get (by decide +kernel))) (by simp), by decide +kernel⟩

/-- Invariant used in the proofs; models no code. -/
structure Calm (R : Reader) (pfx : Bytes) (ls : List Lab) (st : State) : Prop where
  crashed : st.crashed = false
  sending : ∀ n resp, st.disp = .sending n resp → (st.pc n = .listening ∨ st.pc n = .sel1 ∨ st.pc n = .sel2) ∧ callId pfx n ∈ answerIds R ls
  left : ∀ n, (st.pc n).listens → st.pc n = .listening ∨ st.pc n = .sel1 ∨ st.pc n = .sel2 ∨ callId pfx n ∈ answerIds R ls

theorem answerIds_snoc {ls : List Lab} {id : Bytes} (l : Lab) (h : id ∈ answerIds R ls) : id ∈ answerIds R (ls ++ [l]) := by
  simp only [answerIds, List.filterMap_append, List.mem_append] at h ⊢
  exact .inl h

theorem Calm.step {ls : List Lab} {st st' : State} {l : Lab} (ht : Trace R pfx ls st) (h : Calm R pfx ls st) (hs : step R pfx st l = some st') (hn : (answerIds R (ls ++ [l])).Nodup)
    (hc : ∀ n, Lab.ctxDone n ≠ l) (hp : ∀ k c, l = .recv k c → R.read k c ≠ .panic) : Calm R pfx (ls ++ [l]) st' := by
  have hi := inv ht
  have hsend : ∀ n resp, st.disp = .sending n resp → (st.pc n = .listening ∨ st.pc n = .sel1 ∨ st.pc n = .sel2) ∧ callId pfx n ∈ answerIds R (ls ++ [l]) :=
    fun n resp hd => ⟨(h.sending n resp hd).1, answerIds_snoc l (h.sending n resp hd).2⟩
  have hleft : ∀ n, (st.pc n).listens → st.pc n = .listening ∨ st.pc n = .sel1 ∨ st.pc n = .sel2 ∨ callId pfx n ∈ answerIds R (ls ++ [l]) := fun n hp => by
    rcases h.left n hp with h | h | h | h
    · exact .inl h
    · exact .inr (.inl h)
    · exact .inr (.inr (.inl h))
    · exact .inr (.inr (.inr (answerIds_snoc l h)))
  have hcr := h.crashed
  cases l with
  | recv kind content =>
    cases_step hs
    all_goals (first | exact ⟨hcr, hsend, hleft⟩ | (exact absurd (by assumption) (hp _ _ rfl)) | skip)
    next resp hread hres _ n hl =>
      obtain ⟨h1, h2⟩ := hi.lid _ _ hl
      have hids : answerIds R (ls ++ [.recv kind content]) = answerIds R ls ++ [resp.id] := by
        simp [answerIds, hread, hres]
      have hnew : resp.id ∉ answerIds R ls := by
        rw [hids, List.nodup_append] at hn
        intro hmem
        exact hn.2.2 _ hmem _ (by simp) rfl
      refine ⟨hcr, ?_, hleft⟩
      intro m resp' hd
      simp only [Disp.sending.injEq] at hd
      obtain ⟨rfl, rfl⟩ := hd
      refine ⟨?_, by rw [hids, ← h1]; simp⟩
      rcases h.left n h2 with h | h | h | h
      · exact .inl h
      · exact .inr (.inl h)
      · exact .inr (.inr h)
      · rw [← h1] at h
        exact absurd h hnew
  | deliver =>
    cases_step hs
    next n resp hd hcl =>
      have h1 := hi.closed n hcl
      have h2 := (hsend n resp hd).1
      rcases h2 with h2 | h2 | h2 <;> (rw [h2] at h1; cases h1)
    next n resp hd _ hp =>
      have hmem := (hsend n resp hd).2
      refine ⟨hcr, by simp, ?_⟩
      intro m hm
      by_cases hmn : m = n
      · subst hmn; exact .inr (.inr (.inr hmem))
      · have := hleft m
        grind [upd]
  | ctxDone n => exact absurd rfl (hc n)
  | close n =>
    cases_step hs
    all_goals
      refine ⟨?_, ?_, ?_⟩
      · have := hsend
        grind
      · intro m resp hd
        have := hsend m resp hd
        grind [upd]
      · intro m hm
        have := hleft m
        grind [upd, Pc.listens]
  | _ =>
    cases_step hs
    all_goals
      refine ⟨hcr, ?_, ?_⟩
      · intro m resp hd
        have := hsend m resp hd
        have := hi.fresh (st.serial + 1)
        grind [upd]
      · intro m hm
        have := hleft m
        grind [upd, Pc.listens]

/-- Part of C103: no crash as long as no context ends while a call waits, no two answers carry the same id and no event arrives whose decryption panics. Missing: all other runs, see `C103_crash` and
`C103_crash_by_anyone`. -/
theorem C103_no_crash_partial {ls : List Lab} {st : State} (h : Trace R pfx ls st) (hc : ∀ n, Lab.ctxDone n ∉ ls) (hn : (answerIds R ls).Nodup)
    (hp : ∀ k c, Lab.recv k c ∈ ls → R.read k c ≠ .panic) : st.crashed = false := by
  suffices Calm R pfx ls st from this.crashed
  induction h with
  | nil => exact ⟨rfl, by simp [init], by simp [init, Pc.listens]⟩
  | snoc ht hs ih =>
    refine (ih (fun n hm => hc n (by simp [hm])) ?_ (fun k c hm => hp k c (by simp [hm]))).step ht hs hn (fun n he => hc n (by simp [he])) (fun k c he => hp k c (by simp [he]))
    simp only [answerIds, List.filterMap_append, List.nodup_append] at hn
    exact hn.1

example : (∀ n, Lab.ctxDone n ∉ swapped) ∧ (answerIds toy swapped).Nodup ∧ ∀ k c, Lab.recv k c ∈ swapped → toy.read k c ≠ .panic := by
  refine ⟨by simp [swapped], by decide +kernel, ?_⟩
  simp only [swapped, List.mem_cons, List.not_mem_nil, Lab.recv.injEq, reduceCtorEq, false_or, or_false]
  rintro k c (⟨rfl, rfl⟩ | ⟨rfl, rfl⟩ | ⟨rfl, rfl⟩) <;> decide +kernel

/-- C103 is false: in every state in which the goroutine that reads the events waits for one, an event whose decryption panics crashes the process. Whose event it is does not matter: neither the
subscription nor the goroutine looks at the author. (Such a content: `C169_anyone_stops_the_client`.) -/
theorem C103_crash_by_anyone {ls : List Lab} {st : State} (h : Trace R pfx ls st) (hc : st.crashed = false) (hd : st.disp = .idle) (kind : Int) (content : Bytes) (hp : R.read kind content = .panic) :
    ∃ st', Trace R pfx (ls ++ [.recv kind content]) st' ∧ st'.crashed = true :=
  ⟨{ st with crashed := true }, h.snoc (by simp [step, hc, hd, hp]), rfl⟩

example : ∃ st, Trace toy (b! "gn") swapped st ∧ st.crashed = false ∧ st.disp = .idle ∧ toy.read 24133 (b! "x?") = .panic :=
  ⟨_, .of_run (st := ((run toy (b! "gn") init swapped).get (by decide +kernel))) (by simp), by decide +kernel, by decide +kernel, by decide +kernel⟩

/-- C103, the stall: the first five actions of `crashRun`, after which the call has its answer and waits for a relay. -/
def stallRun : List Lab := [.call, .listen 1 1, .relayUp 1, .wait 1, .recv 24133 (b! "gn-1|pong")]

/-- C103 is false: after these five actions the answered call does not return, and no other call ever gets an answer, until the context of the call ends. -/
theorem C103_stall : ∃ st, Trace toy (b! "gn") stallRun st ∧ ∀ ls st', run toy (b! "gn") st ls = some st' → .ctxDone 1 ∉ ls → st'.pc 1 = .sel1 ∧ .deliver ∉ ls ∧ ∀ k c, Lab.recv k c ∉ ls := by
  obtain ⟨st, ht, h0⟩ : ∃ st, Trace toy (b! "gn") stallRun st ∧ st.pc 1 = .sel1 ∧ st.relays 1 = 0 ∧ st.closed 1 = false ∧ 1 ≤ st.serial ∧ ∃ resp, st.disp = .sending 1 resp :=
    ⟨_, .of_run (st := (run toy (b! "gn") init stallRun).get (by decide +kernel)) (by simp), by decide +kernel, by decide +kernel, by decide +kernel, by decide +kernel,
      ⟨b! "gn-1", [], b! "pong"⟩, by decide +kernel⟩
  refine ⟨st, ht, ?_⟩
  intro ls
  clear ht
  induction ls generalizing st with
  | nil =>
    intro st' hr _
    simp only [run, List.foldlM_nil, pure, Option.some.injEq] at hr
    subst hr
    exact ⟨h0.1, by simp, by simp⟩
  | cons l ls ih =>
    intro st' hr hc
    simp only [run, List.foldlM_cons, Option.bind_eq_bind, Option.bind_eq_some_iff] at hr
    obtain ⟨st1, h1, h2⟩ := hr
    obtain ⟨a1, a2, a3, a4, resp, a5⟩ := h0
    have hnd : l ≠ .deliver ∧ ∀ k c, l ≠ .recv k c := by
      constructor
      · rintro rfl
        simp [step, a5, a3, a1] at h1
      · rintro k c rfl
        simp [step, a5] at h1
    have key : st1.pc 1 = .sel1 ∧ st1.relays 1 = 0 ∧ st1.closed 1 = false ∧ 1 ≤ st1.serial ∧ ∃ resp, st1.disp = .sending 1 resp := by
      have hne : l ≠ .ctxDone 1 := fun he => hc (by simp [he])
      refine ⟨?_, ?_, ?_, ?_, resp, ?_⟩ <;> cases l <;> cases_step h1 <;> grind [upd]
    obtain ⟨b1, b2, b3⟩ := ih st1 key st' h2 (fun hm => hc (by simp [hm]))
    exact ⟨b1, by simp [b2, hnd.1.symm], fun k c => by simp [b3, (hnd.2 k c).symm]⟩

/-! ## C104: the auth url -/

/-- C104 is false: whatever arrives, the handler given for auth urls is never called. -/
theorem C104_never_called {ls : List Lab} {st : State} (h : Trace R pfx ls st) : st.shown = [] := by
  suffices st.shown = [] ∧ ∀ id, st.expecting id = false from this.1
  induction h with
  | nil => exact ⟨rfl, fun _ => rfl⟩
  | @snoc ls st st' l _ hs ih =>
    obtain ⟨h1, h2⟩ := ih
    cases l <;> cases_step hs <;> grind

/-- A waiting call and an auth url for it. -/
example : ∃ st, Trace toy (b! "gn") [.call, .listen 1 1, .wait 1, .relayUp 1, .recv 24133 (b! "gn-1|auth_url")] st ∧ st.pc 1 = .sel2 ∧
    toy.read 24133 (b! "gn-1|auth_url") = .val (some ⟨callId (b! "gn") 1, [], b! "auth_url"⟩) := by
  let r := run toy (b! "gn") init [.call, .listen 1 1, .wait 1, .relayUp 1, .recv 24133 (b! "gn-1|auth_url")]
  exact ⟨_, .of_run (st := r.get (by decide +kernel)) (by simp [r]), by decide +kernel, by decide +kernel⟩

/-! ## C105: `SignEvent` -/

open GoNostr.Json

/-- client.go:177-198 `SignEvent`: `rpc` is what `RPC` returned, `none` an error. The result is the event left behind, or `none` for an error. -/
def signEventRemote (H : Hash32) (S : Schnorr) (skipCheck : Bool) (rpc : Option Bytes) (evt : Event) : Out (Option Event) :=
  match rpc with
  | none => .val none
  | some resp => match decodeEventInto evt resp with
    | none => .val none
    | some evt =>
      if skipCheck then .val (some evt)
      else (checkID H evt).bind (fun ok =>
        if !ok then .val none
        else if checkSignature H S evt = some true then .val (some evt) else .val none)

/-- Part of C105: an event `SignEvent` accepts carries its own id and a valid signature, unless the check is switched off. -/
theorem C105_valid_partial {H : Hash32} {S : Schnorr} {rpc : Option Bytes} {evt out : Event} (h : signEventRemote H S false rpc evt = .val (some out)) :
    out.id = getID H out ∧ checkSignature H S out = some true := by
  unfold signEventRemote at h
  split at h
  · cases h
  · split at h
    · cases h
    · next e _ =>
      rw [C03_checkID_iff] at h
      simp only [Bool.false_eq_true, if_false, Out.bind] at h
      split at h
      · cases h
      · next hid =>
        split at h
        · next hsig =>
          cases h
          exact ⟨by simpa using hid, hsig⟩
        · cases h

/-- It never panics. -/
theorem C105_no_panic (H : Hash32) (S : Schnorr) (skipCheck : Bool) (rpc : Option Bytes) (evt : Event) : signEventRemote H S skipCheck rpc evt ≠ .panic := by
  unfold signEventRemote
  rw [show (checkID H : Event → Out Bool) = fun e => .val (decide (e.id = getID H e)) from funext (C03_checkID_iff H)]
  simp only [Out.bind]
  (repeat' split) <;> simp

/-- C105 is false: whatever the event that was to be signed, the signer may answer with any other correctly signed event, by whatever key, and it is accepted in its place. -/
theorem C105_other_event {H : Hash32} {S : Schnorr} (evt other : Event) (hk : InInt64 other.kind) (hc : InInt64 other.createdAt) (hu : EventUtf8 other) (hid : other.id = getID H other)
    (hpk : other.pubkey ≠ []) (hsn : other.sig ≠ []) (hsig : checkSignature H S other = some true) : signEventRemote H S false (some (encodeEvent other)) evt = .val (some other) := by
  have hidne : other.id ≠ [] := by
    intro h0
    have := (C03_getID_format H other).1
    rw [← hid, h0] at this
    cases this
  have hcl := cleanEvent_utf8 hu
  have hdec : decodeEventInto evt (encodeEvent other) = some other := by
    rw [C21_into_used evt hk hc, if_neg hidne, if_neg hpk, if_neg hsn]
    exact congrArg some hcl
  simp only [signEventRemote, hdec, C03_checkID_iff, hid.symm, Out.bind]
  simp [hsig]

/-- Such an event, signed by some key; and it is not the event asked for. -/
example : ∃ evt other : Event, InInt64 other.kind ∧ InInt64 other.createdAt ∧ EventUtf8 other ∧ other.id = getID toyHash other ∧ other.pubkey ≠ [] ∧ other.sig ≠ [] ∧
    checkSignature toyHash toySchnorr other = some true ∧ other.content ≠ evt.content ∧ other.pubkey ≠ evt.pubkey := by
  refine ⟨zeroEvent, (signEvent toyHash toySchnorr ⟨[], [], 5, 1, [], b! "hi", []⟩ (hexEnc (List.replicate 32 7))).1, ?_⟩
  have h : ∀ e, (signEvent toyHash toySchnorr ⟨[], [], 5, 1, [], b! "hi", []⟩ (hexEnc (List.replicate 32 7))).1 = e → e.kind = 1 → e.createdAt = 5 → e.tags = [] → (∀ c ∈ e.id, c < 128) → (∀ c ∈ e.pubkey, c < 128) →
      (∀ c ∈ e.sig, c < 128) → (∀ c ∈ e.content, c < 128) → InInt64 e.kind ∧ InInt64 e.createdAt ∧ EventUtf8 e := by
    intro e _ h1 h2 h3 h4 h5 h6 h7
    refine ⟨by rw [h1]; decide, by rw [h2]; decide, .ascii h4, .ascii h5, .ascii h7, .ascii h6, ?_⟩
    rw [h3]
    simp
  obtain ⟨a, b, c⟩ := h _ rfl (by decide +kernel) (by decide +kernel) (by decide +kernel) (by decide +kernel) (by decide +kernel) (by decide +kernel) (by decide +kernel)
  exact ⟨a, b, c, by decide +kernel, by decide +kernel, by decide +kernel, by decide +kernel, by decide +kernel, by decide +kernel⟩

end GoNostr.Client
