import Verif.Relay.Lemmas
/-!
# `FetchMany`: model

State machine of `subManyEoseNonOverwriteCheckDuplicate` (pool.go:602-695) as called by `SubManyEose`/`FetchMany`
(pool.go:291-298, 584-600): one worker goroutine per url, the shared table of ids already seen, the closing goroutine, the
consumer and the relays' readers. Any number of workers; every interleaving of the labelled atomic actions is a run.

Simplifications: each worker's subscription is the abstraction proved in `Verif.Relay`: messages accepted by the reader wait
in a bag and are handed to the worker one at a time in any order (C25), the end of stored events is offered only when no
stored message waits (C26), waiting messages may be dropped only once the subscription's context ended (C26/C27). The query
middleware, the event middleware and debug logging have no effect. `EnsureRelay`, `Subscribe` and `Auth` are single actions
with a nondeterministic outcome.
-/

set_option autoImplicit false

namespace GoNostr.Fetch

/-- An EVENT message as a reader sees it: the id cut out of the raw text by the pre-parser (relay.go:240), the id of the
parsed event, and whether it parses, matches the filters and carries a good signature (relay.go:274-296). -/
structure Msg where
  xid : Bytes
  id : Bytes
  valid : Bool
  deriving DecidableEq, Repr

/-- Why a worker returned. -/
inductive End
  | connect | subscribe | ctx | eose | closed | broken
  deriving DecidableEq, Repr

/-- Where a worker is (pool.go:625-691). -/
inductive WPc
  | ensure | subscribe | loop | auth
  | emit (m : Msg)
  | done (e : End)
  deriving DecidableEq, Repr

/-- The worker's current subscription: EOSE received; context ended; CLOSED waiting (`true` if the reason starts with
`auth-required:`); accepted messages not yet handed over, received before and after the EOSE. -/
structure SubSt where
  eosed : Bool
  ended : Bool
  closed : Option Bool
  stored : List Msg
  live : List Msg
  deriving DecidableEq, Repr

/-- A fresh subscription (relay.go:429-466). -/
def SubSt.new : SubSt := { eosed := false, ended := false, closed := none, stored := [], live := [] }

/-- One worker. `auths` and `subs` count successful AUTHs and `Subscribe` calls; `old` abandoned subscriptions. -/
structure Worker where
  pc : WPc
  hasAuthed : Bool
  auths : Nat
  subs : Nat
  old : Nat
  sub : Option SubSt
  deriving DecidableEq, Repr

/-- pool.go:625-646 -/
def Worker.new : Worker := { pc := .ensure, hasAuthed := false, auths := 0, subs := 0, old := 0, sub := none }

/-- The closing goroutine (pool.go:617-622). -/
inductive CPc
  | wait | cancel | close | dead
  deriving DecidableEq, Repr

/-- Shared state. `seen` is the duplicate table; `emitted` what the consumer received, `received` all EVENT messages that
arrived (history), `late` the pre-parsed ids of those that
arrived after the EOSE of their subscription or for an abandoned one (history), `closes` how often the channel was closed, `crashed` a send on or a close of a closed channel. -/
structure State where
  workers : List Worker
  wg : Nat
  seen : List Bytes
  ctxDone : Bool
  closer : CPc
  closes : Nat
  crashed : Bool
  emitted : List Msg
  received : List Msg
  late : List Bytes
  deriving DecidableEq, Repr

/-- pool.go:609-624: one worker per url. -/
def init (n : Nat) : State where
  workers := List.replicate n Worker.new
  wg := n
  seen := []
  ctxDone := false
  closer := .wait
  closes := 0
  crashed := false
  emitted := []
  received := []
  late := []

/-- The atomic actions of the machine; its step function says which lines each of them is. -/
inductive Lab
  /-- `EnsureRelay` returns -/
  | ensure (i : Nat) (ok : Bool)
  /-- `relay.Subscribe` returns -/
  | subscribe (i : Nat) (ok : Bool)
  /-- an EVENT message arrives for the worker's current subscription / for one it abandoned -/
  | recv (i : Nat) (m : Msg)
  | recvOld (i : Nat) (m : Msg)
  | eoseMsg (i : Nat)
  | closedMsg (i : Nat) (authRequired : Bool)
  /-- the connection is lost, or the CLOSED handler ended the subscription -/
  | disconnect (i : Nat)
  /-- a waiting message is dropped because the subscription ended -/
  | dropStored (i j : Nat)
  | dropLive (i j : Nat)
  /-- the worker's `select` takes a message, the EOSE, the CLOSED reason, a cancelled context, the closed channel -/
  | takeStored (i j : Nat)
  | takeLive (i j : Nat)
  | selEose (i : Nat)
  | selClosed (i : Nat)
  | selCtx (i : Nat)
  | selBroken (i : Nat)
  | authDone (i : Nat) (ok : Bool)
  /-- the consumer takes the event -/
  | emit (i : Nat)
  | emitCtx (i : Nat)
  /-- the caller cancels -/
  | cancel
  | closer
  deriving DecidableEq, Repr

/-- Return from worker `i` (deferred `wg.Done()`, pool.go:626). -/
def State.finish (s : State) (i : Nat) (w : Worker) (e : End) : State :=
  { s with workers := s.workers.set i { w with pc := .done e }, wg := s.wg - 1 }

/-- Assignment to one component of the state. -/
def State.setW (s : State) (i : Nat) (w : Worker) : State := { s with workers := s.workers.set i w }

/-- The duplicate check (pool.go:592-598, `LoadOrStore`): is the id new, and the table afterwards. -/
def check (seen : List Bytes) (x : Bytes) : Bool × List Bytes :=
  if x ∈ seen then (false, seen) else (true, x :: seen)

/-- Put an accepted message in the right bag (subscription.go:96-118). -/
def SubSt.accept (b : SubSt) (m : Msg) : SubSt :=
  if b.eosed then { b with live := m :: b.live } else { b with stored := m :: b.stored }

/-- One atomic action. `handler` says whether the pool has an auth handler. -/
def step (handler : Bool) (s : State) : Lab → Option State
  -- pool.go:640-644
  | .ensure i ok => match s.workers[i]? with
    | none => none
    | some w => if w.pc = .ensure then
        (if ok then some (s.setW i { w with pc := .subscribe }) else some (s.finish i w .connect))
      else none
  -- pool.go:648-653
  | .subscribe i ok => match s.workers[i]? with
    | none => none
    | some w => if w.pc = .subscribe then
        (if ok then some (s.setW i { w with
            pc := .loop
            subs := w.subs + 1
            old := w.old + 1
            sub := some SubSt.new })
        else some (s.finish i w .subscribe))
      else none
  -- relay.go:236-259, 274-304
  | .recv i m => match s.workers[i]? with
    | none => none
    | some w => match w.sub with
      | none => none
      | some b =>
        if (check s.seen m.xid).1 && m.valid then some { s with
          seen := (check s.seen m.xid).2
          received := m :: s.received
          late := if b.eosed then m.xid :: s.late else s.late
          workers := s.workers.set i { w with sub := some (b.accept m) } }
        else some { s with
          seen := (check s.seen m.xid).2
          received := m :: s.received
          late := if b.eosed then m.xid :: s.late else s.late }
  -- the same for a subscription nobody reads any more
  | .recvOld i m => match s.workers[i]? with
    | none => none
    | some w => if 1 < w.old then some { s with
        seen := (check s.seen m.xid).2
        received := m :: s.received
        late := m.xid :: s.late }
      else none
  -- subscription.go:120-128
  | .eoseMsg i => match s.workers[i]? with
    | none => none
    | some w => match w.sub with
      | none => none
      | some b => some (s.setW i { w with sub := some { b with eosed := true } })
  -- subscription.go:131-137
  | .closedMsg i a => match s.workers[i]? with
    | none => none
    | some w => match w.sub with
      | none => none
      | some b => some (s.setW i { w with sub := some { b with closed := some a } })
  | .disconnect i => match s.workers[i]? with
    | none => none
    | some w => match w.sub with
      | none => none
      | some b => some (s.setW i { w with sub := some { b with ended := true } })
  -- subscription.go:107-112
  | .dropStored i j => match s.workers[i]? with
    | none => none
    | some w => match w.sub with
      | none => none
      | some b => if b.ended || s.ctxDone then
          some (s.setW i { w with sub := some { b with stored := b.stored.eraseIdx j } })
        else none
  | .dropLive i j => match s.workers[i]? with
    | none => none
    | some w => match w.sub with
      | none => none
      | some b => if b.ended || s.ctxDone then
          some (s.setW i { w with sub := some { b with live := b.live.eraseIdx j } })
        else none
  -- pool.go:674-682
  | .takeStored i j => match s.workers[i]? with
    | none => none
    | some w => if w.pc = .loop then
        match w.sub with
        | none => none
        | some b => match b.stored[j]? with
          | none => none
          | some m => some (s.setW i { w with
              pc := .emit m
              sub := some { b with stored := b.stored.eraseIdx j } })
      else none
  | .takeLive i j => match s.workers[i]? with
    | none => none
    | some w => if w.pc = .loop then
        match w.sub with
        | none => none
        | some b => match b.live[j]? with
          | none => none
          | some m => some (s.setW i { w with
              pc := .emit m
              sub := some { b with live := b.live.eraseIdx j } })
      else none
  -- pool.go:659-660
  | .selEose i => match s.workers[i]? with
    | none => none
    | some w => match w.sub with
      | none => none
      | some b => if w.pc = .loop ∧ b.eosed = true ∧ b.stored = [] then some (s.finish i w .eose) else none
  -- pool.go:661-673
  | .selClosed i => match s.workers[i]? with
    | none => none
    | some w => if w.pc = .loop then
        match w.sub with
        | none => none
        | some b => match b.closed with
          | none => none
          | some a => if a && handler && !w.hasAuthed then some (s.setW i { w with
                pc := .auth
                sub := some { b with closed := none } })
            else some (s.finish i w .closed)
      else none
  -- pool.go:657-658
  | .selCtx i => match s.workers[i]? with
    | none => none
    | some w => if w.pc = .loop ∧ s.ctxDone = true then some (s.finish i w .ctx) else none
  -- pool.go:675-677
  | .selBroken i => match s.workers[i]? with
    | none => none
    | some w => match w.sub with
      | none => none
      | some b => if w.pc = .loop ∧ (b.ended = true ∨ s.ctxDone = true) then some (s.finish i w .broken) else none
  -- pool.go:664-671
  | .authDone i ok => match s.workers[i]? with
    | none => none
    | some w => if w.pc = .auth then
        (if ok then some (s.setW i { w with
            pc := .subscribe
            hasAuthed := true
            auths := w.auths + 1 })
        else some (s.finish i w .closed))
      else none
  -- pool.go:684-685
  | .emit i => match s.workers[i]? with
    | none => none
    | some w => match w.pc with
      | .emit m => if s.closes = 0 then some { s with
            emitted := s.emitted ++ [m]
            workers := s.workers.set i { w with pc := .loop } }
          else some { s with crashed := true }
      | _ => none
  -- pool.go:686-687
  | .emitCtx i => match s.workers[i]? with
    | none => none
    | some w => match w.pc with
      | .emit _ => if s.ctxDone then some (s.finish i w .ctx) else none
      | _ => none
  | .cancel => some { s with ctxDone := true }
  -- pool.go:617-622
  | .closer => match s.closer with
    | .wait => if s.wg = 0 then some { s with closer := .cancel } else none
    | .cancel => some { s with closer := .close, ctxDone := true }
    | .close => if s.closes = 0 then some { s with closer := .dead, closes := 1 } else some { s with crashed := true }
    | .dead => none

/-- A schedule: the actions one after the other. -/
def run (handler : Bool) (s : State) : List Lab → Option State
  | [] => some s
  | l :: ls => match step handler s l with
    | none => none
    | some s' => run handler s' ls

end GoNostr.Fetch
