import Verif.Filter.Model
import Verif.Helpers.Model
/-!
# A subscription and the goroutines around it

A small-step machine: every label is one atomic action of one goroutine (reader loop, dispatch goroutines, the
subscription's `start`, callers of `Unsub`/`Fire`, CLOSED handlers) or of the environment (relay messages, the consumer
receiving from `Events`, context cancellation, disconnection). A run is any list of labels, so every schedule is covered.
-/

set_option autoImplicit false

namespace GoNostr.Sub

/-- The parsed envelopes a subscription reacts to (relay.go:261-315). -/
inductive Env
  | event (e : Event)
  | eose (id : Bytes)
  | closed (id reason : Bytes)
  | other

/-- What is fixed for one subscription (relay.go:429-466): its counter, the filters given to `PrepareSubscription`, the
relay's `AssumeValid`, whether a duplicate check was configured, and the two external functions: the envelope parser and
the first result of `CheckSignature`. -/
structure Cfg where
  counter : Int
  filters : List Filter
  assumeValid : Bool
  hasCheck : Bool
  parse : Bytes → Option Env
  sigOk : Event → Bool

/-- Program counter of a dispatch goroutine (subscription.go:103-117): before `Lock`, before the `live` check, in the
`select`, before `Done`/`Unlock` (merged), finished. -/
inductive DPc
  | lock | check | select | finish | dead
  deriving DecidableEq, Repr

/-- A dispatch goroutine. `pos` (position of its message among all received) and `sent` are history only. -/
structure Disp where
  evt : Event
  pos : Nat
  added : Bool
  pc : DPc
  sent : Bool

/-- Program counter inside `unsub` (subscription.go:146-157). -/
inductive UPc
  | cancel | cas | close | delete | ret
  deriving DecidableEq, Repr

/-- Program counter of `start` (subscription.go:81-91). -/
inductive SPc
  | wait | unsub (u : UPc) | lock | close | unlock | dead
  deriving DecidableEq, Repr

/-- The other goroutines: `handleClosed` (subscription.go:131-137), callers of `unsub`, callers of `Fire`
(subscription.go:176-194). -/
inductive Pc
  | sendClosed (reason : Bytes) | storeLive | unsub (u : UPc) | fireLive | fireWrite | dead
  deriving DecidableEq, Repr

/-- Who holds `sub.mu`. -/
inductive Holder
  | disp (i : Nat) | start
  deriving DecidableEq, Repr

/-- What is written to the relay. -/
inductive Out1
  | req | close
  deriving DecidableEq, Repr

/-- The shared state. `inbox` (messages read so far), `delivered` (received by the consumer, with message position),
`closes`, `fires`, `eoseSent` record history. `bound` is `sub.match`: the filters it is bound to and whether it ignores
timestamps. `reader` is the message in the reader's hands and whether the table lookup found this subscription. -/
structure State where
  registered : Bool
  live : Bool
  eosed : Bool
  ctxDone : Bool
  connected : Bool
  filters : List Filter
  bound : List Filter × Bool
  inbox : List Bytes
  reader : Option (Bytes × Bool)
  disps : List Disp
  storedwg : Nat
  lock : Option Holder
  starter : SPc
  procs : List Pc
  eoseGo : Nat
  eoseSent : Nat
  reasons : List Bytes
  chanClosed : Bool
  closes : Nat
  delivered : List (Nat × Event)
  wire : List Out1
  fires : Nat
  panicked : Bool

/-- relay.go:429-472 `PrepareSubscription`: registered, not live, `start` running. -/
def init (c : Cfg) (connected : Bool) : State where
  registered := true
  live := false
  eosed := false
  ctxDone := false
  connected := connected
  filters := c.filters
  bound := (c.filters, false)
  inbox := []
  reader := none
  disps := []
  storedwg := 0
  lock := none
  starter := .wait
  procs := []
  eoseGo := 0
  eoseSent := 0
  reasons := []
  chanClosed := false
  closes := 0
  delivered := []
  wire := []
  fires := 0
  panicked := false

/-- Does a subscription id map to this subscription's counter (relay.go:237, 298, 302)? -/
def isMine (c : Cfg) (id : Bytes) : Bool := subIdToSerial id == .val c.counter

/-- Does the pre-parser attribute the message to this subscription (relay.go:236-237)? -/
def names (c : Cfg) (m : Bytes) : Bool :=
  match extractSubID m with
  | .panic => false
  | .val id => isMine c id

/-- `sub.match(evt)`. -/
def runMatch (b : List Filter × Bool) (e : Event) : Bool :=
  if b.2 then Filters.matchIgnoringTimestamps (some e) b.1 else Filters.match (some e) b.1

/-- relay.go:222-237: the reader takes the next message and looks the subscription up. The pre-parser's panic is a crash. -/
def read (c : Cfg) (s : State) (m : Bytes) : Option State :=
  if s.reader.isSome then none
  else match extractSubID m with
    | .panic => some { s with inbox := s.inbox ++ [m], reader := some (m, false), panicked := true }
    | .val _ => some { s with inbox := s.inbox ++ [m], reader := some (m, s.registered && names c m) }

/-- relay.go:238-251: a configured duplicate check says the message is known. -/
def dupSkip (c : Cfg) (s : State) : Option State :=
  match s.reader with
  | some (_, true) => if c.hasCheck then some { s with reader := none } else none
  | _ => none

/-- subscription.go:96-102 `dispatchEvent` up to spawning the goroutine. -/
def dispatchEvent (s : State) (e : Event) : State :=
  { s with
    reader := none
    storedwg := if s.eosed then s.storedwg else s.storedwg + 1
    disps := s.disps ++ [{ evt := e, pos := s.inbox.length - 1, added := !s.eosed, pc := .lock, sent := false }] }

/-- subscription.go:120-128 `dispatchEose` up to spawning the goroutine. -/
def dispatchEose (s : State) : State :=
  if s.eosed then { s with reader := none }
  else { s with reader := none, eosed := true, bound := (s.filters, true), eoseGo := s.eoseGo + 1 }

/-- relay.go:253-304: the reader handles the message in its hands. -/
def handle (c : Cfg) (s : State) : Option State :=
  match s.reader with
  | none => none
  | some (m, found) =>
    match c.parse m with
    | some (.event e) =>
      if found = false then some { s with reader := none }
      else if runMatch s.bound e = false then some { s with reader := none }
      else if c.assumeValid = false ∧ c.sigOk e = false then some { s with reader := none }
      else some (dispatchEvent s e)
    | some (.eose id) =>
      if isMine c id && s.registered then some (dispatchEose s) else some { s with reader := none }
    | some (.closed id reason) =>
      if isMine c id && s.registered then some { s with reader := none, procs := s.procs ++ [.sendClosed reason] }
      else some { s with reader := none }
    | _ => some { s with reader := none }

/-- Replace dispatch goroutine `i`. -/
def State.setDisp (s : State) (i : Nat) (d : Disp) : State := { s with disps := s.disps.set i d }

/-- subscription.go:103-117: the next step of dispatch goroutine `i`, except inside the `select`. `Done` on a zero wait
group panics. -/
def dispStep (s : State) (i : Nat) : Option State :=
  match s.disps[i]? with
  | none => none
  | some d =>
    match d.pc with
    | .lock => if s.lock = none then some { s.setDisp i { d with pc := .check } with lock := some (.disp i) } else none
    | .check => if s.live then some (s.setDisp i { d with pc := .select }) else some (s.setDisp i { d with pc := .finish })
    | .finish =>
      if d.added then
        if s.storedwg = 0 then some { s with panicked := true }
        else some { s.setDisp i { d with pc := .dead } with storedwg := s.storedwg - 1, lock := none }
      else some { s.setDisp i { d with pc := .dead } with lock := none }
    | _ => none

/-- subscription.go:109: the send case. Sending on the closed channel panics. -/
def dispSend (s : State) (i : Nat) : Option State :=
  match s.disps[i]? with
  | none => none
  | some d =>
    if d.pc = .select then
      if s.chanClosed then some { s with panicked := true }
      else some { s.setDisp i { d with pc := .finish, sent := true } with delivered := s.delivered ++ [(d.pos, d.evt)] }
    else none

/-- subscription.go:110: the context case. -/
def dispAbort (s : State) (i : Nat) : Option State :=
  match s.disps[i]? with
  | none => none
  | some d => if d.pc = .select ∧ s.ctxDone then some (s.setDisp i { d with pc := .finish }) else none

/-- subscription.go:123-126: the goroutine started by the first EOSE. The channel has room for one value. -/
def eoseStep (s : State) : Option State :=
  if s.eoseGo > 0 ∧ s.storedwg = 0 then some { s with eoseGo := s.eoseGo - 1, eoseSent := s.eoseSent + 1 } else none

/-- subscription.go:146-166: one step inside `unsub`. `fail`: the connection dies before the CLOSE is written. -/
def uStep (s : State) (fail : Bool) : UPc → Option (State × UPc)
  | .cancel => some ({ s with ctxDone := true }, .cas)
  | .cas => if s.live then some ({ s with live := false }, .close) else some (s, .delete)
  | .close => if s.connected ∧ fail = false then some ({ s with wire := s.wire ++ [.close] }, .delete) else some (s, .delete)
  | .delete => some ({ s with registered := false }, .ret)
  | .ret => none

/-- subscription.go:81-91: the next step of `start`. -/
def startStep (s : State) (fail : Bool) : Option State :=
  match s.starter with
  | .wait => if s.ctxDone then some { s with starter := .unsub .cancel } else none
  | .unsub u =>
    match uStep s fail u with
    | none => none
    | some (s', u') => some { s' with starter := if u' = .ret then .lock else .unsub u' }
  | .lock => if s.lock = none then some { s with lock := some .start, starter := .close } else none
  | .close =>
    if s.chanClosed then some { s with panicked := true }
    else some { s with chanClosed := true, closes := s.closes + 1, starter := .unlock }
  | .unlock => some { s with lock := none, starter := .dead }
  | .dead => none

/-- The next step of another goroutine (subscription.go:131-137, 146-157, 176-194); `ClosedReason` has room for one value;
`fail`: the write fails. -/
def procStep (s : State) (k : Nat) (fail : Bool) : Option State :=
  match s.procs[k]? with
  | none => none
  | some p =>
    match p with
    | .sendClosed r =>
      if s.reasons = [] then some { s with reasons := [r], procs := s.procs.set k .storeLive } else none
    | .storeLive => some { s with live := false, procs := s.procs.set k (.unsub .cancel) }
    | .unsub u =>
      match uStep s fail u with
      | none => none
      | some (s', u') => some { s' with procs := s'.procs.set k (.unsub u') }
    | .fireLive => some { s with live := true, fires := s.fires + 1, procs := s.procs.set k .fireWrite }
    | .fireWrite =>
      if s.connected ∧ fail = false then some { s with wire := s.wire ++ [.req], procs := s.procs.set k .dead }
      else some { s with ctxDone := true, procs := s.procs.set k .dead }
    | .dead => none

/-- One atomic action. -/
inductive Lab
  | read (m : Bytes)
  | dupSkip
  | handle
  | disp (i : Nat)
  | dispSend (i : Nat)
  | dispAbort (i : Nat)
  | eose
  | start (fail : Bool)
  | proc (k : Nat) (fail : Bool)
  | callUnsub
  | callFire
  | cancel
  | disconnect
  | writerUnsub
  | setFilters (fs : List Filter)
  | takeReason

/-- The transition function; `none` means the action is not enabled. -/
def step (c : Cfg) (s : State) (l : Lab) : Option State :=
  if s.panicked then none
  else match l with
    | .read m => read c s m
    | .dupSkip => dupSkip c s
    | .handle => handle c s
    | .disp i => dispStep s i
    | .dispSend i => dispSend s i
    | .dispAbort i => dispAbort s i
    | .eose => eoseStep s
    | .start fail => startStep s fail
    | .proc k fail => procStep s k fail
    | .callUnsub => some { s with procs := s.procs ++ [.unsub .cancel] }
    | .callFire => some { s with procs := s.procs ++ [.fireLive] }
    | .cancel => some { s with ctxDone := true }
    | .disconnect => some { s with connected := false }
    | .writerUnsub => if s.connected = false ∧ s.registered then some { s with procs := s.procs ++ [.unsub .cancel] } else none
    | .setFilters fs => some { s with filters := fs }
    | .takeReason => some { s with reasons := s.reasons.drop 1 }

/-- A run: any finite list of actions. -/
def run (c : Cfg) (s : State) : List Lab → Option State
  | [] => some s
  | l :: ls => match step c s l with
    | none => none
    | some s' => run c s' ls

/-- relay.go:411-423 `Subscribe` on an established connection: `PrepareSubscription`, then `Fire` has set `live`
(subscription.go:186) and is about to write. -/
def fired (c : Cfg) (connected : Bool) : State :=
  { init c connected with live := true, fires := 1, procs := [.fireWrite] }

/-- relay.go:411-423 `Subscribe`: with no `Connection` it returns an error right after `PrepareSubscription`; otherwise
`Fire` runs (its caller is the goroutine at `fireLive`). The Boolean says that an error has been returned already. -/
def subscribe (c : Cfg) (hasConnection connected : Bool) : State × Bool :=
  if hasConnection = false then (init c connected, true)
  else ({ init c connected with procs := [.fireLive] }, false)

/-- relay.go:538-544 `countInternal`: `Fire` refuses any number of filters but one (subscription.go:180-184). -/
def countInternal (c : Cfg) (connected : Bool) : State × Bool :=
  if c.filters.length = 1 then ({ init c connected with procs := [.fireLive] }, false)
  else (init c connected, true)

end GoNostr.Sub
