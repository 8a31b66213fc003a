import Verif.Relay.Model
import Verif.Filter.Spec
/-!
# What a subscription promises, stated without its machinery
-/

set_option autoImplicit false

namespace GoNostr.Sub

/-- The message names this subscription. -/
def NamesSub (c : Cfg) (m : Bytes) : Prop := ∃ id, extractSubID m = .val id ∧ subIdToSerial id = .val c.counter

/-- The message is an EOSE for this subscription. -/
def IsEose (c : Cfg) (m : Bytes) : Prop := ∃ id, c.parse m = some (.eose id) ∧ subIdToSerial id = .val c.counter

/-- Message number `p` legitimately brings event `e`: it names the subscription, carries `e`, `e` is authentic (or the relay
is trusted) and matches the filters, where an earlier EOSE suspends the time window. -/
def Legit (c : Cfg) (inbox : List Bytes) (p : Nat) (e : Event) : Prop :=
  ∃ m, inbox[p]? = some m ∧ NamesSub c m ∧ c.parse m = some (.event e) ∧ (c.assumeValid = true ∨ c.sigOk e = true) ∧
    ((∃ f ∈ c.filters, Spec.Matches f e) ∨
      ((∃ f ∈ c.filters, Spec.MatchesButTime f e) ∧ ∃ q m', q < p ∧ inbox[q]? = some m' ∧ IsEose c m'))

/-- The subscription has begun to end: its context is cancelled or somebody is unsubscribing (a processed CLOSED
included). -/
def Ending (s : State) : Prop := s.ctxDone = true ∨ ∃ u, Pc.unsub u ∈ s.procs

/-- The actions the program performs on its own, whatever the relay, the consumer and the caller do. -/
def Lab.internal : Lab → Bool
  | .dupSkip | .handle | .disp _ | .dispAbort _ | .eose | .start _ | .proc _ _ => true
  | _ => false

/-- Nothing the program does on its own is possible any more. -/
def Quiescent (c : Cfg) (s : State) : Prop := ∀ l, l.internal = true → step c s l = none

end GoNostr.Sub
