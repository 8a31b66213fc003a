import Verif.Relay.Lemmas
import Verif.Relay.Close
/-!
# C25: what a duplicate check may skip

Without a duplicate check nothing is skipped. With one, only messages that name this subscription in an `EVENT` are: an `EOSE`, a `CLOSED` or somebody else's event always goes on to be handled.
-/

set_option autoImplicit false

namespace GoNostr.Sub

/-- Invariant of the proofs; models no code: what the reader holds is the last message, and it is looked up under the id it names. -/
structure HeldInv (c : Cfg) (s : State) : Prop where
  held : ∀ m b, s.reader = some (m, b) → s.inbox.getLast? = some m ∧ (b = true → names c m = true)

theorem heldInv_init (c : Cfg) (conn : Bool) : HeldInv c (init c conn) := ⟨by intro m b h; simp [init] at h⟩

theorem heldInv_step {c : Cfg} {s s' : State} {l : Lab} (hi : HeldInv c s) (h : step c s l = some s') : HeldInv c s' := by
  obtain ⟨hi⟩ := hi
  step_cases h
  all_goals first
    | contradiction
    | exact ⟨hi⟩
    | (constructor; grind [List.getLast?_concat])

/-- **C25, the duplicate check.** Whatever happened before: when a message is skipped as a duplicate, a check was configured, it is the message read last, and that message contains `"EVENT"` and names this subscription by its number; skipping it changes nothing but that the
reader goes on. (`hc`: subscriptions are numbered from 1, relay.go:430; -1 is what an id without a number is read as.) -/
theorem C25_skipped (c : Cfg) (hc : 0 ≤ c.counter) (conn : Bool) (ls : List Lab) (s s' : State) (h : run c (init c conn) ls = some s) (hs : step c s .dupSkip = some s') :
    c.hasCheck = true ∧ (∃ pre m id, s.inbox = pre ++ [m] ∧ indexOf (b! "\"EVENT\"") m ≠ -1 ∧ extractSubID m = .val id ∧ subIdToSerial id = .val c.counter) ∧ s' = { s with reader := none } := by
  have hi := run_inv' (P := HeldInv c) (fun _ _ _ => heldInv_step) (heldInv_init c conn) h
  unfold step at hs
  split at hs
  · cases hs
  · simp only [dupSkip] at hs
    split at hs
    · next m hm =>
      split at hs
      · next hcheck =>
        cases hs
        obtain ⟨hpre, hn⟩ := hi.held m true hm
        obtain ⟨pre, hpre⟩ := List.getLast?_eq_some_iff.1 hpre
        have hn := hn rfl
        refine ⟨hcheck, ?_, rfl⟩
        unfold names at hn
        cases hid : extractSubID m with
        | panic => rw [hid] at hn; cases hn
        | val id =>
          rw [hid] at hn
          simp only [isMine, beq_iff_eq] at hn
          refine ⟨pre, m, id, hpre, fun he => ?_, hid, hn⟩
          unfold extractSubID at hid
          simp only [he, if_true] at hid
          cases hid
          have : subIdToSerial [] = .val (-1) := by decide
          rw [this] at hn
          simp only [Out.val.injEq] at hn
          omega
      · cases hs
    · cases hs

/-- **C25, everything else is handled.** A message that does not name this subscription in an `EVENT` (such as its `EOSE` or `CLOSED`) can only be handled: until that is done the reader holds it, and no other message is read. -/
theorem C25_not_skipped (c : Cfg) (conn : Bool) (ls : List Lab) (s : State) (h : run c (init c conn) ls = some s) (m : Bytes) (b : Bool) (hr : s.reader = some (m, b)) (hm : names c m = false)
    (l : Lab) (s' : State) (hs : step c s l = some s') (hl : l ≠ .handle) : s'.reader = some (m, b) := by
  have hi := run_inv' (P := HeldInv c) (fun _ _ _ => heldInv_step) (heldInv_init c conn) h
  have hb : b = false := by
    cases b with
    | false => rfl
    | true => have := (hi.held m true hr).2 rfl; rw [hm] at this; cases this
  subst hb
  step_cases hs
  all_goals first
    | contradiction
    | exact hr
    | grind

/-- The subscription of the examples with a duplicate check: its `EVENT` may be skipped, its `EOSE` may not. -/
def demoCheck : Cfg := { demo with hasCheck := true }

example : ∃ s s', run demoCheck (init demoCheck true) [.read mEvent] = some s ∧ step demoCheck s .dupSkip = some s' ∧ s.inbox = [mEvent] := ⟨_, _, rfl, rfl, rfl⟩
example : ∃ s, run demoCheck (init demoCheck true) [.read mEose] = some s ∧ s.reader = some (mEose, false) ∧ names demoCheck mEose = false ∧ step demoCheck s .dupSkip = none := ⟨_, rfl, rfl, rfl, rfl⟩

end GoNostr.Sub
