import Verif.Json.Envelopes
import Verif.Base.Index
/-!
# NIP-77 envelopes

The messages of negentropy syncing (nip77/envelopes.go) and what happens to a message with a label the relay connection does not know (relay.go:253-259, nip77/nip77.go:52-56).
-/

set_option autoImplicit false

namespace GoNostr.Json

/-- nip77/envelopes.go:49-53, 91-94, 125-127, 153-156. -/
inductive NegEnv where
  | «open» (sub : Bytes) (filter : Filter) (msg : Bytes)
  | message (sub msg : Bytes)
  | close (sub : Bytes)
  | error (sub reason : Bytes)
  deriving DecidableEq

/-- The MarshalJSON methods, nip77/envelopes.go:73-89, 113-123, 145-151, 175-183. -/
def marshalNeg : NegEnv → Bytes
  | .open s f m => b! "[\"NEG-OPEN\"," ++ rawQuoted s ++ [44] ++ encodeFilter f ++ [44] ++ rawQuoted m ++ [93]
  | .message s m => b! "[\"NEG-MSG\"," ++ rawQuoted s ++ [44] ++ rawQuoted m ++ [93]
  | .close s => b! "[\"NEG-CLOSE\"," ++ rawQuoted s ++ [93]
  | .error s r => b! "[\"NEG-ERROR\"," ++ rawQuoted s ++ [44] ++ rawQuoted r ++ [93]

/-- The FromJSON methods on the elements of the array, nip77/envelopes.go:61-71, 102-111, 135-143, 164-173; the dispatch is 21-34. -/
def negFromArray (valid : Bytes → Bool) (label : Bytes) (arr : List GVal) : Option NegEnv :=
  if label = b! "NEG-MSG" then
    match arr with
    | _ :: s :: m :: _ => some (.message s.str m.str)
    | _ => none
  else if label = b! "NEG-OPEN" then
    match arr with
    | [_, s, f, m] => (decodeFilter valid f.raw).map (fun f => .open s.str f m.str)
    | _ => none
  else if label = b! "NEG-ERR" then
    match arr with
    | _ :: s :: r :: _ => some (.error s.str r.str)
    | _ => none
  else if label = b! "NEG-CLOSE" then
    match arr with
    | _ :: s :: _ => some (.close s.str)
    | _ => none
  else none

/-- nip77/envelopes.go:15-40 `ParseNegMessage`. -/
def parseNeg (valid : Bytes → Bool) (msg : Bytes) : Out (Option NegEnv) :=
  let firstComma := indexOf (b! ",") msg
  if firstComma = -1 then .val none
  else (goSlice msg 2 (firstComma - 1)).bind (fun label => .val (negFromArray valid label (gArray msg)))

/-- relay.go:253-259 with the handler of nip77/nip77.go:52-56: what becomes of a received message, up to the negentropy envelope handed on (`none`: nothing is handed on). -/
def onMessage (valid : Bytes → Bool) (readCount : Bytes → Option (Option Int × Bytes)) (msg : Bytes) : Out (Option NegEnv) :=
  match parseMessage valid readCount msg with
  | .unknown => parseNeg valid msg
  | _ => .val none

section
variable (valid : Bytes → Bool) (readCount : Bytes → Option (Option Int × Bytes))

/-- A message whose label is written right after the bracket and followed by the comma, as all encoders do. -/
theorem parseNeg_label {label t : Bytes} {l : List GVal} (hp : PlainText label) (hc : 44 ∉ label) (h : GItems 44 (44 :: t) l) :
    parseNeg valid (91 :: (34 :: (label ++ [34]) ++ 44 :: t)) = .val (negFromArray valid label (⟨34 :: (label ++ [34]), label, false⟩ :: l)) := by
  have e : (91 :: (34 :: (label ++ [34]) ++ 44 :: t) : Bytes) = (91 :: 34 :: (label ++ [34])) ++ 44 :: t := by simp
  have hi : indexOf [44] (91 :: (34 :: (label ++ [34]) ++ 44 :: t)) = ((91 :: 34 :: (label ++ [34]) : Bytes).length : Int) := by
    rw [e]
    exact indexOf_singleton_eq (by simp [hc])
  have hs : goSlice (91 :: (34 :: (label ++ [34]) ++ 44 :: t)) 2 (((91 :: 34 :: (label ++ [34]) : Bytes).length : Int) - 1) = .val label := by
    have := goSlice_split [91, 34] label (34 :: 44 :: t)
    have e2 : ((91 :: 34 :: (label ++ [34]) : Bytes).length : Int) - 1 = (([91, 34] : Bytes).length + label.length : Nat) := by simp; omega
    rw [e2]
    simpa using this
  have ha := (isMessage_of (label := label) h).array hp
  unfold parseNeg
  simp only [hi, hs, ha, Out.bind]
  rw [if_neg (by simp; omega)]

/-- The label of what is written. -/
def NegEnv.label : NegEnv → Bytes
  | .open .. => b! "NEG-OPEN"
  | .message .. => b! "NEG-MSG"
  | .close .. => b! "NEG-CLOSE"
  | .error .. => b! "NEG-ERROR"

/-- What can be sent: strings are written without escaping. -/
def NegSendable : NegEnv → Prop
  | .open s f m => PlainText s ∧ Writable f ∧ PlainText m
  | .message s m => PlainText s ∧ PlainText m
  | .close s => PlainText s
  | .error _ _ => False

/-- Specification: what arrives of a message. -/
def negArrives : NegEnv → NegEnv
  | .open s f m => .open s (onWire f) m
  | env => env

theorem unknown_of {label t : Bytes} {l : List GVal} (h : IsMessage t label l) (hp : PlainText label)
    (hl : label ∉ [b! "EVENT", b! "REQ", b! "COUNT", b! "NOTICE", b! "EOSE", b! "OK", b! "AUTH", b! "CLOSED", b! "CLOSE"]) : parseMessage valid readCount t = .unknown :=
  (C23_unknown_label valid readCount).2 ⟨label, h.label hp, hl⟩

/-- C100: an OPEN, MSG or CLOSE message of a sync reaches the handler of the other side as it was sent (its filter as `C22_what_arrives` says): the relay connection does not take it for one of its own,
and the label and the elements are found. Missing for the full property: error messages and strings that need escaping, for which it is false (below). -/
theorem C100_round_trip_partial {env : NegEnv} (h : NegSendable env) : onMessage valid readCount (marshalNeg env) = .val (some (negArrives env)) := by
  cases env with
  | «open» s f m =>
    obtain ⟨h1, h2, h3⟩ := h
    obtain ⟨g1, _⟩ := gtext_filter h2
    have hi := GItems.next (gtext_raw h1) (.next g1 (.next (gtext_raw h3) .done))
    have hm := isMessage_of (label := b! "NEG-OPEN") hi
    have e : marshalNeg (.open s f m) = 91 :: (34 :: (b! "NEG-OPEN" ++ [34]) ++ 44 :: (rawQuoted s ++ 44 :: (encodeFilter f ++ 44 :: (rawQuoted m ++ [93])))) := by simp [marshalNeg]
    rw [e, onMessage, unknown_of valid readCount hm (by decide +kernel) (by decide +kernel)]
    simp only
    rw [parseNeg_label valid (by decide +kernel) (by decide +kernel) hi]
    simp [negFromArray, negArrives, C22_what_arrives valid h2]
  | message s m =>
    obtain ⟨h1, h3⟩ := h
    have hi := GItems.next (gtext_raw h1) (.next (gtext_raw h3) .done)
    have hm := isMessage_of (label := b! "NEG-MSG") hi
    have e : marshalNeg (.message s m) = 91 :: (34 :: (b! "NEG-MSG" ++ [34]) ++ 44 :: (rawQuoted s ++ 44 :: (rawQuoted m ++ [93]))) := by simp [marshalNeg]
    rw [e, onMessage, unknown_of valid readCount hm (by decide +kernel) (by decide +kernel)]
    simp only
    rw [parseNeg_label valid (by decide +kernel) (by decide +kernel) hi]
    simp [negFromArray, negArrives]
  | close s =>
    have hi := GItems.next (gtext_raw h) .done
    have hm := isMessage_of (label := b! "NEG-CLOSE") hi
    have e : marshalNeg (.close s) = 91 :: (34 :: (b! "NEG-CLOSE" ++ [34]) ++ 44 :: (rawQuoted s ++ [93])) := by simp [marshalNeg]
    rw [e, onMessage, unknown_of valid readCount hm (by decide +kernel) (by decide +kernel)]
    simp only
    rw [parseNeg_label valid (by decide +kernel) (by decide +kernel) hi]
    simp [negFromArray, negArrives]
  | error => exact h.elim

/-- C100 is false for error messages: none that this package writes is understood by it, because it writes `NEG-ERROR` and reads `NEG-ERR`. -/
theorem C100_error_lost {s r : Bytes} (hs : PlainText s) (hr : PlainText r) : onMessage valid readCount (marshalNeg (.error s r)) = .val none := by
  have hi := GItems.next (gtext_raw hs) (.next (gtext_raw hr) .done)
  have hm := isMessage_of (label := b! "NEG-ERROR") hi
  have e : marshalNeg (.error s r) = 91 :: (34 :: (b! "NEG-ERROR" ++ [34]) ++ 44 :: (rawQuoted s ++ 44 :: (rawQuoted r ++ [93]))) := by simp [marshalNeg]
  rw [e, onMessage, unknown_of valid readCount hm (by decide +kernel) (by decide +kernel)]
  simp only
  rw [parseNeg_label valid (by decide +kernel) (by decide +kernel) hi]
  rfl

/-- The error message of NIP-77 is understood when it is written without white space. -/
theorem C100_error_of_nip77 {s r : Bytes} (hs : PlainText s) : onMessage valid readCount (b! "[\"NEG-ERR\"," ++ rawQuoted s ++ [44] ++ jString r ++ [93]) = .val (some (.error s r)) := by
  have hi := GItems.next (gtext_raw hs) (.next (gtext_j r) .done)
  have hm := isMessage_of (label := b! "NEG-ERR") hi
  have e : b! "[\"NEG-ERR\"," ++ rawQuoted s ++ [44] ++ jString r ++ [93] = 91 :: (34 :: (b! "NEG-ERR" ++ [34]) ++ 44 :: (rawQuoted s ++ 44 :: (jString r ++ [93]))) := by simp
  rw [e, onMessage, unknown_of valid readCount hm (by decide +kernel) (by decide +kernel)]
  simp only
  rw [parseNeg_label valid (by decide +kernel) (by decide +kernel) hi]
  rfl

/-- C101: exactly when parsing a message crashes: its first comma is among the first three characters. -/
theorem parseNeg_panic_iff (msg : Bytes) : parseNeg valid msg = .panic ↔ 44 ∈ msg.take 3 := by
  unfold parseNeg
  rcases indexOf_singleton_cases 44 msg with ⟨h1, h2⟩ | ⟨pre, post, rfl, h2, h3⟩
  · simp only [h1, if_true, reduceCtorEq, false_iff]
    exact fun hm => h2 (List.mem_of_mem_take hm)
  · rw [h3]
    simp only
    rw [if_neg (by omega)]
    cases hg : goSlice (pre ++ 44 :: post) 2 ((pre.length : Int) - 1) with
    | val x =>
      simp only [Out.bind, reduceCtorEq, false_iff]
      have := (goSlice_val_iff (pre ++ 44 :: post) 2 ((pre.length : Int) - 1)).1 ⟨x, hg⟩
      intro hm
      rw [List.take_append_of_le_length (by omega)] at hm
      exact h2 (List.mem_of_mem_take hm)
    | panic =>
      simp only [Out.bind, true_iff]
      have := (goSlice_panic_iff (pre ++ 44 :: post) 2 ((pre.length : Int) - 1)).1 hg
      have hl : pre.length ≤ 2 := by
        simp only [List.length_append, List.length_cons] at this
        omega
      match pre, hl with
      | [], _ => simp
      | [a], _ => simp
      | [a, b], _ => simp
      | _ :: _ :: _ :: _, hl => simp at hl

/-- C101 is false: a relay can crash the client during a sync with a message that has an unknown label behind an early comma. -/
theorem C101_crash : onMessage valid readCount (b! ",\"x\"") = .panic ∧ onMessage valid readCount (b! "[,\"x\"]") = .panic ∧ onMessage valid readCount (b! "1,\"NEG-MSG\"") = .panic := ⟨rfl, rfl, rfl⟩

/-- C101: messages without a comma among their first three characters do not crash the client; for instance every message that begins with a bracket and a quoted label. Missing for the full
property: the others, for which it is false. -/
theorem C101_no_crash_partial {msg : Bytes} (h : 44 ∉ msg.take 3) : onMessage valid readCount msg ≠ .panic := by
  unfold onMessage
  split
  · exact fun hp => h ((parseNeg_panic_iff valid msg).1 hp)
  · simp

/-- C101: and exactly those crash it that have such a comma and a label that is not one of the nine of the relay protocol. -/
theorem C101_crash_iff {msg : Bytes} : onMessage valid readCount msg = .panic ↔ 44 ∈ msg.take 3 ∧
    ∃ label, labelOf msg = some label ∧ label ∉ [b! "EVENT", b! "REQ", b! "COUNT", b! "NOTICE", b! "EOSE", b! "OK", b! "AUTH", b! "CLOSED", b! "CLOSE"] := by
  rw [← C23_unknown_label valid readCount, ← parseNeg_panic_iff valid msg]
  unfold onMessage
  split
  · next h => simp [h]
  · next h => simp; exact fun _ hu => h hu

end

example : NegSendable (.open (b! "go-nostr-tmp") { kinds := some [1] } (b! "6100")) ∧ NegSendable (.message (b! "a") (b! "61")) := by
  refine ⟨⟨by decide +kernel, ⟨by simp [elems]; decide, by simp, by simp, by decide, by simp [tagEntries], by simp [tagEntries]⟩, by decide +kernel⟩, by decide +kernel, by decide +kernel⟩

example : ∃ msg : Bytes, 44 ∉ msg.take 3 ∧ onMessage (fun _ => true) readCountText msg = .val (some (.message (b! "a") (b! "61"))) := ⟨b! "[\"NEG-MSG\",\"a\",\"61\"]", by decide +kernel, by decide +kernel⟩

end GoNostr.Json
