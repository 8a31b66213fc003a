import Verif.Nip19.Wellformed
/-!
# sdk/input.go: turning what a user typed into a pointer
-/

set_option autoImplicit false

namespace GoNostr.Sdk

open GoNostr.Nip19

/-! ## `nip19.Decode` with everything it returns -/

/-- What `nip19.Decode` returns: the prefix, the value (`none` for nil) and whether the error is nil. The byte slice that
comes with an unknown prefix is left out (`none`): no caller here looks at it. -/
structure Decoded where
  pre : Bytes
  value : Option Value
  ok : Bool
  deriving DecidableEq

/-- nip19.go:33-60: the `nprofile` loop, with the value returned beside an error. -/
def profileLoop : Nat → Bytes → ProfilePointer → Option Value × Bool
  | 0, _, _ => (none, false)
  | fuel + 1, data, result =>
    match readTLV data with
    | (_, none) => (some (.profile result), !(result.publicKey = []))
    | (t, some v) =>
      let next := data.drop (2 + v.length)
      if t = 0 then
        if v.length ≠ 32 then (none, false) else profileLoop fuel next { result with publicKey := hexEnc v }
      else if t = 1 then profileLoop fuel next { result with relays := addRelay result.relays v }
      else profileLoop fuel next result

/-- nip19.go:62-98: the `nevent` loop, with the value returned beside an error. -/
def eventLoop : Nat → Bytes → EventPointer → Out (Option Value × Bool)
  | 0, _, _ => .val (none, false)
  | fuel + 1, data, result =>
    match readTLV data with
    | (_, none) => .val (some (.event result), !(result.id = []))
    | (t, some v) =>
      let next := data.drop (2 + v.length)
      if t = 0 then
        if v.length ≠ 32 then .val (none, false) else eventLoop fuel next { result with id := hexEnc v }
      else if t = 1 then eventLoop fuel next { result with relays := addRelay result.relays v }
      else if t = 2 then
        if v.length ≠ 32 then .val (none, false) else eventLoop fuel next { result with author := hexEnc v }
      else if t = 3 then
        if v.length ≠ 4 then .val (none, false)
        else match beUint32 v with
          | .panic => .panic
          | .val k => eventLoop fuel next { result with kind := k }
      else eventLoop fuel next result

/-- nip19.go:99-131: the `naddr` loop, with the value returned beside an error. -/
def entityLoop : Nat → Bytes → EntityPointer → Out (Option Value × Bool)
  | 0, _, _ => .val (none, false)
  | fuel + 1, data, result =>
    match readTLV data with
    | (_, none) => .val (some (.entity result), !(result.kind = 0 ∨ result.identifier = [] ∨ result.publicKey = []))
    | (t, some v) =>
      let next := data.drop (2 + v.length)
      if t = 0 then entityLoop fuel next { result with identifier := v }
      else if t = 1 then entityLoop fuel next { result with relays := addRelay result.relays v }
      else if t = 2 then
        if v.length ≠ 32 then .val (none, false) else entityLoop fuel next { result with publicKey := hexEnc v }
      else if t = 3 then
        match beUint32 v with
        | .panic => .panic
        | .val k => entityLoop fuel next { result with kind := k }
      else entityLoop fuel next result

/-- nip19.go:24-134: the `switch` on the prefix, with the value returned beside an error. -/
def dataAll (pre data : Bytes) : Out Decoded :=
  if pre = b! "npub" ∨ pre = b! "nsec" ∨ pre = b! "note" then
    if data.length ≠ 32 then .val ⟨pre, none, false⟩ else .val ⟨pre, some (.str (hexEnc data)), true⟩
  else if pre = b! "nprofile" then
    let r := profileLoop (data.length + 1) data { publicKey := [] }
    .val ⟨pre, r.1, r.2⟩
  else if pre = b! "nevent" then do
    let r ← eventLoop (data.length + 1) data { id := [] }
    return ⟨pre, r.1, r.2⟩
  else if pre = b! "naddr" then do
    let r ← entityLoop (data.length + 1) data { publicKey := [] }
    return ⟨pre, r.1, r.2⟩
  else .val ⟨pre, none, false⟩

/-- nip19.go:13-132 `Decode`, with the prefix and the value returned beside an error. -/
def decodeAll (code : Bytes) : Out Decoded :=
  match bechDecode code with
  | .panic => .panic
  | .err _ => .val ⟨[], none, false⟩
  | .ok (pre, bits5) => match convertBits bits5 5 8 false with
    | .panic => .panic
    | .err _ => .val ⟨pre, none, false⟩
    | .ok data => dataAll pre (bytesOf data)

/-- What a caller that looks at the error first sees of `Decode`. -/
def checked : Out Decoded → Res Unit (Bytes × Value)
  | .panic => .panic
  | .val ⟨pre, some v, true⟩ => .ok (pre, v)
  | .val _ => .err ()

theorem profileLoop_checked : ∀ (fuel : Nat) (data : Bytes) (p : ProfilePointer) (pre : Bytes),
    checked (.val ⟨pre, (profileLoop fuel data p).1, (profileLoop fuel data p).2⟩) =
      (match decodeProfile fuel data p with | .ok q => .ok (pre, .profile q) | .err _ => .err () | .panic => .panic)
  | 0, _, _, _ => rfl
  | fuel + 1, data, p, pre => by
    have ih := profileLoop_checked fuel
    unfold profileLoop decodeProfile
    rcases hr : readTLV data with ⟨t, _ | v⟩
    · by_cases hp : p.publicKey = [] <;> simp [hp, checked]
    · by_cases h0 : t = 0
      · by_cases h1 : v.length = 32
        · simp only [if_pos h0, h1, ne_eq, not_true_eq_false, if_false]
          exact ih _ _ pre
        · simp only [if_pos h0, ne_eq, h1, not_false_eq_true, if_true]
          rfl
      · by_cases h1 : t = 1
        · simp only [if_neg h0, if_pos h1]
          exact ih _ _ pre
        · simp only [if_neg h0, if_neg h1]
          exact ih _ _ pre

/-- `Out` version of `checked` for the two loops that may panic. -/
def checkedLoop (pre : Bytes) : Out (Option Value × Bool) → Res Unit (Bytes × Value)
  | .panic => .panic
  | .val r => checked (.val ⟨pre, r.1, r.2⟩)

theorem eventLoop_checked : ∀ (fuel : Nat) (data : Bytes) (p : EventPointer) (pre : Bytes),
    checkedLoop pre (eventLoop fuel data p) =
      (match decodeEvent fuel data p with | .ok q => .ok (pre, .event q) | .err _ => .err () | .panic => .panic)
  | 0, _, _, _ => rfl
  | fuel + 1, data, p, pre => by
    have ih := eventLoop_checked fuel
    unfold eventLoop decodeEvent
    rcases hr : readTLV data with ⟨t, _ | v⟩
    · by_cases hp : p.id = [] <;> simp [hp, checked, checkedLoop]
    · by_cases h0 : t = 0
      · by_cases h1 : v.length = 32
        · simp only [if_pos h0, h1, ne_eq, not_true_eq_false, if_false]
          exact ih _ _ pre
        · simp only [if_pos h0, ne_eq, h1, not_false_eq_true, if_true]
          rfl
      · by_cases h1 : t = 1
        · simp only [if_neg h0, if_pos h1]
          exact ih _ _ pre
        · by_cases h2 : t = 2
          · by_cases h3 : v.length = 32
            · simp only [if_neg h0, if_neg h1, if_pos h2, h3, ne_eq, not_true_eq_false, if_false]
              exact ih _ _ pre
            · simp only [if_neg h0, if_neg h1, if_pos h2, ne_eq, h3, not_false_eq_true, if_true]
              rfl
          · by_cases h3 : t = 3
            · by_cases h4 : v.length = 4
              · simp only [if_neg h0, if_neg h1, if_neg h2, if_pos h3, h4, ne_eq, not_true_eq_false, if_false]
                cases hb : beUint32 v with
                | panic => rfl
                | val k => exact ih _ _ pre
              · simp only [if_neg h0, if_neg h1, if_neg h2, if_pos h3, ne_eq, h4, not_false_eq_true, if_true]
                rfl
            · simp only [if_neg h0, if_neg h1, if_neg h2, if_neg h3]
              exact ih _ _ pre

theorem entityLoop_checked : ∀ (fuel : Nat) (data : Bytes) (p : EntityPointer) (pre : Bytes),
    checkedLoop pre (entityLoop fuel data p) =
      (match decodeEntity fuel data p with | .ok q => .ok (pre, .entity q) | .err _ => .err () | .panic => .panic)
  | 0, _, _, _ => rfl
  | fuel + 1, data, p, pre => by
    have ih := entityLoop_checked fuel
    unfold entityLoop decodeEntity
    rcases hr : readTLV data with ⟨t, _ | v⟩
    · by_cases hp : p.kind = 0 ∨ p.identifier = [] ∨ p.publicKey = []
      · simp only [hp, decide_true, Bool.not_true]; rfl
      · simp only [hp, decide_false, Bool.not_false]; rfl
    · by_cases h0 : t = 0
      · simp only [if_pos h0]
        exact ih _ _ pre
      · by_cases h1 : t = 1
        · simp only [if_neg h0, if_pos h1]
          exact ih _ _ pre
        · by_cases h2 : t = 2
          · by_cases h3 : v.length = 32
            · simp only [if_neg h0, if_neg h1, if_pos h2, h3, ne_eq, not_true_eq_false, if_false]
              exact ih _ _ pre
            · simp only [if_neg h0, if_neg h1, if_pos h2, ne_eq, h3, not_false_eq_true, if_true]
              rfl
          · by_cases h3 : t = 3
            · simp only [if_neg h0, if_neg h1, if_neg h2, if_pos h3]
              cases hb : beUint32 v with
              | panic => rfl
              | val k => exact ih _ _ pre
            · simp only [if_neg h0, if_neg h1, if_neg h2, if_neg h3]
              exact ih _ _ pre

/-- The two models of `Decode` agree on what a caller that looks at the error sees. -/
theorem decodeAll_checked (code : Bytes) : checked (decodeAll code) = decode code := by
  unfold decodeAll decode
  cases hb : bechDecode code with
  | panic => rfl
  | err e => rfl
  | ok q =>
    obtain ⟨pre, bits5⟩ := q
    simp only [Res.ok_bind]
    cases hc : convertBits bits5 5 8 false with
    | panic => rfl
    | err e => rfl
    | ok data =>
      simp only [Res.ok_bind]
      unfold dataAll decodeData
      split
      · split <;> rfl
      · split
        · have h := profileLoop_checked ((bytesOf data).length + 1) (bytesOf data) { publicKey := [] } pre
          simp only
          rw [h]
          cases decodeProfile ((bytesOf data).length + 1) (bytesOf data) { publicKey := [] } <;> rfl
        · split
          · have h := eventLoop_checked ((bytesOf data).length + 1) (bytesOf data) { id := [] } pre
            cases he : eventLoop ((bytesOf data).length + 1) (bytesOf data) { id := [] } with
            | panic =>
              rw [he] at h
              cases hd : decodeEvent ((bytesOf data).length + 1) (bytesOf data) { id := [] } <;> rw [hd] at h <;>
                simp_all [checkedLoop] <;> rfl
            | val r =>
              rw [he] at h
              simp only [checkedLoop] at h
              show checked (Out.val _) = _
              rw [h]
              cases hd : decodeEvent ((bytesOf data).length + 1) (bytesOf data) { id := [] } <;> rfl
          · split
            · have h := entityLoop_checked ((bytesOf data).length + 1) (bytesOf data) { publicKey := [] } pre
              cases he : entityLoop ((bytesOf data).length + 1) (bytesOf data) { publicKey := [] } with
              | panic =>
                rw [he] at h
                cases hd : decodeEntity ((bytesOf data).length + 1) (bytesOf data) { publicKey := [] } <;> rw [hd] at h <;>
                  simp_all [checkedLoop] <;> rfl
              | val r =>
                rw [he] at h
                simp only [checkedLoop] at h
                show checked (Out.val _) = _
                rw [h]
                cases hd : decodeEntity ((bytesOf data).length + 1) (bytesOf data) { publicKey := [] } <;> rfl
            · rfl

/-! ## sdk/input.go -/

/-- `input.go:13-39` `InputToProfile`; `none` is nil, a failing type assertion panics. `nip05` is what
`nip05.QueryIdentifier` finds on the network. -/
def inputToProfile (nip05 : Bytes → Option ProfilePointer) (input : Bytes) : Out (Option ProfilePointer) :=
  if input.length = 64 ∧ (hexDec input).isSome then .val (some { publicKey := input })
  else do
    let d ← decodeAll input
    if d.pre = b! "npub" then match d.value with
      | some (.str s) => return some { publicKey := s }
      | _ => .panic
    else if d.pre = b! "nprofile" then match d.value with
      | some (.profile p) => return some p
      | _ => .panic
    else return nip05 input

/-- `input.go:42-65` `InputToEventPointer`: the type assertions have the comma-ok form. -/
def inputToEventPointer (input : Bytes) : Out (Option EventPointer) :=
  if input.length = 64 ∧ (hexDec input).isSome then .val (some { id := input })
  else do
    let d ← decodeAll input
    if d.pre = b! "note" then match d.value with
      | some (.str s) => return some { id := s }
      | _ => return none
    else if d.pre = b! "nevent" then match d.value with
      | some (.event p) => return some p
      | _ => return none
    else return none

/-! ## C109 -/

theorem hexDec_head {c : UInt8} {s r : Bytes} (h : hexDec (c :: s) = some r) : (hexVal c).isSome := by
  cases s with
  | nil => simp [hexDec] at h
  | cons d t =>
    simp only [hexDec] at h
    cases hc : hexVal c with
    | some v => rfl
    | none => rw [hc] at h; simp at h

/-- A bech32 code whose prefix begins with `n` is not hex. -/
theorem code_not_hex {code pre : Bytes} {bits5 : List Nat} (hb : bechDecode code = .ok (pre, bits5)) (hn : pre.head? = some 110) :
    (hexDec code).isSome = false := by
  unfold bechDecode at hb
  split at hb
  · cases hb
  split at hb
  · cases hb
  split at hb
  · cases hb
  simp only at hb
  split at hb
  · cases hb
  split at hb
  · cases hb
  rename_i one hone hlen
  split at hb
  · cases hb
  split at hb
  · simp only [Res.ok.injEq, Prod.mk.injEq] at hb
    obtain ⟨rfl, _⟩ := hb
    cases code with
    | nil => simp at hn
    | cons c s =>
      have hl : lowerByte c = 110 := by
        cases one with
        | zero => simp at hn
        | succ k => simpa using hn
      cases hh : hexDec (c :: s) with
      | none => rfl
      | some r =>
        exfalso
        have := hexDec_head hh
        have hc : ∀ c : UInt8, lowerByte c = 110 → hexVal c = none := by decide +kernel
        rw [hc c hl] at this
        cases this
  · cases hb

theorem decodeAll_ok {code pre : Bytes} {v : Value} (h : decode code = .ok (pre, v)) : decodeAll code = .val ⟨pre, some v, true⟩ := by
  have hc := decodeAll_checked code
  rw [h] at hc
  unfold checked at hc
  split at hc
  · cases hc
  · rename_i p w heq
    simp only [Res.ok.injEq, Prod.mk.injEq] at hc
    obtain ⟨rfl, rfl⟩ := hc
    exact heq
  · cases hc

theorem decode_bech {code pre : Bytes} {v : Value} (h : decode code = .ok (pre, v)) : ∃ bits5, bechDecode code = .ok (pre, bits5) := by
  have hd := decodeAll_ok h
  unfold decodeAll at hd
  split at hd
  · cases hd
  · simp only [Out.val.injEq, Decoded.mk.injEq, reduceCtorEq, and_false] at hd
  · rename_i p bits5 hb
    split at hd
    · cases hd
    · simp only [Out.val.injEq, Decoded.mk.injEq, reduceCtorEq, and_false] at hd
    · unfold dataAll at hd
      refine ⟨bits5, ?_⟩
      have : p = pre := by
        split at hd
        · split at hd <;> (simp only [Out.val.injEq, Decoded.mk.injEq] at hd; exact hd.1)
        · split at hd
          · simp only [Out.val.injEq, Decoded.mk.injEq] at hd; exact hd.1
          · split at hd
            · cases he : eventLoop _ _ _ <;> rw [he] at hd
              · simp only [Out.val_bind, Out.pure_eq, Out.val.injEq, Decoded.mk.injEq] at hd; exact hd.1
              · cases hd
            · split at hd
              · cases he : entityLoop _ _ _ <;> rw [he] at hd
                · simp only [Out.val_bind, Out.pure_eq, Out.val.injEq, Decoded.mk.injEq] at hd; exact hd.1
                · cases hd
              · simp only [Out.val.injEq, Decoded.mk.injEq] at hd; exact hd.1
      rw [hb, this]

/-- **C109 (partial).** What a user types in a valid form is read as what it says: 64 lowercase hex digits, an `npub`, and
an `nprofile` give the profile pointer with that key (and those relays); 64 lowercase hex digits, a `note` and a `nevent`
give the event pointer. Missing: malformed codes, see `C109_bad_npub_panics`, `C109_bad_nprofile_panics` and
`C109_keyless_profile`. -/
theorem C109_reads_partial (nip05 : Bytes → Option ProfilePointer) (input : Bytes) :
    (IsHex32 input → inputToProfile nip05 input = .val (some { publicKey := input }) ∧
      inputToEventPointer input = .val (some { id := input })) ∧
    (∀ pk, decode input = .ok (b! "npub", .str pk) → inputToProfile nip05 input = .val (some { publicKey := pk })) ∧
    (∀ p, decode input = .ok (b! "nprofile", .profile p) → inputToProfile nip05 input = .val (some p)) ∧
    (∀ id, decode input = .ok (b! "note", .str id) → inputToEventPointer input = .val (some { id := id })) ∧
    (∀ p, decode input = .ok (b! "nevent", .event p) → inputToEventPointer input = .val (some p)) := by
  refine ⟨fun h => ?_, fun pk h => ?_, fun p h => ?_, fun id h => ?_, fun p h => ?_⟩
  · obtain ⟨b, hb, _⟩ := h.dec
    have : input.length = 64 := h.1
    simp [inputToProfile, inputToEventPointer, this, hb]
  · obtain ⟨bits, hb⟩ := decode_bech h
    have hn := code_not_hex hb (by decide +kernel)
    simp only [inputToProfile, hn, Bool.false_eq_true, and_false, if_false, decodeAll_ok h, Out.val_bind, if_true]
    rfl
  · obtain ⟨bits, hb⟩ := decode_bech h
    have hn := code_not_hex hb (by decide +kernel)
    simp only [inputToProfile, hn, Bool.false_eq_true, and_false, if_false, decodeAll_ok h, Out.val_bind, if_true]
    rw [if_neg (by decide +kernel)]
    rfl
  · obtain ⟨bits, hb⟩ := decode_bech h
    have hn := code_not_hex hb (by decide +kernel)
    simp only [inputToEventPointer, hn, Bool.false_eq_true, and_false, if_false, decodeAll_ok h, Out.val_bind, if_true]
    rfl
  · obtain ⟨bits, hb⟩ := decode_bech h
    have hn := code_not_hex hb (by decide +kernel)
    simp only [inputToEventPointer, hn, Bool.false_eq_true, and_false, if_false, decodeAll_ok h, Out.val_bind, if_true]
    rw [if_neg (by decide +kernel)]
    rfl

/-- What `Decode` makes of encoded data, with everything it returns. -/
theorem decodeAll_encodeData (pre data : Bytes) (hp : LowerPrefix pre) :
    ∃ code bits5, encodeData pre data = .ok code ∧ bechDecode code = .ok (pre, bits5) ∧ decodeAll code = dataAll pre data := by
  obtain ⟨g, g1, g2, g3⟩ := C51_regroup_roundtrip (nats data) (by
    intro x hx
    obtain ⟨c, _, rfl⟩ := List.mem_map.1 hx
    exact c.toNat_lt)
  obtain ⟨s, s1, s2⟩ := C51_bech32_roundtrip pre g hp g2
  refine ⟨s, g, ?_, s2, ?_⟩
  · unfold encodeData; rw [g1, Res.ok_bind, s1]
  · unfold decodeAll
    simp only [s2, g3, bytesOf_nats]

/-- The full C109 is false: `EncodePublicKey` turns every hex string into a code, and if the string is not 32 bytes long
`InputToProfile` panics on that code: it takes the nil value for a string. -/
theorem C109_bad_npub_panics (nip05 : Bytes → Option ProfilePointer) (h b : Bytes) (hh : hexDec h = some b) (hl : h.length ≠ 64) :
    ∃ code, encodePublicKey h = .ok code ∧ inputToProfile nip05 code = .panic := by
  obtain ⟨code, bits5, h1, h2, h3⟩ := decodeAll_encodeData (b! "npub") b (by decide +kernel)
  refine ⟨code, by unfold encodePublicKey encodeHex; rw [hh]; exact h1, ?_⟩
  have hn := code_not_hex h2 (by decide +kernel)
  have hlen : b.length ≠ 32 := by have := hexDec_length hh; omega
  have hd : decodeAll code = .val ⟨b! "npub", none, false⟩ := by rw [h3]; simp [dataAll, hlen]
  simp only [inputToProfile, hn, Bool.false_eq_true, and_false, if_false, hd, Out.val_bind, if_true]

/-- … for example the code of the one-byte "key" `ab`. -/
example : hexDec (b! "ab") = some [171] ∧ (b! "ab").length ≠ 64 := by decide +kernel

/-- … and it panics on every `nprofile` code whose key has another length than 32 bytes. -/
theorem C109_bad_nprofile_panics (nip05 : Bytes → Option ProfilePointer) (key rest : Bytes) (hk : key.length ≤ 255) (hl : key.length ≠ 32) :
    ∃ code, encodeData (b! "nprofile") (tlv 0 key ++ rest) = .ok code ∧ inputToProfile nip05 code = .panic := by
  obtain ⟨code, bits5, h1, h2, h3⟩ := decodeAll_encodeData (b! "nprofile") (tlv 0 key ++ rest) (by decide +kernel)
  refine ⟨code, h1, ?_⟩
  have hn := code_not_hex h2 (by decide +kernel)
  have hd : decodeAll code = .val ⟨b! "nprofile", none, false⟩ := by
    rw [h3]
    unfold dataAll
    rw [if_neg (by decide +kernel), if_pos rfl]
    unfold profileLoop
    simp only [readTLV_tlv 0 key rest hk, if_pos, hl, ne_eq, not_false_eq_true]
  simp only [inputToProfile, hn, Bool.false_eq_true, and_false, if_false, hd, Out.val_bind]
  rw [if_neg (by decide +kernel), if_pos trivial]

example : ([] : Bytes).length ≤ 255 ∧ ([] : Bytes).length ≠ 32 := by decide

theorem profileLoop_relays : ∀ (vs : List Bytes) (fuel : Nat) (p : ProfilePointer), (∀ v ∈ vs, v.length ≤ 255) → vs.length < fuel →
    profileLoop fuel (relayEntries vs) p = (some (.profile { p with relays := addRelays p.relays vs }), !(p.publicKey = []))
  | [], 0, _, _, h => by simp at h
  | [], fuel + 1, p, _, _ => by simp [profileLoop, relayEntries, readTLV, addRelays]
  | v :: vs, 0, _, _, h => by simp at h
  | v :: vs, fuel + 1, p, hv, hf => by
    rw [relayEntries_cons]
    unfold profileLoop
    simp only [readTLV_tlv 1 v (relayEntries vs) (hv v (by simp)), drop_tlv]
    rw [if_neg (by decide), if_pos trivial, profileLoop_relays vs fuel _ (fun w hw => hv w (by simp [hw])) (by simp at hf; omega)]
    rfl

/-- … and an `nprofile` code with relays but no key is read as a profile with an empty key, although `Decode` rejects it. -/
theorem C109_keyless_profile (nip05 : Bytes → Option ProfilePointer) (relays : List Bytes) (hr : ∀ v ∈ relays, v.length ≤ 255) :
    ∃ code, encodeData (b! "nprofile") (relayEntries relays) = .ok code ∧ decode code = .err () ∧
      inputToProfile nip05 code = .val (some { publicKey := [], relays := relaysOf relays }) := by
  obtain ⟨code, bits5, h1, h2, h3⟩ := decodeAll_encodeData (b! "nprofile") (relayEntries relays) (by decide +kernel)
  have hn := code_not_hex h2 (by decide +kernel)
  have hd : decodeAll code = .val ⟨b! "nprofile", some (.profile { publicKey := [], relays := relaysOf relays }), false⟩ := by
    rw [h3]
    unfold dataAll
    rw [if_neg (by decide +kernel), if_pos rfl]
    have := profileLoop_relays relays ((relayEntries relays).length + 1) { publicKey := [] } hr (by have := relayEntries_length relays; omega)
    simp only [this, addRelays_none]
    rfl
  refine ⟨code, h1, ?_, ?_⟩
  · rw [← decodeAll_checked, hd]; rfl
  · simp only [inputToProfile, hn, Bool.false_eq_true, and_false, if_false, hd, Out.val_bind]
    rw [if_neg (by decide +kernel), if_pos trivial]
    rfl

/-- `InputToEventPointer` does the same with a `nevent` code without an id. -/
theorem C109_idless_event :
    ∃ code, encodeData (b! "nevent") [] = .ok code ∧ decode code = .err () ∧ inputToEventPointer code = .val (some { id := [] }) := by
  obtain ⟨code, bits5, h1, h2, h3⟩ := decodeAll_encodeData (b! "nevent") [] (by decide +kernel)
  have hn := code_not_hex h2 (by decide +kernel)
  have hd : decodeAll code = .val ⟨b! "nevent", some (.event { id := [] }), false⟩ := by rw [h3]; decide +kernel
  refine ⟨code, h1, ?_, ?_⟩
  · rw [← decodeAll_checked, hd]; rfl
  · simp only [inputToEventPointer, hn, Bool.false_eq_true, and_false, if_false, hd, Out.val_bind]
    rw [if_neg (by decide +kernel), if_pos trivial]
    rfl

theorem profileLoop_shape : ∀ (fuel : Nat) (data : Bytes) (p : ProfilePointer) (v : Value) (ok : Bool),
    (p.publicKey = [] ∨ Key64 p.publicKey) → profileLoop fuel data p = (some v, ok) →
    ∃ q, v = .profile q ∧ (Key64 q.publicKey ∨ (q.publicKey = [] ∧ ok = false))
  | 0, _, _, _, _, _, h => by simp [profileLoop] at h
  | fuel + 1, data, p, w, ok, hp, h => by
    have ih := profileLoop_shape fuel
    unfold profileLoop at h
    split at h
    · simp only [Prod.mk.injEq, Option.some.injEq] at h
      refine ⟨p, h.1.symm, ?_⟩
      rcases hp with hp | hp
      · right; refine ⟨hp, ?_⟩; rw [← h.2, hp]; rfl
      · left; exact hp
    · rename_i t v ht
      simp only at h
      split at h
      · split at h
        · cases h
        · rename_i hl
          exact ih _ _ _ _ (Or.inr (key64_hexEnc _ (by omega))) h
      · split at h
        · exact ih _ { p with relays := addRelay p.relays v } _ _ hp h
        · exact ih _ _ _ _ hp h

theorem eventLoop_shape : ∀ (fuel : Nat) (data : Bytes) (p : EventPointer) (v : Value) (ok : Bool),
    eventLoop fuel data p = .val (some v, ok) → ∃ q, v = .event q
  | 0, _, _, _, _, h => by simp [eventLoop] at h
  | fuel + 1, data, p, w, ok, h => by
    have ih := eventLoop_shape fuel
    unfold eventLoop at h
    split at h
    · simp only [Out.val.injEq, Prod.mk.injEq, Option.some.injEq] at h
      exact ⟨p, h.1.symm⟩
    · simp only at h
      split at h
      · split at h
        · cases h
        · exact ih _ _ _ _ h
      · split at h
        · exact ih _ _ _ _ h
        · split at h
          · split at h
            · cases h
            · exact ih _ _ _ _ h
          · split at h
            · split at h
              · cases h
              · split at h
                · cases h
                · exact ih _ _ _ _ h
            · exact ih _ _ _ _ h

theorem entityLoop_shape : ∀ (fuel : Nat) (data : Bytes) (p : EntityPointer) (v : Value) (ok : Bool),
    entityLoop fuel data p = .val (some v, ok) → ∃ q, v = .entity q
  | 0, _, _, _, _, h => by simp [entityLoop] at h
  | fuel + 1, data, p, w, ok, h => by
    have ih := entityLoop_shape fuel
    unfold entityLoop at h
    split at h
    · simp only [Out.val.injEq, Prod.mk.injEq, Option.some.injEq] at h
      exact ⟨p, h.1.symm⟩
    · simp only at h
      split at h
      · exact ih _ _ _ _ h
      · split at h
        · exact ih _ _ _ _ h
        · split at h
          · split at h
            · cases h
            · exact ih _ _ _ _ h
          · split at h
            · split at h
              · cases h
              · exact ih _ _ _ _ h
            · exact ih _ _ _ _ h

/-- The value beside an error, too, has the dynamic type that belongs to its prefix. -/
theorem decodeAll_shape {input pre : Bytes} {v : Value} {ok : Bool} (h : decodeAll input = .val ⟨pre, some v, ok⟩) :
    ((pre = b! "npub" ∨ pre = b! "nsec" ∨ pre = b! "note") ∧ ∃ s, v = .str s ∧ Key64 s) ∨
    (pre = b! "nprofile" ∧ ∃ q, v = .profile q ∧ (Key64 q.publicKey ∨ (q.publicKey = [] ∧ ok = false))) ∨
    (pre = b! "nevent" ∧ ∃ q, v = .event q) ∨ (pre = b! "naddr" ∧ ∃ q, v = .entity q) := by
  unfold decodeAll at h
  split at h
  · cases h
  · simp at h
  · split at h
    · cases h
    · simp at h
    · unfold dataAll at h
      split at h
      · rename_i hpre
        split at h
        · simp at h
        · rename_i hl
          simp only [Out.val.injEq, Decoded.mk.injEq, Option.some.injEq] at h
          rw [← h.1]
          exact Or.inl ⟨hpre, _, h.2.1.symm, key64_hexEnc _ (by omega)⟩
      · split at h
        · rename_i hpre
          simp only [Out.val.injEq, Decoded.mk.injEq] at h
          right; left
          refine ⟨h.1.symm.trans hpre, ?_⟩
          exact profileLoop_shape _ _ _ v ok (Or.inl rfl) (Prod.ext h.2.1 h.2.2)
        · split at h
          · rename_i data _ _ _ hpre
            cases he : eventLoop ((bytesOf data).length + 1) (bytesOf data) { id := [] } with
            | panic => rw [he] at h; cases h
            | val r =>
              rw [he] at h
              simp only [Out.val_bind, Out.pure_eq, Out.val.injEq, Decoded.mk.injEq] at h
              right; right; left
              refine ⟨h.1.symm.trans hpre, eventLoop_shape _ _ _ v ok (he.trans (congrArg Out.val (Prod.ext h.2.1 h.2.2)))⟩
          · split at h
            · rename_i data _ _ _ _ hpre
              cases he : entityLoop ((bytesOf data).length + 1) (bytesOf data) { publicKey := [] } with
              | panic => rw [he] at h; cases h
              | val r =>
                rw [he] at h
                simp only [Out.val_bind, Out.pure_eq, Out.val.injEq, Decoded.mk.injEq] at h
                right; right; right
                refine ⟨h.1.symm.trans hpre, entityLoop_shape _ _ _ v ok (he.trans (congrArg Out.val (Prod.ext h.2.1 h.2.2)))⟩
            · simp at h

/-- **C109 (partial).** `InputToProfile` panics only on a string with a valid bech32 checksum that `Decode` rejects (or
panics on); `InputToEventPointer` only where `Decode` panics, that is on no string but some `naddr` codes (C54). Whatever
pointer `InputToProfile` returns has 64 hex digits for a key, or an empty key and comes from an `nprofile` code that
`Decode` rejects, or is what the NIP-05 server answered. -/
theorem C109_panics_partial (nip05 : Bytes → Option ProfilePointer) (input : Bytes) :
    (inputToProfile nip05 input = .panic → (∃ pre bits5, bechDecode input = .ok (pre, bits5)) ∧ ∀ r, decode input ≠ .ok r) ∧
    (inputToEventPointer input = .panic ↔ decode input = .panic) ∧
    (∀ p, inputToProfile nip05 input = .val (some p) →
      (p.publicKey.length = 64 ∧ (hexDec p.publicKey).isSome) ∨ (p.publicKey = [] ∧ decode input = .err ()) ∨ nip05 input = some p) := by
  refine ⟨fun h => ?_, ?_, fun p h => ?_⟩
  · unfold inputToProfile at h
    split at h
    · cases h
    · cases hd : decodeAll input with
      | panic =>
        have hc := decodeAll_checked input
        rw [hd] at hc
        refine ⟨?_, fun r hr => by rw [hr] at hc; cases hc⟩
        unfold decodeAll at hd
        split at hd
        · rename_i hb; exact absurd hb (bechDecode_no_panic _)
        · cases hd
        · rename_i hb; exact ⟨_, _, hb⟩
      | val d =>
        rw [hd] at h
        simp only [Out.val_bind] at h
        refine ⟨?_, fun r hr => ?_⟩
        · cases hb : bechDecode input with
          | panic => exact absurd hb (bechDecode_no_panic _)
          | err e =>
            have : decodeAll input = .val ⟨[], none, false⟩ := by unfold decodeAll; simp only [hb]
            rw [hd] at this
            simp only [Out.val.injEq] at this
            rw [this] at h
            simp at h
          | ok q => exact ⟨q.1, q.2, rfl⟩
        · obtain ⟨pre, v⟩ := r
          have hok := decodeAll_ok hr
          rw [hd] at hok
          simp only [Out.val.injEq] at hok
          subst hok
          have hw := C92_decode_wellformed input pre v hr
          simp only at h
          split at h
          · rename_i hp
            cases v with
            | str s => cases h
            | profile q => exact absurd (hp.symm.trans hw.1) (by decide +kernel)
            | event q => exact absurd (hp.symm.trans hw.1) (by decide +kernel)
            | entity q => exact absurd (hp.symm.trans hw.1) (by decide +kernel)
          · split at h
            · rename_i hp
              cases v with
              | str s => rcases hw.1 with hw | hw | hw <;> exact absurd (hp.symm.trans hw) (by decide +kernel)
              | profile q => cases h
              | event q => exact absurd (hp.symm.trans hw.1) (by decide +kernel)
              | entity q => exact absurd (hp.symm.trans hw.1) (by decide +kernel)
            · cases h
  · have hc := decodeAll_checked input
    constructor
    · intro h
      unfold inputToEventPointer at h
      split at h
      · cases h
      · cases hd : decodeAll input with
        | panic => rw [hd] at hc; exact hc.symm
        | val d =>
          rw [hd] at h
          simp only [Out.val_bind] at h
          split at h
          · split at h <;> cases h
          · split at h
            · split at h <;> cases h
            · cases h
    · intro h
      have hd : decodeAll input = .panic := by
        rw [h] at hc
        cases hd : decodeAll input with
        | panic => rfl
        | val d =>
          rw [hd] at hc
          unfold checked at hc
          split at hc
          · rename_i heq; cases heq
          · cases hc
          · cases hc
      unfold inputToEventPointer
      rw [if_neg, hd]
      · rfl
      · intro hx
        obtain ⟨bits5, data, pre, v, rest, hb, _⟩ := C54_decode_no_panic_partial input h
        have := code_not_hex hb (by decide +kernel)
        rw [this] at hx
        exact absurd hx.2 (by decide)
  · unfold inputToProfile at h
    split at h
    · rename_i hx
      simp only [Out.val.injEq, Option.some.injEq] at h
      subst h
      exact Or.inl hx
    · cases hd : decodeAll input with
      | panic => rw [hd] at h; cases h
      | val d =>
        have hc := decodeAll_checked input
        have hd' := hd
        rw [hd] at h hc
        simp only [Out.val_bind] at h
        have hkey : ∀ k, Key64 k → k.length = 64 ∧ (hexDec k).isSome := by
          intro k hk
          obtain ⟨b, hb, _⟩ := IsHex32.dec (h := k) ⟨hk.1, fun c hc => hk.2 c hc⟩
          exact ⟨hk.1, by rw [hb]; rfl⟩
        obtain ⟨pre, val, ok⟩ := d
        simp only at h
        have herr : ok = false → decode input = .err () := by
          rintro rfl
          rw [← hc]
          cases val <;> rfl
        split at h
        · rename_i hp
          split at h
          · rename_i s
            simp only [Out.pure_eq, Out.val.injEq, Option.some.injEq] at h
            subst h
            left
            rcases decodeAll_shape hd' with ⟨_, t, ht, hk⟩ | ⟨_, t, ht, _⟩ | ⟨_, t, ht⟩ | ⟨_, t, ht⟩
            · cases ht; exact hkey _ hk
            · cases ht
            · cases ht
            · cases ht
          · cases h
        · split at h
          · split at h
            · rename_i q
              simp only [Out.pure_eq, Out.val.injEq, Option.some.injEq] at h
              subst h
              rcases decodeAll_shape hd' with ⟨_, t, ht, hk⟩ | ⟨_, t, ht, hk⟩ | ⟨_, t, ht⟩ | ⟨_, t, ht⟩
              · cases ht
              · cases ht
                rcases hk with hk | ⟨hk, ho⟩
                · exact Or.inl (hkey _ hk)
                · exact Or.inr (Or.inl ⟨hk, herr ho⟩)
              · cases ht
              · cases ht
            · cases h
          · simp only [Out.pure_eq, Out.val.injEq] at h
            exact Or.inr (Or.inr h)

/-- Not vacuous: an `npub` code that is read, with its key. -/
example : ∃ code, encodePublicKey sampleHex = .ok code ∧ inputToProfile (fun _ => none) code = .val (some { publicKey := sampleHex }) := by
  obtain ⟨⟨c, h1, h2⟩, _⟩ := C52_keys_roundtrip sampleHex (by unfold IsHex32 IsLowerHexByte; decide +kernel)
  exact ⟨c, h1, (C109_reads_partial (fun _ => none) c).2.1 _ h2⟩

end GoNostr.Sdk
