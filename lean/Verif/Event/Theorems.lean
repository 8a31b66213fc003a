import Verif.Event.Lemmas
/-!
# C01–C05: event serialization, ids and signatures
-/

set_option autoImplicit false

namespace GoNostr

/-- A concrete event with awkward bytes in every string, used by the non-vacuity examples. -/
def sampleEvent : Event :=
  { id := [], pubkey := b! "ab\",1", createdAt := -7, kind := 30023,
    tags := [[b! "d", b! "x\"],[\"\\"], [], [[1, 31, 0, 255]]], content := b! "he said \"no\"\n\\", sig := [] }

/-! ## C01 -/

/-- **C01.** `Serialize` is injective: equal bytes force equal signed fields, for all events whatever their strings. -/
theorem C01_serialize_injective (e₁ e₂ : Event) (h : serialize e₁ = serialize e₂) :
    e₁.pubkey = e₂.pubkey ∧ e₁.createdAt = e₂.createdAt ∧ e₁.kind = e₂.kind ∧ e₁.tags = e₂.tags ∧
      e₁.content = e₂.content := by
  unfold serialize serializeEventInto at h
  dsimp only at h
  have h1 := (snoc_inj h).1
  have nt : ∀ X : Bytes, NoTrailBS (X ++ [93, 44]) := by
    intro X
    have : X ++ [93, 44] = (X ++ [93]) ++ [44] := by simp
    rw [this]
    exact noTrailBS_snoc _ (by decide)
  obtain ⟨h2, hcontent⟩ := esc_cancel (nt _) (nt _) h1
  have h3 := List.append_inj_left' h2 rfl
  obtain ⟨h4, htags⟩ := serializeTags_cancel _ _ _ _ h3
  have h5 := (snoc_inj h4).1
  rw [List.append_assoc _ (b! ","), List.append_assoc _ (b! ",")] at h5
  obtain ⟨h6, hkind⟩ := sep_cancel (comma_not_in_fmtInt _) (comma_not_in_fmtInt _) h5
  have e : (b! "\",") = [34] ++ [44] := rfl
  have h7 : ([] ++ b! "[0,\"" ++ e₁.pubkey ++ [34]) ++ 44 :: fmtInt e₁.createdAt
      = ([] ++ b! "[0,\"" ++ e₂.pubkey ++ [34]) ++ 44 :: fmtInt e₂.createdAt := by
    simpa using h6
  obtain ⟨h8, hcreated⟩ := sep_cancel (comma_not_in_fmtInt _) (comma_not_in_fmtInt _) h7
  have h9 := (snoc_inj h8).1
  have hpk : e₁.pubkey = e₂.pubkey := by simpa using h9
  exact ⟨hpk, fmtInt_injective hcreated, fmtInt_injective hkind, htags, hcontent⟩

/-- **C01**, ids: two events with the same `GetID()` agree on every signed field, or exhibit a collision of the hash. -/
theorem C01_id_binds_fields (H : Hash32) (e₁ e₂ : Event) (h : getID H e₁ = getID H e₂) :
    (e₁.pubkey = e₂.pubkey ∧ e₁.createdAt = e₂.createdAt ∧ e₁.kind = e₂.kind ∧ e₁.tags = e₂.tags ∧
      e₁.content = e₂.content) ∨
    ∃ m₁ m₂, m₁ ≠ m₂ ∧ H m₁ = H m₂ := by
  by_cases hs : serialize e₁ = serialize e₂
  · exact Or.inl (C01_serialize_injective e₁ e₂ hs)
  · exact Or.inr ⟨_, _, hs, Subtype.ext (hexEnc_injective h)⟩

/-- Non-vacuity: two events differing only in fields that are not serialized do serialize equally (the hypothesis holds
for distinct events), and the sample event serializes to the expected bytes. -/
example : sampleEvent ≠ { sampleEvent with sig := [1] } ∧
    serialize sampleEvent = serialize { sampleEvent with sig := [1] } := by decide
example : serialize { sampleEvent with tags := [[b! "a", b! "\n"], []], pubkey := b! "p" } =
    b! "[0,\"p\",-7,30023,[[\"a\",\"\\n\"],[]],\"he said \\\"no\\\"\\n\\\\\"]" := by decide

/-! ## C02 -/

/-- **C02.** The literal written for `s` is one JSON string token denoting exactly `s`, whatever is written before it
and after it: the decoder of RFC 8259 reads `s` and stops right after the literal. -/
theorem C02_escape_decodes (dst s rest : Bytes) :
    ∃ tok, escapeString dst s = dst ++ tok ∧ JSON.string (tok ++ rest) = some (s, rest) := by
  refine ⟨34 :: (escBody s ++ [34]), escapeString_eq dst s, ?_⟩
  simp [JSON.string, stringBody_escBody]

/-- Control characters are never written raw, so the token is valid RFC 8259 text. -/
theorem C02_no_raw_control (s : Bytes) : ∀ c ∈ escapeString [] s, 0x20 ≤ c := by
  intro c hc
  rw [escapeString_eq] at hc
  have key' : ∀ b : UInt8, (escapeByte b).all (fun c => decide (0x20 ≤ c)) = true := by decide +kernel
  have key : ∀ b : UInt8, ∀ c ∈ escapeByte b, 0x20 ≤ c := by
    intro b c hc
    simpa using List.all_eq_true.mp (key' b) c hc
  have hb : ∀ s : Bytes, ∀ c ∈ escBody s, 0x20 ≤ c := by
    intro s
    induction s with
    | nil => simp [escBody]
    | cons b s ih =>
      intro c hc
      simp [escBody] at hc
      exact hc.elim (key b c) (ih c)
  simp at hc
  rcases hc with rfl | hc | rfl
  · decide
  · exact hb s c hc
  · decide

example : escapeString [] [34, 92, 0, 8, 11, 31, 200] = b! "\"\\\"\\\\\\u0000\\b\\u000b\\u001f" ++ [200, 34] := by decide
example : JSON.string (escapeString [] [34, 92, 0, 8, 11, 31, 200] ++ b! ",x") =
    some ([34, 92, 0, 8, 11, 31, 200], b! ",x") := by decide

/-! ## C03 -/

theorem goIndex_nat {α : Type} {s : List α} {i : Nat} {a : α} (h : s[i]? = some a) : goIndex s (i : Int) = .val a := by
  simp [goIndex, h]

theorem checkIDLoop_eq (id : Bytes) : ∀ (n i : Nat) (h : Bytes), h.length = i + n → id.length = 2 * (i + n) →
    checkIDLoop h id n i = .val (decide (hexEnc (h.drop i) = id.drop (2 * i))) := by
  intro n
  induction n with
  | zero =>
    intro i h hh hid
    have e1 : h.drop i = [] := List.drop_eq_nil_of_le (by omega)
    have e2 : id.drop (2 * i) = [] := List.drop_eq_nil_of_le (by omega)
    simp [checkIDLoop, e1, e2, hexEnc]
  | succ n ih =>
    intro i h hh hid
    have hi : i < h.length := by omega
    have h2 : i * 2 < id.length := by omega
    have h3 : i * 2 + 1 < id.length := by omega
    have g1 : goIndex h (i : Int) = .val h[i] := goIndex_nat (List.getElem?_eq_getElem hi)
    have g2 : goIndex id ((i * 2 : Nat) : Int) = .val id[i * 2] := goIndex_nat (List.getElem?_eq_getElem h2)
    have g3 : goIndex id ((i * 2 + 1 : Nat) : Int) = .val id[i * 2 + 1] := goIndex_nat (List.getElem?_eq_getElem h3)
    have d1 : h.drop i = h[i] :: h.drop (i + 1) := List.drop_eq_getElem_cons hi
    have d2 : id.drop (2 * i) = id[i * 2] :: id[i * 2 + 1] :: id.drop (2 * (i + 1)) := by
      rw [Nat.mul_comm 2 i, List.drop_eq_getElem_cons h2, List.drop_eq_getElem_cons h3]
      congr 3; omega
    unfold checkIDLoop
    rw [g1, g2, g3, d1, d2]
    simp only [Out.val_bind, hexEnc]
    by_cases c1 : hexDigit (h[i] >>> 4) = id[i * 2]
    · by_cases c2 : hexDigit (h[i] &&& 15) = id[i * 2 + 1]
      · simp [c1, c2, ih (i + 1) h (by omega) (by omega)]
      · simp [c1, c2]
    · simp [c1]

/-- **C03.** `CheckID()` returns (never panics) and is true iff `ID` equals `GetID()`. -/
theorem C03_checkID_iff (H : Hash32) (e : Event) : checkID H e = .val (decide (e.id = getID H e)) := by
  have hl : (getID H e).length = 64 := by simp [getID, (H (serialize e)).2]
  unfold checkID
  split
  · next hne =>
    have : e.id ≠ getID H e := by intro h; rw [h] at hne; exact hne hl
    simp [this]
  · next h64 =>
    have h64 : e.id.length = 64 := by simpa using h64
    rw [checkIDLoop_eq e.id 32 0 _ (by simp [(H (serializeEventInto e [])).2]) (by omega)]
    simp only [List.drop_zero, Nat.mul_zero, Out.val.injEq, decide_eq_decide]
    exact ⟨fun h => h.symm, fun h => h.symm⟩

/-- **C03**, format: the computed id is 64 lowercase hex characters. -/
theorem C03_getID_format (H : Hash32) (e : Event) :
    (getID H e).length = 64 ∧ ∀ c ∈ getID H e, IsLowerHexByte c :=
  ⟨by simp [getID, (H (serialize e)).2], hexEnc_lower _⟩

/-- A toy hash for the examples: the constant digest of 32 bytes 0xab. -/
def toyHash : Hash32 := fun _ => ⟨List.replicate 32 0xab, rfl⟩

example : checkID toyHash { sampleEvent with id := (List.replicate 32 (b! "ab")).flatten } = .val true := by
  decide +kernel
example : checkID toyHash { sampleEvent with id := (List.replicate 32 (b! "aB")).flatten } = .val false := by
  decide +kernel
example : checkID toyHash { sampleEvent with id := b! "abab" } = .val false := by decide +kernel

/-! ## C04 -/

/-- The contract of the signature library: a produced signature parses, its key parses, and it verifies. -/
structure Schnorr.Correct (S : Schnorr) : Prop where
  signs : ∀ sk h sg, S.sign sk h = some sg →
    S.parsePub (S.pubOf sk) = true ∧ S.parseSig sg = true ∧ S.verify sg h (S.pubOf sk) = true

/-- **C04.** After a successful `Sign(sk)` the event verifies: `PubKey` is the public key of `sk`, `CheckID` is true,
`CheckSignature` returns `(true, nil)`, and no other field was changed. -/
theorem C04_sign_verifies (H : Hash32) (S : Schnorr) (hS : S.Correct) (e : Event) (sk : Bytes) (e' : Event)
    (h : signEvent H S e sk = (e', true)) :
    getPublicKey S sk = some e'.pubkey ∧ checkID H e' = .val true ∧ checkSignature H S e' = some true ∧
      e'.createdAt = e.createdAt ∧ e'.kind = e.kind ∧ e'.tags = e.tags ∧ e'.content = e.content := by
  unfold signEvent at h
  split at h
  · simp at h
  · next k hk =>
    dsimp only at h
    split at h
    · simp at h
    · next sg hsg =>
      simp at h
      subst h
      obtain ⟨h1, h2, h3⟩ := hS.signs _ _ _ hsg
      refine ⟨by simp [getPublicKey, hk], ?_, ?_, rfl, rfl, rfl, rfl⟩
      · rw [C03_checkID_iff]
        simp [getID, serialize, serializeEventInto]
      · simp only [checkSignature, hexDec_hexEnc, h1, h2]
        simpa [serialize, serializeEventInto] using h3

/-- `Sign` succeeds exactly when the secret key is hex and the library signs; a failure never touches id or signature. -/
theorem C04_sign_fails_cleanly (H : Hash32) (S : Schnorr) (e : Event) (sk : Bytes) (e' : Event)
    (h : signEvent H S e sk = (e', false)) : e'.id = e.id ∧ e'.sig = e.sig ∧ e'.tags = e.tags ∧
      e'.content = e.content ∧ e'.kind = e.kind ∧ e'.createdAt = e.createdAt := by
  unfold signEvent at h
  split at h
  · simp at h; subst h; simp
  · dsimp only at h
    split at h
    · simp at h; subst h; simp
    · simp at h

/-- A toy scheme satisfying the contract: the signature is key followed by hash. -/
def toySchnorr : Schnorr where
  pubOf := fun sk => sk
  parsePub := fun pk => pk.length = 32
  parseSig := fun s => s.length = 64
  verify := fun sg h pk => sg = pk ++ h
  sign := fun sk h => if sk.length = 32 ∧ h.length = 32 then some (sk ++ h) else none

theorem toySchnorr_correct : toySchnorr.Correct := by
  constructor
  intro sk h sg hs
  simp [toySchnorr] at hs ⊢
  obtain ⟨⟨h1, h2⟩, rfl⟩ := hs
  simp [h1, h2]

example : (signEvent toyHash toySchnorr sampleEvent (hexEnc (List.replicate 32 7))).2 = true := by decide +kernel

/-! ## C05 -/

/-- **C05.** `CheckSignature` accepts exactly when the signature verifies against the hash of the event's own
serialization under its own public key. -/
theorem C05_checkSignature_iff (H : Hash32) (S : Schnorr) (e : Event) :
    checkSignature H S e = some true ↔
      ∃ pk sg, hexDec e.pubkey = some pk ∧ S.parsePub pk = true ∧ hexDec e.sig = some sg ∧ S.parseSig sg = true ∧
        S.verify sg (H (serialize e)).val pk = true := by
  unfold checkSignature
  cases h1 : hexDec e.pubkey with
  | none => simp
  | some pk =>
    cases h2 : S.parsePub pk <;> cases h3 : hexDec e.sig with
    | none => simp [h2]
    | some sg => cases h4 : S.parseSig sg <;> simp [h2, h4]

/-- **C05**, tampering: if two events carry the same public key and signature and both verify, they agree on every
signed field, unless the hash collides or one signature verifies two different hashes under one key. -/
theorem C05_signature_binds_fields (H : Hash32) (S : Schnorr) (e₁ e₂ : Event)
    (hp : e₁.pubkey = e₂.pubkey) (hs : e₁.sig = e₂.sig)
    (h₁ : checkSignature H S e₁ = some true) (h₂ : checkSignature H S e₂ = some true) :
    (e₁.createdAt = e₂.createdAt ∧ e₁.kind = e₂.kind ∧ e₁.tags = e₂.tags ∧ e₁.content = e₂.content) ∨
    (∃ m₁ m₂, m₁ ≠ m₂ ∧ H m₁ = H m₂) ∨
    (∃ sg pk d₁ d₂, d₁ ≠ d₂ ∧ S.verify sg d₁ pk = true ∧ S.verify sg d₂ pk = true) := by
  obtain ⟨pk, sg, a1, _, a3, _, a5⟩ := (C05_checkSignature_iff H S e₁).mp h₁
  obtain ⟨pk', sg', b1, _, b3, _, b5⟩ := (C05_checkSignature_iff H S e₂).mp h₂
  rw [hp, b1] at a1
  rw [hs, b3] at a3
  injection a1 with a1
  injection a3 with a3
  subst a1; subst a3
  by_cases hd : (H (serialize e₁)).val = (H (serialize e₂)).val
  · have hid : getID H e₁ = getID H e₂ := by simp [getID, hd]
    rcases C01_id_binds_fields H e₁ e₂ hid with h | h
    · exact Or.inl ⟨h.2.1, h.2.2.1, h.2.2.2.1, h.2.2.2.2⟩
    · exact Or.inr (Or.inl h)
  · exact Or.inr (Or.inr ⟨_, _, _, _, hd, a5, b5⟩)

/-- **C05**, the exception: the `ID` field is not covered by `CheckSignature`; any id whatsoever passes. -/
theorem C05_id_not_covered (H : Hash32) (S : Schnorr) (e : Event) (x : Bytes) :
    checkSignature H S { e with id := x } = checkSignature H S e := by
  simp [checkSignature, serialize, serializeEventInto]

/-- Consequence: a signature-valid event whose `CheckID` is false exists (a toy instance). -/
theorem C05_valid_signature_wrong_id : ∃ e : Event,
    checkSignature toyHash toySchnorr e = some true ∧ checkID toyHash e = .val false :=
  ⟨{ (signEvent toyHash toySchnorr sampleEvent (hexEnc (List.replicate 32 7))).1 with id := b! "forged" },
   by decide +kernel, by decide +kernel⟩

example : ∃ e₁ e₂ : Event, e₁ ≠ e₂ ∧ e₁.pubkey = e₂.pubkey ∧ e₁.sig = e₂.sig ∧
    checkSignature toyHash toySchnorr e₁ = some true ∧ checkSignature toyHash toySchnorr e₂ = some true :=
  let e := (signEvent toyHash toySchnorr sampleEvent (hexEnc (List.replicate 32 7))).1
  ⟨e, { e with id := [] }, by decide +kernel, by decide +kernel, by decide +kernel, by decide +kernel,
    by decide +kernel⟩

end GoNostr
