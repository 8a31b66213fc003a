import Verif.Curve.Keys
/-!
# C165: signatures on the curve (signature.go, keys.go:31-49 over BIP-340)

The contract `Schnorr.Correct` that C04 assumes of the signature library, proved for BIP-340 over secp256k1 as btcec/schnorr implements it. The nonce (RFC 6979) and the tagged hash are parameters.
-/

set_option autoImplicit false

namespace GoNostr.Curve

open KeyMaking (beVal beVal_append beVal_lt)

attribute [local irreducible] fieldP groupN

noncomputable section

/-- What is not modelled: the nonce drawn for a key and a hash, and the tagged hash of the challenge. -/
structure Lib where
  nonce : Bytes → Bytes → Nat
  challenge : Bytes → Bytes

/-- The challenge as a number. -/
def Lib.e (L : Lib) (r pub h : Bytes) : Nat := beVal (L.challenge (r ++ pub ++ h)) % groupN

/-- `schnorr.ParseSignature`: 64 bytes, the first half below the field's size and the second below the order. -/
def parseSig (sig : Bytes) : Bool := decide (sig.length = 64 ∧ beVal (sig.take 32) < fieldP ∧ beVal (sig.drop 32) < groupN)

/-- `Signature.Verify` (schnorr.schnorrVerify): `R = sG - eP` must not be infinity, have an even second coordinate and the first coordinate `r`. -/
def verify (L : Lib) (sig h pub : Bytes) : Bool :=
  if h.length ≠ 32 then false
  else match parseX pub with
    | none => false
    | some P =>
      let R := beVal (sig.drop 32) • G + (groupN - L.e (sig.take 32) pub h) • P
      decide (R ≠ 0) && !yOdd R && decide (ser R = sig.take 32)

/-- `schnorr.Sign`: an error for a hash that is not 32 bytes and for the key 0; the key and the nonce are negated when their points have an odd second coordinate. The check of the new signature is left out:
`C165_library_contract` shows that it never fails. -/
def sign (L : Lib) (sk h : Bytes) : Option Bytes :=
  if h.length ≠ 32 then none
  else
    let d0 := scalarOf sk
    let k0 := L.nonce sk h % groupN
    if d0 = 0 ∨ k0 = 0 then none
    else
      let P := d0 • G
      let d := if yOdd P then groupN - d0 else d0
      let R := k0 • G
      let k := if yOdd R then groupN - k0 else k0
      let s := (k + L.e (ser R) (ser P) h * d) % groupN
      some (ser R ++ toBE 32 s)

/-- The operations of btcec/schnorr that signature.go and keys.go use. -/
def bip340 (L : Lib) : Schnorr where
  pubOf := fun sk => ser (scalarOf sk • G)
  parsePub := fun b => (parseX b).isSome
  parseSig := parseSig
  verify := verify L
  sign := sign L

/-! ## Lemmas -/

theorem n_smul (P : Pt) : groupN • P = 0 := by
  obtain ⟨k, _, rfl⟩ := generated P
  rw [smul_comm, order_smul, nsmul_zero]

theorem sub_smul {a : Nat} (h : a ≤ groupN) (P : Pt) : (groupN - a) • P = -(a • P) := by
  rw [eq_neg_iff_add_eq_zero, ← add_nsmul, Nat.sub_add_cancel h, n_smul]

theorem mod_smul (a : Nat) (P : Pt) : (a % groupN) • P = a • P := by
  have h : a • P = (groupN * (a / groupN) + a % groupN) • P := by rw [Nat.div_add_mod]
  rw [h, add_nsmul, mul_nsmul, n_smul, nsmul_zero, zero_add]

theorem e_lt (L : Lib) (r pub h : Bytes) : L.e r pub h < groupN := Nat.mod_lt _ prime_order.pos

/-- The multiple with an even second coordinate. -/
theorem even_smul {a : Nat} (ha : a < groupN) (h0 : a ≠ 0) :
    yOdd ((if yOdd (a • G) then groupN - a else a) • G) = false ∧ ser ((if yOdd (a • G) then groupN - a else a) • G) = ser (a • G) ∧ (if yOdd (a • G) then groupN - a else a) • G ≠ 0 := by
  have hne : a • G ≠ 0 := fun h => h0 (Nat.eq_zero_of_dvd_of_lt ((smul_eq_zero a).1 h) ha)
  cases hy : yOdd (a • G) with
  | false => exact ⟨by simpa using hy, by simp, by simpa using hne⟩
  | true =>
    simp only [if_true]
    rw [sub_smul ha.le]
    exact ⟨by rw [yOdd_neg hne, hy]; rfl, by rw [ser, xOf_neg]; rfl, neg_ne_zero.2 hne⟩

theorem take_ser (P : Pt) (x : Bytes) : (ser P ++ x).take 32 = ser P := by rw [List.take_append_of_le_length (ser_length P).ge, List.take_of_length_le (ser_length P).le]
theorem drop_ser (P : Pt) (x : Bytes) : (ser P ++ x).drop 32 = x := by
  have h := List.drop_left (l₁ := ser P) (l₂ := x)
  rwa [ser_length] at h

/-! ## Theorems -/

/-- **C165.** What verification means: `sig = r ‖ s` is accepted for a hash and a public key just when the key is the first coordinate of a point, `r` is one, and with the points `P`, `R` of even second
coordinate that they stand for, `s•G = R + e•P`, where `e` is the challenge of `r`, the key and the hash. -/
theorem C165_verify_iff (L : Lib) (sig h pub : Bytes) (hh : h.length = 32) :
    verify L sig h pub = true ↔ ∃ P R, parseX pub = some P ∧ parseX (sig.take 32) = some R ∧ beVal (sig.drop 32) • G = R + L.e (sig.take 32) pub h • P := by
  unfold verify
  rw [if_neg (by simp [hh])]
  cases hp : parseX pub with
  | none => simp
  | some P =>
    simp only [Bool.and_eq_true, decide_eq_true_eq, Bool.not_eq_true', sub_smul (e_lt L _ _ _).le]
    constructor
    · rintro ⟨⟨h0, hy⟩, hx⟩
      exact ⟨P, _, rfl, (parseX_iff _ _).2 ⟨h0, hx.symm, hy⟩, by abel⟩
    · rintro ⟨P', R, hP, hR, heq⟩
      cases hP
      obtain ⟨h0, hx, hy⟩ := (parseX_iff _ _).1 hR
      have e : beVal (sig.drop 32) • G + -(L.e (sig.take 32) pub h • P) = R := by rw [heq]; abel
      rw [e]
      exact ⟨⟨h0, hy⟩, hx.symm⟩

/-- **C165.** The contract of the signature library that C04 and the theorems resting on it assume is met: whatever nonces and challenges are, a signature that is made parses, its public key
parses, and it verifies. -/
theorem C165_library_contract (L : Lib) : (bip340 L).Correct := by
  constructor
  intro sk h sg hs
  simp only [bip340, sign] at hs ⊢
  split at hs
  · cases hs
  · next hh =>
    split at hs
    · cases hs
    · next hz =>
      rw [not_or] at hz
      obtain ⟨hd0, hk0⟩ := hz
      simp only [Option.some.injEq] at hs
      have hn : ∀ a : Nat, a % groupN < groupN := fun a => Nat.mod_lt _ prime_order.pos
      obtain ⟨py, ps, p0⟩ := even_smul (scalarOf_lt sk) hd0
      obtain ⟨ry, rs, r0⟩ := even_smul (hn (L.nonce sk h)) hk0
      generalize (if yOdd (scalarOf sk • G) = true then groupN - scalarOf sk else scalarOf sk) = d at *
      generalize (if yOdd ((L.nonce sk h % groupN) • G) = true then groupN - L.nonce sk h % groupN else L.nonce sk h % groupN) = k at *
      rw [← ps, ← rs] at hs
      rw [← ps]
      have hP : parseX (ser (d • G)) = some (d • G) := (parseX_iff _ _).2 ⟨p0, rfl, py⟩
      have hR : parseX (ser (k • G)) = some (k • G) := (parseX_iff _ _).2 ⟨r0, rfl, ry⟩
      subst hs
      refine ⟨by rw [hP]; rfl, ?_, ?_⟩
      · unfold parseSig
        rw [decide_eq_true_eq, take_ser, drop_ser, ser_val, beVal_toBE _ _ ((hn _).trans n_lt), List.length_append, ser_length, toBE_length]
        exact ⟨rfl, ZMod.val_lt _, hn _⟩
      · rw [C165_verify_iff L _ _ _ (by simpa using hh)]
        refine ⟨_, _, hP, by rw [take_ser]; exact hR, ?_⟩
        rw [take_ser, drop_ser, beVal_toBE _ _ ((hn _).trans n_lt), mod_smul, add_nsmul, mul_nsmul']

/-- **C165.** Signing never fails for a key that is not zero. -/
theorem C165_always_signs (L : Lib) (sk h : Bytes) (hh : h.length = 32) (hk : L.nonce sk h % groupN ≠ 0) : ((bip340 L).sign sk h).isSome = true ↔ scalarOf sk ≠ 0 := by
  simp only [bip340, sign]
  rw [if_neg (by simp [hh])]
  by_cases h0 : scalarOf sk = 0
  · simp [h0]
  · rw [if_neg (by simp [h0, hk])]
    simp [h0]

/-- **C165**, whole: with a private key of 1 to the order less 1, `Sign` succeeds on every event, `GetPublicKey` gives the event's key, the id is right and `CheckSignature` says true. -/
theorem C165_sign_then_check (H : Hash32) (L : Lib) (hL : ∀ sk h, L.nonce sk h % groupN ≠ 0) (e : Event) (k : Nat) (h1 : 1 ≤ k) (h2 : k < groupN) :
    ∃ e', signEvent H (bip340 L) e (hexEnc (toBE 32 k)) = (e', true) ∧ getPublicKey (bip340 L) (hexEnc (toBE 32 k)) = some e'.pubkey ∧ checkID H e' = .val true ∧
      checkSignature H (bip340 L) e' = some true ∧ e'.createdAt = e.createdAt ∧ e'.kind = e.kind ∧ e'.tags = e.tags ∧ e'.content = e.content := by
  have hs : ∃ e', signEvent H (bip340 L) e (hexEnc (toBE 32 k)) = (e', true) := by
    unfold signEvent
    rw [hexDec_hexEnc]
    simp only
    have := (C165_always_signs L (toBE 32 k) (H (serialize { e with pubkey := hexEnc ((bip340 L).pubOf (toBE 32 k)) })).val (H _).2 (hL _ _)).2 (by rw [scalarOf_toBE h2]; omega)
    obtain ⟨sg, hsg⟩ := Option.isSome_iff_exists.1 this
    rw [hsg]
    exact ⟨_, rfl⟩
  obtain ⟨e', he⟩ := hs
  exact ⟨e', he, C04_sign_verifies H _ (C165_library_contract L) e _ e' he⟩

/-- **C165.** A signature cannot be altered in its second half: of two signatures with the same first half that verify the same hash under the same key, neither differs from the other. -/
theorem C165_second_half_unique (L : Lib) (r s s' h pub : Bytes) (hr : r.length = 32) (p1 : parseSig (r ++ s) = true) (p2 : parseSig (r ++ s') = true)
    (v1 : verify L (r ++ s) h pub = true) (v2 : verify L (r ++ s') h pub = true) : s = s' := by
  have hh : h.length = 32 := by
    by_contra hc
    unfold verify at v1
    rw [if_pos hc] at v1
    cases v1
  have ht : ∀ x : Bytes, (r ++ x).take 32 = r := fun x => by rw [List.take_append_of_le_length hr.ge, List.take_of_length_le hr.le]
  have hd : ∀ x : Bytes, (r ++ x).drop 32 = x := fun x => by
    have h := List.drop_left (l₁ := r) (l₂ := x)
    rwa [hr] at h
  rw [C165_verify_iff L _ _ _ hh, ht, hd] at v1 v2
  simp only [parseSig, decide_eq_true_eq, ht, hd, List.length_append, hr] at p1 p2
  obtain ⟨P, R, a1, a2, a3⟩ := v1
  obtain ⟨P', R', b1, b2, b3⟩ := v2
  rw [a1] at b1
  rw [a2] at b2
  cases b1
  cases b2
  have e := smul_inj p1.2.2 p2.2.2 (a3.trans b3.symm)
  have hs : s.length = s'.length := by omega
  rw [← toBE_beVal s, ← toBE_beVal s', e, hs]

/-- **C165.** If one signature verifies two hashes under one key, their challenges agree modulo the order. -/
theorem C165_one_hash (L : Lib) (sig h h' pub : Bytes) (v1 : verify L sig h pub = true) (v2 : verify L sig h' pub = true) :
    L.e (sig.take 32) pub h = L.e (sig.take 32) pub h' := by
  have hh : ∀ h, verify L sig h pub = true → h.length = 32 := by
    intro h v
    by_contra hc
    unfold verify at v
    rw [if_pos hc] at v
    cases v
  obtain ⟨P, R, a1, a2, a3⟩ := (C165_verify_iff L _ _ _ (hh _ v1)).1 v1
  obtain ⟨P', R', b1, b2, b3⟩ := (C165_verify_iff L _ _ _ (hh _ v2)).1 v2
  rw [a1] at b1
  rw [a2] at b2
  cases b1
  cases b2
  have e : L.e (sig.take 32) pub h • P = L.e (sig.take 32) pub h' • P := by
    have := a3.symm.trans b3
    exact add_left_cancel this
  obtain ⟨j, hj, hP⟩ := generated P
  have hP0 := ((parseX_iff _ _).1 a1).1
  have hj0 : ¬ groupN ∣ j := fun hd => hP0 (by rw [← hP]; exact (smul_eq_zero j).2 hd)
  rw [← hP, ← mul_nsmul', ← mul_nsmul'] at e
  have hm := (nsmul_eq_nsmul_iff_modEq (x := G)).1 e
  rw [order_G] at hm
  have hc : Nat.gcd groupN j = 1 := (prime_order.coprime_iff_not_dvd).2 hj0
  have := Nat.ModEq.cancel_right_of_coprime hc hm
  unfold Nat.ModEq at this
  rwa [Nat.mod_eq_of_lt (e_lt L _ _ _), Nat.mod_eq_of_lt (e_lt L _ _ _)] at this

/-- **C165**, tampering (C05 without its last escape): two events with the same public key and signature that both pass `CheckSignature` agree on every signed field, unless the hash of events
collides or the challenge of two different hashes is the same number modulo the order. -/
theorem C165_signature_binds_fields (H : Hash32) (L : Lib) (e₁ e₂ : Event) (hp : e₁.pubkey = e₂.pubkey) (hs : e₁.sig = e₂.sig)
    (h₁ : checkSignature H (bip340 L) e₁ = some true) (h₂ : checkSignature H (bip340 L) e₂ = some true) :
    (e₁.createdAt = e₂.createdAt ∧ e₁.kind = e₂.kind ∧ e₁.tags = e₂.tags ∧ e₁.content = e₂.content) ∨ (∃ m₁ m₂, m₁ ≠ m₂ ∧ H m₁ = H m₂) ∨
    (∃ x d₁ d₂ : Bytes, d₁ ≠ d₂ ∧ beVal (L.challenge (x ++ d₁)) % groupN = beVal (L.challenge (x ++ d₂)) % groupN) := by
  rcases C05_signature_binds_fields H (bip340 L) e₁ e₂ hp hs h₁ h₂ with h | h | ⟨sg, pk, d₁, d₂, hne, v1, v2⟩
  · exact Or.inl h
  · exact Or.inr (Or.inl h)
  · exact Or.inr (Or.inr ⟨sg.take 32 ++ pk, d₁, d₂, hne, C165_one_hash L sg d₁ d₂ pk v1 v2⟩)

/-- Non-vacuity: a library whose nonces are never zero, and an event it signs. -/
example : ∃ L : Lib, (∀ sk h, L.nonce sk h % groupN ≠ 0) ∧ ∃ e', signEvent toyHash (bip340 L) sampleEvent (hexEnc (toBE 32 3)) = (e', true) ∧ checkSignature toyHash (bip340 L) e' = some true := by
  have h3 : 3 < groupN := by decide +kernel
  have hL : ∀ sk h : Bytes, (fun _ _ => 5 : Bytes → Bytes → Nat) sk h % groupN ≠ 0 := by
    intro _ _
    have : 5 % groupN ≠ 0 := by decide +kernel
    exact this
  refine ⟨⟨fun _ _ => 5, fun x => x⟩, hL, ?_⟩
  obtain ⟨e', h1, _, _, h4, _⟩ := C165_sign_then_check toyHash ⟨fun _ _ => 5, fun x => x⟩ hL sampleEvent 3 (by omega) h3
  exact ⟨e', h1, h4⟩

end

end GoNostr.Curve
