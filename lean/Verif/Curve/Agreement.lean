import Verif.Curve.Bip340
import Verif.Nips.Keyer
/-!
# C162, C163, C164: key agreement and public keys (nip44/nip44.go:156-172, 222-246; nip04/nip04.go:16-37; keys.go:31-49)
-/

set_option autoImplicit false

namespace GoNostr.Curve

open KeyMaking (beVal beVal_append beVal_lt)

attribute [local irreducible] fieldP groupN

noncomputable section

/-! ## The model -/

/-- nip44/nip44.go:223-246 `computeSharedSecret`; `none` is an error. -/
def computeSharedSecret (pub sk : Bytes) : Option Bytes :=
  match hexDec sk with
  | none => none
  | some k =>
    match hexDec (b! "02" ++ pub) with
    | none => none
    | some pb =>
      match parseCompressed pb with
      | none => none
      | some P => some (ser (scalarOf k • P))

/-- nip04/nip04.go:19-37 `ComputeSharedSecret`, the same with `btcec.GenerateSharedSecret`: the first coordinate of the product. -/
def computeSharedSecret04 (pub sk : Bytes) : Option Bytes :=
  match hexDec sk with
  | none => none
  | some k =>
    match hexDec (b! "02" ++ pub) with
    | none => none
    | some pb => (parseCompressed pb).map (fun P => ser (scalarOf k • P))

/-- `<` of Go's strings. -/
def goLt : Bytes → Bytes → Bool
  | _, [] => false
  | [], _ :: _ => true
  | a :: s, b :: t => if a < b then true else if b < a then false else goLt s t

/-- The string in nip44/nip44.go:159. -/
def orderHex : Bytes := b! "fffffffffffffffffffffffffffffffebaaedce6af48a03bbfd25e8cd0364141"

/-- nip44/nip44.go:156-172 `GenerateConversationKey`. `extract` is `hkdf.Extract` with SHA-256, of a secret and a salt, giving 32 bytes; `none` is an error. -/
def generateConversationKey (extract : Bytes → Bytes → Bytes) (pub sk : Bytes) : Option Bytes :=
  if ¬ goLt sk orderHex ∨ sk = List.replicate 64 48 then none
  else
    match computeSharedSecret pub sk with
    | none => none
    | some shared => some (extract shared (b! "nip44-v2"))

/-! ## Lemmas -/

theorem hexDec_02 (pub : Bytes) : hexDec (b! "02" ++ pub) = (hexDec pub).map (2 :: ·) := by
  have e : (b! "02") = [48, 50] := rfl
  rw [e]
  simp only [List.cons_append, List.nil_append]
  rw [hexDec]
  cases hexDec pub <;> rfl

theorem secret_eq (pub sk : Bytes) : computeSharedSecret pub sk = (hexDec sk).bind (fun k => (hexDec pub).bind (fun b => (parseX b).map (fun P => ser (scalarOf k • P)))) := by
  unfold computeSharedSecret
  rw [hexDec_02]
  cases hexDec sk with
  | none => rfl
  | some k =>
    cases hexDec pub with
    | none => rfl
    | some b =>
      simp only [Option.map_some, Option.bind_some, parseCompressed]
      cases parseX b <;> rfl

theorem secret04_eq (pub sk : Bytes) : computeSharedSecret04 pub sk = computeSharedSecret pub sk := by
  unfold computeSharedSecret computeSharedSecret04
  cases hexDec sk with
  | none => rfl
  | some k =>
    cases hexDec (b! "02" ++ pub) with
    | none => rfl
    | some pb =>
      simp only
      cases parseCompressed pb <;> rfl

theorem ser_zero : ser 0 = List.replicate 32 0 := (ser_zero_iff 0).2 rfl

theorem ser_neg (P : Pt) : ser (-P) = ser P := by rw [ser, xOf_neg, ser]

theorem ser_smul_pm {P Q : Pt} (h : Q = P ∨ Q = -P) (k : Nat) : ser (k • Q) = ser (k • P) := by
  rcases h with rfl | rfl
  · rfl
  · rw [neg_nsmul, ser_neg]

theorem digits_lt : ∀ x y : UInt8, (hexDigit (x >>> 4) < hexDigit (y >>> 4) ∨ (¬ hexDigit (y >>> 4) < hexDigit (x >>> 4) ∧ hexDigit (x &&& 15) < hexDigit (y &&& 15))) ↔ x < y := by
  decide +kernel

theorem goLt_pair (x y : UInt8) (s t : Bytes) :
    goLt (hexDigit (x >>> 4) :: hexDigit (x &&& 15) :: s) (hexDigit (y >>> 4) :: hexDigit (y &&& 15) :: t) = if x < y then true else if y < x then false else goLt s t := by
  have h1 := digits_lt x y
  have h2 := digits_lt y x
  simp only [goLt]
  generalize hexDigit (x >>> 4) = a at *
  generalize hexDigit (y >>> 4) = b at *
  generalize hexDigit (x &&& 15) = c at *
  generalize hexDigit (y &&& 15) = d at *
  have hab : a < b → ¬ b < a := fun h => by rw [UInt8.lt_iff_toNat_lt] at h ⊢; omega
  have hcd : c < d → ¬ d < c := fun h => by rw [UInt8.lt_iff_toNat_lt] at h ⊢; omega
  by_cases e1 : a < b
  · have : x < y := h1.1 (Or.inl e1)
    simp [e1, this]
  · by_cases e2 : b < a
    · have hyx : y < x := h2.1 (Or.inl e2)
      have hn : ¬ x < y := fun h => by rcases h1.2 h with h | h; exacts [e1 h, h.1 e2]
      simp [e1, e2, hyx, hn]
    · by_cases e3 : c < d
      · have : x < y := h1.1 (Or.inr ⟨e2, e3⟩)
        simp [e1, e2, e3, this]
      · have hn : ¬ x < y := fun h => by rcases h1.2 h with h | h; exacts [e1 h, e3 h.2]
        by_cases e4 : d < c
        · have : y < x := h2.1 (Or.inr ⟨e1, e4⟩)
          simp [e1, e2, e3, e4, this, hn]
        · have : ¬ y < x := fun h => by rcases h2.2 h with h | h; exacts [e2 h, e4 h.2]
          simp [e1, e2, e3, e4, this, hn]

/-- Strings of hexadecimal digits of the same length compare as numbers. -/
theorem goLt_hex : ∀ a b : Bytes, a.length = b.length → (goLt (hexEnc a) (hexEnc b) = true ↔ beVal a < beVal b)
  | [], [], _ => by simp [hexEnc, goLt, beVal]
  | x :: a, y :: b, h => by
    have hl : a.length = b.length := by simpa using h
    have ih := goLt_hex a b hl
    have e : ∀ (c : UInt8) (s : Bytes), beVal (c :: s) = c.toNat * 256 ^ s.length + beVal s := fun c s => by
      have := beVal_append [c] s
      simpa [beVal] using this
    rw [hexEnc, hexEnc, goLt_pair, e, e, hl]
    have h1 := beVal_lt a
    have h2 := beVal_lt b
    rw [hl] at h1
    generalize 256 ^ b.length = m at *
    simp only [UInt8.lt_iff_toNat_lt]
    split
    · next hx =>
      have : (x.toNat + 1) * m ≤ y.toNat * m := Nat.mul_le_mul_right _ hx
      rw [Nat.add_mul] at this
      simp only [true_iff]
      omega
    · next hx =>
      split
      · next hy =>
        have : (y.toNat + 1) * m ≤ x.toNat * m := Nat.mul_le_mul_right _ hy
        rw [Nat.add_mul] at this
        simp only [Bool.false_eq_true, false_iff]
        omega
      · next hy =>
        have : x.toNat = y.toNat := by omega
        rw [ih, this]
        omega
  | [], _ :: _, h => by simp at h
  | _ :: _, [], h => by simp at h

theorem order_hex : orderHex = hexEnc (toBE 32 groupN) := by decide +kernel
theorem zeros_hex : List.replicate 64 48 = hexEnc (toBE 32 0) := by decide +kernel

/-- The check of the key, for 32 bytes in lower case. -/
theorem check_hex {b : Bytes} (h : b.length = 32) : (¬ goLt (hexEnc b) orderHex ∨ hexEnc b = List.replicate 64 48) ↔ ¬ (1 ≤ beVal b ∧ beVal b < groupN) := by
  rw [order_hex, goLt_hex _ _ (by rw [h, toBE_length]), beVal_toBE _ _ n_lt, zeros_hex]
  have : hexEnc b = hexEnc (toBE 32 0) ↔ beVal b = 0 := by
    constructor
    · intro e
      rw [hexEnc_injective e, beVal_toBE _ _ (by decide)]
    · intro e
      rw [← e, ← h, toBE_beVal]
  rw [this]
  omega

theorem pub_eq (L : Lib) (sk : Bytes) : getPublicKey (bip340 L) sk = (hexDec sk).map (fun k => hexEnc (ser (scalarOf k • G))) := rfl

theorem parsePub_eq (L : Lib) (b : Bytes) : (bip340 L).parsePub b = (parseX b).isSome := rfl

/-! ## C162 -/

/-- **C162.** Both parties compute the same secret, in NIP-04 and in NIP-44: each from the private key they hold and the other's public key. It has 32 bytes, is never all zeros, and is the first coordinate
of the product of both keys with the generator. -/
theorem C162_same_secret (L : Lib) (skA skB pubA pubB kA kB : Bytes) (dA : hexDec skA = some kA) (dB : hexDec skB = some kB) (zA : scalarOf kA ≠ 0) (zB : scalarOf kB ≠ 0)
    (hA : getPublicKey (bip340 L) skA = some pubA) (hB : getPublicKey (bip340 L) skB = some pubB) :
    ∃ s : Bytes, s.length = 32 ∧ s ≠ List.replicate 32 0 ∧ s = ser ((scalarOf kA * scalarOf kB) • G) ∧ computeSharedSecret pubB skA = some s ∧ computeSharedSecret pubA skB = some s ∧
      computeSharedSecret04 pubB skA = some s ∧ computeSharedSecret04 pubA skB = some s := by
  rw [pub_eq, dA, Option.map_some, Option.some.injEq] at hA
  rw [pub_eq, dB, Option.map_some, Option.some.injEq] at hB
  have key : ∀ (ka kb ska : Bytes), hexDec ska = some ka → scalarOf kb ≠ 0 → computeSharedSecret (hexEnc (ser (scalarOf kb • G))) ska = some (ser ((scalarOf ka * scalarOf kb) • G)) := by
    intro ka kb ska hd hz
    obtain ⟨Q, hQ, hpm⟩ := parseX_ser (scalar_smul_ne hz G_ne)
    rw [secret_eq, hd, Option.bind_some, hexDec_hexEnc, Option.bind_some, hQ, Option.map_some, ser_smul_pm hpm, mul_nsmul']
  have e1 := key kA kB skA dA zB
  have e2 := key kB kA skB dB zA
  rw [Nat.mul_comm, hA] at e2
  rw [hB] at e1
  refine ⟨_, ser_length _, ?_, rfl, e1, e2, by rw [secret04_eq, e1], by rw [secret04_eq, e2]⟩
  rw [ne_eq, ser_zero_iff, mul_nsmul']
  exact scalar_smul_ne zA (scalar_smul_ne zB G_ne)

/-- **C162.** Both parties generate the same conversation key, if their private keys are 1 to the order less 1, written as 64 digits in lower case. -/
theorem C162_same_conversation_key (extract : Bytes → Bytes → Bytes) (L : Lib) (a b : Nat) (ha : 1 ≤ a ∧ a < groupN) (hb : 1 ≤ b ∧ b < groupN) :
    ∃ pubA pubB ck, getPublicKey (bip340 L) (hexEnc (toBE 32 a)) = some pubA ∧ getPublicKey (bip340 L) (hexEnc (toBE 32 b)) = some pubB ∧
      generateConversationKey extract pubB (hexEnc (toBE 32 a)) = some ck ∧ generateConversationKey extract pubA (hexEnc (toBE 32 b)) = some ck := by
  have hs : ∀ k, 1 ≤ k ∧ k < groupN → scalarOf (toBE 32 k) ≠ 0 := fun k h => by rw [scalarOf_toBE h.2]; omega
  have hc : ∀ k, 1 ≤ k ∧ k < groupN → ¬ (¬ goLt (hexEnc (toBE 32 k)) orderHex ∨ hexEnc (toBE 32 k) = List.replicate 64 48) := fun k h => by
    rw [check_hex (toBE_length _ _), beVal_toBE _ _ (h.2.trans n_lt)]
    omega
  obtain ⟨s, _, _, _, e1, e2, _⟩ := C162_same_secret L (hexEnc (toBE 32 a)) (hexEnc (toBE 32 b)) _ _ _ _ (hexDec_hexEnc _) (hexDec_hexEnc _) (hs a ha) (hs b hb)
    (by rw [pub_eq, hexDec_hexEnc]; rfl) (by rw [pub_eq, hexDec_hexEnc]; rfl)
  refine ⟨_, _, extract s (b! "nip44-v2"), by rw [pub_eq, hexDec_hexEnc]; rfl, by rw [pub_eq, hexDec_hexEnc]; rfl, ?_, ?_⟩
  · rw [generateConversationKey, if_neg (hc a ha), e1]
  · rw [generateConversationKey, if_neg (hc b hb), e2]

/-- **C162.** Who can read: for every public key that a secret can be computed with there is a private key of that public key, and its holder computes the same secret. -/
theorem C162_recipient_exists (L : Lib) (pub sk k s pubA : Bytes) (hk : hexDec sk = some k) (hz : scalarOf k ≠ 0) (hp : getPublicKey (bip340 L) sk = some pubA) (h : computeSharedSecret pub sk = some s) :
    ∃ b, 1 ≤ b ∧ b < groupN ∧ (∃ x, hexDec pub = some x ∧ getPublicKey (bip340 L) (hexEnc (toBE 32 b)) = some (hexEnc x)) ∧ computeSharedSecret pubA (hexEnc (toBE 32 b)) = some s := by
  rw [secret_eq, hk, Option.bind_some] at h
  obtain ⟨x, hx, h⟩ := Option.bind_eq_some_iff.1 h
  obtain ⟨P, hP, h⟩ := Option.map_eq_some_iff.1 h
  obtain ⟨h0, hxP, _⟩ := (parseX_iff _ _).1 hP
  obtain ⟨b, hb, hbP⟩ := generated P
  have hb1 : 1 ≤ b := by
    rcases Nat.eq_zero_or_pos b with rfl | hpos
    · rw [zero_nsmul] at hbP
      exact absurd hbP.symm h0
    · exact hpos
  have hsb : scalarOf (toBE 32 b) ≠ 0 := by rw [scalarOf_toBE hb]; omega
  have hpub : getPublicKey (bip340 L) (hexEnc (toBE 32 b)) = some (hexEnc x) := by rw [pub_eq, hexDec_hexEnc, Option.map_some, scalarOf_toBE hb, hbP, hxP]
  refine ⟨b, hb1, hb, ⟨x, hx, hpub⟩, ?_⟩
  obtain ⟨s', _, _, e0, e1, e2, _⟩ := C162_same_secret L sk (hexEnc (toBE 32 b)) _ _ _ _ hk (hexDec_hexEnc _) hz hsb hp hpub
  rw [e2, e0, ← h, scalarOf_toBE hb, mul_nsmul', hbP]

/-- **C162**, whole: the plain keyers of two parties understand each other, after any calls (C88 with the agreement as it is). -/
theorem C162_keyers (P : Nip44.Prims) (extract : Bytes → Bytes → Bytes) (L : Lib) (a b : Nat) (ha : 1 ≤ a ∧ a < groupN) (hb : 1 ≤ b ∧ b < groupN) (histA histB : List Keyer.Call)
    (rnd m : Bytes) (hr : rnd.length = 32) (h1 : 1 ≤ m.length) (h2 : m.length ≤ 65535) :
    ∃ pubA pubB c, getPublicKey (bip340 L) (hexEnc (toBE 32 a)) = some pubA ∧ getPublicKey (bip340 L) (hexEnc (toBE 32 b)) = some pubB ∧
      (((Keyer.newKeySigner (hexEnc (toBE 32 a))).after P (generateConversationKey extract) histA).encrypt P (generateConversationKey extract) rnd m pubB).1 = .ok c ∧
      (((Keyer.newKeySigner (hexEnc (toBE 32 b))).after P (generateConversationKey extract) histB).decrypt P (generateConversationKey extract) c pubA).1 = .ok m := by
  obtain ⟨pubA, pubB, ck, p1, p2, k1, k2⟩ := C162_same_conversation_key extract L a b ha hb
  obtain ⟨c, e1, e2⟩ := Keyer.C88_plain_key P (generateConversationKey extract) (hexEnc (toBE 32 a)) pubA (hexEnc (toBE 32 b)) pubB ck k1 k2 histA histB rnd m hr h1 h2
  exact ⟨pubA, pubB, c, p1, p2, e1, e2⟩

/-- Non-vacuity. -/
example : (1 ≤ 1 ∧ 1 < groupN) ∧ (1 ≤ groupN - 1 ∧ groupN - 1 < groupN) := by decide +kernel

/-! ## C163 -/

/-- **C163.** When a secret can be computed: the private key is hexadecimal and the public key is that of the first coordinate of a point, in either case of letters; otherwise there is an error. -/
theorem C163_secret_iff (pub sk : Bytes) : (computeSharedSecret pub sk).isSome = true ↔ (∃ k, hexDec sk = some k) ∧ ∃ P : Pt, P ≠ 0 ∧ hexDec pub = some (ser P) := by
  rw [secret_eq]
  cases hexDec sk with
  | none => simp
  | some k =>
    cases hexDec pub with
    | none => simp
    | some x =>
      simp only [Option.bind_some, Option.isSome_map, Option.some.injEq, exists_eq', true_and]
      constructor
      · intro h
        obtain ⟨P, hP⟩ := Option.isSome_iff_exists.1 h
        obtain ⟨h0, h1, _⟩ := (parseX_iff _ _).1 hP
        exact ⟨P, h0, h1⟩
      · rintro ⟨P, h0, hx⟩
        rw [hx]
        obtain ⟨Q, hQ, _⟩ := parseX_ser h0
        rw [hQ]
        rfl

/-- **C163, part.** Of private keys written as 64 digits in lower case, `GenerateConversationKey` refuses just those that are 0 or not below the order, whatever valid public key it is given. -/
theorem C163_refuses_partial (extract : Bytes → Bytes → Bytes) (pub b : Bytes) (h : b.length = 32) (P : Pt) (h0 : P ≠ 0) (hp : hexDec pub = some (ser P)) :
    (generateConversationKey extract pub (hexEnc b)).isSome = true ↔ 1 ≤ beVal b ∧ beVal b < groupN := by
  unfold generateConversationKey
  have hc := check_hex h
  split
  · next hb =>
    have := hc.1 hb
    simp only [Option.isSome_none, Bool.false_eq_true, false_iff]
    exact this
  · next hb =>
    have hb' : 1 ≤ beVal b ∧ beVal b < groupN := by
      by_contra hn
      exact hb (hc.2 hn)
    have hs := (C163_secret_iff pub (hexEnc b)).2 ⟨⟨b, hexDec_hexEnc b⟩, P, h0, hp⟩
    obtain ⟨s, hs⟩ := Option.isSome_iff_exists.1 hs
    rw [hs]
    simpa using hb'

/-- **C163, negation.** Other ways to write 0 are not refused: with the empty string, `"00"` or the order in upper case as the private key, every conversation, whoever with, gets one and the same key, that
anyone can compute. -/
theorem C163_zero_in_disguise (extract : Bytes → Bytes → Bytes) (pub sk : Bytes) (P : Pt) (h0 : P ≠ 0) (hp : hexDec pub = some (ser P))
    (hk : sk = [] ∨ sk = b! "00" ∨ sk = b! "FFFFFFFFFFFFFFFFFFFFFFFFFFFFFFFEBAAEDCE6AF48A03BBFD25E8CD0364141") :
    generateConversationKey extract pub sk = some (extract (List.replicate 32 0) (b! "nip44-v2")) := by
  have key : ∀ sk k : Bytes, goLt sk orderHex = true → sk ≠ List.replicate 64 48 → hexDec sk = some k → scalarOf k = 0 →
      generateConversationKey extract pub sk = some (extract (List.replicate 32 0) (b! "nip44-v2")) := by
    intro sk k h1 h2 h3 h4
    obtain ⟨Q, hQ, _⟩ := parseX_ser h0
    rw [generateConversationKey, if_neg (by rw [not_or, not_not]; exact ⟨h1, h2⟩), secret_eq, h3, Option.bind_some, hp, Option.bind_some, hQ, Option.map_some, h4, zero_nsmul, ser_zero]
  rcases hk with rfl | rfl | rfl
  · exact key _ [] (by decide +kernel) (by decide +kernel) rfl (by decide +kernel)
  · exact key _ [0] (by decide +kernel) (by decide +kernel) (by decide +kernel) (by decide +kernel)
  · exact key _ (toBE 32 groupN) (by decide +kernel) (by decide +kernel) (by decide +kernel) (by decide +kernel)

/-- **C163, negation.** NIP-04 refuses no private key for its value: 0 gives the secret of 32 zero bytes with everyone. -/
theorem C163_nip04_zero (pub : Bytes) (P : Pt) (h0 : P ≠ 0) (hp : hexDec pub = some (ser P)) : computeSharedSecret04 pub (List.replicate 64 48) = some (List.replicate 32 0) := by
  obtain ⟨Q, hQ, _⟩ := parseX_ser h0
  rw [secret04_eq, secret_eq, zeros_hex, hexDec_hexEnc, Option.bind_some, hp, Option.bind_some, hQ, Option.map_some, scalarOf_toBE prime_order.pos, zero_nsmul, ser_zero]

/-- **C163, negation.** What stands behind the first 64 digits of a private key is ignored. -/
theorem C163_longer_keys (pub : Bytes) (b more : Bytes) (h : b.length = 32) : computeSharedSecret pub (hexEnc (b ++ more)) = computeSharedSecret pub (hexEnc b) := by
  rw [secret_eq, secret_eq, hexDec_hexEnc, hexDec_hexEnc]
  have : scalarOf (b ++ more) = scalarOf b := by
    rw [scalarOf, scalarOf, List.take_append_of_le_length h.ge]
  simp only [Option.bind_some, this]

/-- Non-vacuity: the generator, and a private key below the order. -/
example : G ≠ 0 ∧ hexDec (hexEnc (ser G)) = some (ser G) ∧ (toBE 32 7).length = 32 ∧ 1 ≤ beVal (toBE 32 7) ∧ beVal (toBE 32 7) < groupN :=
  ⟨G_ne, hexDec_hexEnc _, toBE_length _ _, by decide +kernel, by decide +kernel⟩

/-! ## C164 -/

/-- **C164.** `IsValidPublicKey` accepts a string of 64 characters just when it is the public key of a private key. -/
theorem C164_valid_iff_owned (L : Lib) (s : Bytes) (h : s.length = 64) :
    isValidPublicKey (bip340 L).parsePub s = true ↔ ∃ k, 1 ≤ k ∧ k < groupN ∧ getPublicKey (bip340 L) (hexEnc (toBE 32 k)) = some s := by
  rw [C19_isValidPublicKey_64 _ _ h]
  constructor
  · rintro ⟨b, hb, rfl, hp⟩
    obtain ⟨P, hP⟩ := Option.isSome_iff_exists.1 hp
    obtain ⟨h0, hx, _⟩ := (parseX_iff _ _).1 hP
    obtain ⟨k, hk, hkP⟩ := generated P
    refine ⟨k, ?_, hk, by rw [pub_eq, hexDec_hexEnc, Option.map_some, scalarOf_toBE hk, hkP, hx]⟩
    rcases Nat.eq_zero_or_pos k with rfl | hpos
    · rw [zero_nsmul] at hkP
      exact absurd hkP.symm h0
    · exact hpos
  · rintro ⟨k, h1, h2, hk⟩
    rw [pub_eq, hexDec_hexEnc, Option.map_some, scalarOf_toBE h2, Option.some.injEq] at hk
    refine ⟨_, ser_length _, hk.symm, ?_⟩
    have hne : k • G ≠ 0 := fun h => by
      have := Nat.eq_zero_of_dvd_of_lt ((smul_eq_zero k).1 h) h2
      omega
    obtain ⟨Q, hQ, _⟩ := parseX_ser hne
    rw [parsePub_eq, hQ]
    rfl

/-- **C164.** The key made by `GeneratePrivateKey` has a valid public key, whatever the random bytes. -/
theorem C164_generated_valid (L : Lib) (r : Bytes) : ∃ pub, getPublicKey (bip340 L) (KeyMaking.generate (some r)) = some pub ∧ pub.length = 64 ∧ isValidPublicKey (bip340 L).parsePub pub = true := by
  obtain ⟨kb, hl, he, hv⟩ := KeyMaking.generate_spec r
  have ho : KeyMaking.order = groupN := by decide +kernel
  have hm : beVal r % (KeyMaking.order - 1) < KeyMaking.order - 1 := Nat.mod_lt _ (by decide +kernel)
  have hlt : beVal kb < groupN := by omega
  have hge : 1 ≤ beVal kb := by omega
  have hkb : toBE 32 (beVal kb) = kb := by rw [← hl, toBE_beVal]
  refine ⟨hexEnc (ser (beVal kb • G)), ?_, by simp [ser_length], (C164_valid_iff_owned L _ (by simp [ser_length])).2 ⟨beVal kb, hge, hlt, ?_⟩⟩
  · rw [he, ← hkb, pub_eq, hexDec_hexEnc, Option.map_some, scalarOf_toBE hlt, beVal_toBE _ _ (hlt.trans n_lt)]
  · rw [pub_eq, hexDec_hexEnc, Option.map_some, scalarOf_toBE hlt]

/-- **C164.** Two private keys have the same public key just when they are equal or add up to the order. -/
theorem C164_same_public_key (L : Lib) (a b : Nat) (ha : a < groupN) (hb : b < groupN) :
    getPublicKey (bip340 L) (hexEnc (toBE 32 a)) = getPublicKey (bip340 L) (hexEnc (toBE 32 b)) ↔ a = b ∨ a + b = groupN := by
  rw [pub_eq, pub_eq, hexDec_hexEnc, hexDec_hexEnc, Option.map_some, Option.map_some, scalarOf_toBE ha, scalarOf_toBE hb, Option.some.injEq]
  constructor
  · intro h
    rcases xOf_eq (ser_inj (hexEnc_injective h)) with h | h
    · exact Or.inl (smul_inj ha hb h)
    · rw [eq_neg_iff_add_eq_zero, ← add_nsmul, smul_eq_zero] at h
      obtain ⟨m, hm⟩ := h
      have : m < 2 := by
        by_contra hc
        have : groupN * 2 ≤ groupN * m := Nat.mul_le_mul_left _ (by omega)
        omega
      have hm01 : m = 0 ∨ m = 1 := by omega
      rcases hm01 with rfl | rfl
      · left; omega
      · right; omega
  · intro h
    rcases h with h | h
    · rw [h]
    · have : a • G = -(b • G) := by rw [eq_neg_iff_add_eq_zero, ← add_nsmul, h, order_smul]
      rw [this, ser_neg]

/-- **C164, negation.** `GetPublicKey` of the key 0 is no error but 64 zeros, which is not a valid public key. -/
theorem C164_zero_key (L : Lib) : getPublicKey (bip340 L) (List.replicate 64 48) = some (List.replicate 64 48) ∧ isValidPublicKey (bip340 L).parsePub (List.replicate 64 48) = false := by
  have h1 : getPublicKey (bip340 L) (List.replicate 64 48) = some (List.replicate 64 48) := by
    rw [zeros_hex, pub_eq, hexDec_hexEnc, Option.map_some, scalarOf_toBE prime_order.pos, zero_nsmul, ser_zero, ← toBE_zero]
  refine ⟨h1, ?_⟩
  by_contra hc
  rw [Bool.not_eq_false, C164_valid_iff_owned L _ (by simp)] at hc
  obtain ⟨k, hk1, hk2, hk⟩ := hc
  rw [← h1, zeros_hex, C164_same_public_key L k 0 hk2 prime_order.pos] at hk
  omega

example : (5 : Nat) < groupN ∧ groupN - 5 < groupN ∧ 5 + (groupN - 5) = groupN := by decide +kernel

end

end GoNostr.Curve
