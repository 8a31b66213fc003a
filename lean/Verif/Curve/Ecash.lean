import Verif.Curve.Points
import Verif.Nip60.Verify
import Mathlib.Algebra.Module.ZMod
/-!
# C167: ecash, with the real curve

The wallet's side of a mint's signatures (nip60/helpers.go) and the check of nutzaps (nip61/verify.go), over the group of secp256k1.
-/

set_option autoImplicit false

namespace GoNostr.Curve

open KeyMaking (beVal beVal_append beVal_lt)
open Nip61 (Proof Dleq verifyBlindSignature verifyProofDLEQ verifyNutzap verifyDLEQ Convinces proofsOf)

attribute [local irreducible] fieldP groupN toBE ser scalarOf

noncomputable section

/-- The numbers modulo the order. -/
abbrev Fn := ZMod groupN

instance : Fact groupN.Prime := ⟨prime_order⟩
instance : Module Fn Pt := AddCommGroup.zmodModule n_smul

theorem cast_smul (k : Nat) (P : Pt) : (k : Fn) • P = k • P := Nat.cast_smul_eq_nsmul Fn k P

/-- The counter of `HashToCurve`: four bytes, the least significant first. -/
def le32 (n : Nat) : Bytes := [UInt8.ofNat (n % 256), UInt8.ofNat (n / 256 % 256), UInt8.ofNat (n / 65536 % 256), UInt8.ofNat (n / 16777216 % 256)]

/-- The loop of gonuts's `HashToCurve`: `fuel` counters are left. -/
def toCurve (sha : Bytes → Bytes) (h : Bytes) : Nat → Nat → Option Pt
  | 0, _ => none
  | fuel + 1, i => match parsePubKey (2 :: sha (h ++ le32 i)) with
    | some P => some P
    | none => toCurve sha h fuel (i + 1)

/-- gonuts's `HashToCurve` (NUT-00): 2^16 counters are tried. -/
def hashToCurve (sha : Bytes → Bytes) (m : Bytes) : Option Pt := toCurve sha (sha (b! "Secp256k1_HashToCurve_Cashu_" ++ m)) 65536 0

/-- The cryptography of gonuts over secp256k1; `sha` is SHA-256. The challenge (NUT-12) is the hash of the four uncompressed points in hex. -/
def ecash (sha : Bytes → Bytes) : Nip61.Curve Fn Pt where
  G := G
  priv := fun b => (scalarOf b : Fn)
  parsePub := parsePubKey
  hashToCurve := hashToCurve sha
  hash := fun R1 R2 A C => (beVal (sha (hexEnc (serU R1) ++ hexEnc (serU R2) ++ hexEnc (serU A) ++ hexEnc (serU C))) : Fn)

/-- An output the wallet prepared (`preparedOutputs`, one index): the secret, the blinding number and the blinded message in hex. -/
structure Prep where
  secret : Bytes
  r : Nat
  bm : Bytes

/-- One round of `createBlindedMessages` (helpers.go:52-82), given the random number and the secret: `BlindMessage` is `HashToCurve(secret) + r*G`. -/
def prepare (sha : Bytes → Bytes) (secret : Bytes) (r : Nat) : Option Prep := (hashToCurve sha secret).map (fun Y => ⟨secret, r, hexEnc (serC (Y + r • G))⟩)

/-- `cashu.BlindedSignature`; the keyset's id is left out. -/
structure BlindSig where
  amount : UInt64
  c : Bytes
  dleq : Option Dleq

/-- `unblindSignature` (helpers.go:169-185): `UnblindSignature` is `C_ - r*K`. -/
def unblind (c : Bytes) (r : Nat) (K : Pt) : Option Bytes :=
  match hexDec c with
  | none => none
  | some b => match parsePubKey b with
    | none => none
    | some C => some (hexEnc (serC (C - r • K)))

/-- The body of the loop of `constructProofs` (helpers.go:128-164), for an index that is in range. -/
def constructOne (sha : Bytes → Bytes) (K : Pt) (o : Prep) (s : BlindSig) : Option Proof :=
  match s.dleq with
  | none => (unblind s.c o.r K).map (fun C => ⟨s.amount, o.secret, C, none⟩)
  | some d =>
    if verifyBlindSignature (ecash sha) d K o.bm s.c then
      (unblind s.c o.r K).map (fun C => ⟨s.amount, o.secret, C, some ⟨d.e, d.s, hexEnc (toBE 32 o.r)⟩⟩)
    else none

/-- `constructProofs` (helpers.go:117-167); the key is looked up before the index is used. -/
def constructProofs (sha : Bytes → Bytes) (keys : UInt64 → Option Pt) : List Prep → List BlindSig → Res Unit (List Proof)
  | _, [] => .ok []
  | os, s :: ss => match keys s.amount with
    | none => .err ()
    | some K => match os with
      | [] => .panic
      | o :: os => match constructOne sha K o s with
        | none => .err ()
        | some p => match constructProofs sha keys os ss with
          | .ok ps => .ok (p :: ps)
          | .err e => .err e
          | .panic => .panic

/-! ## Specification -/

/-- What a mint with private key `k` accepts as money (NUT-00): the point of the proof is `k` times the point of its secret. -/
def Money (sha : Bytes → Bytes) (k : Nat) (p : Proof) : Prop := ∃ Y b, hashToCurve sha p.secret = some Y ∧ hexDec p.c = some b ∧ parsePubKey b = some (k • Y)

/-- An honest mint's answer to the blinded message `bm` (NUT-00, NUT-12): the point, times the key; and perhaps the proof that it is that, with a nonce `t`. -/
def Honest (sha : Bytes → Bytes) (k : Nat) (bm : Bytes) (s : BlindSig) : Prop := ∃ b B, hexDec bm = some b ∧ parsePubKey b = some B ∧ s.c = hexEnc (serC (k • B)) ∧
  ∀ d, s.dleq = some d → ∃ t : Nat,
    let e := beVal (sha (hexEnc (serU (t • G)) ++ hexEnc (serU (t • B)) ++ hexEnc (serU (k • G)) ++ hexEnc (serU (k • B)))) % groupN
    d = ⟨hexEnc (toBE 32 e), hexEnc (toBE 32 ((t + e * k) % groupN)), []⟩

/-- An output prepared by the wallet, with a proper blinding number; and the blinded message is not the point at infinity (which cannot be sent). -/
def Prepared (sha : Bytes → Bytes) (o : Prep) : Prop := 1 ≤ o.r ∧ o.r < groupN ∧ ∃ Y, hashToCurve sha o.secret = some Y ∧ Y + o.r • G ≠ 0 ∧ o.bm = hexEnc (serC (Y + o.r • G))

/-! ## Lemmas -/

theorem toCurve_ne {sha : Bytes → Bytes} {h : Bytes} : ∀ {fuel i : Nat} {P : Pt}, toCurve sha h fuel i = some P → P ≠ 0
  | 0, _, _, hh => by cases hh
  | fuel + 1, i, P, hh => by
    rw [toCurve] at hh
    split at hh
    · rename_i Q hQ
      cases hh
      exact parse_ne_zero hQ
    · exact toCurve_ne hh

theorem hashToCurve_ne {sha : Bytes → Bytes} {m : Bytes} {P : Pt} (h : hashToCurve sha m = some P) : P ≠ 0 := toCurve_ne h

theorem toCurve_iff {sha : Bytes → Bytes} {h : Bytes} {P : Pt} : ∀ {fuel i : Nat}, toCurve sha h fuel i = some P ↔
    ∃ j, i ≤ j ∧ j < i + fuel ∧ parsePubKey (2 :: sha (h ++ le32 j)) = some P ∧ ∀ k, i ≤ k → k < j → parsePubKey (2 :: sha (h ++ le32 k)) = none
  | 0, i => by
    simp only [toCurve, reduceCtorEq, false_iff]
    rintro ⟨j, h1, h2, -⟩
    omega
  | fuel + 1, i => by
    rw [toCurve]
    cases hp : parsePubKey (2 :: sha (h ++ le32 i)) with
    | some Q =>
      constructor
      · intro e
        exact ⟨i, Nat.le_refl _, by omega, hp.trans e, fun k h1 h2 => by omega⟩
      · rintro ⟨j, h1, h2, h3, h4⟩
        rcases Nat.lt_or_eq_of_le h1 with h | rfl
        · rw [h4 i (Nat.le_refl _) h] at hp
          cases hp
        · exact hp.symm.trans h3
    | none =>
      show toCurve sha h fuel (i + 1) = some P ↔ _
      rw [toCurve_iff]
      constructor
      · rintro ⟨j, h1, h2, h3, h4⟩
        refine ⟨j, by omega, by omega, h3, fun k hk1 hk2 => ?_⟩
        rcases Nat.lt_or_eq_of_le hk1 with hk | rfl
        · exact h4 k hk hk2
        · exact hp
      · rintro ⟨j, h1, h2, h3, h4⟩
        rcases Nat.lt_or_eq_of_le h1 with hj | rfl
        · exact ⟨j, hj, by omega, h3, fun k hk1 hk2 => h4 k (by omega) hk2⟩
        · rw [hp] at h3
          cases h3

/-- **C167: the point of a secret** is the one NUT-00 defines: the first counter below 2^16 whose hash, with the tagged hash of the secret before it, is the x coordinate of a point; and there is none only
if no such counter exists. -/
theorem C167_point (sha : Bytes → Bytes) (secret : Bytes) (P : Pt) :
    (hashToCurve sha secret = some P ↔ ∃ j, j < 2 ^ 16 ∧ parsePubKey (2 :: sha (sha (b! "Secp256k1_HashToCurve_Cashu_" ++ secret) ++ le32 j)) = some P ∧
      ∀ k, k < j → parsePubKey (2 :: sha (sha (b! "Secp256k1_HashToCurve_Cashu_" ++ secret) ++ le32 k)) = none) := by
  unfold hashToCurve
  rw [toCurve_iff]
  simp

theorem val_cast (x : Fn) : ((x.val : Nat) : Fn) = x := ZMod.natCast_zmod_val x

theorem priv_toBE {k : Nat} (h : k < groupN) : ((scalarOf (toBE 32 k) : Nat) : Fn) = (k : Fn) := by rw [scalarOf_toBE h]

theorem cast_mod_n (a : Nat) : ((a % groupN : Nat) : Fn) = (a : Fn) := by rw [ZMod.natCast_mod]

theorem hexEnc_ne {b : Bytes} (h : b ≠ []) : hexEnc b ≠ [] := by
  intro he
  have := hexDec_hexEnc b
  rw [he] at this
  exact h (Option.some.inj this).symm

/-- What the wallet has checked, a receiver of the nutzap finds to be right. -/
theorem checked {sha : Bytes → Bytes} {K : Pt} {o : Prep} {s : BlindSig} {p : Proof} (ho : Prepared sha o) (h : constructOne sha K o s = some p) (hd : s.dleq ≠ none)
    (hz : ∀ b, hexDec p.c = some b → b ≠ serC 0) : verifyProofDLEQ (ecash sha) p (some K) = .val true := by
  obtain ⟨h1, h2, Y, hY, hB, hbm⟩ := ho
  unfold constructOne at h
  cases hd' : s.dleq with
  | none => exact absurd hd' hd
  | some d =>
    rw [hd'] at h
    simp only at h
    split at h
    · rename_i hv
      rw [Option.map_eq_some_iff] at h
      obtain ⟨c, hc, hp⟩ := h
      rw [Nip61.C131_blind_signature] at hv
      obtain ⟨eb, sb, bb, cb, B, C, he, hs, -, hb1, hb2, hc1, hc2, hconv⟩ := hv
      rw [hbm, hexDec_hexEnc] at hb1
      have hbb := (Option.some.inj hb1).symm
      rw [hbb] at hb2
      have hBB : B = Y + o.r • G := by
        have : (ecash sha).parsePub (serC (Y + o.r • G)) = some (Y + o.r • G) := parse_serC hB
        rw [this] at hb2
        exact (Option.some.inj hb2).symm
      have hc2' : parsePubKey cb = some C := hc2
      unfold unblind at hc
      rw [hc1] at hc
      simp only [hc2'] at hc
      have hcc := (Option.some.inj hc).symm
      rw [Nip61.verifyProof_true]
      refine ⟨K, rfl, ?_⟩
      have hne : C - o.r • K ≠ 0 := by
        intro h0
        have := hz (serC (C - o.r • K)) (by rw [← hp, hcc]; exact hexDec_hexEnc _)
        rw [h0] at this
        exact this rfl
      have hr : (scalarOf (toBE 32 o.r) : Fn) = (o.r : Fn) := priv_toBE h2
      have e1 : (ecash sha).priv (toBE 32 o.r) • (ecash sha).G = o.r • G := by
        show ((scalarOf (toBE 32 o.r) : Nat) : Fn) • G = o.r • G
        rw [hr, cast_smul]
      have e2 : (ecash sha).priv (toBE 32 o.r) • K = o.r • K := by
        show ((scalarOf (toBE 32 o.r) : Nat) : Fn) • K = o.r • K
        rw [hr, cast_smul]
      have hnil : hexEnc (toBE 32 o.r) ≠ [] := hexEnc_ne (by
        intro h
        have := toBE_length 32 o.r
        rw [h] at this
        cases this)
      refine ⟨⟨d.e, d.s, hexEnc (toBE 32 o.r)⟩, eb, sb, toBE 32 o.r, serC (C - o.r • K), Y, C - o.r • K, ?_, hnil, he, hs, hexDec_hexEnc _, ?_, parse_serC hne, ?_, ?_⟩
      · rw [← hp]
      · rw [← hp, hcc]; exact hexDec_hexEnc _
      · rw [← hp]; exact hY
      · rw [e1, e2, sub_add_cancel, ← hBB]
        exact hconv
    · cases h

theorem convinces_honest (sha : Bytes → Bytes) (k t : Nat) (B : Pt) (e : Nat)
    (he : e = beVal (sha (hexEnc (serU (t • G)) ++ hexEnc (serU (t • B)) ++ hexEnc (serU (k • G)) ++ hexEnc (serU (k • B)))) % groupN) :
    Convinces (ecash sha) ((e : Nat) : Fn) (((t + e * k : Nat)) : Fn) (k • G) B (k • B) := by
  refine ⟨t • G, t • B, ?_, ?_, ?_⟩
  · show t • G + (e : Fn) • (k • G) = ((t + e * k : Nat) : Fn) • G
    rw [cast_smul, cast_smul, add_smul, mul_smul]
  · rw [cast_smul, cast_smul, add_smul, mul_smul]
  · show ((e : Nat) : Fn) = ((beVal (sha (hexEnc (serU (t • G)) ++ hexEnc (serU (t • B)) ++ hexEnc (serU (k • G)) ++ hexEnc (serU (k • B)))) : Nat) : Fn)
    rw [he, cast_mod_n]

theorem honest_one {sha : Bytes → Bytes} {k : Nat} (h1 : 1 ≤ k) (h2 : k < groupN) {o : Prep} {s : BlindSig} (ho : Prepared sha o) (hs : Honest sha k o.bm s) :
    ∃ p, constructOne sha (k • G) o s = some p ∧ p.amount = s.amount ∧ p.secret = o.secret ∧ Money sha k p ∧ ∀ b, hexDec p.c = some b → b ≠ serC 0 := by
  obtain ⟨r1, r2, Y, hY, hB, hbm⟩ := ho
  obtain ⟨b, B, hb, hP, hc, hd⟩ := hs
  rw [hbm, hexDec_hexEnc] at hb
  have hb' := (Option.some.inj hb).symm
  rw [hb', parse_serC hB] at hP
  have hBB : B = Y + o.r • G := (Option.some.inj hP).symm
  have hkd : ¬ groupN ∣ k := fun h => absurd (Nat.le_of_dvd (by omega) h) (by omega)
  have hkB : k • B ≠ 0 := smul_ne (by rw [hBB]; exact hB) hkd
  have hY0 : Y ≠ 0 := hashToCurve_ne hY
  have hkY : k • Y ≠ 0 := smul_ne hY0 hkd
  have hun : unblind s.c o.r (k • G) = some (hexEnc (serC (k • Y))) := by
    unfold unblind
    rw [hc, hexDec_hexEnc]
    simp only [parse_serC hkB]
    congr 3
    rw [hBB, nsmul_add, smul_smul, smul_smul, Nat.mul_comm k o.r, add_sub_cancel_right]
  have fin : ∀ q : Option Dleq, ∃ p : Proof, (⟨s.amount, o.secret, hexEnc (serC (k • Y)), q⟩ : Proof) = p ∧ p.amount = s.amount ∧ p.secret = o.secret ∧ Money sha k p ∧
      ∀ b, hexDec p.c = some b → b ≠ serC 0 := by
    intro q
    refine ⟨_, rfl, rfl, rfl, ⟨Y, serC (k • Y), hY, hexDec_hexEnc _, parse_serC hkY⟩, ?_⟩
    intro b hb h0
    simp only [hexDec_hexEnc] at hb
    rw [← Option.some.inj hb] at h0
    exact hkY (serC_inj h0)
  unfold constructOne
  cases hq : s.dleq with
  | none =>
    obtain ⟨p, hp, h⟩ := fin none
    exact ⟨p, by simp only [hun, Option.map_some, hp], h⟩
  | some d =>
    obtain ⟨t, ht⟩ := hd d hq
    simp only at ht
    have hv : verifyBlindSignature (ecash sha) d (k • G) o.bm s.c = true := by
      rw [Nip61.C131_blind_signature]
      refine ⟨_, _, serC (Y + o.r • G), serC (k • B), B, k • B, by rw [ht]; exact hexDec_hexEnc _, by rw [ht]; exact hexDec_hexEnc _, Or.inl (by rw [ht]), by rw [hbm]; exact hexDec_hexEnc _, ?_, by rw [hc]; exact hexDec_hexEnc _, parse_serC hkB, ?_⟩
      · rw [hBB]; exact parse_serC hB
      · have hpos := prime_order.pos
        have := convinces_honest sha k t B _ rfl
        show Convinces (ecash sha) ((scalarOf (toBE 32 _) : Nat) : Fn) ((scalarOf (toBE 32 _) : Nat) : Fn) _ _ _
        rw [priv_toBE (Nat.mod_lt _ hpos), priv_toBE (Nat.mod_lt _ hpos)]
        rw [cast_mod_n (t + _)]
        exact this
    obtain ⟨p, hp, h⟩ := fin (some ⟨d.e, d.s, hexEnc (toBE 32 o.r)⟩)
    exact ⟨p, by simp only [hv, if_true, hun, Option.map_some, hp], h⟩

theorem construct_dleq {sha : Bytes → Bytes} {K : Pt} {o : Prep} {s : BlindSig} {p : Proof} (h : constructOne sha K o s = some p) :
    p.amount = s.amount ∧ p.secret = o.secret ∧ (p.dleq = none ↔ s.dleq = none) := by
  unfold constructOne at h
  split at h
  · rename_i hd
    rw [Option.map_eq_some_iff] at h
    obtain ⟨c, -, rfl⟩ := h
    simp [hd]
  · rename_i d hd
    split at h
    · rw [Option.map_eq_some_iff] at h
      obtain ⟨c, -, rfl⟩ := h
      simp [hd]
    · cases h

/-! ## C167 -/

/-- **C167 (honest mints).** The wallet prepares outputs for any secrets and blinding numbers; a mint with keys `keyOf` answers honestly, for as many of them as it likes and with the amounts
it likes. Then the wallet ends up with proofs for its own secrets and the mint's amounts, and every one of them is money: the mint will take it back. If the mint gave its
signatures with DLEQ proofs, everyone who receives the proofs in a nutzap accepts them for their sum. -/
theorem C167_honest_mint (sha : Bytes → Bytes) (keyOf : UInt64 → Option Nat) (hk : ∀ a k, keyOf a = some k → 1 ≤ k ∧ k < groupN) (outs more : List Prep) (sigs : List BlindSig)
    (h : List.Forall₂ (fun o s => Prepared sha o ∧ ∃ k, keyOf s.amount = some k ∧ Honest sha k o.bm s) outs sigs) :
    ∃ ps, constructProofs sha (fun a => (keyOf a).map (· • G)) (outs ++ more) sigs = .ok ps ∧ ps.map Proof.amount = sigs.map BlindSig.amount ∧
      ps.map Proof.secret = outs.map Prep.secret ∧ (∀ p ∈ ps, ∃ k, keyOf p.amount = some k ∧ Money sha k p) ∧
      ((∀ s ∈ sigs, s.dleq ≠ none) → ∀ (enc : Proof → Bytes) (parse : Bytes → Option Proof), (∀ p, parse (enc p) = some p) →
        verifyNutzap (ecash sha) parse (fun a => (keyOf a).map (· • G)) (ps.map (fun p => [b! "proof", enc p])) = .val ((sigs.map BlindSig.amount).sum, true)) := by
  have main : ∃ ps, constructProofs sha (fun a => (keyOf a).map (· • G)) (outs ++ more) sigs = .ok ps ∧ ps.map Proof.amount = sigs.map BlindSig.amount ∧
      ps.map Proof.secret = outs.map Prep.secret ∧ (∀ p ∈ ps, ∃ k, keyOf p.amount = some k ∧ Money sha k p) ∧
      ((∀ s ∈ sigs, s.dleq ≠ none) → ∀ p ∈ ps, ∃ K, (keyOf p.amount).map (· • G) = some K ∧ verifyProofDLEQ (ecash sha) p (some K) = .val true) := by
    induction h with
    | nil => exact ⟨[], by cases more <;> rfl, rfl, rfl, by simp, by simp⟩
    | @cons o s os ss hos _ ih =>
      obtain ⟨ps, i1, i2, i3, i4, i5⟩ := ih
      obtain ⟨ho, k, hko, hon⟩ := hos
      obtain ⟨hk1, hk2⟩ := hk _ _ hko
      obtain ⟨p, p1, p2, p3, p4, p5⟩ := honest_one hk1 hk2 ho hon
      refine ⟨p :: ps, ?_, ?_, ?_, ?_, ?_⟩
      · simp only [List.cons_append, constructProofs, hko, Option.map_some, p1, i1]
      · simp only [List.map_cons, p2, i2]
      · simp only [List.map_cons, p3, i3]
      · intro q hq
        rcases List.mem_cons.1 hq with rfl | hq
        · exact ⟨k, by rw [p2]; exact hko, p4⟩
        · exact i4 q hq
      · intro hd q hq
        rcases List.mem_cons.1 hq with rfl | hq
        · exact ⟨k • G, by rw [p2, hko]; rfl, checked ho p1 (hd s (by simp)) p5⟩
        · exact i5 (fun s hs => hd s (by simp [hs])) q hq
  obtain ⟨ps, m1, m2, m3, m4, m5⟩ := main
  refine ⟨ps, m1, m2, m3, m4, fun hd enc parse henc => ?_⟩
  have hps : proofsOf parse (ps.map (fun p => [b! "proof", enc p])) = ps := by
    clear m1 m2 m3 m4 m5
    induction ps with
    | nil => rfl
    | cons p ps ih =>
      have : proofsOf parse ((p :: ps).map (fun p => [b! "proof", enc p])) = p :: proofsOf parse (ps.map (fun p => [b! "proof", enc p])) := by
        simp [proofsOf, henc]
      rw [this, ih]
  rw [Nip61.C131_accepts_iff, hps, m2]
  refine ⟨fun p hp => ?_, rfl⟩
  obtain ⟨K, hK, hv⟩ := m5 hd p hp
  rw [Nip61.verifyProof_true] at hv
  obtain ⟨K', hK', hb⟩ := hv
  exact ⟨K, hK, by rw [Option.some.inj hK']; exact hb⟩

/-- **C167 (any mint, with DLEQ proofs).** Whatever the mint answers: a signature with a DLEQ proof that the wallet takes gives a proof that every receiver of a nutzap finds right too, unless
the unblinded point is infinity. -/
theorem C167_taken_is_passed_on (sha : Bytes → Bytes) (K : Pt) (o : Prep) (s : BlindSig) (p : Proof) (ho : Prepared sha o) (h : constructOne sha K o s = some p) (hd : s.dleq ≠ none)
    (hz : hexDec p.c ≠ some (serC 0)) : verifyProofDLEQ (ecash sha) p (some K) = .val true :=
  checked ho h hd (fun b hb h0 => hz (by rw [hb, h0]))

/-- **C167 (forgeries).** A mint that gives a point `C` other than its key times the blinded message `B` cannot choose: whatever commitments `R1`, `R2` it takes, there is at most one challenge
(of more than 2^255) that it can answer, so a DLEQ proof for `C` needs a hash that falls on this very one. -/
theorem C167_forgery (k : Nat) (B C R1 R2 : Pt) (hC : C ≠ k • B) (e s e' s' : Fn) (h1 : R1 + e • (k • G) = s • G) (h2 : R2 + e • C = s • B)
    (h3 : R1 + e' • (k • G) = s' • G) (h4 : R2 + e' • C = s' • B) : e = e' := by
  by_contra hne
  obtain ⟨x, hx1, hx2⟩ := Nip61.C131_special_soundness (ecash (fun b => b)) (k • G) B C R1 R2 e s e' s' h1 h2 h3 h4 hne
  have hx1' : k • G = x • G := hx1
  have hkx : (k : Fn) = x := by
    rw [← val_cast x, cast_smul, ← mod_smul k] at hx1'
    have := smul_inj (Nat.mod_lt _ prime_order.pos) (ZMod.val_lt x) hx1'
    rw [← val_cast x, ← this, cast_mod_n]
  apply hC
  rw [hx2, ← hkx, cast_smul]

/-- **C167 (what acceptance is worth).** A proof that passes the check of a nutzap under the mint's key is money unless it is such a forgery: either the mint takes it back, or the
challenge it carries is the one that its two commitments allow. -/
theorem C167_accepted (sha : Bytes → Bytes) (k : Nat) (p : Proof) (h : verifyProofDLEQ (ecash sha) p (some (k • G)) = .val true) :
    Money sha k p ∨ ∃ (B C R1 R2 : Pt) (e : Fn), C ≠ k • B ∧ e = (ecash sha).hash R1 R2 (k • G) C ∧ (∃ s : Fn, R1 + e • (k • G) = s • G ∧ R2 + e • C = s • B) ∧
      ∀ e' s' : Fn, R1 + e' • (k • G) = s' • G → R2 + e' • C = s' • B → e' = e := by
  rw [Nip61.verifyProof_true] at h
  obtain ⟨A, hA, d, eb, sb, rb, cb, y, C, hd, hr, h1, h2, h3, hc, hC, hy, R1, R2, hR1, hR2, hh⟩ := h
  rw [← Option.some.inj hA] at *
  by_cases hm : C + (ecash sha).priv rb • (k • G) = k • (y + (ecash sha).priv rb • (ecash sha).G)
  · left
    have : C = (k : Fn) • y := Nip61.C131_unblinded (ecash sha) (k • G) y C (k : Fn) ((ecash sha).priv rb) (by rw [cast_smul]; rfl) (by rw [cast_smul]; exact hm)
    rw [cast_smul] at this
    exact ⟨y, cb, hy, hc, by rw [← this]; exact hC⟩
  · right
    exact ⟨_, _, R1, R2, _, hm, hh, ⟨_, hR1, hR2⟩, fun e' s' ha hb => C167_forgery k _ _ R1 R2 hm e' s' _ _ ha hb hR1 hR2⟩

theorem worthless (sha : Bytes → Bytes) (k : Nat) (o : Prep) (ho : Prepared sha o) (a : UInt64) (C : Pt) (hC : C ≠ 0) :
    ∃ p, constructProofs sha (fun _ => some (k • G)) [o] [⟨a, hexEnc (serC C), none⟩] = .ok [p] ∧ p.amount = a ∧
      (Money sha k p → ∀ b B, hexDec o.bm = some b → parsePubKey b = some B → C = k • B) := by
  obtain ⟨r1, r2, Y, hY, hB, hbm⟩ := ho
  have hu : unblind (hexEnc (serC C)) o.r (k • G) = some (hexEnc (serC (C - o.r • (k • G)))) := by
    unfold unblind
    rw [hexDec_hexEnc]
    simp only [parse_serC hC]
  refine ⟨⟨a, o.secret, hexEnc (serC (C - o.r • (k • G))), none⟩, ?_, rfl, ?_⟩
  · simp only [constructProofs, constructOne, hu, Option.map_some]
  · rintro ⟨Y', b, hY', hb, hp⟩ b0 B hb0 hB0
    rw [hbm, hexDec_hexEnc] at hb0
    rw [← Option.some.inj hb0, parse_serC hB] at hB0
    rw [← Option.some.inj hB0]
    have hYY : Y' = Y := by
      have : hashToCurve sha o.secret = some Y' := hY'
      rw [hY] at this
      exact (Option.some.inj this).symm
    have hb' : serC (C - o.r • (k • G)) = b := by
      have : hexDec (hexEnc (serC (C - o.r • (k • G)))) = some b := hb
      rw [hexDec_hexEnc] at this
      exact Option.some.inj this
    have hne : C - o.r • (k • G) ≠ 0 := by
      intro h0
      rw [← hb', h0, parse_zero] at hp
      cases hp
    rw [← hb', parse_serC hne, hYY] at hp
    have := Option.some.inj hp
    rw [nsmul_add, ← this, smul_smul, smul_smul, Nat.mul_comm k o.r, sub_add_cancel]

/-- **C167 refuted (mints without DLEQ proofs).** A signature without a DLEQ proof is taken whatever point it names: for every point but the right one, the wallet records a proof of the full
amount that the mint will not take back. -/
theorem C167_worthless_taken (sha : Bytes → Bytes) (k : Nat) (o : Prep) (ho : Prepared sha o) (b : Bytes) (B : Pt) (hb : hexDec o.bm = some b) (hB : parsePubKey b = some B) (a : UInt64) (C : Pt)
    (h0 : C ≠ 0) (hC : C ≠ k • B) : ∃ p, constructProofs sha (fun _ => some (k • G)) [o] [⟨a, hexEnc (serC C), none⟩] = .ok [p] ∧ p.amount = a ∧ ¬ Money sha k p := by
  obtain ⟨p, h1, h2, h3⟩ := worthless sha k o ho a C h0
  exact ⟨p, h1, h2, fun hm => hC (h3 hm b B hb hB)⟩

/-! ## Examples -/

theorem g_even : yOdd G = false := by
  have : (gy % fieldP) % 2 = 0 := by decide +kernel
  show ((gy : Fp).val % 2 == 1) = false
  rw [ZMod.val_natCast, this]
  rfl

/-- A "hash" that always gives the generator. -/
def shaG : Bytes → Bytes := fun _ => ser G

theorem shaG_curve (m : Bytes) : hashToCurve shaG m = some G := by
  have : parsePubKey (2 :: ser G) = some G := by
    have := parse_serC G_ne
    rwa [serC, g_even] at this
  have first : ∀ h fuel, 0 < fuel → toCurve shaG h fuel 0 = some G := by
    intro h fuel hf
    cases fuel with
    | zero => omega
    | succ n =>
      have hg : ∀ x, shaG x = ser G := fun _ => rfl
      rw [toCurve, hg, this]
  exact first _ _ (Nat.zero_lt_succ _)

/-- Every number but one is a proper blinding number. -/
theorem prepared_ex (secret : Bytes) (r : Nat) (h1 : 1 ≤ r) (h2 : r < groupN - 1) : Prepared shaG ⟨secret, r, hexEnc (serC (G + r • G))⟩ := by
  refine ⟨h1, lt_of_lt_of_le h2 (Nat.sub_le _ _), G, shaG_curve _, ?_, rfl⟩
  intro h
  rw [show G + r • G = (r + 1) • G by rw [add_smul, one_smul, add_comm], smul_eq_zero] at h
  exact absurd (Nat.le_of_dvd (by omega) h) (by omega)

/-- Honest mints exist: for every key, every prepared output and every nonce there is an honest answer with a DLEQ proof. -/
theorem honest_ex (sha : Bytes → Bytes) (k t : Nat) (o : Prep) (ho : Prepared sha o) (a : UInt64) : ∃ s, s.amount = a ∧ s.dleq ≠ none ∧ Honest sha k o.bm s := by
  obtain ⟨-, -, Y, -, hB, hbm⟩ := ho
  generalize hBB : Y + o.r • G = B at hB hbm
  let e := beVal (sha (hexEnc (serU (t • G)) ++ hexEnc (serU (t • B)) ++ hexEnc (serU (k • G)) ++ hexEnc (serU (k • B)))) % groupN
  refine ⟨⟨a, hexEnc (serC (k • B)), some ⟨hexEnc (toBE 32 e), hexEnc (toBE 32 ((t + e * k) % groupN)), []⟩⟩, rfl, Option.some_ne_none _, serC B, B, ?_, parse_serC hB, rfl, ?_⟩
  · rw [hbm]; exact hexDec_hexEnc _
  · intro d hd
    exact ⟨t, (Option.some.inj hd).symm⟩

example : ∃ s, List.Forall₂ (fun o s => Prepared shaG o ∧ ∃ k, (fun _ => some 7 : UInt64 → Option Nat) s.amount = some k ∧ Honest shaG k o.bm s)
    [⟨b! "secret", 5, hexEnc (serC (G + 5 • G))⟩] [s] ∧ s.amount = 64 ∧ s.dleq ≠ none := by
  have hp := prepared_ex (b! "secret") 5 (by decide) (by have : 6 < groupN := by decide +kernel
                                                         omega)
  obtain ⟨s, h1, h2, h3⟩ := honest_ex shaG 7 11 _ hp 64
  exact ⟨s, .cons ⟨hp, 7, rfl, h3⟩ .nil, h1, h2⟩

/-- **C167 (outputs).** What the wallet prepares, with a blinding number in range, carries the given secret and number, and is a prepared output, except when the blinded message is the point at
infinity (for one number at most), which nothing parses. -/
theorem C167_prepared (sha : Bytes → Bytes) (secret : Bytes) (r : Nat) (h1 : 1 ≤ r) (h2 : r < groupN) (o : Prep) (h : prepare sha secret r = some o) :
    o.secret = secret ∧ o.r = r ∧ (Prepared sha o ∨ o.bm = hexEnc (serC 0)) := by
  rw [prepare, Option.map_eq_some_iff] at h
  obtain ⟨Y, hY, rfl⟩ := h
  refine ⟨rfl, rfl, ?_⟩
  by_cases hz : Y + r • G = 0
  · exact .inr (congrArg (fun P => hexEnc (serC P)) hz)
  · exact .inl ⟨h1, h2, Y, hY, hz, rfl⟩

/-- **C167 (blinding).** A blinded message says nothing about its secret: for every other secret there is exactly one blinding number with which it would have been the same message. -/
theorem C167_blinded (sha : Bytes → Bytes) (secret : Bytes) (r : Nat) (o : Prep) (h : prepare sha secret r = some o) (other : Bytes) (ho : (hashToCurve sha other).isSome = true) :
    ∃! r', r' < groupN ∧ prepare sha other r' = some ⟨other, r', o.bm⟩ := by
  rw [prepare, Option.map_eq_some_iff] at h
  obtain ⟨Y, -, rfl⟩ := h
  obtain ⟨Z, hZ⟩ := Option.isSome_iff_exists.1 ho
  obtain ⟨k, hk, e⟩ := generated (Y + r • G - Z)
  refine ⟨k, ⟨hk, ?_⟩, ?_⟩
  · rw [prepare, hZ, Option.map_some, e, add_sub_cancel]
  · rintro k' ⟨hk', e'⟩
    rw [prepare, hZ, Option.map_some] at e'
    have e2 : hexEnc (serC (Z + k' • G)) = hexEnc (serC (Y + r • G)) := congrArg Prep.bm (Option.some.inj e')
    have e3 := serC_inj (hexEnc_injective e2)
    refine smul_inj hk' hk ?_
    rw [e, ← e3, add_sub_cancel_left]

example : ∃ o, prepare shaG (b! "secret") 5 = some o ∧ (hashToCurve shaG (b! "other")).isSome = true := by
  refine ⟨⟨b! "secret", 5, hexEnc (serC (G + 5 • G))⟩, ?_, ?_⟩
  · rw [prepare, shaG_curve, Option.map_some]
  · rw [shaG_curve]; rfl

end

end GoNostr.Curve
