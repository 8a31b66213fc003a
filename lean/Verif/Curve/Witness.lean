import Verif.Curve.Points
import Verif.Nip60.Nutzap
/-!
# C168: unlocking ecash

The signatures the wallet puts on locked proofs and on the outputs it asks for (nip60/helpers.go `signInput`, `signOutput`; the loop of nip60/receive.go), over the group of secp256k1.
-/

set_option autoImplicit false

namespace GoNostr.Curve.Unlock

open KeyMaking (beVal)

attribute [local irreducible] fieldP groupN toBE ser scalarOf

noncomputable section

/-- The JSON text of a `nut11.P2PKWitness` with one signature (hex digits need no escaping). -/
def witness (sig : Bytes) : Bytes := b! "{\"signatures\":[\"" ++ hexEnc sig ++ b! "\"]}"

/-- `signInput` (helpers.go:85-98): the hash of the secret is signed. A nil key is dereferenced. `none` is the error. -/
def signInput (sha : Bytes → Bytes) (L : Lib) (sk : Option Bytes) (secret : Bytes) : Out (Option Bytes) :=
  match sk with
  | none => .panic
  | some k => .val (((bip340 L).sign k (sha secret)).map witness)

/-- `signOutput` (helpers.go:100-114): the hash of the blinded message's bytes is signed. Our blinded messages are hex; others (whose decoding error is ignored) are not modelled. -/
def signOutput (sha : Bytes → Bytes) (L : Lib) (sk : Option Bytes) (msg : Bytes) : Out (Option Bytes) :=
  match sk with
  | none => .panic
  | some k => .val (((bip340 L).sign k (sha msg)).map witness)

/-- The kinds of `nut10.DeserializeSecret`. -/
inductive Kind
  | p2pk | htlc | anyone
  deriving DecidableEq, Repr

/-- A proof as far as the loop reads and writes it. -/
structure Locked where
  secret : Bytes
  witness : Bytes
  deriving DecidableEq, Repr

/-- The signing loop of `Receive` (receive.go:55-73): the proofs and `mustSignOutputs`. `kindOf` is `nut10.DeserializeSecret`. -/
def signAll (sha : Bytes → Bytes) (L : Lib) (kindOf : Bytes → Option Kind) (sk : Option Bytes) : List Locked → Res Unit (List Locked × Bool)
  | [] => .ok ([], false)
  | p :: ps =>
    let rest (p' : Locked) (must : Bool) : Res Unit (List Locked × Bool) := match signAll sha L kindOf sk ps with
      | .ok (ps', m) => .ok (p' :: ps', must || m)
      | .err e => .err e
      | .panic => .panic
    if p.secret = [] then rest p false
    else match kindOf p.secret with
      | none => rest p false
      | some .p2pk => match signInput sha L sk p.secret with
        | .panic => .panic
        | .val none => .err ()
        | .val (some w) => rest { p with witness := w } true
      | some .htlc => .err ()
      | some .anyone => rest p false

/-! ## Specification -/

/-- A proof that is locked to a key. -/
def IsLocked (kindOf : Bytes → Option Kind) (p : Locked) : Prop := p.secret ≠ [] ∧ kindOf p.secret = some .p2pk

/-- What a mint asks of the witness of a proof locked to the key written `lock` in hex (NUT-11): the key is a point, and the witness has a signature of the hash of the secret that is valid
for this point. -/
def Spends (sha : Bytes → Bytes) (L : Lib) (lock secret w : Bytes) : Prop :=
  ∃ b P sig, hexDec lock = some b ∧ parsePubKey b = some P ∧ w = witness sig ∧ verify L sig (sha secret) (ser P) = true

/-! ## Lemmas -/

theorem sign_some {sha : Bytes → Bytes} (hsha : ∀ b, (sha b).length = 32) {L : Lib} (hL : ∀ sk h, L.nonce sk h % groupN ≠ 0) {k : Nat} (h1 : 1 ≤ k) (h2 : k < groupN) (m : Bytes) :
    ∃ sig, (bip340 L).sign (toBE 32 k) (sha m) = some sig ∧ verify L sig (sha m) (ser (k • G)) = true := by
  have hs : scalarOf (toBE 32 k) = k := scalarOf_toBE h2
  have := (C165_always_signs L (toBE 32 k) (sha m) (hsha m) (hL _ _)).2 (by rw [hs]; omega)
  obtain ⟨sig, hsig⟩ := Option.isSome_iff_exists.1 this
  refine ⟨sig, hsig, ?_⟩
  have hc : verify L sig (sha m) (ser (scalarOf (toBE 32 k) • G)) = true := ((C165_library_contract L).signs _ _ _ hsig).2.2
  rwa [hs] at hc

/-! ## C168 -/

/-- **C168 (locked money is unlocked).** The wallet has a proper private key. Whatever proofs it receives, if none is a hash lock the loop succeeds; the secrets stay as they are, proofs that are
not locked keep their witness, and every locked proof gets a witness that the mint takes for any lock with the wallet's first coordinate: the wallet's public key, its negative,
or `02` followed by the key as nostr writes it. Outputs are to be signed exactly if some proof is locked. -/
theorem C168_unlocks (sha : Bytes → Bytes) (hsha : ∀ b, (sha b).length = 32) (L : Lib) (hL : ∀ sk h, L.nonce sk h % groupN ≠ 0) (kindOf : Bytes → Option Kind) (k : Nat) (h1 : 1 ≤ k)
    (h2 : k < groupN) : ∀ (ps : List Locked), (∀ p ∈ ps, p.secret ≠ [] → kindOf p.secret ≠ some .htlc) →
    ∃ ps' must, signAll sha L kindOf (some (toBE 32 k)) ps = .ok (ps', must) ∧ (must = true ↔ ∃ p ∈ ps, IsLocked kindOf p) ∧
      List.Forall₂ (fun p p' => p'.secret = p.secret ∧ (¬ IsLocked kindOf p → p' = p) ∧
        (IsLocked kindOf p → ∀ P : Pt, xOf P = xOf (k • G) → Spends sha L (hexEnc (serC P)) p.secret p'.witness)) ps ps'
  | [], _ => ⟨[], false, rfl, by simp, .nil⟩
  | p :: ps, hh => by
    obtain ⟨ps', must, i1, i2, i3⟩ := C168_unlocks sha hsha L hL kindOf k h1 h2 ps (fun q hq => hh q (List.mem_cons_of_mem _ hq))
    have plain : ¬ IsLocked kindOf p → signAll sha L kindOf (some (toBE 32 k)) (p :: ps) = .ok (p :: ps', must) →
        ∃ ps' must, signAll sha L kindOf (some (toBE 32 k)) (p :: ps) = .ok (ps', must) ∧ (must = true ↔ ∃ q ∈ p :: ps, IsLocked kindOf q) ∧
          List.Forall₂ (fun p p' => p'.secret = p.secret ∧ (¬ IsLocked kindOf p → p' = p) ∧
            (IsLocked kindOf p → ∀ P : Pt, xOf P = xOf (k • G) → Spends sha L (hexEnc (serC P)) p.secret p'.witness)) (p :: ps) ps' := by
      intro hn hs
      refine ⟨_, _, hs, ?_, .cons ⟨rfl, fun _ => rfl, fun h => absurd h hn⟩ i3⟩
      rw [i2]
      constructor
      · rintro ⟨q, hq, h⟩; exact ⟨q, List.mem_cons_of_mem _ hq, h⟩
      · rintro ⟨q, hq, h⟩
        rcases List.mem_cons.1 hq with rfl | hq
        · exact absurd h hn
        · exact ⟨q, hq, h⟩
    by_cases h0 : p.secret = []
    · exact plain (fun h => h.1 h0) (by simp [signAll, h0, i1])
    · cases hk : kindOf p.secret with
      | none => exact plain (fun h => by rw [IsLocked, hk] at h; cases h.2) (by simp [signAll, h0, hk, i1])
      | some kd =>
        cases kd with
        | htlc => exact absurd hk (hh p (by simp) h0)
        | anyone => exact plain (fun h => by rw [IsLocked, hk] at h; cases h.2) (by simp [signAll, h0, hk, i1])
        | p2pk =>
          obtain ⟨sig, hs, hv⟩ := sign_some hsha hL h1 h2 p.secret
          have hl : IsLocked kindOf p := ⟨h0, hk⟩
          refine ⟨{ p with witness := witness sig } :: ps', true, ?_, ?_, .cons ⟨rfl, fun h => absurd hl h, fun _ P hP => ?_⟩ i3⟩
          · simp [signAll, h0, hk, signInput, hs, i1]
          · simp only [true_iff]
            exact ⟨p, by simp, hl⟩
          · have hkG : k • G ≠ 0 := by
              intro h
              rw [smul_eq_zero] at h
              exact absurd (Nat.le_of_dvd (by omega) h) (by omega)
            have hP0 : P ≠ 0 := by
              intro h
              rw [h, (xOf_eq_zero 0).2 rfl] at hP
              exact hkG ((xOf_eq_zero _).1 hP.symm)
            refine ⟨serC P, P, sig, hexDec_hexEnc _, parse_serC hP0, rfl, ?_⟩
            have : ser P = ser (k • G) := by unfold ser; rw [hP]
            rw [this]
            exact hv

/-- The lock `02` + key as nostr writes it is one of them. -/
theorem C168_nostr_key_lock (k : Nat) (h1 : 1 ≤ k) (h2 : k < groupN) : ∃ P : Pt, xOf P = xOf (k • G) ∧ hexEnc (serC P) = b! "02" ++ hexEnc (ser (k • G)) := by
  have hkG : k • G ≠ 0 := by
    intro h
    rw [smul_eq_zero] at h
    exact absurd (Nat.le_of_dvd (by omega) h) (by omega)
  have fin : ∀ P : Pt, xOf P = xOf (k • G) → yOdd P = false → hexEnc (serC P) = b! "02" ++ hexEnc (ser (k • G)) := by
    intro P hx hy
    have : ser P = ser (k • G) := by unfold ser; rw [hx]
    rw [serC, hy, this]
    rfl
  cases hy : yOdd (k • G) with
  | false => exact ⟨k • G, rfl, fin _ rfl hy⟩
  | true => exact ⟨-(k • G), xOf_neg _, fin _ (xOf_neg _) (by rw [yOdd_neg hkG, hy]; rfl)⟩

/-- **C168 (outputs).** The witness of an output is a signature of the hash of the blinded message, valid for the wallet's key. -/
theorem C168_output_signed (sha : Bytes → Bytes) (hsha : ∀ b, (sha b).length = 32) (L : Lib) (hL : ∀ sk h, L.nonce sk h % groupN ≠ 0) (k : Nat) (h1 : 1 ≤ k) (h2 : k < groupN) (B : Pt) :
    ∃ sig, signOutput sha L (some (toBE 32 k)) (serC B) = .val (some (witness sig)) ∧ verify L sig (sha (serC B)) (ser (k • G)) = true := by
  obtain ⟨sig, hs, hv⟩ := sign_some hsha hL h1 h2 (serC B)
  exact ⟨sig, by simp [signOutput, hs], hv⟩

/-- **C168 (only for its secret).** A witness unlocks proofs with two secrets under one lock only if the challenges of their hashes coincide. -/
theorem C168_not_for_others (sha : Bytes → Bytes) (L : Lib) (lock sig s s' : Bytes) (v1 : Spends sha L lock s (witness sig)) (v2 : Spends sha L lock s' (witness sig)) :
    ∃ P, L.e (sig.take 32) (ser P) (sha s) = L.e (sig.take 32) (ser P) (sha s') := by
  have inj : ∀ {a b : Bytes}, witness a = witness b → a = b := by
    intro a b h
    unfold witness at h
    have := List.append_cancel_left (List.append_cancel_right h)
    have h' := congrArg hexDec this
    rw [hexDec_hexEnc, hexDec_hexEnc] at h'
    exact Option.some.inj h'
  obtain ⟨b, P, sg, h1, h2, h3, h4⟩ := v1
  obtain ⟨b', P', sg', k1, k2, k3, k4⟩ := v2
  rw [← inj h3] at h4
  rw [← inj k3] at k4
  rw [h1] at k1
  rw [← Option.some.inj k1, h2] at k2
  rw [← Option.some.inj k2] at k4
  exact ⟨P, C165_one_hash L sig _ _ _ h4 k4⟩

theorem parse_length {b : Bytes} {P : Pt} (h : parsePubKey b = some P) : b.length = 33 ∨ b.length = 65 := by
  cases b with
  | nil => cases h
  | cons f b =>
    simp only [parsePubKey] at h
    split at h
    · rename_i hl; left; rw [List.length_cons, hl]
    · split at h
      · rename_i hl; right; rw [List.length_cons, hl]
      · cases h

/-- **C168 refuted (nutzaps need no unlocking).** With the real keys: whatever the recipient's event says, whoever they are, no proof of a nutzap that is published is locked (C85, C158). -/
theorem C168_nutzaps_unlocked (env : Nip60.ZapEnv) (hpub : env.info.parsePub = fun b => (parseX b).isSome) (hparse : env.parse = fun b => (parsePubKey b).map serC)
    (hw : ∀ j, Nip60.Honest (env.w j).toWorld) (tokens t : List Nip60.Token) (infoEvent : Option (List (List Bytes))) (target eventId : Bytes) (amount : Nat) (z : Nip60.Zap)
    (h : Nip60.sendNutzap env tokens infoEvent target eventId amount = .val (some z, t)) :
    ∃ m ps, z.tags = Nip60.zapTags env target eventId m ps ∧ ∀ x ∈ ps, x.lock = none := by
  refine Nip60.C158_never_locked env (fun b hb => ?_) (fun b k hb => ?_) hw tokens t infoEvent target eventId amount z h
  · rw [hpub] at hb
    obtain ⟨P, hP⟩ := Option.isSome_iff_exists.1 hb
    rw [((parseX_iff _ _).1 hP).2.1, ser_length]
  · rw [hparse] at hb
    simp only [Option.map_eq_some_iff] at hb
    obtain ⟨P, hP, -⟩ := hb
    exact parse_length hP

/-- **C168 refuted (no key, hash locks).** A wallet without a private key crashes on the first locked proof; and one hash lock spoils everything that is received with it. -/
theorem C168_no_key (sha : Bytes → Bytes) (L : Lib) (kindOf : Bytes → Option Kind) (p : Locked) (ps : List Locked) :
    (IsLocked kindOf p → signAll sha L kindOf none (p :: ps) = .panic) ∧
    (∀ sk, p.secret ≠ [] → kindOf p.secret = some .htlc → signAll sha L kindOf sk (p :: ps) = .err ()) := by
  constructor
  · rintro ⟨h0, hk⟩
    simp [signAll, h0, hk, signInput]
  · intro sk h0 hk
    simp [signAll, h0, hk]

/-! ## Examples -/

/-- The hypotheses can be met, with a locked and an unlocked proof: any hash with 32 bytes, any nonces that are not multiples of the order. -/
example : (∀ b : Bytes, ((fun _ => List.replicate 32 7 : Bytes → Bytes) b).length = 32) ∧ (∀ sk h : Bytes, (⟨fun _ _ => 1, fun _ => []⟩ : Lib).nonce sk h % groupN ≠ 0) ∧
    IsLocked (fun s => if s = b! "locked" then some .p2pk else none) ⟨b! "locked", []⟩ ∧ ¬ IsLocked (fun s => if s = b! "locked" then some .p2pk else none) ⟨b! "free", []⟩ := by
  refine ⟨fun _ => rfl, fun _ _ => ?_, ⟨by decide, by decide⟩, fun h => absurd h.2 (by decide)⟩
  show 1 % groupN ≠ 0
  rw [Nat.mod_eq_of_lt prime_order.one_lt]
  exact Nat.one_ne_zero

end

end GoNostr.Curve.Unlock
