import Verif.Tags.Model
import Mathlib.Algebra.Module.Defs
import Mathlib.Algebra.Field.Defs
import Mathlib.Tactic.Module
import Mathlib.Tactic.Abel
/-!
# C131: checking a nutzap

`VerifyNutzap` (nip61/verify.go), with the discrete-log-equality proofs of NUT-12 over an arbitrary group.
-/

set_option autoImplicit false

namespace GoNostr.Nip61

/-- The external cryptography: scalars, curve points with generator `G`, `secp256k1.PrivKeyFromBytes`, `btcec.ParsePubKey`, gonuts's
`HashToCurve` (which can fail) and the hash of four points of `VerifyDLEQ`. The point at infinity is a point like the others
(a simplification). -/
structure Curve (S P : Type) where
  G : P
  priv : Bytes → S
  parsePub : Bytes → Option P
  hashToCurve : Bytes → Option P
  hash : P → P → P → P → S

/-- `cashu.Proof` and its `DLEQProof` as far as they are read (verify.go:43-62, 111-141). -/
structure Dleq where
  e : Bytes
  s : Bytes
  r : Bytes
  deriving DecidableEq, Repr

/-- `cashu.Proof`, as far as it is read. -/
structure Proof where
  amount : UInt64
  secret : Bytes
  c : Bytes
  dleq : Option Dleq
  deriving DecidableEq, Repr

section
variable {S P : Type} [CommRing S] [DecidableEq S] [AddCommGroup P] [Module S P]

/-- `parseDLEQ` (verify.go:112-141): the third is nil when `r` is empty. -/
def parseDLEQ (cv : Curve S P) (d : Dleq) : Option (S × S × Option S) :=
  match hexDec d.e with
  | none => none
  | some eb => match hexDec d.s with
    | none => none
    | some sb =>
      if d.r = [] then some (cv.priv eb, cv.priv sb, none)
      else match hexDec d.r with
        | none => none
        | some rb => some (cv.priv eb, cv.priv sb, some (cv.priv rb))

/-- gonuts's `BlindMessage(secret, r)`: `HashToCurve(secret) + r*G`. -/
def blindMessage (cv : Curve S P) (secret : Bytes) (r : S) : Option P := (cv.hashToCurve secret).map (fun y => y + r • cv.G)

/-- gonuts's `VerifyDLEQ` (NUT-12): `R1 = s*G - e*A`, `R2 = s*B' - e*C'`, `e == hash(R1, R2, A, C')`. -/
def verifyDLEQ (cv : Curve S P) (e s : S) (A B' C' : P) : Bool :=
  decide (e = cv.hash (s • cv.G - e • A) (s • B' - e • C') A C')

/-- `verifyProofDLEQ` (verify.go:41-78). A nil `DLEQ` and a nil key are dereferenced. -/
def verifyProofDLEQ (cv : Curve S P) (proof : Proof) (A : Option P) : Out Bool :=
  match proof.dleq with
  | none => .panic
  | some d => match parseDLEQ cv d with
    | none => .val false
    | some (_, _, none) => .val false
    | some (e, s, some r) => match blindMessage cv proof.secret r with
      | none => .val false
      | some B' => match hexDec proof.c with
        | none => .val false
        | some cb => match cv.parsePub cb with
          | none => .val false
          | some C => match A with
            | none => .panic
            | some A => .val (verifyDLEQ cv e s A B' (C + r • A))

/-- The loop of `VerifyNutzap` (verify.go:18-38). `parse` is `json.Unmarshal` into a proof; `keyset` the mint's keys by amount. -/
def verifyLoop (cv : Curve S P) (parse : Bytes → Option Proof) (keyset : UInt64 → Option P) : Tags → UInt64 → Out (UInt64 × Bool)
  | [], sats => .val (sats, true)
  | tag :: rest, sats => match tag with
    | k :: v :: _ =>
      if k ≠ b! "proof" then verifyLoop cv parse keyset rest sats
      else match parse v with
        | none => verifyLoop cv parse keyset rest sats
        | some p => match verifyProofDLEQ cv p (keyset p.amount) with
          | .panic => .panic
          | .val false => .val (0, false)
          | .val true => verifyLoop cv parse keyset rest (sats + p.amount)
    | _ => verifyLoop cv parse keyset rest sats

/-- `VerifyNutzap` (verify.go:14-39). -/
def verifyNutzap (cv : Curve S P) (parse : Bytes → Option Proof) (keyset : UInt64 → Option P) (tags : Tags) : Out (UInt64 × Bool) :=
  verifyLoop cv parse keyset tags 0

/-- `VerifyBlindSignatureDLEQ` (verify.go:80-110); the caller gives a key. -/
def verifyBlindSignature (cv : Curve S P) (d : Dleq) (A : P) (B' C' : Bytes) : Bool :=
  match parseDLEQ cv d with
  | none => false
  | some (e, s, _) => match hexDec B' with
    | none => false
    | some bb => match cv.parsePub bb with
      | none => false
      | some B => match hexDec C' with
        | none => false
        | some cb => match cv.parsePub cb with
          | none => false
          | some C => verifyDLEQ cv e s A B C

/-! ## Specification -/

/-- The proofs an event carries: the parsable values of its "proof" tags, in order. -/
def proofsOf (parse : Bytes → Option Proof) (tags : Tags) : List Proof := tags.filterMap (fun
  | k :: v :: _ => if k = b! "proof" then parse v else none
  | _ => none)

/-- A DLEQ proof `(e, s)` for points `B`, `C` convinces: with `e` the hash of the two commitments it determines (NUT-12). -/
def Convinces (cv : Curve S P) (e s : S) (A B C : P) : Prop :=
  ∃ R1 R2 : P, R1 + e • A = s • cv.G ∧ R2 + e • C = s • B ∧ e = cv.hash R1 R2 A C

/-- The proof is one the mint with public key `A` can have signed: it names scalars `e`, `s`, `r` and a point `C`, and `(e, s)` convinces for the
blinded message and the blinded signature that `r` leads back to. -/
def Backed (cv : Curve S P) (p : Proof) (A : P) : Prop :=
  ∃ d eb sb rb cb y C, p.dleq = some d ∧ d.r ≠ [] ∧ hexDec d.e = some eb ∧ hexDec d.s = some sb ∧ hexDec d.r = some rb ∧
    hexDec p.c = some cb ∧ cv.parsePub cb = some C ∧ cv.hashToCurve p.secret = some y ∧
    Convinces cv (cv.priv eb) (cv.priv sb) A (y + cv.priv rb • cv.G) (C + cv.priv rb • A)

theorem convinces_iff (cv : Curve S P) (e s : S) (A B C : P) : verifyDLEQ cv e s A B C = true ↔ Convinces cv e s A B C := by
  unfold verifyDLEQ Convinces
  rw [decide_eq_true_eq]
  constructor
  · intro h
    exact ⟨_, _, sub_add_cancel _ _, sub_add_cancel _ _, h⟩
  · rintro ⟨R1, R2, h1, h2, h⟩
    rw [← h1, ← h2, add_sub_cancel_right, add_sub_cancel_right]
    exact h

theorem verifyProof_true (cv : Curve S P) (p : Proof) (A : Option P) : verifyProofDLEQ cv p A = .val true ↔ ∃ A', A = some A' ∧ Backed cv p A' := by
  unfold verifyProofDLEQ
  constructor
  · intro h
    cases hd : p.dleq with
    | none => rw [hd] at h; cases h
    | some d =>
      rw [hd] at h
      simp only at h
      cases hp : parseDLEQ cv d with
      | none => rw [hp] at h; cases h
      | some x =>
        obtain ⟨e, s, r⟩ := x
        rw [hp] at h
        cases r with
        | none => cases h
        | some r =>
          simp only [blindMessage] at h
          cases hy : cv.hashToCurve p.secret with
          | none => rw [hy] at h; cases h
          | some y =>
            rw [hy] at h
            simp only [Option.map_some] at h
            cases hc : hexDec p.c with
            | none => rw [hc] at h; cases h
            | some cb =>
              rw [hc] at h
              simp only at h
              cases hC : cv.parsePub cb with
              | none => rw [hC] at h; cases h
              | some C =>
                rw [hC] at h
                simp only at h
                cases A with
                | none => cases h
                | some A =>
                  simp only [Out.val.injEq] at h
                  refine ⟨A, rfl, ?_⟩
                  unfold parseDLEQ at hp
                  cases h1 : hexDec d.e with
                  | none => rw [h1] at hp; cases hp
                  | some eb =>
                    rw [h1] at hp
                    simp only at hp
                    cases h2 : hexDec d.s with
                    | none => rw [h2] at hp; cases hp
                    | some sb =>
                      rw [h2] at hp
                      simp only at hp
                      by_cases hr : d.r = []
                      · rw [if_pos hr] at hp; cases hp
                      · rw [if_neg hr] at hp
                        cases h3 : hexDec d.r with
                        | none => rw [h3] at hp; cases hp
                        | some rb =>
                          rw [h3] at hp
                          cases hp
                          exact ⟨d, eb, sb, rb, cb, y, C, hd, hr, h1, h2, h3, hc, hC, hy, (convinces_iff _ _ _ _ _ _).1 h⟩
  · rintro ⟨A', rfl, d, eb, sb, rb, cb, y, C, hd, hr, h1, h2, h3, hc, hC, hy, h⟩
    have hp : parseDLEQ cv d = some (cv.priv eb, cv.priv sb, some (cv.priv rb)) := by
      simp only [parseDLEQ, h1, h2, h3, if_neg hr]
    simp only [hd, hp, blindMessage, hy, Option.map_some, hc, hC]
    rw [(convinces_iff _ _ _ _ _ _).2 h]

theorem loop_true (cv : Curve S P) (parse : Bytes → Option Proof) (keyset : UInt64 → Option P) : ∀ (tags : Tags) (sats n : UInt64),
    verifyLoop cv parse keyset tags sats = .val (n, true) ↔
      (∀ p ∈ proofsOf parse tags, ∃ A, keyset p.amount = some A ∧ Backed cv p A) ∧ n = sats + ((proofsOf parse tags).map Proof.amount).sum
  | [], sats, n => by
    simp only [verifyLoop, proofsOf, List.filterMap_nil, List.map_nil, List.sum_nil, Out.val.injEq, Prod.mk.injEq, and_true, List.not_mem_nil,
      false_implies, implies_true, true_and, UInt64.add_zero]
    exact eq_comm
  | tag :: rest, sats, n => by
    have ih := loop_true cv parse keyset rest
    match tag with
    | [] => simpa [verifyLoop, proofsOf] using ih sats n
    | [a] => simpa [verifyLoop, proofsOf] using ih sats n
    | k :: v :: t =>
      by_cases hk : k = b! "proof"
      · cases hv : parse v with
        | none => simpa [verifyLoop, proofsOf, hk, hv] using ih sats n
        | some p =>
          have hpr : proofsOf parse ((k :: v :: t) :: rest) = p :: proofsOf parse rest := by simp [proofsOf, hk, hv]
          rw [hpr]
          simp only [verifyLoop, hk, ne_eq, not_true, if_false, hv, List.mem_cons, List.map_cons, List.sum_cons]
          cases hx : verifyProofDLEQ cv p (keyset p.amount) with
          | panic =>
            simp only [reduceCtorEq, false_iff, not_and]
            intro h
            have := (verifyProof_true cv p (keyset p.amount)).2 (h p (Or.inl rfl))
            rw [hx] at this; cases this
          | val b =>
            cases b with
            | false =>
              simp only [Out.val.injEq, Prod.mk.injEq, Bool.false_eq_true, and_false, false_iff, not_and]
              intro h
              have := (verifyProof_true cv p (keyset p.amount)).2 (h p (Or.inl rfl))
              rw [hx] at this; cases this
            | true =>
              have hb := (verifyProof_true cv p (keyset p.amount)).1 hx
              rw [ih]
              constructor
              · rintro ⟨h1, h2⟩
                refine ⟨?_, by rw [h2, UInt64.add_assoc]⟩
                rintro q (rfl | hq)
                · exact hb
                · exact h1 q hq
              · rintro ⟨h1, h2⟩
                exact ⟨fun q hq => h1 q (Or.inr hq), by rw [h2, UInt64.add_assoc]⟩
      · simpa [verifyLoop, proofsOf, hk] using ih sats n

/-- **C131 (what acceptance means).** A nutzap is accepted with `n` sats exactly if every proof it carries is backed by the mint's key for
its amount; `n` is the sum of the amounts, modulo 2^64. -/
theorem C131_accepts_iff (cv : Curve S P) (parse : Bytes → Option Proof) (keyset : UInt64 → Option P) (tags : Tags) (n : UInt64) :
    verifyNutzap cv parse keyset tags = .val (n, true) ↔
      (∀ p ∈ proofsOf parse tags, ∃ A, keyset p.amount = some A ∧ Backed cv p A) ∧ n = ((proofsOf parse tags).map Proof.amount).sum := by
  rw [verifyNutzap, loop_true]
  simp

/-- **C131 (blind signatures).** A blind signature's DLEQ proof is accepted exactly if everything can be read and it convinces; an unreadable
`r` is refused although `r` is not used. -/
theorem C131_blind_signature (cv : Curve S P) (d : Dleq) (A : P) (B' C' : Bytes) : verifyBlindSignature cv d A B' C' = true ↔
    ∃ eb sb bb cb B C, hexDec d.e = some eb ∧ hexDec d.s = some sb ∧ (d.r = [] ∨ ∃ rb, hexDec d.r = some rb) ∧ hexDec B' = some bb ∧
      cv.parsePub bb = some B ∧ hexDec C' = some cb ∧ cv.parsePub cb = some C ∧ Convinces cv (cv.priv eb) (cv.priv sb) A B C := by
  unfold verifyBlindSignature parseDLEQ
  constructor
  · intro h
    cases h1 : hexDec d.e with
    | none => simp [h1] at h
    | some eb =>
      cases h2 : hexDec d.s with
      | none => simp [h1, h2] at h
      | some sb =>
        cases h3 : hexDec B' with
        | none => simp [h1, h2, h3] at h; split at h <;> try split at h
                  all_goals simp at h
        | some bb =>
          cases h4 : cv.parsePub bb with
          | none => simp [h1, h2, h3, h4] at h; split at h <;> try split at h
                    all_goals simp at h
          | some B =>
            cases h5 : hexDec C' with
            | none => simp [h1, h2, h3, h4, h5] at h; split at h <;> try split at h
                      all_goals simp at h
            | some cb =>
              cases h6 : cv.parsePub cb with
              | none => simp [h1, h2, h3, h4, h5, h6] at h; split at h <;> try split at h
                        all_goals simp at h
              | some C =>
                by_cases hr : d.r = []
                · simp only [h1, h2, hr, if_true, h3, h4, h5, h6] at h
                  exact ⟨eb, sb, bb, cb, B, C, rfl, rfl, Or.inl hr, rfl, h4, rfl, h6, (convinces_iff _ _ _ _ _ _).1 h⟩
                · cases h7 : hexDec d.r with
                  | none => simp [h1, h2, hr, h7] at h
                  | some rb =>
                    simp only [h1, h2, hr, if_false, h7, h3, h4, h5, h6] at h
                    exact ⟨eb, sb, bb, cb, B, C, rfl, rfl, Or.inr ⟨rb, rfl⟩, rfl, h4, rfl, h6, (convinces_iff _ _ _ _ _ _).1 h⟩
  · rintro ⟨eb, sb, bb, cb, B, C, h1, h2, h3, h4, h5, h6, h7, h8⟩
    have h8 := (convinces_iff _ _ _ _ _ _).2 h8
    by_cases hr : d.r = []
    · simp only [h1, h2, hr, if_true, h4, h5, h6, h7, h8]
    · rcases h3 with h3 | ⟨rb, h3⟩
      · exact absurd h3 hr
      · simp only [h1, h2, hr, if_false, h3, h4, h5, h6, h7, h8]

/-- **C131 (honest money is accepted).** A mint with private key `k` signs the blinded message `y + r*G` as `C' = k*(y + r*G)` and proves it with a
nonce `t` (NUT-12); the wallet unblinds to `C = C' - r*A`. Every event that carries only such proofs, for any secrets, blindings, nonces and amounts, is
accepted for their sum. -/
theorem C131_honest_accepted (cv : Curve S P) (parse : Bytes → Option Proof) (key : UInt64 → S) (tags : Tags)
    (h : ∀ p ∈ proofsOf parse tags, ∃ d eb sb rb cb y t, p.dleq = some d ∧ d.r ≠ [] ∧ hexDec d.e = some eb ∧ hexDec d.s = some sb ∧
      hexDec d.r = some rb ∧ hexDec p.c = some cb ∧ cv.hashToCurve p.secret = some y ∧
      let k := key p.amount
      let A := k • cv.G
      let B' := y + cv.priv rb • cv.G
      let C' := k • B'
      cv.parsePub cb = some (C' - cv.priv rb • A) ∧ cv.priv eb = cv.hash (t • cv.G) (t • B') A C' ∧ cv.priv sb = t + cv.priv eb * k) :
    verifyNutzap cv parse (fun a => some (key a • cv.G)) tags = .val (((proofsOf parse tags).map Proof.amount).sum, true) := by
  rw [C131_accepts_iff]
  refine ⟨fun p hp => ⟨_, rfl, ?_⟩, rfl⟩
  obtain ⟨d, eb, sb, rb, cb, y, t, h1, h2, h3, h4, h5, h6, h7, h8, h9, h10⟩ := h p hp
  refine ⟨d, eb, sb, rb, cb, y, _, h1, h2, h3, h4, h5, h6, h8, h7, ?_⟩
  rw [sub_add_cancel]
  refine ⟨t • cv.G, t • (y + cv.priv rb • cv.G), ?_, ?_, h9⟩
  · rw [h10]; module
  · rw [h10]; module

theorem verifyProof_panic (cv : Curve S P) (p : Proof) (A : Option P) (h : verifyProofDLEQ cv p A = .panic) : p.dleq = none ∨ A = none := by
  unfold verifyProofDLEQ at h
  cases hd : p.dleq with
  | none => exact Or.inl rfl
  | some d =>
    right
    cases A with
    | none => rfl
    | some A =>
      rw [hd] at h
      simp only at h
      repeat' split at h
      all_goals cases h

/-- **C131 (crashes, partial).** `VerifyNutzap` does not crash on an event whose proofs all carry a DLEQ proof and an amount the mint has a key for.
Missing: the other events, see `C131_crash`. -/
theorem C131_no_crash_partial (cv : Curve S P) (parse : Bytes → Option Proof) (keyset : UInt64 → Option P) (tags : Tags)
    (h : ∀ p ∈ proofsOf parse tags, p.dleq ≠ none ∧ keyset p.amount ≠ none) : verifyNutzap cv parse keyset tags ≠ .panic := by
  have gen : ∀ (tags : Tags) (sats : UInt64), (∀ p ∈ proofsOf parse tags, p.dleq ≠ none ∧ keyset p.amount ≠ none) →
      verifyLoop cv parse keyset tags sats ≠ .panic := by
    intro tags
    induction tags with
    | nil => intro sats _ h; cases h
    | cons tag rest ih =>
      intro sats hh
      match tag with
      | [] => exact ih sats (by simpa [proofsOf] using hh)
      | [a] => exact ih sats (by simpa [proofsOf] using hh)
      | k :: v :: t =>
        by_cases hk : k = b! "proof"
        · cases hv : parse v with
          | none =>
            simp only [verifyLoop, hk, ne_eq, not_true, if_false, hv]
            exact ih sats (by simpa [proofsOf, hk, hv] using hh)
          | some p =>
            have hpr : proofsOf parse ((k :: v :: t) :: rest) = p :: proofsOf parse rest := by simp [proofsOf, hk, hv]
            rw [hpr] at hh
            simp only [verifyLoop, hk, ne_eq, not_true, if_false, hv]
            have h1 := hh p (by simp)
            cases hx : verifyProofDLEQ cv p (keyset p.amount) with
            | panic => rcases verifyProof_panic cv p _ hx with h2 | h2 <;> simp [h2] at h1
            | val b =>
              cases b with
              | false => simp
              | true => exact ih _ (fun q hq => hh q (List.mem_cons_of_mem _ hq))
        · simp only [verifyLoop, hk, ne_eq, not_false_eq_true, if_true]
          exact ih sats (by simpa [proofsOf, hk] using hh)
  exact gen tags 0 h

/-- **C131 refuted (crashes).** A nutzap event crashes its reader if its first proof has no DLEQ proof, whatever the rest, or is complete but of an
amount the mint has no key for. -/
theorem C131_crash (cv : Curve S P) (parse : Bytes → Option Proof) (keyset : UInt64 → Option P) (v : Bytes) (t : Tag) (rest : Tags) (p : Proof) (hp : parse v = some p) :
    (p.dleq = none → verifyNutzap cv parse keyset ((b! "proof" :: v :: t) :: rest) = .panic) ∧
    (∀ A, Backed cv p A → keyset p.amount = none → verifyNutzap cv parse keyset ((b! "proof" :: v :: t) :: rest) = .panic) := by
  constructor
  · intro h
    simp [verifyNutzap, verifyLoop, hp, verifyProofDLEQ, h]
  · rintro A ⟨d, eb, sb, rb, cb, y, C, hd, hr, h1, h2, h3, hc, hC, hy, -⟩ hk
    have hpd : parseDLEQ cv d = some (cv.priv eb, cv.priv sb, some (cv.priv rb)) := by
      simp only [parseDLEQ, h1, h2, h3, if_neg hr]
    simp [verifyNutzap, verifyLoop, hp, verifyProofDLEQ, hd, hpd, blindMessage, hy, hc, hC, hk]

/-- **C131 refuted (worth).** A nutzap with no readable proof at all is accepted, for nothing; and one that carries the same backed proof twice is
accepted for twice its amount, although the mint will pay once. -/
theorem C131_worth (cv : Curve S P) (parse : Bytes → Option Proof) (keyset : UInt64 → Option P) :
    verifyNutzap cv parse keyset [] = .val (0, true) ∧
    ∀ v p A, parse v = some p → keyset p.amount = some A → Backed cv p A →
      verifyNutzap cv parse keyset [[b! "proof", v], [b! "proof", v]] = .val (p.amount + p.amount, true) := by
  refine ⟨rfl, fun v p A hp hk hb => ?_⟩
  rw [C131_accepts_iff]
  have : proofsOf parse [[b! "proof", v], [b! "proof", v]] = [p, p] := by simp [proofsOf, hp]
  rw [this]
  exact ⟨by simp; exact ⟨A, hk, hb⟩, by simp⟩

end

/-- **C131 (what a proof proves).** Two convincing proofs with the same commitments and different challenges, for one blinded message `B` and one
signature `C`, exist only if the same private key leads from the generator to the mint's key and from `B` to `C`: the signature is the mint's. -/
theorem C131_special_soundness {F P : Type} [Field F] [DecidableEq F] [AddCommGroup P] [Module F P] (cv : Curve F P) (A B C R1 R2 : P) (e s e' s' : F)
    (h1 : R1 + e • A = s • cv.G) (h2 : R2 + e • C = s • B) (h3 : R1 + e' • A = s' • cv.G) (h4 : R2 + e' • C = s' • B) (hne : e ≠ e') :
    ∃ k : F, A = k • cv.G ∧ C = k • B := by
  have hd : e - e' ≠ 0 := sub_ne_zero.2 hne
  refine ⟨(e - e')⁻¹ * (s - s'), ?_, ?_⟩
  · have : (e - e') • A = (s - s') • cv.G := by
      rw [sub_smul, sub_smul, ← h1, ← h3]; abel
    rw [mul_smul, ← this, smul_smul, inv_mul_cancel₀ hd, one_smul]
  · have : (e - e') • C = (s - s') • B := by
      rw [sub_smul, sub_smul, ← h2, ← h4]; abel
    rw [mul_smul, ← this, smul_smul, inv_mul_cancel₀ hd, one_smul]

/-- and if the blinded signature is `k*(y + r*G)` with `A = k*G`, the unblinded one is the mint's signature `k*y` of the secret. -/
theorem C131_unblinded {F P : Type} [CommRing F] [AddCommGroup P] [Module F P] (cv : Curve F P) (A y C : P) (k r : F) (h1 : A = k • cv.G)
    (h2 : C + r • A = k • (y + r • cv.G)) : C = k • y := by
  have : C = k • (y + r • cv.G) - r • A := by rw [← h2]; abel
  rw [this, h1]
  module

/-! ## Examples -/

/-- A toy group: the integers; the "hash" adds everything up. -/
def toy : Curve Int Int where
  G := 1
  priv := fun b => b.foldl (fun n c => n * 256 + (c.toNat : Int)) 0
  parsePub := fun b => some (b.foldl (fun n c => n * 256 + (c.toNat : Int)) 0)
  hashToCurve := fun s => if s = [] then none else some (s.length : Int)
  hash := fun R1 R2 A C => R1 + R2 + A + C

/-- The mint's key is 2; secret of length 3; `r` = 1, nonce 1: `A` = 2, `B'` = 4, `C'` = 8, `C` = 6, `e` = 1+4+2+8 = 15, `s` = 31. -/
def toyProof : Proof := ⟨21, b! "abc", b! "06", some ⟨b! "0f", b! "1f", b! "01"⟩⟩

/-- A value of the examples. -/
def toyParse (b : Bytes) : Option Proof := if b = b! "good" then some toyProof else if b = b! "bad" then some { toyProof with c := b! "07" } else none

example : verifyNutzap toy toyParse (fun a => if a = 21 then some 2 else none) [[b! "proof", b! "good"], [b! "proof", b! "junk"], [b! "u", b! "m"], [b! "proof"],
    [b! "proof", b! "good"]] = .val (42, true) ∧
    verifyNutzap toy toyParse (fun a => if a = 21 then some 2 else none) [[b! "proof", b! "good"], [b! "proof", b! "bad"]] = .val (0, false) ∧
    verifyNutzap toy toyParse (fun _ => none) [[b! "proof", b! "good"]] = .panic := by decide +kernel

/-- The toy proof meets the hypotheses of `C131_honest_accepted`. -/
example : (2 : Int) • (toy.G) = 2 ∧ toy.hash (1 • toy.G) ((1 : Int) • (3 + (1 : Int) • toy.G)) 2 ((2 : Int) • (3 + (1 : Int) • toy.G)) = 15 ∧ (31 : Int) = 1 + 15 * 2 := by decide

end GoNostr.Nip61
