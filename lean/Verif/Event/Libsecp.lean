import Verif.Event.Theorems
/-!
# C146: signatures in the build with libsecp256k1 (signature_libsecp256k1.go), next to the default build (signature.go)

With the build tag `libsecp256k1` the functions `CheckSignature` and `Sign` are other ones, on top of a C library. The library is a parameter (`Lib`) with the contract (`Same`) that it
computes the same signature scheme as btcec on arguments of the right sizes.
-/

set_option autoImplicit false

namespace GoNostr.Libsecp

/-- *library* `hex.Decode` into an array of `n` zero bytes: an error (`none`), the array, or a panic when there are more digits than fit. -/
def hexInto : Nat → Bytes → Out (Option Bytes)
  | n, [] => .val (some (List.replicate n 0))
  | _, [_] => .val none
  | 0, a :: b :: _ => match hexVal a, hexVal b with
    | some _, some _ => .panic
    | _, _ => .val none
  | n + 1, a :: b :: rest => match hexVal a, hexVal b with
    | some x, some y => match hexInto n rest with
      | .val (some r) => .val (some (((x <<< 4) ||| y) :: r))
      | .val none => .val none
      | .panic => .panic
    | _, _ => .val none

/-- The functions of the C library that are called, on byte arrays of fixed sizes. -/
structure Lib where
  /-- `secp256k1_xonly_pubkey_parse` -/
  parse : Bytes → Bool
  /-- `secp256k1_schnorrsig_verify` -/
  verify : (sig hash pub : Bytes) → Bool
  /-- `secp256k1_keypair_create` and the x-only public key of the pair; `none` if the key is refused -/
  keypair : Bytes → Option Bytes
  /-- `secp256k1_schnorrsig_sign32` with the auxiliary random bytes -/
  sign : (sk hash random : Bytes) → Option Bytes

/-- `CheckSignature` (signature_libsecp256k1.go:37-59). -/
def checkSignature (H : Hash32) (L : Lib) (evt : Event) : Out (Option Bool) := do
  match ← hexInto 32 evt.pubkey with
  | none => .val none
  | some pk =>
    match ← hexInto 64 evt.sig with
    | none => .val none
    | some sg =>
      if ¬ L.parse pk then .val none
      else .val (some (L.verify sg (H (serialize evt)).val pk))

/-- `Sign` (signature_libsecp256k1.go:61-95): the event afterwards and whether the error is nil. The library is given the address of the first byte of the key and reads 32 bytes from
there; `beyond` is what the memory holds after the key. -/
def signEvent (H : Hash32) (L : Lib) (beyond random : Bytes) (evt : Event) (secretKey : Bytes) : Out (Event × Bool) :=
  match hexDec secretKey with
  | none => .val (evt, false)
  | some sk => do
    let _ ← goIndex sk 0
    let key := (sk ++ beyond).take 32
    match L.keypair key with
    | none => .val (evt, false)
    | some pub =>
      let evt := { evt with pubkey := hexEnc pub }
      let h := (H (serialize evt)).val
      match L.sign key h random with
      | none => .val (evt, false)
      | some sg => .val ({ evt with id := hexEnc h, sig := hexEnc sg }, true)

/-- Both libraries compute the same scheme: on keys of 32 and signatures of 64 bytes they agree, btcec refuses other sizes, and what the C library signs verifies. -/
structure Same (S : Schnorr) (L : Lib) : Prop where
  pubLen : ∀ b, S.parsePub b = true → b.length = 32
  sigLen : ∀ b, S.parseSig b = true → b.length = 64
  parse : ∀ b, b.length = 32 → L.parse b = S.parsePub b
  verify : ∀ sg h pk, sg.length = 64 → pk.length = 32 → S.parsePub pk = true → L.verify sg h pk = (S.parseSig sg && S.verify sg h pk)
  keypair : ∀ k p, k.length = 32 → L.keypair k = some p → p = S.pubOf k ∧ p.length = 32 ∧ S.parsePub p = true
  sign : ∀ k p h r sg, k.length = 32 → L.keypair k = some p → L.sign k h r = some sg → sg.length = 64 ∧ L.verify sg h p = true

/-! ## Proofs -/

theorem hexDec_cons {a c : UInt8} {rest r : Bytes} : hexDec (a :: c :: rest) = some r ↔ ∃ x y q, hexVal a = some x ∧ hexVal c = some y ∧ hexDec rest = some q ∧ r = ((x <<< 4) ||| y) :: q := by
  simp only [hexDec]
  constructor
  · intro h
    split at h
    · next x y q hx hy hq => cases h; exact ⟨x, y, q, hx, hy, hq, rfl⟩
    · cases h
  · rintro ⟨x, y, q, hx, hy, hq, rfl⟩
    simp [hx, hy, hq]

theorem hexInto_some : ∀ (n : Nat) (s x : Bytes), hexInto n s = .val (some x) ↔ ∃ b, hexDec s = some b ∧ b.length ≤ n ∧ x = b ++ List.replicate (n - b.length) 0
  | n, [], x => by
    simp only [hexInto, Out.val.injEq, Option.some.injEq, hexDec]
    constructor
    · intro h; exact ⟨[], rfl, by simp, by simp [h]⟩
    · rintro ⟨b, hb, -, rfl⟩; subst hb; simp
  | n, [a], x => by simp [hexInto, hexDec]
  | 0, a :: c :: rest, x => by
    simp only [hexInto, hexDec_cons]
    constructor
    · intro h; split at h <;> simp at h
    · rintro ⟨b, ⟨u, v, q, -, -, -, rfl⟩, hl, -⟩; simp at hl
  | n + 1, a :: c :: rest, x => by
    have ih := hexInto_some n rest
    simp only [hexInto, hexDec_cons]
    constructor
    · intro h
      split at h
      · next u v hu hv =>
        split at h
        · next r hr =>
          simp only [Out.val.injEq, Option.some.injEq] at h
          obtain ⟨b, hb, hl, rfl⟩ := (ih r).1 hr
          refine ⟨_, ⟨u, v, b, hu, hv, hb, rfl⟩, by simp; omega, ?_⟩
          rw [← h]
          simp
        · simp at h
        · cases h
      · simp at h
    · rintro ⟨b, ⟨u, v, q, hu, hv, hq, rfl⟩, hl, rfl⟩
      have := (ih _).2 ⟨q, hq, by simp at hl; omega, rfl⟩
      simp [hu, hv, this]

theorem hexInto_panic : ∀ (n : Nat) (s : Bytes), hexInto n s = .panic ↔ 2 * n + 2 ≤ s.length ∧ ∀ c ∈ s.take (2 * n + 2), (hexVal c).isSome
  | n, [] => by simp [hexInto]
  | n, [a] => by simp [hexInto]
  | 0, a :: c :: rest => by
    cases ha : hexVal a <;> cases hc : hexVal c <;> simp [hexInto, ha, hc]
  | n + 1, a :: c :: rest => by
    have ih := hexInto_panic n rest
    have he : 2 * (n + 1) + 2 = (2 * n + 2) + 1 + 1 := by omega
    rw [he, List.take_succ_cons, List.take_succ_cons]
    simp only [hexInto, List.length_cons, List.mem_cons, forall_eq_or_imp]
    cases ha : hexVal a with
    | none => simp
    | some x =>
      cases hc : hexVal c with
      | none => simp
      | some y =>
        simp only [Option.isSome_some, true_and]
        have hle : 2 * n + 2 + 1 + 1 ≤ rest.length + 1 + 1 ↔ 2 * n + 2 ≤ rest.length := by omega
        rw [hle, ← ih]
        cases hr : hexInto n rest with
        | panic => simp
        | val o => cases o <;> simp

theorem hexInto_exact {n : Nat} {s : Bytes} (h : s.length = 2 * n) : hexInto n s = .val (hexDec s) := by
  cases hd : hexDec s with
  | some b =>
    have := hexDec_length hd
    rw [(hexInto_some n s _).2 ⟨b, hd, by omega, rfl⟩]
    have : n - b.length = 0 := by omega
    simp [this]
  | none =>
    cases hi : hexInto n s with
    | panic => have := ((hexInto_panic n s).1 hi).1; omega
    | val o =>
      cases o with
      | none => rfl
      | some x =>
        obtain ⟨b, hb, -⟩ := (hexInto_some n s x).1 hi
        rw [hb] at hd
        cases hd

/-! ## C146 -/

/-- **C146 (well-formed events).** For events with a public key of 64 and a signature of 128 characters the two builds accept the same ones, and neither crashes. -/
theorem C146_agree {H : Hash32} {S : Schnorr} {L : Lib} (hsame : Same S L) {e : Event} (hp : e.pubkey.length = 64) (hs : e.sig.length = 128) :
    ∃ r, checkSignature H L e = .val r ∧ (r = some true ↔ GoNostr.checkSignature H S e = some true) := by
  unfold checkSignature GoNostr.checkSignature
  rw [hexInto_exact (n := 32) (by omega), hexInto_exact (n := 64) (by omega)]
  simp only [Out.val_bind]
  cases hpk : hexDec e.pubkey with
  | none => exact ⟨_, rfl, by simp⟩
  | some pk =>
    simp only
    cases hsg : hexDec e.sig with
    | none => exact ⟨_, rfl, by simp⟩
    | some sg =>
      have l1 := hexDec_length hpk
      have l2 := hexDec_length hsg
      simp only
      rw [hsame.parse pk (by omega)]
      by_cases hq : S.parsePub pk = true
      · rw [if_neg (by simp [hq]), if_neg (by simp [hq])]
        refine ⟨_, rfl, ?_⟩
        rw [hsame.verify sg _ pk (by omega) (by omega) hq]
        by_cases hr : S.parseSig sg = true
        · simp [hr]
        · simp [hr]
      · rw [if_pos hq, if_pos hq]
        exact ⟨_, rfl, by simp⟩

/-- **C146 (nothing is lost).** Every event the default build accepts is accepted by the other. -/
theorem C146_accepts {H : Hash32} {S : Schnorr} {L : Lib} (hsame : Same S L) {e : Event} (h : GoNostr.checkSignature H S e = some true) : checkSignature H L e = .val (some true) := by
  have hlen : e.pubkey.length = 64 ∧ e.sig.length = 128 := by
    unfold GoNostr.checkSignature at h
    split at h
    · cases h
    next pk hpk =>
    split at h
    · cases h
    next hq =>
    split at h
    · cases h
    next sg hsg =>
    split at h
    · cases h
    next hr =>
    have l1 := hexDec_length hpk
    have l2 := hexDec_length hsg
    have l3 := hsame.pubLen pk (by simpa using hq)
    have l4 := hsame.sigLen sg (by simpa using hr)
    omega
  obtain ⟨r, hr, hi⟩ := C146_agree (H := H) hsame hlen.1 hlen.2
  rw [hr, hi.2 h]

/-- **C146 (crashes).** It crashes exactly for events with a public key of at least 66 characters that begins with 66 hexadecimal digits, and, if the public key is hexadecimal and no longer
than 64 characters, for those with a signature of at least 130 that begins with 130. Both come from relays unchecked. -/
theorem C146_crash_iff (H : Hash32) (L : Lib) (e : Event) : checkSignature H L e = .panic ↔
    (66 ≤ e.pubkey.length ∧ ∀ c ∈ e.pubkey.take 66, (hexVal c).isSome) ∨
    (e.pubkey.length ≤ 64 ∧ (∃ b, hexDec e.pubkey = some b) ∧ 130 ≤ e.sig.length ∧ ∀ c ∈ e.sig.take 130, (hexVal c).isSome) := by
  have h1 := hexInto_panic 32 e.pubkey
  have h2 := hexInto_panic 64 e.sig
  have h3 := hexInto_some 32 e.pubkey
  simp only [show 2 * 32 + 2 = 66 from rfl] at h1
  simp only [show 2 * 64 + 2 = 130 from rfl] at h2
  rw [← h1, ← h2]
  unfold checkSignature
  cases hp : hexInto 32 e.pubkey with
  | panic => simp
  | val o =>
    simp only [Out.val_bind]
    cases o with
    | none =>
      constructor
      · intro h; cases h
      · rintro (h | ⟨hl, ⟨b, hb⟩, -⟩)
        · cases h
        have := hexDec_length hb
        have := (h3 _).2 ⟨b, hb, by omega, rfl⟩
        rw [this] at hp
        simp at hp
    | some pk =>
      obtain ⟨b, hb, hl, -⟩ := (h3 pk).1 hp
      have hlen := hexDec_length hb
      cases hs : hexInto 64 e.sig with
      | panic =>
        simp only [Out.panic_bind]
        simp only [true_iff]
        exact .inr ⟨by omega, ⟨b, hb⟩, trivial⟩
      | val o =>
        simp only [Out.val_bind]
        constructor
        · intro h
          cases o with
          | none => cases h
          | some sg => simp only at h; split at h <;> cases h
        · rintro (h | ⟨-, -, h⟩) <;> cases h

/-- **C146 (signing).** With a key of 32 bytes that the library takes and a working random source: the event is from the public key of that key, has its own id and a signature that both
builds accept; nothing else changed. -/
theorem C146_sign {H : Hash32} {S : Schnorr} {L : Lib} (hsame : Same S L) {beyond random : Bytes} {e e' : Event} {sk : Bytes} (hk : sk.length = 64)
    (h : signEvent H L beyond random e sk = .val (e', true)) :
    getPublicKey S sk = some e'.pubkey ∧ checkID H e' = .val true ∧ checkSignature H L e' = .val (some true) ∧ GoNostr.checkSignature H S e' = some true ∧
      e'.createdAt = e.createdAt ∧ e'.kind = e.kind ∧ e'.tags = e.tags ∧ e'.content = e.content := by
  unfold signEvent at h
  split at h
  · simp at h
  next k hd =>
  have hl := hexDec_length hd
  have hk32 : k.length = 32 := by omega
  have ht : (k ++ beyond).take 32 = k := by rw [List.take_append_of_le_length (by omega), List.take_of_length_le (by omega)]
  cases hi : goIndex k 0 with
  | panic => rw [hi] at h; simp at h
  | val c =>
    rw [hi] at h
    simp only [Out.val_bind, ht] at h
    split at h
    · simp at h
    next pub hpub =>
    obtain ⟨p1, p2, p3⟩ := hsame.keypair k pub hk32 hpub
    split at h
    · simp at h
    next sg hsg =>
    simp only [Out.val.injEq, Prod.mk.injEq, and_true] at h
    obtain ⟨s1, s2⟩ := hsame.sign k pub _ random sg hk32 hpub hsg
    subst h
    have hver : GoNostr.checkSignature H S { e with id := hexEnc (H (serialize { e with pubkey := hexEnc pub })).val, pubkey := hexEnc pub, sig := hexEnc sg } = some true := by
      have hv := hsame.verify sg (H (serialize { e with pubkey := hexEnc pub })).val pub s1 p2 p3
      rw [s2] at hv
      have hv' := (Bool.and_eq_true _ _ ▸ hv.symm : S.parseSig sg = true ∧ S.verify sg (H (serialize { e with pubkey := hexEnc pub })).val pub = true)
      simp only [GoNostr.checkSignature, hexDec_hexEnc, p3, hv'.1]
      simpa [serialize, serializeEventInto] using hv'.2
    refine ⟨by simp [getPublicKey, hd, p1], ?_, C146_accepts hsame hver, hver, rfl, rfl, rfl, rfl⟩
    rw [C03_checkID_iff]
    simp [getID, serialize, serializeEventInto]

/-- A C library for the toy scheme. -/
def toyLib : Lib where
  parse := fun pk => pk.length = 32
  verify := fun sg h pk => sg = pk ++ h
  keypair := fun k => if k.length = 32 ∧ k ≠ List.replicate 32 0 then some k else none
  sign := fun k h _ => if h.length = 32 then some (k ++ h) else none

theorem toy_same : Same toySchnorr toyLib where
  pubLen := by simp [toySchnorr]
  sigLen := by simp [toySchnorr]
  parse := by simp [toySchnorr, toyLib]
  verify := by
    intro sg h pk h1 h2 h3
    simp [toySchnorr, toyLib, h1]
  keypair := by
    intro k p hk h
    simp only [toyLib] at h
    split at h
    · cases h; simp [toySchnorr, hk]
    · cases h
  sign := by
    intro k p h r sg hk hp hs
    simp only [toyLib] at hp hs ⊢
    split at hp
    · cases hp
      split at hs
      · cases hs; simp; omega
      · cases hs
    · cases hp

/-- An event signed with the toy library. -/
def toySigned : Event := match signEvent toyHash toyLib [] [] sampleEvent (hexEnc (List.replicate 32 7)) with
  | .val (e, _) => e
  | .panic => sampleEvent

example : signEvent toyHash toyLib [] [] sampleEvent (hexEnc (List.replicate 32 7)) = .val (toySigned, true) := by decide +kernel
example : toySigned.pubkey.length = 64 ∧ toySigned.sig.length = 128 ∧ GoNostr.checkSignature toyHash toySchnorr toySigned = some true := by decide +kernel
example : checkSignature toyHash toyLib toySigned = .val (some true) := by decide +kernel

/-- **C146 (false: both builds accept the same events).** A public key of fewer than 64 digits, or a signature of fewer than 128, is taken as if zeros followed: the event counts as properly
signed, with its own id, in this build only. -/
theorem C146_short_key : ∃ (S : Schnorr) (L : Lib) (H : Hash32) (e : Event), Same S L ∧ e.pubkey.length = 2 ∧ checkSignature H L e = .val (some true) ∧ checkID H e = .val true ∧
    GoNostr.checkSignature H S e ≠ some true :=
  let e : Event := { sampleEvent with pubkey := b! "07", sig := hexEnc (7 :: List.replicate 31 0 ++ List.replicate 32 0xab), id := hexEnc (List.replicate 32 0xab) }
  ⟨toySchnorr, toyLib, toyHash, e, toy_same, rfl, by decide +kernel, by decide +kernel, by decide +kernel⟩

/-- **C146 (false: bad events are refused).** An event whose signature is one byte too long crashes the process. -/
theorem C146_crash : ∃ e : Event, e.pubkey.length = 64 ∧ checkSignature toyHash toyLib e = .panic ∧ GoNostr.checkSignature toyHash toySchnorr e = none :=
  ⟨{ toySigned with sig := toySigned.sig ++ b! "00" }, by decide +kernel, by decide +kernel, by decide +kernel⟩

/-- **C146 (false: a bad key is an error).** The empty key crashes `Sign`; with a key that is too short, whatever lies in memory after it becomes part of the key. -/
theorem C146_sign_short (H : Hash32) (random : Bytes) (e : Event) : (∀ (L : Lib) (beyond : Bytes), signEvent H L beyond random e [] = .panic) ∧
    ∃ (b1 b2 : Bytes) (e1 e2 : Event), signEvent H toyLib b1 random e (b! "07") = .val (e1, true) ∧ signEvent H toyLib b2 random e (b! "07") = .val (e2, true) ∧ e1.pubkey ≠ e2.pubkey := by
  refine ⟨fun L beyond => rfl, List.replicate 31 1, List.replicate 31 2, ?_⟩
  have hd : hexDec (b! "07") = some [7] := by decide +kernel
  have hk1 : ((([7] : Bytes) ++ List.replicate 31 1).take 32) = 7 :: List.replicate 31 1 := by decide
  have hk2 : ((([7] : Bytes) ++ List.replicate 31 2).take 32) = 7 :: List.replicate 31 2 := by decide
  have kp1 : toyLib.keypair (7 :: List.replicate 31 1) = some (7 :: List.replicate 31 1) := by decide
  have kp2 : toyLib.keypair (7 :: List.replicate 31 2) = some (7 :: List.replicate 31 2) := by decide
  have sg : ∀ k (b : Bytes), toyLib.sign k (H b).val random = some (k ++ (H b).val) := fun k b => by simp [toyLib, (H b).2]
  have gi : goIndex ([7] : Bytes) 0 = .val 7 := rfl
  refine ⟨_, _, (by simp only [signEvent, hd, gi, Out.val_bind, hk1, kp1, sg]; rfl), (by simp only [signEvent, hd, gi, Out.val_bind, hk2, kp2, sg]; rfl), ?_⟩
  show hexEnc _ ≠ hexEnc _
  decide +kernel

end GoNostr.Libsecp
