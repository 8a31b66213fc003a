import Verif.Nip19.Bech32
import Verif.Helpers.Theorems
/-!
# C52, C53, C54: nip19 codes
-/

set_option autoImplicit false

namespace GoNostr.Nip19

/-- A 32-byte value as 64 lower-case hexadecimal characters. -/
def IsHex32 (h : Bytes) : Prop := h.length = 64 ∧ ∀ c ∈ h, IsLowerHexByte c

instance (h : Bytes) : Decidable (IsHex32 h) := by unfold IsHex32; infer_instance

theorem IsHex32.dec {h : Bytes} (hh : IsHex32 h) : ∃ b, hexDec h = some b ∧ b.length = 32 ∧ hexEnc b = h := by
  obtain ⟨b, h1, h2⟩ := hexEnc_hexDec_lower hh.2 (by rw [hh.1])
  have := hexDec_length h1
  exact ⟨b, h1, by rw [hh.1] at this; omega, h2⟩

theorem IsHex32.ne_nil {h : Bytes} (hh : IsHex32 h) : h ≠ [] := by
  rintro rfl; simp [IsHex32] at hh

theorem bytesOf_nats (b : Bytes) : bytesOf (nats b) = b := by
  unfold bytesOf nats
  rw [List.map_map]
  conv => rhs; rw [← List.map_id b]
  apply List.map_congr_left
  intro c _
  simp

theorem decode_encodeData (pre data : Bytes) (hp : LowerPrefix pre) :
    ∃ code, encodeData pre data = .ok code ∧ decode code = decodeData pre data := by
  obtain ⟨g, g1, g2, g3⟩ := C51_regroup_roundtrip (nats data) (by
    intro x hx
    obtain ⟨c, _, rfl⟩ := List.mem_map.1 hx
    exact c.toNat_lt)
  obtain ⟨s, s1, s2⟩ := C51_bech32_roundtrip pre g hp g2
  refine ⟨s, ?_, ?_⟩
  · unfold encodeData; rw [g1, Res.ok_bind, s1]
  · unfold decode
    rw [s2, Res.ok_bind]
    simp only
    rw [g3, Res.ok_bind, bytesOf_nats]

/-! ## C52 -/

/-- **C52.** Every 32-byte value in lower-case hexadecimal survives `EncodePublicKey`/`EncodePrivateKey`/`EncodeNote`
followed by `Decode`. -/
theorem C52_keys_roundtrip (h : Bytes) (hh : IsHex32 h) :
    (∃ c, encodePublicKey h = .ok c ∧ decode c = .ok (b! "npub", .str h)) ∧
    (∃ c, encodePrivateKey h = .ok c ∧ decode c = .ok (b! "nsec", .str h)) ∧
    (∃ c, encodeNote h = .ok c ∧ decode c = .ok (b! "note", .str h)) := by
  obtain ⟨b, b1, b2, b3⟩ := hh.dec
  have key : ∀ pre, pre = b! "npub" ∨ pre = b! "nsec" ∨ pre = b! "note" → LowerPrefix pre →
      ∃ c, encodeHex pre h = .ok c ∧ decode c = .ok (pre, .str h) := by
    intro pre hpre hlow
    obtain ⟨c, c1, c2⟩ := decode_encodeData pre b hlow
    refine ⟨c, ?_, ?_⟩
    · unfold encodeHex; rw [b1]; exact c1
    · rw [c2]
      unfold decodeData
      rw [if_pos hpre, if_neg (by simpa using b2), b3]
  exact ⟨key _ (by simp) (by decide +kernel), key _ (by simp) (by decide +kernel), key _ (by simp) (by decide +kernel)⟩

/-- **C52 (rejection).** Whatever is not hexadecimal is refused by the three encoders, and the three decoders refuse any
payload that is not 32 bytes. -/
theorem C52_encode_rejects (h : Bytes) (hh : hexDec h = none) :
    encodePublicKey h = .err () ∧ encodePrivateKey h = .err () ∧ encodeNote h = .err () := by
  unfold encodePublicKey encodePrivateKey encodeNote encodeHex
  rw [hh]
  exact ⟨rfl, rfl, rfl⟩

/-- **C52 (prefixes do not mix).** The code of a value under one prefix is never decoded as another kind of code, and
different values get different codes. -/
theorem C52_codes_injective (h h' : Bytes) (hh : IsHex32 h) (hh' : IsHex32 h') :
    (∀ c, encodePublicKey h = .ok c → encodePublicKey h' = .ok c → h = h') ∧
    (∀ c, encodePublicKey h = .ok c → encodePrivateKey h' ≠ .ok c) ∧
    (∀ c, encodeNote h = .ok c → encodePublicKey h' ≠ .ok c) := by
  obtain ⟨⟨c1, e1, d1⟩, ⟨c2, e2, d2⟩, ⟨c3, e3, d3⟩⟩ := C52_keys_roundtrip h hh
  obtain ⟨⟨k1, f1, g1⟩, ⟨k2, f2, g2⟩, ⟨k3, f3, g3⟩⟩ := C52_keys_roundtrip h' hh'
  refine ⟨?_, ?_, ?_⟩
  · intro c x y
    rw [e1] at x; rw [f1] at y
    cases x; cases y
    rw [d1] at g1
    simpa using g1
  · intro c x y
    rw [e1] at x; rw [f2] at y
    cases x; cases y
    rw [d1] at g2
    simp at g2
  · intro c x y
    rw [e3] at x; rw [f1] at y
    cases x; cases y
    rw [d3] at g1
    simp at g1

/-- A sample key. -/
def sampleHex : Bytes := b! "3bf0c63fcb93463407af97a5e5ee64fa883d107ef9e558472c4eb9aaaefa459d"

example : IsHex32 sampleHex := by decide +kernel
example : encodePublicKey sampleHex = .ok (b! "npub180cvv07tjdrrgpa0j7j7tmnyl2yr6yr7l8j4s3evf6u64th6gkwsyjh6w6") := by
  decide +kernel

/-! ## C53 -/

theorem readTLV_tlv (t : UInt8) (v rest : Bytes) (h : v.length ≤ 255) : readTLV (tlv t v ++ rest) = (t, some v) := by
  have e : (UInt8.ofNat v.length).toNat = v.length := by
    rw [UInt8.toNat_ofNat']; omega
  unfold tlv
  simp only [List.cons_append, readTLV, e]
  rw [if_neg (by rw [List.length_append]; omega), List.take_left]

theorem drop_tlv (t : UInt8) (v rest : Bytes) : (tlv t v ++ rest).drop (2 + v.length) = rest := by
  unfold tlv
  rw [Nat.add_comm]
  simp

/-- The relays a decoder collects. -/
def addRelays (r : Option (List Bytes)) : List Bytes → Option (List Bytes)
  | [] => r
  | v :: vs => addRelays (addRelay r v) vs

theorem addRelays_some (l : List Bytes) (vs : List Bytes) : addRelays (some l) vs = some (l ++ vs) := by
  induction vs generalizing l with
  | nil => simp [addRelays]
  | cons v vs ih => simp [addRelays, addRelay, ih]

/-- `nil` for no relays, else the list. -/
def relaysOf (vs : List Bytes) : Option (List Bytes) := if vs = [] then none else some vs

theorem addRelays_none (vs : List Bytes) : addRelays none vs = relaysOf vs := by
  cases vs with
  | nil => rfl
  | cons v vs => simp [addRelays, addRelay, addRelays_some, relaysOf]

theorem relayEntries_cons (v : Bytes) (vs : List Bytes) : relayEntries (v :: vs) = tlv 1 v ++ relayEntries vs := rfl

theorem relayEntries_length (vs : List Bytes) : vs.length ≤ (relayEntries vs).length := by
  induction vs with
  | nil => simp
  | cons v vs ih => rw [relayEntries_cons, List.length_append]; simp [tlv]; omega

theorem decodeProfile_relays : ∀ (vs : List Bytes) (fuel : Nat) (rest : Bytes) (p : ProfilePointer), (∀ v ∈ vs, v.length ≤ 255) →
    decodeProfile (vs.length + fuel) (relayEntries vs ++ rest) p = decodeProfile fuel rest { p with relays := addRelays p.relays vs } := by
  intro vs
  induction vs with
  | nil => intro fuel rest p _; simp [relayEntries, addRelays]
  | cons v vs ih =>
    intro fuel rest p h
    rw [relayEntries_cons, List.append_assoc, List.length_cons, show vs.length + 1 + fuel = (vs.length + fuel) + 1 by omega, decodeProfile]
    rw [readTLV_tlv _ _ _ (h v List.mem_cons_self)]
    simp only [drop_tlv]
    rw [if_neg (by decide), if_pos trivial, ih fuel rest _ (fun x hx => h x (List.mem_cons_of_mem _ hx))]
    rfl

theorem decodeEvent_relays : ∀ (vs : List Bytes) (fuel : Nat) (rest : Bytes) (p : EventPointer), (∀ v ∈ vs, v.length ≤ 255) →
    decodeEvent (vs.length + fuel) (relayEntries vs ++ rest) p = decodeEvent fuel rest { p with relays := addRelays p.relays vs } := by
  intro vs
  induction vs with
  | nil => intro fuel rest p _; simp [relayEntries, addRelays]
  | cons v vs ih =>
    intro fuel rest p h
    rw [relayEntries_cons, List.append_assoc, List.length_cons, show vs.length + 1 + fuel = (vs.length + fuel) + 1 by omega, decodeEvent]
    rw [readTLV_tlv _ _ _ (h v List.mem_cons_self)]
    simp only [drop_tlv]
    rw [if_neg (by decide), if_pos trivial, ih fuel rest _ (fun x hx => h x (List.mem_cons_of_mem _ hx))]
    rfl

theorem decodeEntity_relays : ∀ (vs : List Bytes) (fuel : Nat) (rest : Bytes) (p : EntityPointer), (∀ v ∈ vs, v.length ≤ 255) →
    decodeEntity (vs.length + fuel) (relayEntries vs ++ rest) p = decodeEntity fuel rest { p with relays := addRelays p.relays vs } := by
  intro vs
  induction vs with
  | nil => intro fuel rest p _; simp [relayEntries, addRelays]
  | cons v vs ih =>
    intro fuel rest p h
    rw [relayEntries_cons, List.append_assoc, List.length_cons, show vs.length + 1 + fuel = (vs.length + fuel) + 1 by omega, decodeEntity]
    rw [readTLV_tlv _ _ _ (h v List.mem_cons_self)]
    simp only [drop_tlv]
    rw [if_neg (by decide), if_pos trivial, ih fuel rest _ (fun x hx => h x (List.mem_cons_of_mem _ hx))]
    rfl

/-- **C53 (nprofile).** Any public key with any relays of at most 255 bytes. -/
theorem C53_nprofile_roundtrip (pk : Bytes) (relays : List Bytes) (hpk : IsHex32 pk) (hr : ∀ v ∈ relays, v.length ≤ 255) :
    ∃ c, encodeProfile pk relays = .ok c ∧ decode c = .ok (b! "nprofile", .profile ⟨pk, relaysOf relays⟩) := by
  obtain ⟨b, b1, b2, b3⟩ := hpk.dec
  obtain ⟨c, c1, c2⟩ := decode_encodeData (b! "nprofile") (tlv 0 b ++ relayEntries relays) (by decide +kernel)
  refine ⟨c, by unfold encodeProfile; rw [b1]; exact c1, ?_⟩
  rw [c2]
  unfold decodeData
  rw [if_neg (by decide +kernel), if_pos rfl]
  have hlen := relayEntries_length relays
  have hn : (tlv 0 b ++ relayEntries relays).length + 1 =
      (relays.length + (((tlv 0 b ++ relayEntries relays).length - 1 - relays.length) + 1)) + 1 := by
    simp only [List.length_append, tlv, List.length_cons]; omega
  rw [hn, decodeProfile, readTLV_tlv _ _ _ (by omega)]
  simp only [drop_tlv]
  rw [if_pos trivial, if_neg (by omega)]
  have := decodeProfile_relays relays (((tlv 0 b ++ relayEntries relays).length - 1 - relays.length) + 1) [] ⟨hexEnc b, none⟩ hr
  rw [List.append_nil] at this
  rw [this, decodeProfile]
  simp only [readTLV, hpk.ne_nil, if_false, Res.ok_bind, Res.pure_eq, addRelays_none, b3]

/-- **C53 (nevent).** Any id with any relays of at most 255 bytes and an author, or none. -/
theorem C53_nevent_roundtrip (id author : Bytes) (relays : List Bytes) (hid : IsHex32 id) (ha : IsHex32 author ∨ author = [])
    (hr : ∀ v ∈ relays, v.length ≤ 255) :
    ∃ c, encodeEvent id relays author = .ok c ∧ decode c = .ok (b! "nevent", .event ⟨id, relaysOf relays, author, 0⟩) := by
  obtain ⟨b, b1, b2, b3⟩ := hid.dec
  have hlen := relayEntries_length relays
  rcases ha with ha | rfl
  · obtain ⟨a, a1, a2, a3⟩ := ha.dec
    have ha' : hexDecPartial author = a := hexDecPartial_eq a1
    obtain ⟨c, c1, c2⟩ := decode_encodeData (b! "nevent") (tlv 0 b ++ relayEntries relays ++ tlv 2 a) (by decide +kernel)
    refine ⟨c, ?_, ?_⟩
    · unfold encodeEvent
      rw [b1]
      simp only [b2, ha', a2, if_true, ne_eq, not_true_eq_false, if_false]
      exact c1
    · rw [c2]
      unfold decodeData
      rw [if_neg (by decide +kernel), if_neg (by decide +kernel), if_pos rfl]
      have hn : (tlv 0 b ++ relayEntries relays ++ tlv 2 a).length + 1 =
          (relays.length + ((((tlv 0 b ++ relayEntries relays ++ tlv 2 a).length - 2 - relays.length) + 1) + 1)) + 1 := by
        simp only [List.length_append, tlv, List.length_cons]; omega
      rw [hn, decodeEvent, List.append_assoc, readTLV_tlv _ _ _ (by omega)]
      simp only [drop_tlv]
      rw [if_pos trivial, if_neg (by omega), decodeEvent_relays relays _ _ _ hr, decodeEvent]
      have e1 := readTLV_tlv 2 a [] (by omega)
      have e2 := drop_tlv 2 a []
      rw [List.append_nil] at e1 e2
      rw [e1]
      simp only [e2]
      rw [if_neg (by decide), if_neg (by decide), if_pos trivial, if_neg (by omega), decodeEvent]
      simp only [readTLV, hid.ne_nil, if_false, Res.ok_bind, Res.pure_eq, addRelays_none, b3, a3]
  · obtain ⟨c, c1, c2⟩ := decode_encodeData (b! "nevent") (tlv 0 b ++ relayEntries relays ++ []) (by decide +kernel)
    refine ⟨c, ?_, ?_⟩
    · unfold encodeEvent
      rw [b1]
      simp only [b2, ne_eq, not_true_eq_false, if_false, hexDecPartial, List.length_nil]
      exact c1
    · rw [c2]
      unfold decodeData
      rw [if_neg (by decide +kernel), if_neg (by decide +kernel), if_pos rfl]
      have hn : (tlv 0 b ++ relayEntries relays ++ []).length + 1 =
          (relays.length + (((tlv 0 b ++ relayEntries relays ++ []).length - 1 - relays.length) + 1)) + 1 := by
        simp only [List.length_append, tlv, List.length_cons]; omega
      rw [hn, decodeEvent, List.append_assoc, readTLV_tlv _ _ _ (by omega)]
      simp only [drop_tlv]
      rw [if_pos trivial, if_neg (by omega), decodeEvent_relays relays _ _ _ hr, decodeEvent]
      simp only [readTLV, hid.ne_nil, if_false, Res.ok_bind, Res.pure_eq, addRelays_none, b3]

theorem beUint32_put (k : Int) (h0 : 0 ≤ k) (h1 : k < 4294967296) : beUint32 (putUint32 k) = .val k.toNat := by
  have e : (k % 4294967296) = k := Int.emod_eq_of_lt h0 h1
  unfold putUint32
  rw [e]
  have hk : k.toNat < 4294967296 := by omega
  generalize k.toNat = n at hk ⊢
  simp only [beUint32, UInt8.toNat_ofNat', Out.val.injEq]
  omega

/-- What `naddr` decoding yields for an encoded entity, for every public key, 32-bit kind, identifier and relays of at
most 255 bytes. -/
theorem naddr_decode (pk identifier : Bytes) (kind : Int) (relays : List Bytes) (hpk : IsHex32 pk) (hk0 : 0 ≤ kind)
    (hk1 : kind < 4294967296) (hi : identifier.length ≤ 255) (hr : ∀ v ∈ relays, v.length ≤ 255) :
    ∃ c, encodeEntity pk kind identifier relays = .ok c ∧ decode c =
      (if kind = 0 ∨ identifier = [] then .err () else .ok (b! "naddr", .entity ⟨pk, kind, identifier, relaysOf relays⟩)) := by
  obtain ⟨b, b1, b2, b3⟩ := hpk.dec
  have hlen := relayEntries_length relays
  obtain ⟨c, c1, c2⟩ := decode_encodeData (b! "naddr") (tlv 0 identifier ++ relayEntries relays ++ tlv 2 b ++ tlv 3 (putUint32 kind))
    (by decide +kernel)
  refine ⟨c, by unfold encodeEntity; rw [b1]; exact c1, ?_⟩
  rw [c2]
  unfold decodeData
  rw [if_neg (by decide +kernel), if_neg (by decide +kernel), if_neg (by decide +kernel), if_pos rfl]
  have hn : (tlv 0 identifier ++ relayEntries relays ++ tlv 2 b ++ tlv 3 (putUint32 kind)).length + 1 =
      (relays.length + (((((tlv 0 identifier ++ relayEntries relays ++ tlv 2 b ++ tlv 3 (putUint32 kind)).length - 3 - relays.length) + 1) + 1) + 1)) + 1 := by
    simp only [List.length_append, tlv, List.length_cons]; omega
  rw [hn, decodeEntity, List.append_assoc, List.append_assoc, readTLV_tlv _ _ _ hi]
  simp only [drop_tlv]
  rw [if_pos trivial, decodeEntity_relays relays _ _ _ hr, decodeEntity, readTLV_tlv _ _ _ (by omega)]
  simp only [drop_tlv]
  rw [if_neg (by decide), if_neg (by decide), if_pos trivial, if_neg (by omega), decodeEntity]
  have e1 := readTLV_tlv 3 (putUint32 kind) [] (by simp [putUint32])
  have e2 := drop_tlv 3 (putUint32 kind) []
  rw [List.append_nil] at e1 e2
  rw [e1]
  simp only [e2]
  rw [if_neg (by decide), if_neg (by decide), if_neg (by decide), if_pos trivial, beUint32_put kind hk0 hk1]
  simp only
  rw [decodeEntity]
  simp only [readTLV, hpk.ne_nil, or_false, addRelays_none, b3]
  have hkk : ((kind.toNat : Int)) = kind := Int.toNat_of_nonneg hk0
  rw [hkk]
  by_cases hz : kind = 0 ∨ identifier = []
  · rw [if_pos hz, if_pos hz]; rfl
  · rw [if_neg hz, if_neg hz]; rfl

/-- **C53 (naddr, partial).** Any public key, non-zero 32-bit kind, non-empty identifier and relays of at most 255 bytes.
Missing: kind 0 and the empty identifier, which NIP-19 allows and the decoder refuses, see
`C53_naddr_empty_identifier_lost`. -/
theorem C53_naddr_roundtrip_partial (pk identifier : Bytes) (kind : Int) (relays : List Bytes) (hpk : IsHex32 pk)
    (hk0 : 0 < kind) (hk1 : kind < 2 ^ 32) (hi0 : identifier ≠ []) (hi : identifier.length ≤ 255) (hr : ∀ v ∈ relays, v.length ≤ 255) :
    ∃ c, encodeEntity pk kind identifier relays = .ok c ∧ decode c = .ok (b! "naddr", .entity ⟨pk, kind, identifier, relaysOf relays⟩) := by
  obtain ⟨c, c1, c2⟩ := naddr_decode pk identifier kind relays hpk (by omega) (by simpa using hk1) hi hr
  refine ⟨c, c1, ?_⟩
  rw [c2, if_neg]
  rintro (h | h)
  · omega
  · exact hi0 h

/-- The full C53 is false: an `naddr` with an empty identifier (the address of a replaceable event) or with kind 0 is
encoded without error, and never decodes. -/
theorem C53_naddr_empty_identifier_lost (pk identifier : Bytes) (kind : Int) (relays : List Bytes) (hpk : IsHex32 pk)
    (hk0 : 0 ≤ kind) (hk1 : kind < 2 ^ 32) (h : identifier = [] ∨ kind = 0) (hi : identifier.length ≤ 255)
    (hr : ∀ v ∈ relays, v.length ≤ 255) :
    ∃ c, encodeEntity pk kind identifier relays = .ok c ∧ decode c = .err () := by
  obtain ⟨c, c1, c2⟩ := naddr_decode pk identifier kind relays hpk hk0 (by simpa using hk1) hi hr
  refine ⟨c, c1, ?_⟩
  rw [c2, if_pos h.symm]

/-- The full C53 is false: a relay URL of 256 bytes is written with length byte 0; the code is produced without error and
decodes to other relays. -/
theorem C53_long_relay_corrupted : ∃ c, encodeProfile sampleHex [List.replicate 256 120] = .ok c ∧
    ∃ p, decode c = .ok (b! "nprofile", .profile p) ∧ p.relays ≠ some [List.replicate 256 120] := by
  obtain ⟨b, hb, _, _⟩ := IsHex32.dec (h := sampleHex) (by decide +kernel)
  obtain ⟨c, c1, c2⟩ := decode_encodeData (b! "nprofile") (tlv 0 b ++ relayEntries [List.replicate 256 120]) (by decide +kernel)
  refine ⟨c, by unfold encodeProfile; rw [hb]; exact c1, ⟨sampleHex, some [[]]⟩, ?_, by decide +kernel⟩
  rw [c2]
  have : b = hexDecPartial sampleHex := (hexDecPartial_eq hb).symm
  subst this
  decide +kernel

/-- A pointer a code can carry: hexadecimal ids and keys, relays of at most 255 bytes and not an empty non-nil slice, no
event kind (never encoded), entities with an identifier and a non-zero kind. -/
def Carryable : Pointer → Prop
  | .profile p => IsHex32 p.publicKey ∧ p.relays ≠ some [] ∧ ∀ v ∈ p.relays.getD [], v.length ≤ 255
  | .event p => IsHex32 p.id ∧ (IsHex32 p.author ∨ p.author = []) ∧ p.kind = 0 ∧ p.relays ≠ some [] ∧ ∀ v ∈ p.relays.getD [], v.length ≤ 255
  | .entity p => IsHex32 p.publicKey ∧ 0 < p.kind ∧ p.kind < 2 ^ 32 ∧ p.identifier ≠ [] ∧ p.identifier.length ≤ 255 ∧
      p.relays ≠ some [] ∧ ∀ v ∈ p.relays.getD [], v.length ≤ 255

theorem relaysOf_getD {r : Option (List Bytes)} (h : r ≠ some []) : relaysOf (r.getD []) = r := by
  cases r with
  | none => rfl
  | some l =>
    have : l ≠ [] := fun e => h (by rw [e])
    simp [relaysOf, this]

/-- **C53 (pointers).** `ToPointer(EncodePointer(p)) = p` for every pointer the codes can carry. -/
theorem C53_pointer_roundtrip_partial (p : Pointer) (h : Carryable p) : toPointer (encodePointer p) = .ok p := by
  cases p with
  | profile p =>
    obtain ⟨pk, relays⟩ := p
    obtain ⟨h1, h2, h3⟩ := h
    simp only at h1 h2 h3
    cases relays with
    | none =>
      obtain ⟨⟨c, e, d⟩, _⟩ := C52_keys_roundtrip pk h1
      simp only [encodePointer, e, orEmpty, toPointer, d, Res.ok_bind, if_true, Res.pure_eq]
    | some l =>
      obtain ⟨c, e, d⟩ := C53_nprofile_roundtrip pk l h1 h3
      have hl : l ≠ [] := fun e => h2 (by rw [e])
      simp only [encodePointer, e, orEmpty, toPointer, d, Res.ok_bind]
      rw [if_neg (by decide +kernel), if_pos trivial]
      simp [relaysOf, hl]
  | event p =>
    obtain ⟨id, relays, author, kind⟩ := p
    obtain ⟨h1, h2, h3, h4, h5⟩ := h
    simp only at h1 h2 h3 h4 h5
    subst h3
    obtain ⟨c, e, d⟩ := C53_nevent_roundtrip id author (relays.getD []) h1 h2 h5
    simp only [encodePointer, e, orEmpty, toPointer, d, Res.ok_bind]
    rw [if_neg (by decide +kernel), if_neg (by decide +kernel), if_pos trivial, relaysOf_getD h4]
    rfl
  | entity p =>
    obtain ⟨pk, kind, ident, relays⟩ := p
    obtain ⟨h1, h2, h3, h4, h5, h6, h7⟩ := h
    simp only at h1 h2 h3 h4 h5 h6 h7
    obtain ⟨c, e, d⟩ := C53_naddr_roundtrip_partial pk ident kind (relays.getD []) h1 h2 h3 h4 h5 h7
    simp only [encodePointer, e, orEmpty, toPointer, d, Res.ok_bind]
    rw [if_neg (by decide +kernel), if_neg (by decide +kernel), if_neg (by decide +kernel), if_neg (by decide +kernel), if_pos trivial,
      relaysOf_getD h6]
    rfl

/-- An event pointer's kind is never encoded: whatever it was, it comes back as 0. -/
theorem C53_event_kind_lost (id author : Bytes) (kind : Int) (relays : Option (List Bytes)) (hid : IsHex32 id)
    (ha : IsHex32 author ∨ author = []) (hr : relays ≠ some []) (hv : ∀ v ∈ relays.getD [], v.length ≤ 255) :
    toPointer (encodePointer (.event ⟨id, relays, author, kind⟩)) = .ok (.event ⟨id, relays, author, 0⟩) := by
  have := C53_pointer_roundtrip_partial (.event ⟨id, relays, author, 0⟩) ⟨hid, ha, rfl, hr, hv⟩
  exact this

example : Carryable (.entity ⟨sampleHex, 30023, b! "x", some [b! "wss://a.b"]⟩) := by
  refine ⟨by decide +kernel, by decide, by decide, by decide, by decide, by decide, by decide⟩

/-! ## C54 -/

/-- A sequence of complete TLV entries. -/
def IsTLVs (p : Bytes) : Prop := ∃ l : List (UInt8 × Bytes), p = (l.map (fun e => tlv e.1 e.2)).flatten ∧ ∀ e ∈ l, e.2.length ≤ 255

theorem readTLV_some {data : Bytes} {t : UInt8} {v : Bytes} (h : readTLV data = (t, some v)) :
    data = tlv t v ++ data.drop (2 + v.length) ∧ v.length ≤ 255 := by
  match data with
  | [] => simp [readTLV] at h
  | [_] => simp [readTLV] at h
  | a :: n :: rest =>
    simp only [readTLV] at h
    split at h
    · simp at h
    · rename_i hlen
      simp only [Prod.mk.injEq, Option.some.injEq] at h
      obtain ⟨rfl, rfl⟩ := h
      have h1 : (rest.take n.toNat).length = n.toNat := by rw [List.length_take]; omega
      have hn := n.toNat_lt
      refine ⟨?_, by omega⟩
      rw [h1, tlv, h1, Nat.add_comm]
      simp

theorem decodeProfile_no_panic : ∀ (fuel : Nat) (data : Bytes) (p : ProfilePointer), decodeProfile fuel data p ≠ .panic := by
  intro fuel
  induction fuel with
  | zero => intro data p; simp [decodeProfile]
  | succ f ih =>
    intro data p
    rw [decodeProfile]
    split
    · split <;> simp
    · simp only
      split
      · split
        · simp
        · exact ih _ _
      · split <;> exact ih _ _

theorem decodeEvent_no_panic : ∀ (fuel : Nat) (data : Bytes) (p : EventPointer), decodeEvent fuel data p ≠ .panic := by
  intro fuel
  induction fuel with
  | zero => intro data p; simp [decodeEvent]
  | succ f ih =>
    intro data p
    rw [decodeEvent]
    split
    · split <;> simp
    · rename_i t v _
      simp only
      split
      · split
        · simp
        · exact ih _ _
      · split
        · exact ih _ _
        · split
          · split
            · simp
            · exact ih _ _
          · split
            · split
              · simp
              · rename_i h4
                match v, h4 with
                | [a, b, c, d], _ => simp only [beUint32]; exact ih _ _
                | [], h => simp at h
                | [_], h => simp at h
                | [_, _], h => simp at h
                | [_, _, _], h => simp at h
                | _ :: _ :: _ :: _ :: _ :: _, h => simp at h
            · exact ih _ _

theorem decodeEntity_panic : ∀ (fuel : Nat) (data : Bytes) (p : EntityPointer), decodeEntity fuel data p = .panic →
    ∃ pre v rest, data = pre ++ tlv 3 v ++ rest ∧ IsTLVs pre ∧ v.length < 4 := by
  intro fuel
  induction fuel with
  | zero => intro data p h; simp [decodeEntity] at h
  | succ f ih =>
    intro data p h
    rw [decodeEntity] at h
    split at h
    · split at h <;> simp at h
    · rename_i t v hr
      obtain ⟨e, hv⟩ := readTLV_some hr
      have step : ∀ q, decodeEntity f (data.drop (2 + v.length)) q = .panic → ∃ pre v rest, data = pre ++ tlv 3 v ++ rest ∧ IsTLVs pre ∧ v.length < 4 := by
        intro q hq
        obtain ⟨pre, w, rest, h1, ⟨l, h2, h3⟩, h4⟩ := ih _ _ hq
        refine ⟨tlv t v ++ pre, w, rest, ?_, ⟨(t, v) :: l, by simp [h2], ?_⟩, h4⟩
        · rw [e, h1]; simp
        · intro x hx
          rcases List.mem_cons.1 hx with rfl | hx
          · exact hv
          · exact h3 x hx
      simp only at h
      split at h
      · exact step _ h
      · split at h
        · exact step _ h
        · split at h
          · split at h
            · simp at h
            · exact step _ h
          · split at h
            · rename_i ht
              subst ht
              cases hb : beUint32 v with
              | val k => rw [hb] at h; exact step _ h
              | panic =>
                refine ⟨[], v, data.drop (2 + v.length), by simpa using e, ⟨[], rfl, by simp⟩, ?_⟩
                match v, hb with
                | [], _ => simp
                | [_], _ => simp
                | [_, _], _ => simp
                | [_, _, _], _ => simp
                | _ :: _ :: _ :: _ :: _, hb => simp [beUint32] at hb
            · exact step _ h

theorem bechDecode_no_panic (s : Bytes) : bechDecode s ≠ .panic := by
  unfold bechDecode
  split
  · simp
  · split
    · simp
    · split
      · simp
      · simp only
        split
        · simp
        · split
          · simp
          · split
            · simp
            · split <;> simp

theorem convertBits_no_panic (d : List Nat) (a b : Nat) (p : Bool) : convertBits d a b p ≠ .panic := by
  unfold convertBits
  simp only
  split
  · simp
  · split
    · simp
    · split <;> simp

/-- **C54 (partial).** `Decode` panics only on a checksummed `naddr` payload with a kind entry of fewer than four bytes
after complete entries; on every other string it returns a value or an error. Missing: those payloads, on which it does
panic, see `C54_naddr_short_kind_panics`. -/
theorem C54_decode_no_panic_partial (code : Bytes) (h : decode code = .panic) :
    ∃ bits5 data pre v rest, bechDecode code = .ok (b! "naddr", bits5) ∧ convertBits bits5 5 8 false = .ok data ∧
      bytesOf data = pre ++ tlv 3 v ++ rest ∧ IsTLVs pre ∧ v.length < 4 := by
  unfold decode at h
  cases hb : bechDecode code with
  | panic => exact absurd hb (bechDecode_no_panic _)
  | err e => rw [hb] at h; simp at h
  | ok r =>
    obtain ⟨pre, bits5⟩ := r
    rw [hb, Res.ok_bind] at h
    simp only at h
    cases hc : convertBits bits5 5 8 false with
    | panic => exact absurd hc (convertBits_no_panic _ _ _ _)
    | err e => rw [hc] at h; simp at h
    | ok data =>
      rw [hc, Res.ok_bind] at h
      unfold decodeData at h
      split at h
      · split at h <;> simp at h
      · split at h
        · cases hp : decodeProfile ((bytesOf data).length + 1) (bytesOf data) { publicKey := [] } with
          | panic => exact absurd hp (decodeProfile_no_panic _ _ _)
          | err e => rw [hp] at h; simp at h
          | ok p => rw [hp] at h; simp at h
        · split at h
          · cases hp : decodeEvent ((bytesOf data).length + 1) (bytesOf data) { id := [] } with
            | panic => exact absurd hp (decodeEvent_no_panic _ _ _)
            | err e => rw [hp] at h; simp at h
            | ok p => rw [hp] at h; simp at h
          · split at h
            · rename_i hpre
              subst hpre
              cases hp : decodeEntity ((bytesOf data).length + 1) (bytesOf data) { publicKey := [] } with
              | panic =>
                obtain ⟨q, v, rest, h1, h2, h3⟩ := decodeEntity_panic _ _ _ hp
                exact ⟨bits5, data, q, v, rest, rfl, hc, h1, h2, h3⟩
              | err e => rw [hp] at h; simp at h
              | ok p => rw [hp] at h; simp at h
            · simp at h

/-- The full C54 is false: a well-formed `naddr` code with a kind entry of one byte makes `Decode` panic. -/
theorem C54_naddr_short_kind_panics : ∃ code, encodeData (b! "naddr") (tlv 3 [1]) = .ok code ∧ decode code = .panic := by
  obtain ⟨c, c1, c2⟩ := decode_encodeData (b! "naddr") (tlv 3 [1]) (by decide +kernel)
  exact ⟨c, c1, by rw [c2]; decide +kernel⟩

/-- `ToPointer` adds no panic of its own: its type assertions always succeed. -/
theorem C54_toPointer_no_new_panic (code : Bytes) (h : toPointer code = .panic) : decode code = .panic := by
  unfold toPointer at h
  cases hd : decode code with
  | panic => rfl
  | err e => rw [hd] at h; simp at h
  | ok r =>
    exfalso
    obtain ⟨pre, v⟩ := r
    rw [hd, Res.ok_bind] at h
    unfold decode at hd
    cases hb : bechDecode code with
    | panic => exact absurd hb (bechDecode_no_panic _)
    | err e => rw [hb] at hd; simp at hd
    | ok q =>
      obtain ⟨p0, bits5⟩ := q
      rw [hb, Res.ok_bind] at hd
      simp only at hd
      cases hc : convertBits bits5 5 8 false with
      | panic => exact absurd hc (convertBits_no_panic _ _ _ _)
      | err e => rw [hc] at hd; simp at hd
      | ok data =>
        rw [hc, Res.ok_bind] at hd
        unfold decodeData at hd
        split at hd
        · rename_i hpre
          split at hd
          · simp at hd
          · simp only [Res.ok.injEq, Prod.mk.injEq] at hd
            obtain ⟨rfl, rfl⟩ := hd
            rcases hpre with rfl | rfl | rfl <;> simp at h
        · split at hd
          · cases hp : decodeProfile ((bytesOf data).length + 1) (bytesOf data) { publicKey := [] } with
            | panic => rw [hp] at hd; simp at hd
            | err e => rw [hp] at hd; simp at hd
            | ok p =>
              rw [hp] at hd
              simp only [Res.ok_bind, Res.pure_eq, Res.ok.injEq, Prod.mk.injEq] at hd
              obtain ⟨rfl, rfl⟩ := hd
              rename_i hpre
              subst hpre
              simp at h
          · split at hd
            · cases hp : decodeEvent ((bytesOf data).length + 1) (bytesOf data) { id := [] } with
              | panic => rw [hp] at hd; simp at hd
              | err e => rw [hp] at hd; simp at hd
              | ok p =>
                rw [hp] at hd
                simp only [Res.ok_bind, Res.pure_eq, Res.ok.injEq, Prod.mk.injEq] at hd
                obtain ⟨rfl, rfl⟩ := hd
                rename_i hpre
                subst hpre
                simp at h
            · split at hd
              · cases hp : decodeEntity ((bytesOf data).length + 1) (bytesOf data) { publicKey := [] } with
                | panic => rw [hp] at hd; simp at hd
                | err e => rw [hp] at hd; simp at hd
                | ok p =>
                  rw [hp] at hd
                  simp only [Res.ok_bind, Res.pure_eq, Res.ok.injEq, Prod.mk.injEq] at hd
                  obtain ⟨rfl, rfl⟩ := hd
                  rename_i hpre
                  subst hpre
                  simp at h
              · simp at hd

end GoNostr.Nip19
