import Verif.Negentropy.Model
import Verif.Base.Index
import Mathlib.Tactic.Ring
import Mathlib.Tactic.Linarith
/-! # Varints, timestamps and bounds survive the wire (C44, C45) -/

set_option autoImplicit false

namespace GoNostr.Neg

theorem hexEnc_append (a b : Bytes) : hexEnc (a ++ b) = hexEnc a ++ hexEnc b := by
  induction a with
  | nil => rfl
  | cons x a ih => simp [hexEnc, ih]

/-- A reader that has consumed `pre` and has `rest` in front of it. -/
def rd (pre rest : Bytes) : Reader := ⟨pre ++ rest, pre.length⟩

theorem rd_len (pre rest : Bytes) : (rd pre rest).len = rest.length := by
  simp [rd, Reader.len]

theorem readString_rd (pre s rest : Bytes) (n : Int) (h : n = s.length) :
    (rd pre (s ++ rest)).readString n = .ok (s, rd (pre ++ s) rest) := by
  subst h
  have h1 : ¬ (((pre ++ (s ++ rest)).length : Int) < (pre.length : Int) + s.length) := by
    simp
  have h2 := goSlice_split pre s rest
  unfold Reader.readString rd
  rw [if_neg h1]
  have h3 : goSlice (pre ++ (s ++ rest)) (pre.length : Int) ((pre.length : Int) + (s.length : Int)) = .val s := by
    simpa using h2
  rw [h3]
  simp

theorem readString_rd_short (pre rest : Bytes) (n : Nat) (h : rest.length < n) (hb : pre.length + n < 2 ^ 63) :
    (rd pre rest).readString n = .err () := by
  have h1 : (((pre ++ rest).length : Int) < (pre.length : Int) + n) := by
    simp; omega
  have h2 : ¬ ((2 : Int) ^ 63 ≤ (pre.length : Int) + n) := by
    have : ((2 : Nat) ^ 63 : Nat) = ((2 : Int) ^ 63) := by norm_num
    omega
  unfold Reader.readString rd
  rw [if_pos h1, if_neg h2]

theorem readHexByte_rd (pre rest : Bytes) (b : UInt8) :
    (rd pre (hexEnc [b] ++ rest)).readHexByte = .ok (b, rd (pre ++ hexEnc [b]) rest) := by
  have hl : (hexEnc [b]).length = 2 := by simp
  have h1 : ¬ (((pre ++ (hexEnc [b] ++ rest)).length : Int) < (pre.length : Int) + 2) := by
    simp
  have h2 := goSlice_split pre (hexEnc [b]) rest
  unfold Reader.readHexByte rd
  rw [if_neg h1]
  have h3 : goSlice (pre ++ (hexEnc [b] ++ rest)) (pre.length : Int) ((pre.length : Int) + 2) = .val (hexEnc [b]) := by
    rw [hl] at h2; simpa using h2
  rw [h3]
  simp

/-- Value of a list of base-128 digits, most significant first, on top of `r`. -/
def digVal (r : Nat) (ds : List Nat) : Nat := ds.foldl (fun a d => a * 128 + d) r

theorem digVal_append (r : Nat) (a b : List Nat) : digVal r (a ++ b) = digVal (digVal r a) b := by
  simp [digVal]

theorem digVal_ge (ds : List Nat) : ∀ r, r ≤ digVal r ds := by
  induction ds with
  | nil => intro r; simp [digVal]
  | cons d ds ih =>
    intro r
    have := ih (r * 128 + d)
    have : digVal r (d :: ds) = digVal (r * 128 + d) ds := rfl
    omega

/-- The digit loop produces the base-128 digits when there are at most `idx` of them, and panics otherwise. -/
theorem encDigits_spec : ∀ (idx n : Nat) (acc : Bytes),
    (n < 128 ^ idx → ∃ ds : List Nat, encDigits idx n acc = .val (ds.map UInt8.ofNat ++ acc) ∧ (∀ d ∈ ds, d < 128) ∧
      digVal 0 ds = n ∧ (n ≠ 0 → ds ≠ [])) ∧
    (128 ^ idx ≤ n → encDigits idx n acc = .panic) := by
  intro idx
  induction idx with
  | zero =>
    intro n acc
    refine ⟨fun h => ?_, fun h => ?_⟩
    · have : n = 0 := by simpa using h
      subst this
      exact ⟨[], by simp [encDigits], by simp, rfl, by simp⟩
    · have : n ≠ 0 := by simp at h; omega
      unfold encDigits; simp [this]
  | succ idx ih =>
    intro n acc
    by_cases h0 : n = 0
    · subst h0
      refine ⟨fun _ => ⟨[], by simp [encDigits], by simp, rfl, by simp⟩, fun h => ?_⟩
      have : 0 < 128 ^ (idx + 1) := Nat.pos_of_ne_zero (by positivity)
      omega
    · have e : encDigits (idx + 1) n acc = encDigits idx (n / 128) (UInt8.ofNat (n % 128) :: acc) := by
        conv_lhs => unfold encDigits
        simp [h0]
      refine ⟨fun h => ?_, fun h => ?_⟩
      · have h1 : n / 128 < 128 ^ idx := by
          rw [Nat.div_lt_iff_lt_mul (by norm_num)]; rwa [pow_succ] at h
        obtain ⟨ds, e1, e2, e3, _⟩ := (ih (n / 128) (UInt8.ofNat (n % 128) :: acc)).1 h1
        refine ⟨ds ++ [n % 128], ?_, ?_, ?_, by simp⟩
        · rw [e, e1]; simp
        · intro d hd
          rcases List.mem_append.1 hd with h | h
          · exact e2 d h
          · simp at h; omega
        · rw [digVal_append, e3]
          simp [digVal]; omega
      · rw [e]
        apply (ih _ _).2
        rw [Nat.le_div_iff_mul_le (by norm_num)]; rwa [pow_succ] at h

theorem wrap64_id {x : Int} (h0 : -2 ^ 63 ≤ x) (h1 : x < 2 ^ 63) : wrap64 x = x := by
  unfold wrap64
  rw [Int.emod_eq_of_lt]
  · ring
  · linarith
  · have : (2:Int) ^ 64 = 2 ^ 63 + 2 ^ 63 := by norm_num
    linarith

theorem low7 : ∀ b : UInt8, (b.toNat < 128 → (b &&& 127).toNat = b.toNat ∧ b &&& 128 = 0) ∧
    (b.toNat < 128 → ((b ||| 0x80) &&& 127).toNat = b.toNat ∧ (b ||| 0x80) &&& 128 ≠ 0) := by decide +kernel

theorem readLoop_digits : ∀ (ds : List Nat) (fuel : Nat) (pre rest : Bytes) (r : Nat), ds ≠ [] → (∀ d ∈ ds, d < 128) →
    ds.length ≤ fuel → digVal r ds < 2 ^ 63 →
    readVarIntLoop fuel (rd pre (hexEnc (setHigh (ds.map UInt8.ofNat)) ++ rest)) (r : Int) =
      .ok ((digVal r ds : Nat), rd (pre ++ hexEnc (setHigh (ds.map UInt8.ofNat))) rest)
  | [], _, _, _, _, h, _, _, _ => absurd rfl h
  | d :: ds, 0, _, _, _, _, _, hf, _ => by simp at hf
  | d :: ds, fuel + 1, pre, rest, r, _, hd, hf, hv => by
    have hd0 : d < 128 := hd d (by simp)
    have ht : (UInt8.ofNat d).toNat = d := by
      rw [UInt8.toNat_ofNat']; exact Nat.mod_eq_of_lt (by omega)
    have hv' : digVal r (d :: ds) = digVal (r * 128 + d) ds := rfl
    have hr : r * 128 + d < 2 ^ 63 := lt_of_le_of_lt (digVal_ge ds _) (hv' ▸ hv)
    have hw : wrap64 ((r : Int) * 128) = (r : Int) * 128 := by
      have : ((r * 128 : Nat) : Int) < ((2 ^ 63 : Nat) : Int) := by exact_mod_cast (by omega : r * 128 < 2 ^ 63)
      apply wrap64_id
      · have : (0 : Int) ≤ (r : Int) * 128 := by positivity
        have : (-2 ^ 63 : Int) ≤ 0 := by norm_num
        linarith
      · push_cast at this; exact this
    cases ds with
    | nil =>
      have hb := ((low7 (UInt8.ofNat d)).1 (by omega))
      have e : setHigh ([d].map UInt8.ofNat) = [UInt8.ofNat d] := rfl
      rw [e]
      unfold readVarIntLoop
      rw [readHexByte_rd]
      simp only [Res.ok_bind, hb.2, if_true, Res.pure_eq, hw, hb.1, ht]
      simp [digVal]
    | cons d2 ds =>
      have hb := ((low7 (UInt8.ofNat d)).2 (by omega))
      have e : setHigh ((d :: d2 :: ds).map UInt8.ofNat) = (UInt8.ofNat d ||| 0x80) :: setHigh ((d2 :: ds).map UInt8.ofNat) := rfl
      have e2 : hexEnc (setHigh ((d :: d2 :: ds).map UInt8.ofNat)) =
        hexEnc [UInt8.ofNat d ||| 0x80] ++ hexEnc (setHigh ((d2 :: ds).map UInt8.ofNat)) := by
        rw [e, ← hexEnc_append]; rfl
      have ih := readLoop_digits (d2 :: ds) fuel (pre ++ hexEnc [UInt8.ofNat d ||| 0x80]) rest (r * 128 + d) (by simp)
        (fun x hx => hd x (List.mem_cons_of_mem _ hx)) (by simpa using hf) (hv' ▸ hv)
      rw [e2, List.append_assoc]
      unfold readVarIntLoop
      rw [readHexByte_rd]
      simp only [Res.ok_bind, hb.2, if_false, hw, hb.1, ht]
      push_cast at ih
      rw [ih, hv']
      simp

theorem setHigh_length : ∀ l : Bytes, (setHigh l).length = l.length
  | [] => rfl
  | [_] => rfl
  | _ :: b :: l => by simp [setHigh, setHigh_length (b :: l)]

/-- The bytes `EncodeVarInt` writes for a small non-negative integer, read back with anything around them. -/
theorem varInt_roundtrip (n : Nat) (h : n < 2 ^ 56) : ∃ e : Bytes, e ≠ [] ∧ encodeVarInt n = .val e ∧
    (∀ w, writeVarInt w n = .val (w ++ hexEnc e)) ∧
    ∀ pre rest, readVarInt (rd pre (hexEnc e ++ rest)) = .ok ((n : Int), rd (pre ++ hexEnc e) rest) := by
  by_cases h0 : n = 0
  · subst h0
    refine ⟨[0], by simp, by simp [encodeVarInt], by simp [writeVarInt], fun pre rest => ?_⟩
    have := readLoop_digits [0] ((rd pre (hexEnc [0] ++ rest)).source.length + 1) pre rest 0 (by simp) (by simp)
      (by simp) (by simp [digVal])
    simpa [readVarInt, digVal, setHigh] using this
  · obtain ⟨ds, e1, e2, e3, e4⟩ := (encDigits_spec 8 n []).1 (by rw [show (128:Nat) ^ 8 = 2 ^ 56 by norm_num]; exact h)
    have hds := e4 h0
    have hne : setHigh (ds.map UInt8.ofNat) ≠ [] := by
      intro h
      have := congrArg List.length h
      rw [setHigh_length] at this
      simp at this; exact hds this
    have hn0 : ¬ ((n : Int) = 0) := by exact_mod_cast h0
    have hnn : ¬ ((n : Int) < 0) := by omega
    have he : encodeVarInt n = .val (setHigh (ds.map UInt8.ofNat)) := by
      unfold encodeVarInt
      simp only [if_neg hn0, if_neg hnn, Int.toNat_natCast, e1]
      simp
    refine ⟨setHigh (ds.map UInt8.ofNat), hne, he, ?_, fun pre rest => ?_⟩
    · intro w
      unfold writeVarInt
      rw [if_neg hn0, he]
      simp
    · have := readLoop_digits ds ((rd pre (hexEnc (setHigh (ds.map UInt8.ofNat)) ++ rest)).source.length + 1) pre rest 0
        hds e2 (by simp [rd, setHigh_length]; omega) (by rw [e3]; exact lt_trans h (by norm_num))
      rw [e3] at this
      exact_mod_cast this

/-! ## C44 -/

/-- **C44.** For every `n < 2^56` the encoder produces bytes from which the decoder, wherever they stand in a message and
whatever follows, reads back `n`, ending exactly behind them. -/
theorem C44_varint_roundtrip (n : Nat) (h : n < 2 ^ 56) (before after : Bytes) : ∃ e : Bytes, encodeVarInt n = .val e ∧
    readVarInt ⟨before ++ hexEnc e ++ after, before.length⟩ =
      .ok ((n : Int), ⟨before ++ hexEnc e ++ after, before.length + 2 * e.length⟩) := by
  obtain ⟨e, _, h1, _, h2⟩ := varInt_roundtrip n h
  refine ⟨e, h1, ?_⟩
  have := h2 before after
  simpa [rd] using this

/-- **C44.** Every other value of Go's `int` (negative, or at least 2^56) makes the encoder panic: nothing is
mis-encoded. -/
theorem C44_out_of_range_panics (n : Int) : encodeVarInt n = .panic ↔ n < 0 ∨ 2 ^ 56 ≤ n := by
  constructor
  · intro hp
    by_contra hc
    have h0 : 0 ≤ n := by omega
    obtain ⟨m, rfl⟩ := Int.eq_ofNat_of_zero_le h0
    have hm : m < 2 ^ 56 := by
      have : ¬ ((2:Int) ^ 56 ≤ m) := fun h => hc (Or.inr h)
      have h2 : (m : Int) < 2 ^ 56 := by omega
      exact_mod_cast h2
    obtain ⟨e, _, h1, _⟩ := varInt_roundtrip m hm
    rw [h1] at hp; cases hp
  · intro h
    unfold encodeVarInt
    rcases h with h | h
    · have : n ≠ 0 := by omega
      simp [this, h]
    · have h1 : n ≠ 0 := by
        intro e; rw [e] at h; norm_num at h
      have h2 : ¬ n < 0 := by
        have : (0:Int) ≤ 2 ^ 56 := by norm_num
        omega
      rw [if_neg h1, if_neg h2]
      have h3 : 128 ^ 8 ≤ n.toNat := by
        have : ((128 ^ 8 : Nat) : Int) ≤ n := by norm_num; norm_num at h; exact h
        omega
      rw [(encDigits_spec 8 n.toNat []).2 h3]
      rfl

/-- Distinct values have distinct encodings. -/
theorem C44_injective (n m : Nat) (e : Bytes) (hn : encodeVarInt n = .val e) (hm : encodeVarInt m = .val e) : n = m := by
  have bound : ∀ k : Nat, encodeVarInt k = .val e → k < 2 ^ 56 := by
    intro k hk
    by_contra hc
    have : encodeVarInt k = .panic := (C44_out_of_range_panics k).2 (Or.inr (by exact_mod_cast (by omega : 2 ^ 56 ≤ k)))
    rw [hk] at this; cases this
  obtain ⟨e1, a1, b1⟩ := C44_varint_roundtrip n (bound n hn) [] []
  obtain ⟨e2, a2, b2⟩ := C44_varint_roundtrip m (bound m hm) [] []
  rw [hn] at a1; rw [hm] at a2
  cases a1; cases a2
  rw [b1] at b2
  injection b2 with b2
  injection b2 with b2 _
  exact_mod_cast b2

example : encodeVarInt 300 = .val [0x82, 0x2c] ∧ encodeVarInt 72057594037927935 = .val [255, 255, 255, 255, 255, 255, 255, 127] ∧
    encodeVarInt 72057594037927936 = .panic ∧ encodeVarInt (-1) = .panic := by decide +kernel

/-! ## Bounds -/

/-- The hex text `writeVarInt` appends. -/
def vi (n : Nat) : Bytes := match encodeVarInt n with | .val e => hexEnc e | .panic => []

theorem vi_write (n : Nat) (h : n < 2 ^ 56) (w : Bytes) : writeVarInt w n = .val (w ++ vi n) := by
  obtain ⟨e, _, h1, h2, _⟩ := varInt_roundtrip n h
  simp only [vi, h1]; exact h2 w

theorem vi_read (n : Nat) (h : n < 2 ^ 56) (pre rest : Bytes) :
    readVarInt (rd pre (vi n ++ rest)) = .ok ((n : Int), rd (pre ++ vi n) rest) := by
  obtain ⟨e, _, h1, _, h2⟩ := varInt_roundtrip n h
  simp only [vi, h1]; exact h2 pre rest

theorem vi_ne_nil (n : Nat) (h : n < 2 ^ 56) : 0 < (vi n).length := by
  obtain ⟨e, h0, h1, _, h2⟩ := varInt_roundtrip n h
  simp only [vi, h1]
  have := List.length_pos_iff.2 h0
  simp; omega

/-- A bound that may follow one with timestamp `last`: infinite, or not earlier and less than 2^56 - 1 seconds later;
its id is whole bytes. -/
def BoundOK (last : Int) (b : Item) : Prop :=
  (b.ts = maxTimestamp ∨ (last ≤ b.ts ∧ b.ts - last + 1 < 2 ^ 56 ∧ -2 ^ 63 ≤ last ∧ b.ts < 2 ^ 63)) ∧
  b.id.length % 2 = 0 ∧ b.id.length / 2 < 2 ^ 56

/-- The wire form of a bound. -/
def encBound (last : Int) (b : Item) : Bytes :=
  (if b.ts = maxTimestamp then vi 0 else vi (b.ts - last + 1).toNat) ++ (vi (b.id.length / 2) ++ b.id)

theorem writeBound_eq (last : Int) (b : Item) (h : BoundOK last b) (w : Bytes) :
    writeBound last w b = .val (w ++ encBound last b) := by
  obtain ⟨h1, h2, h3⟩ := h
  unfold writeBound writeTimestamp encBound
  by_cases hm : b.ts = maxTimestamp
  · have := vi_write 0 (by norm_num) w
    simp only [Nat.cast_zero] at this
    simp only [hm, if_true, this, Out.val_bind, vi_write _ h3, Out.pure_eq, List.append_assoc]
  · rcases h1 with h1 | ⟨a, c, d, e⟩
    · exact absurd h1 hm
    · have hd : wrap64 (b.ts - last) = b.ts - last := by
        have : (2:Int) ^ 56 ≤ 2 ^ 63 := by norm_num
        apply wrap64_id
        · have : (-2 ^ 63 : Int) ≤ 0 := by norm_num
          linarith
        · linarith
      have hd2 : wrap64 (b.ts - last + 1) = b.ts - last + 1 := by
        have : (2:Int) ^ 56 ≤ 2 ^ 63 := by norm_num
        apply wrap64_id
        · have : (-2 ^ 63 : Int) ≤ 0 := by norm_num
          linarith
        · linarith
      have hk : b.ts - last + 1 = ((b.ts - last + 1).toNat : Int) := by omega
      have hlt : (b.ts - last + 1).toNat < 2 ^ 56 := by
        have : (((b.ts - last + 1).toNat : Nat) : Int) < 2 ^ 56 := by omega
        exact_mod_cast this
      have := vi_write _ hlt w
      rw [← hk] at this
      simp only [hm, if_false, hd, hd2, this, Out.val_bind, vi_write _ h3, Out.pure_eq, List.append_assoc]

theorem wrap64_double (n : Nat) (h2 : n % 2 = 0) (h3 : n / 2 < 2 ^ 56) : wrap64 (((n / 2 : Nat) : Int) * 2) = n := by
  have h5 : (n : Int) < 2 ^ 57 := by
    have h6 : n < 2 ^ 57 := by
      have : (2:Nat) ^ 57 = 2 * 2 ^ 56 := by norm_num
      generalize (2:Nat) ^ 56 = p at *
      omega
    exact_mod_cast h6
  have h7 : ((n / 2 : Nat) : Int) * 2 = n := by omega
  rw [h7]
  apply wrap64_id
  · have : (-2 ^ 63 : Int) ≤ 0 := by norm_num
    have : (0:Int) ≤ n := by positivity
    linarith
  · have : (2:Int) ^ 57 ≤ 2 ^ 63 := by norm_num
    linarith

theorem readTimestamp_eq (last : Int) (b : Item) (h : BoundOK last b) (pre rest : Bytes) :
    readTimestamp last (rd pre ((if b.ts = maxTimestamp then vi 0 else vi (b.ts - last + 1).toNat) ++ rest)) =
      .ok (b.ts, rd (pre ++ (if b.ts = maxTimestamp then vi 0 else vi (b.ts - last + 1).toNat)) rest) := by
  obtain ⟨h1, h2, h3⟩ := h
  unfold readTimestamp
  generalize maxTimestamp = M at h1 ⊢
  by_cases hm : b.ts = M
  · rw [if_pos hm, vi_read 0 (by norm_num)]
    simp [hm]
  · rcases h1 with h1 | ⟨a, c, d, e⟩
    · exact absurd h1 hm
    · have hk : ((b.ts - last + 1).toNat : Int) = b.ts - last + 1 := by omega
      have hlt : (b.ts - last + 1).toNat < 2 ^ 56 := by
        have : (((b.ts - last + 1).toNat : Nat) : Int) < 2 ^ 56 := by omega
        exact_mod_cast this
      have h63 : (2:Int) ^ 56 ≤ 2 ^ 63 := by norm_num
      have hneg : (-2 ^ 63 : Int) ≤ 0 := by norm_num
      have hd : wrap64 (((b.ts - last + 1).toNat : Int) - 1) = b.ts - last := by
        rw [hk, wrap64_id] <;> linarith
      have hd2 : wrap64 (last + (b.ts - last)) = b.ts := by
        rw [wrap64_id] <;> linarith
      have hz : ¬ ((b.ts - last + 1).toNat : Int) = 0 := by omega
      rw [if_neg hm, vi_read _ hlt]
      simp only [Res.ok_bind, if_neg hz, Res.pure_eq, hd, hd2]

theorem readBound_eq (last : Int) (b : Item) (h : BoundOK last b) (pre rest : Bytes) :
    readBound last (rd pre (encBound last b ++ rest)) = .ok (b, rd (pre ++ encBound last b) rest) := by
  have h' := h
  obtain ⟨h1, h2, h3⟩ := h
  have hlen := wrap64_double b.id.length h2 h3
  unfold readBound encBound
  rw [List.append_assoc, readTimestamp_eq last b h', Res.ok_bind]
  simp only []
  rw [List.append_assoc, vi_read _ h3, Res.ok_bind]
  simp only []
  rw [readString_rd _ _ _ _ hlen, Res.ok_bind]
  simp only [Res.pure_eq, List.append_assoc]

/-! ## C45 -/

/-- Write a sequence of bounds with `writeBound`, the timestamp cache starting at `last`. -/
def writeBounds (last : Int) (w : Bytes) : List Item → Out Bytes
  | [] => .val w
  | b :: bs => do
    let w ← writeBound last w b
    writeBounds b.ts w bs

/-- Read `k` bounds with `readBound`, the timestamp cache starting at `last`. -/
def readBounds (last : Int) (r : Reader) : Nat → Res Unit (List Item × Reader)
  | 0 => .ok ([], r)
  | k + 1 => do
    let (b, r) ← readBound last r
    let (bs, r) ← readBounds b.ts r k
    return (b :: bs, r)

/-- Sequences the property speaks about: timestamps do not decrease (infinity may follow anything), steps below
2^56 - 1, ids of whole bytes. -/
def BoundsOK : Int → List Item → Prop
  | _, [] => True
  | last, b :: bs => BoundOK last b ∧ BoundsOK b.ts bs

/-- **C45.** Any sequence of bounds with non-decreasing timestamps is written without panic, and a decoder starting from
the same cached timestamp reads back exactly that sequence, ending behind it, whatever surrounds it. -/
theorem C45_bounds_roundtrip (bs : List Item) (last : Int) (h : BoundsOK last bs) (before after : Bytes) :
    ∃ e : Bytes, writeBounds last before bs = .val (before ++ e) ∧
      readBounds last ⟨before ++ e ++ after, before.length⟩ bs.length =
        .ok (bs, ⟨before ++ e ++ after, before.length + e.length⟩) := by
  induction bs generalizing last before with
  | nil => exact ⟨[], by simp [writeBounds], by simp [readBounds]⟩
  | cons b bs ih =>
    obtain ⟨h1, h2⟩ := h
    obtain ⟨e, w, r⟩ := ih b.ts h2 (before ++ encBound last b)
    refine ⟨encBound last b ++ e, ?_, ?_⟩
    · simp only [writeBounds, writeBound_eq last b h1, Out.val_bind, w, List.append_assoc]
    · have hr := readBound_eq last b h1 before (e ++ after)
      simp only [rd, List.append_assoc] at hr r ⊢
      simp only [List.length_cons, readBounds, hr, Res.ok_bind, r, Res.pure_eq]
      simp [Int.add_assoc]

example : BoundsOK 0 [⟨1700000000, []⟩, ⟨1700000000, b! "ab01"⟩, ⟨1700000005, b! "ff"⟩, infiniteBound, infiniteBound] := by
  simp [BoundsOK, BoundOK, infiniteBound, maxTimestamp]

/-- A decreasing timestamp cannot be written (the encoder panics), so the hypothesis on the order is needed. -/
theorem C45_decreasing_panics (last : Int) (b : Item) (w : Bytes) (h0 : 0 ≤ b.ts) (h1 : b.ts + 1 < last) (h2 : last < 2 ^ 63) :
    writeBound last w b = .panic := by
  have hb : -2 ^ 63 ≤ b.ts - last := by
    have : (0:Int) ≤ b.ts := h0
    linarith
  have hm : b.ts ≠ maxTimestamp := by unfold maxTimestamp; omega
  have e1 : wrap64 (b.ts - last) = b.ts - last := wrap64_id hb (by linarith)
  have e2 : wrap64 (b.ts - last + 1) = b.ts - last + 1 := wrap64_id (by linarith) (by linarith)
  have hn : b.ts - last + 1 < 0 := by linarith
  have hp := (C44_out_of_range_panics (b.ts - last + 1)).2 (Or.inl hn)
  unfold writeBound writeTimestamp writeVarInt
  rw [if_neg hm, e1, e2, if_neg (by omega), hp]
  rfl

end GoNostr.Neg
