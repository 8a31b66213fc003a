import Verif.Negentropy.LimitsWire
/-! # Reconciliation with frame size limits (C50) -/

set_option autoImplicit false

namespace GoNostr.Neg

theorem reconcileL_eq (H : Hash32) (n : Neg) (hv : VecOK n.items) (hlim : LimOK n.limit) (M : List Rng) (hm : MsgOK 0 M)
    (hmono : Mono zeroBound M) : ∃ (M' : List Rng) (h hn : List Bytes) (n' : Neg),
      reconcile H n (wire M) = .ok (if M' = [] ∧ n.isClient = true then ([], n', true) else (wire M', n', false)) ∧
      ProcL (rangeFp H) n.isClient n.limit.isSome false M n.items zeroBound false M' h hn ∧ MsgOK 0 M' ∧
      n'.items = n.items ∧ n'.limit = n.limit ∧ n'.isClient = n.isClient ∧ n'.haves = n.haves ++ h ∧ n'.haveNots = n.haveNots ++ hn := by
  have hlen := encMsg_length M 0 hm
  obtain ⟨M', h, hn, s', i1, i2, i3, i4, i5, i6, i7, i8, i9⟩ := loopL_eq H n.items hv M ((wire M).length + 1) (hexEnc [0x61])
    { n with lastIn := 0, lastOut := 0 } (hexEnc [0x61]) zeroBound 0 false false hm hmono rfl hlim (by rw [length_hexEnc]; rfl)
    (exceeded_small hlim (by rw [length_hexEnc]; simp)) (fun _ => by rw [length_hexEnc]; simp) (le_refl _) (by simp [zeroBound])
    goodZero (by omega) (fun x hx => not_lt_zeroBound (hv.ts x (by simpa using hx)).1) (by simp only [wire, List.length_append]; omega)
  have haux : reconcileAux H n (wire M) = .ok (wire M', s'.n) := by
    have e0 : (⟨wire M, 0⟩ : Reader) = rd [] (hexEnc [0x61] ++ encMsg 0 M) := rfl
    have e1 : reconcileAux H n (wire M) = (do
        let s ← loop H ((wire M).length + 1)
          { n := { n with lastIn := 0, lastOut := 0 }, r := rd (hexEnc [0x61]) (encMsg 0 M), full := hexEnc [0x61],
            prevBound := zeroBound, prevIndex := 0, skipping := false }
        return (s.full, s.n)) := by
      unfold reconcileAux
      rw [e0, readHexByte_rd, Res.ok_bind]
      simp only [ne_eq, not_true_eq_false, if_false, List.nil_append]
      rfl
    rw [e1, i1, Res.ok_bind, i2]
    rfl
  refine ⟨M', h, hn, s'.n, ?_, by simpa using i3, i4, i5, i6, i7, i8, i9⟩
  have hlen := encMsg_length M' 0 i4
  have hw : (wire M').length = 2 ↔ M' = [] := by
    constructor
    · intro he
      simp only [wire, List.length_append, length_hexEnc, List.length_cons, List.length_nil] at he
      exact List.length_eq_zero_iff.1 (by omega)
    · rintro rfl; rfl
  unfold reconcile
  rw [haux, Res.ok_bind]
  simp only [hw, i7]
  by_cases hc : M' = [] ∧ n.isClient = true
  · rw [if_pos hc, if_pos hc]; rfl
  · rw [if_neg hc, if_neg hc]; rfl

theorem below_inf {x : Item} (hx : x.ts + 1 < 2 ^ 56) : ItemLt x infiniteBound := by
  left
  rw [two56] at hx
  simp only [infiniteBound, maxTimestamp, two63]
  omega

theorem inf_ge_zero : ¬ ItemLt infiniteBound zeroBound := not_lt_zeroBound (by simp only [infiniteBound, maxTimestamp, two63]; norm_num)

theorem ctx0 {A B : List Item} (hA : VecOK A) (hB : VecOK B) {M : List Rng} (hmono : Mono zeroBound M)
    (hb : ∀ r ∈ M, ¬ ItemLt infiniteBound r.bound) : Ctx false zeroBound zeroBound A A B B M where
  le := ItemLt.irrefl _
  top := inf_ge_zero
  lagS := by simp [Lag]
  lagR := by simp [Lag]
  sS := hA.weak
  sR := hB.weak
  tS := fun x hx => below_inf (hA.ts x hx).2
  tR := fun x hx => below_inf (hB.ts x hx).2
  gS := fun x hx => not_lt_zeroBound (hA.ts x hx).1
  gR := fun x hx => not_lt_zeroBound (hB.ts x hx).1
  mono := hmono
  bdd := hb

theorem exchangeL_eq (H : Hash32) (A B : List Item) (hA : VecOK A) (hB : VecOK B) (hid : IdsIdentify A B) (lc ls : Option Int)
    (hlc : LimOK lc) (hls : LimOK ls) :
    ∀ (f k : Nat) (c s : Neg) (M : List Rng), k < f → c.items = A → s.items = B → c.limit = lc → s.limit = ls →
      c.isClient = true → s.isClient = false → MsgOK 0 M → Mono zeroBound M → (∀ r ∈ M, ¬ ItemLt infiniteBound r.bound) →
      Own (rangeFp H) M A → Prog M A B → Ms true (A.length + B.length + 4) k M A B →
      ∃ c' s', exchange H f c s (wire M) = .ok (c', s') ∧ c.haves ⊆ c'.haves ∧ c.haveNots ⊆ c'.haveNots ∧
        (∀ i ∈ c'.haves, i ∈ c.haves ∨ ∃ x ∈ diff A B, x.id = i) ∧ (∀ i ∈ c'.haveNots, i ∈ c.haveNots ∨ ∃ x ∈ diff B A, x.id = i) ∧
        (CollisionFree H A B → lc = none ∨ ls = none → Faith (rangeFp H) M A B → (ls.isSome = true → NE M A) →
          (∀ x ∈ openS M A B, x.id ∈ c'.haves) ∧ (∀ x ∈ openR M A B, x.id ∈ c'.haveNots)) := by
  intro f
  have hidA : ∀ x ∈ A, ∀ y ∈ A, x.id = y.id → x = y := fun x hx y hy => hid x (List.mem_append_left _ hx) y (List.mem_append_left _ hy)
  have hidB : ∀ x ∈ B, ∀ y ∈ B, x.id = y.id → x = y := fun x hx y hy => hid x (List.mem_append_right _ hx) y (List.mem_append_right _ hy)
  have nA := ids_nodup hA hidA
  have nB := ids_nodup hB hidB
  induction f with
  | zero => intro k c s M hk; omega
  | succ f ih =>
    intro k c s M hk ci si cl sl cc sc hm hmono hbdd hown hprog hms
    obtain ⟨M1, h1, hn1, s1, r1, r2, r3, r4, r5, r6, r7, r8⟩ := reconcileL_eq H s (by rw [si]; exact hB) (by rw [sl]; exact hls) M hm hmono
    rw [sc] at r1 r2
    rw [si, sl] at r2
    obtain ⟨rfl, rfl⟩ := procL_server r2 rfl
    have ctx1 := ctx0 hA hB hmono hbdd
    obtain ⟨own1, mo1, bd1, pg1⟩ := procL_shape r2 A A B zeroBound ctx1 hB.sorted hown hprog
    obtain ⟨M2, h2, hn2, c2, q1, q2, q3, q4, q5, q6, q7, q8⟩ := reconcileL_eq H c (by rw [ci]; exact hA) (by rw [cl]; exact hlc) M1 r3 mo1
    rw [cc] at q1 q2
    rw [ci, cl] at q2
    have ctx2 := ctx0 hB hA mo1 bd1
    obtain ⟨own2, mo2, bd2, pg2⟩ := procL_shape q2 B B A zeroBound ctx2 hA.sorted own1 pg1
    obtain ⟨sd1, sd2⟩ := procL_sound q2 B hB.weak hA.weak own1 nA
    have e1 : exchange H (f + 1) c s (wire M) = (do
        let (m2, client, done) ← reconcile H c (wire M1)
        if done then return (client, s1)
        exchange H f client s1 m2) := by
      rw [exchange, r1, Res.ok_bind]
      simp
    -- completeness of this round trip
    have comp : CollisionFree H A B → lc = none ∨ ls = none → Faith (rangeFp H) M A B → (ls.isSome = true → NE M A) →
        (Faith (rangeFp H) M2 A B ∧ (ls.isSome = true → NE M2 A)) ∧
        (∀ x ∈ openS M A B, x.id ∈ h2 ∨ x ∈ openS M2 A B) ∧ (∀ x ∈ openR M A B, x.id ∈ hn2 ∨ x ∈ openR M2 A B) := by
      intro hcf hone hfaith hne
      obtain ⟨fa1, ne1⟩ := procL_faith r2 A A B zeroBound ctx1 hB.sorted (fun X Y hX hY he => (hcf Y X hY hX he.symm).symm) hne
      obtain ⟨fa2, ne2⟩ := procL_faith q2 B B A zeroBound ctx2 hA.sorted (fun X Y hX hY he => hcf X Y hX hY he) (by
        intro hl
        apply ne1
        rcases hone with h | h
        · rw [h] at hl; cases hl
        · rw [h]; rfl)
      obtain ⟨c1, c2'⟩ := procL_complete r2 A A B zeroBound ctx1 hB.sorted hown hfaith nB
        (fun x hx y hy => hid x (List.mem_append_right _ hx) y (List.mem_append_left _ hy))
      obtain ⟨c3, c4⟩ := procL_complete q2 B B A zeroBound ctx2 hA.sorted own1 fa1 nA
        (fun x hx y hy => hid x (List.mem_append_left _ hx) y (List.mem_append_right _ hy))
      refine ⟨⟨fa2, fun hl => ne2 ?_⟩, fun x hx => ?_, fun x hx => ?_⟩
      · rcases hone with h | h
        · rw [h]; rfl
        · rw [h] at hl; cases hl
      · rcases c2' x hx with h | h
        · cases h
        · exact c3 x h
      · rcases c1 x hx with h | h
        · cases h
        · exact c4 x h
    have key : ∃ c' s', exchange H (f + 1) c s (wire M) = .ok (c', s') ∧ c2.haves ⊆ c'.haves ∧ c2.haveNots ⊆ c'.haveNots ∧
        (∀ i ∈ c'.haves, i ∈ c2.haves ∨ ∃ x ∈ diff A B, x.id = i) ∧ (∀ i ∈ c'.haveNots, i ∈ c2.haveNots ∨ ∃ x ∈ diff B A, x.id = i) ∧
        (CollisionFree H A B → lc = none ∨ ls = none → Faith (rangeFp H) M2 A B → (ls.isSome = true → NE M2 A) →
          (∀ x ∈ openS M2 A B, x.id ∈ c'.haves) ∧ (∀ x ∈ openR M2 A B, x.id ∈ c'.haveNots)) := by
      by_cases hM2 : M2 = []
      · refine ⟨c2, s1, ?_, List.Subset.refl _, List.Subset.refl _, fun i hi => Or.inl hi, fun i hi => Or.inl hi, ?_⟩
        · rw [e1, q1, if_pos ⟨hM2, rfl⟩, Res.ok_bind]
          rfl
        · intro _ _ _ _
          simp [hM2, openS, openR, todo]
      · cases k with
        | zero =>
          exfalso
          have hz : M1 = [] := procL_zero r2 _ A hown hms
          subst hz
          exact hM2 (procL_zero q2 (A.length + B.length + 4) B own1 trivial)
        | succ k =>
          have w1 : Ms false (A.length + B.length + 4) k M1 B A :=
            procL_ms r2 _ k A A B zeroBound rfl ctx1 hB.sorted hown hprog hms (by omega)
          cases k with
          | zero => exact absurd (procL_zero q2 _ B own1 w1) hM2
          | succ k =>
            have w2 : Ms true (A.length + B.length + 4) k M2 A B :=
              procL_ms q2 _ k B B A zeroBound rfl ctx2 hA.sorted own1 pg1 w1 (by omega)
            obtain ⟨c', s', x1, x2⟩ := ih k c2 s1 M2 (by omega) (q4.trans ci) (r4.trans si) (q5.trans cl) (r5.trans sl) (q6.trans cc)
              (r6.trans sc) q3 mo2 bd2 own2 pg2 w2
            refine ⟨c', s', ?_, x2⟩
            rw [e1, q1, if_neg (by simp [hM2]), Res.ok_bind]
            simpa using x1
    obtain ⟨c', s', x1, x2, x3, x4, x5, x6⟩ := key
    have g1 : ∀ i ∈ h2, i ∈ c'.haves := fun i hi => x2 (by rw [q7]; exact List.mem_append_right _ hi)
    have g2 : ∀ i ∈ hn2, i ∈ c'.haveNots := fun i hi => x3 (by rw [q8]; exact List.mem_append_right _ hi)
    refine ⟨c', s', x1, fun i hi => x2 (by rw [q7]; exact List.mem_append_left _ hi),
      fun i hi => x3 (by rw [q8]; exact List.mem_append_left _ hi), fun i hi => ?_, fun i hi => ?_, ?_⟩
    · rcases x4 i hi with h | h
      · rw [q7] at h
        rcases List.mem_append.1 h with h | h
        · exact Or.inl h
        · exact Or.inr (sd1 i h)
      · exact Or.inr h
    · rcases x5 i hi with h | h
      · rw [q8] at h
        rcases List.mem_append.1 h with h | h
        · exact Or.inl h
        · exact Or.inr (sd2 i h)
      · exact Or.inr h
    · intro hcf hone hfaith hne
      obtain ⟨⟨fa2, ne2⟩, c1, c3⟩ := comp hcf hone hfaith hne
      obtain ⟨y1, y2⟩ := x6 hcf hone fa2 ne2
      refine ⟨fun x hx => ?_, fun x hx => ?_⟩
      · rcases c1 x hx with h | h
        · exact g1 _ h
        · exact y1 x h
      · rcases c3 x hx with h | h
        · exact g2 _ h
        · exact y2 x h

/-- A whole session with frame size limits: `New` on both sides, `Start` on the client, then at most `rounds` round trips;
`err` if that is not enough. -/
def syncLimited (H : Hash32) (rounds : Nat) (limC limS : Int) (client server : List Item) : Res Unit (Neg × Neg) := do
  let c ← lift (Neg.new client limC)
  let s ← lift (Neg.new server limS)
  let (msg, c) ← lift (start H c)
  exchange H rounds c s msg

/-- The limit `New` stores. -/
def limitOf (l : Int) : Option Int := if l = 0 then none else some l

theorem new_eq {l : Int} (h : l = 0 ∨ 4096 ≤ l) (items : List Item) :
    Neg.new items l = .val { items := items, limit := limitOf l } ∧ LimOK (limitOf l) := by
  unfold Neg.new limitOf
  by_cases hl : l = 0
  · simp [hl, LimOK]
  · rw [if_neg hl, if_neg (by omega), if_neg hl]
    refine ⟨rfl, ?_⟩
    intro x hx
    cases hx
    omega

/-- **C50 (partial: see below), with frame size limits.** For any two vectors (any sizes) and any frame size limits `New`
accepts (0 for none, or at least 4096), a session terminates within `(n + 4) (n + 1)` round trips, `n` being the number
of items on both sides together, without error or panic, and every id the client has then reported as `Haves` is one it
has and the server lacks, and every id reported as `HaveNots` the converse, whether or not fingerprints collide. If
fingerprints do not collide and at most one side has a limit, every such id has been reported. Missing, because false: ids may be
reported more than once (`C50_limit_repeats` in `Exact.lean`), and with limits on both sides some may be left out
(`C50_both_limits_lose`). -/
theorem C50_limits_partial (H : Hash32) (A B : List Item) (hA : VecOK A) (hB : VecOK B) (hid : IdsIdentify A B) (limC limS : Int)
    (hC : limC = 0 ∨ 4096 ≤ limC) (hS : limS = 0 ∨ 4096 ≤ limS) : ∃ c s,
      syncLimited H ((A.length + B.length + 4) * (A.length + B.length + 1)) limC limS A B = .ok (c, s) ∧
      (∀ i ∈ c.haves, ∃ x ∈ A, x ∉ B ∧ x.id = i) ∧ (∀ i ∈ c.haveNots, ∃ x ∈ B, x ∉ A ∧ x.id = i) ∧
      (CollisionFree H A B → limC = 0 ∨ limS = 0 →
        (∀ x ∈ A, x ∉ B → x.id ∈ c.haves) ∧ (∀ x ∈ B, x ∉ A → x.id ∈ c.haveNots)) := by
  obtain ⟨nc1, nc2⟩ := new_eq hC A
  obtain ⟨ns1, ns2⟩ := new_eq hS B
  have hall : ∀ L : List Item, VecOK L → takeW infiniteBound L = L ∧ dropW infiniteBound L = [] :=
    fun L hL => all_below (fun x hx => below_inf (hL.ts x hx).2)
  obtain ⟨N, n1, n2, n3⟩ := splitRange_eq H A hA 0 A.length (by omega) (le_refl _) infiniteBound goodInf ⟨hexEnc [0x61], 0⟩
    (fun x hx => below_inf (hA.ts x (by simpa using hx)).2) (le_refl _) (by simp only [infiniteBound, maxTimestamp, two63]; norm_num)
    (fun x hx => (hA.ts x (by simpa using hx)).1)
  simp only [List.drop_zero, Nat.sub_zero, List.take_length] at n2
  have gA : ∀ x ∈ A, ¬ ItemLt x zeroBound := fun x hx => not_lt_zeroBound (hA.ts x hx).1
  have n2' : SplitOK (rangeFp H) (takeW infiniteBound A) infiniteBound N := by rw [(hall A hA).1]; exact n2
  obtain ⟨f1, f2, f3, f4, f5⟩ := splitOK_facts hA.weak gA inf_ge_zero n2'
  have hbdd : ∀ r ∈ N, ¬ ItemLt infiniteBound r.bound := by
    rcases n2' with ⟨_, rfl⟩ | ⟨h1, h2⟩
    · simp [ItemLt.irrefl]
    · have hne : takeW infiniteBound A ≠ [] := by rintro h; rw [h] at h1; simp at h1
      exact (split_full (S := B) hA.weak gA (Or.inl hne) (Or.inr ⟨h1, h2⟩)).2
  have hprog : Prog N A B := by
    by_cases hemp : takeW infiniteBound A ≠ [] ∨ takeW infiniteBound B ≠ []
    · have := (split_full (S := B) hA.weak gA hemp n2').1
      have := prog_append (M := []) f1 f2 this trivial
      simpa using this
    · simp only [not_or, not_not] at hemp
      rcases n2' with ⟨_, rfl⟩ | ⟨h1, h2⟩
      · exact ⟨Or.inr (Or.inr (Or.inr ⟨(hall A hA).2, (hall B hB).2, by simp⟩)), trivial⟩
      · rw [hemp.1] at h1; simp at h1
  have hpos : 0 < (A.length + B.length + 4) * (A.length + B.length + 1) := Nat.mul_pos (by omega) (by omega)
  have hms : Ms true (A.length + B.length + 4) ((A.length + B.length + 4) * (A.length + B.length + 1) - 1) N A B :=
    ms_slack N A B (by omega) (by omega)
  obtain ⟨c', s', x1, _, _, x4, x5, x6⟩ := exchangeL_eq H A B hA hB hid _ _ nc2 ns2
    ((A.length + B.length + 4) * (A.length + B.length + 1)) ((A.length + B.length + 4) * (A.length + B.length + 1) - 1)
    { items := A, limit := limitOf limC, isClient := true, lastOut := infiniteBound.ts } { items := B, limit := limitOf limS } N (by omega)
    rfl rfl rfl rfl rfl rfl n3 f2 hbdd (own_of_valid _ _ f4) hprog hms
  have oS : openS N A B = diff A B := by
    have := open_seg N A B zeroBound f2 f1 f5 hA.weak hB.weak
    rwa [f3, (hall A hA).1, (hall B hB).1] at this
  have oR : openR N A B = diff B A := by
    rw [← openS_swap]
    have := open_seg N B A zeroBound f2 f1 f5 hB.weak hA.weak
    rwa [f3, (hall A hA).1, (hall B hB).1] at this
  refine ⟨c', s', ?_, fun i hi => ?_, fun i hi => ?_, fun hcf hone => ?_⟩
  · have e1 : start H { items := A, limit := limitOf limC } =
        .val (wire N, { items := A, limit := limitOf limC, isClient := true, lastOut := infiniteBound.ts }) := by
      unfold start
      simp only [n1, Out.val_bind]
      rfl
    unfold syncLimited
    simp only [nc1, ns1, lift, Res.ok_bind, e1]
    exact x1
  · rcases x4 i hi with h | ⟨x, hx, e⟩
    · cases h
    · rw [mem_diff] at hx; exact ⟨x, hx.1, hx.2, e⟩
  · rcases x5 i hi with h | ⟨x, hx, e⟩
    · cases h
    · rw [mem_diff] at hx; exact ⟨x, hx.1, hx.2, e⟩
  · have hone' : limitOf limC = none ∨ limitOf limS = none := by
      rcases hone with h | h
      · left; simp [limitOf, h]
      · right; simp [limitOf, h]
    obtain ⟨y1, y2⟩ := x6 hcf hone' (faith_of_valid _ _ _ hcf f4) (fun _ => ne_split hA.weak gA n2')
    rw [oS] at y1
    rw [oR] at y2
    exact ⟨fun x hx hb => y1 x (mem_diff.2 ⟨hx, hb⟩), fun x hx ha => y2 x (mem_diff.2 ⟨hx, ha⟩)⟩

/-- **C50: limits.** `New` refuses, by panicking, every limit below 4096 other than 0, and no other. -/
theorem C50_small_limits_refused (items : List Item) (l : Int) : Neg.new items l = .panic ↔ l < 4096 ∧ l ≠ 0 := by
  unfold Neg.new
  by_cases h : l = 0
  · simp [h]
  · rw [if_neg h]
    by_cases h2 : l < 4096 <;> simp [h, h2]

/-- A session with limits on a small pair of vectors (the hypotheses are those shown to hold for `C50_reconciliation_partial`). -/
example : report (syncLimited padHash 10 4096 0 (sampleVec 1 [49, 50, 51]) [⟨2, idOf 50⟩, ⟨7, idOf 57⟩]) =
    some ([idOf 49, idOf 51], [idOf 57]) := by decide +kernel

end GoNostr.Neg
