import Verif.Negentropy.LimitsAbstract
/-! # Reconciliation with frame size limits: the message loop is `ProcL` -/

set_option autoImplicit false

namespace GoNostr.Neg

/-! ## Sizes -/

theorem encDigits_length : ∀ (idx n : Nat) (acc r : Bytes), encDigits idx n acc = .val r → r.length ≤ idx + acc.length
  | 0, n, acc, r, h => by
    unfold encDigits at h
    by_cases hn : n = 0
    · simp only [hn, if_true] at h; cases h; omega
    · simp only [hn, if_false] at h; cases h
  | idx + 1, n, acc, r, h => by
    unfold encDigits at h
    by_cases hn : n = 0
    · simp only [hn, if_true] at h; cases h; omega
    · simp only [hn, if_false] at h
      have := encDigits_length idx _ _ _ h
      simp only [List.length_cons] at this
      omega

theorem vi_size (n : Nat) (h : n < 2 ^ 56) : (vi n).length % 2 = 0 ∧ (vi n).length ≤ 16 := by
  obtain ⟨e, _, h1, _⟩ := varInt_roundtrip n h
  have he : e.length ≤ 8 := by
    unfold encodeVarInt at h1
    split at h1
    · cases h1; simp
    · split at h1
      · cases h1
      · cases hd : encDigits 8 (n : Int).toNat [] with
        | panic => rw [hd] at h1; cases h1
        | val r =>
          rw [hd] at h1
          cases h1
          have := encDigits_length _ _ _ _ hd
          rw [setHigh_length]
          simpa using this
  simp only [vi, h1, length_hexEnc]
  omega

theorem encBound_size {last : Int} {b : Item} (hb : GoodBound b) (h0 : 0 ≤ last) (hl : last ≤ b.ts) :
    (encBound last b).length % 2 = 0 ∧ (encBound last b).length ≤ 96 := by
  obtain ⟨h1, h2, h3⟩ := hb
  have v1 : (if b.ts = maxTimestamp then vi 0 else vi (b.ts - last + 1).toNat).length % 2 = 0 ∧
      (if b.ts = maxTimestamp then vi 0 else vi (b.ts - last + 1).toNat).length ≤ 16 := by
    split
    · exact vi_size 0 (by norm_num)
    · next hm =>
      rcases h1 with h1 | ⟨h1, h4⟩
      · exact absurd h1 hm
      · apply vi_size
        have : (((b.ts - last + 1).toNat : Nat) : Int) < 2 ^ 56 := by omega
        exact_mod_cast this
  have v2 := vi_size (b.id.length / 2) (lt_of_le_of_lt (by omega : b.id.length / 2 ≤ 32) (by norm_num))
  simp only [encBound, List.length_append]
  omega

theorem flatten_ids_length : ∀ (l : List Bytes), (∀ i ∈ l, i.length = 64) → l.flatten.length = 64 * l.length
  | [], _ => rfl
  | x :: l, h => by
    have := flatten_ids_length l (fun i hi => h i (List.mem_cons_of_mem _ hi))
    have := h x (by simp)
    simp only [List.flatten_cons, List.length_append, List.length_cons]
    omega

theorem encPay_size {p : Pay} (h : PayOK p) : (encPay p).length % 2 = 0 := by
  have v0 := vi_size 0 (by norm_num)
  have v1 := vi_size 1 (by norm_num)
  have v2 := vi_size 2 (by norm_num)
  cases p with
  | skip => exact v0.1
  | fp f => simp only [PayOK] at h; simp only [encPay, List.length_append]; omega
  | ids l =>
    obtain ⟨h1, h2⟩ := h
    have v3 := vi_size l.length h1
    have := flatten_ids_length l h2
    simp only [encPay, List.length_append]
    omega

theorem encMsg_even : ∀ (M : List Rng) (last : Int), MsgOK last M → (encMsg last M).length % 2 = 0
  | [], _, _ => rfl
  | r :: M, last, h => by
    obtain ⟨h0, h1, h2, h3, h4⟩ := h
    have a := encBound_size h2 h0 h1
    have b := encPay_size h3
    have c := encMsg_even M _ h4
    simp only [encMsg, List.length_append]
    omega

theorem encMsg_fp_size : ∀ (M : List Rng) (last : Int), MsgOK last M → (∀ r ∈ M, ∃ f, r.pay = .fp f) →
    (encMsg last M).length ≤ 130 * M.length
  | [], _, _, _ => by simp [encMsg]
  | ⟨b, p⟩ :: M, last, h, hf => by
    obtain ⟨h0, h1, h2, h3, h4⟩ := h
    obtain ⟨f, hp⟩ := hf _ (List.mem_cons_self ..)
    simp only at hp
    subst hp
    have a := encBound_size h2 h0 h1
    have c := encMsg_fp_size M _ h4 (fun r hr => hf r (List.mem_cons_of_mem _ hr))
    simp only [PayOK] at h3
    simp only [encMsg, encPay, vi_byte1, List.length_append, List.length_cons, length_hexEnc, List.length_nil] at a c ⊢
    omega

/-- The answer to one range never fills a frame. -/
theorem split_size {fpOf : List Item → Bytes} {seg : List Item} {b : Item} {N : List Rng} {last : Int} (h : SplitOK fpOf seg b N)
    (hm : MsgOK last N) (hN : N.length ≤ 16) : (encMsg last N).length ≤ 2098 := by
  rcases h with ⟨h1, rfl⟩ | ⟨_, parts, rfl, _⟩
  · obtain ⟨m0, m1, m2, m3, _⟩ := hm
    have a := encBound_size m2 m0 m1
    obtain ⟨l1, l2⟩ := m3
    have v3 := vi_size _ l1
    have := flatten_ids_length _ l2
    simp only [List.length_map] at v3 this
    simp only [encMsg, encPay, vi_byte2, List.length_append, length_hexEnc, List.length_cons, List.length_nil, List.length_map] at a ⊢
    omega
  · have := encMsg_fp_size _ _ hm (by
      intro r hr
      obtain ⟨q, _, rfl⟩ := List.mem_map.1 hr
      exact ⟨_, rfl⟩)
    omega

theorem fin_size {sk : Bool} {pb : Item} {last : Int} (hm : MsgOK last (fin sk pb)) : (encMsg last (fin sk pb)).length ≤ 98 := by
  cases sk with
  | false => simp [fin, encMsg]
  | true =>
    simp only [fin, if_true] at hm ⊢
    obtain ⟨m0, m1, m2, _, _⟩ := hm
    have a := (encBound_size m2 m0 m1).2
    simp only at a
    simp only [encMsg, encPay, vi_byte0, List.length_append, length_hexEnc, List.length_cons, List.length_nil]
    omega

/-! ## The limit -/

/-- Frame size limits `New` accepts. -/
def LimOK (l : Option Int) : Prop := ∀ x, l = some x → 4096 ≤ x

theorem exceeded_add {l : Option Int} {a b : Nat} (h : a % 2 = 0) : exceeded l a b = exceeded l (a + b) 0 := by
  cases l with
  | none => rfl
  | some l => simp only [exceeded]; congr 1; rw [eq_iff_iff]; constructor <;> intro h' <;> omega

theorem exceeded_mono {l : Option Int} {a b c : Nat} (h : exceeded l a b = true) (hc : a + b ≤ c) : exceeded l c 0 = true := by
  cases l with
  | none => simp [exceeded] at h
  | some l => simp only [exceeded, decide_eq_true_eq] at h ⊢; omega

theorem exceeded_small {l : Option Int} {a : Nat} (hl : LimOK l) (h : a ≤ 7000) : exceeded l a 0 = false := by
  cases l with
  | none => rfl
  | some l => have := hl l rfl; simp only [exceeded, decide_eq_false_iff_not]; omega

theorem exceeded_some {l : Option Int} {a b : Nat} (h : exceeded l a b = true) : l.isSome = true := by
  cases l with
  | none => simp [exceeded] at h
  | some l => rfl

theorem respLoop_eq (limit : Option Int) (full : Nat) : ∀ (mine : List Item) (resp index : Nat), (∀ x ∈ mine, x.id.length = 64) →
    respLoop limit full resp index mine = (mine.map (·.id), none) ∨
    ∃ xs y ys, mine = xs ++ y :: ys ∧ respLoop limit full resp index mine = (xs.map (·.id), some (y, index + xs.length)) ∧
      exceeded limit full (resp + 64 * xs.length) = true
  | [], _, _, _ => Or.inl rfl
  | x :: mine, resp, index, h => by
    have hx := h x (by simp)
    by_cases hc : exceeded limit full resp = true
    · right
      refine ⟨[], x, mine, rfl, ?_, by simpa using hc⟩
      unfold respLoop
      unfold exceeded at hc
      rw [if_pos hc]
      rfl
    · have e : respLoop limit full resp index (x :: mine) =
          (x.id :: (respLoop limit full (resp + x.id.length) (index + 1) mine).1, (respLoop limit full (resp + x.id.length) (index + 1) mine).2) := by
        conv_lhs => unfold respLoop
        unfold exceeded at hc
        rw [if_neg hc]
      rcases respLoop_eq limit full mine (resp + x.id.length) (index + 1) (fun y hy => h y (List.mem_cons_of_mem _ hy)) with h1 | ⟨xs, y, ys, h1, h2, h3⟩
      · left; rw [e, h1]; rfl
      · right
        refine ⟨x :: xs, y, ys, by rw [h1]; rfl, ?_, ?_⟩
        · rw [e, h2]; simp; omega
        · rw [← h3, hx]; congr 1; simp only [List.length_cons]; omega

theorem goodInf : GoodBound infiniteBound := ⟨Or.inl rfl, rfl, by simp [infiniteBound]⟩

theorem GoodBound.le_inf {b : Item} (h : GoodBound b) : b.ts ≤ infiniteBound.ts := by
  rcases h.1 with h | ⟨_, h⟩
  · rw [h]; exact le_refl _
  · rw [two56] at h
    simp only [infiniteBound, maxTimestamp, two63]
    omega

theorem encBound_inf (l1 l2 : Int) : encBound l1 infiniteBound = encBound l2 infiniteBound := by
  simp [encBound, infiniteBound]

/-! ## The message loop -/

theorem loopL_eq (H : Hash32) (items : List Item) (hv : VecOK items) : ∀ (M : List Rng) (fuel : Nat) (pre : Bytes) (n : Neg)
    (full : Bytes) (pb : Item) (idx : Nat) (sk wr : Bool), MsgOK n.lastIn M → Mono pb M → n.items = items → LimOK n.limit →
    full.length % 2 = 0 → exceeded n.limit full.length 0 = false → (wr = false → full.length ≤ 2) →
    0 ≤ n.lastOut → n.lastOut ≤ pb.ts → GoodBound pb → idx ≤ items.length → (∀ x ∈ items.drop idx, ¬ ItemLt x pb) →
    M.length < fuel →
    ∃ (M' : List Rng) (h hn : List Bytes) (s' : Loop),
      loop H fuel ⟨n, rd pre (encMsg n.lastIn M), full, pb, idx, sk⟩ = .ok s' ∧ s'.full = full ++ encMsg n.lastOut M' ∧
      ProcL (rangeFp H) n.isClient n.limit.isSome wr M (items.drop idx) pb sk M' h hn ∧ MsgOK n.lastOut M' ∧
      s'.n.items = items ∧ s'.n.limit = n.limit ∧ s'.n.isClient = n.isClient ∧ s'.n.haves = n.haves ++ h ∧
      s'.n.haveNots = n.haveNots ++ hn := by
  intro M
  induction M with
  | nil =>
    intro fuel pre n full pb idx sk wr _ _ hi hlim _ _ _ _ _ _ _ _ hf
    cases fuel with
    | zero => omega
    | succ fuel =>
      refine ⟨[], [], [], ⟨n, rd pre [], full, pb, idx, sk⟩, ?_, ?_, ProcL.nil _ _ _ _, trivial, hi, rfl, rfl, ?_, ?_⟩
      · simp [loop, encMsg, rd_len]
      · simp [encMsg]
      · simp
      · simp
  | cons r M ih =>
    intro fuel pre n full pb idx sk wr hm hmono hi hlim hev hnx hwr h0 hl hg hidx hge hf
    cases fuel with
    | zero => omega
    | succ fuel =>
      obtain ⟨b, pay⟩ := r
      obtain ⟨m0, m1, m2, m3, m4⟩ := hm
      obtain ⟨hb, hmono'⟩ := hmono
      simp only at m1 m2 m3 m4 hb hmono'
      have hpbb : pb.ts ≤ b.ts := by
        by_contra hc
        exact hb (Or.inl (by omega))
      obtain ⟨upper, u1, u2, u3, u4, u5⟩ := findLowerBound_eq items hv idx hidx b
      have hge' : ∀ x ∈ items.drop upper, ¬ ItemLt x b := by
        intro x hx
        rw [u5] at hx
        exact dropW_ge (List.Pairwise.sublist (List.drop_sublist _ _) hv.weak) hx
      have hlen : (rd pre (encMsg n.lastIn (⟨b, pay⟩ :: M))).len > 0 := by
        rw [rd_len]
        have := encMsg_length (⟨b, pay⟩ :: M) n.lastIn ⟨m0, m1, m2, m3, m4⟩
        simp only [List.length_cons] at this
        omega
      have hread := readBound_eq n.lastIn b (m2.ok m0 m1) pre (encPay pay ++ encMsg b.ts M)
      have htk : ∀ x ∈ (items.drop idx).take (upper - idx), x ∈ items.drop idx := fun x hx => List.mem_of_mem_take hx
      -- what the loop does with this range
      let s0 : Loop := ⟨n, rd pre (encMsg n.lastIn (⟨b, pay⟩ :: M)), full, pb, idx, sk⟩
      have hstep0 : ∀ (sw : Sw) (m : Nat) (tl : Bytes), m ≤ 2 → encPay pay = vi m ++ tl →
          switchMode H s0 { n with lastIn := b.ts } (rd (pre ++ encBound n.lastIn b ++ vi m) (tl ++ encMsg b.ts M)) b idx upper m = .ok sw →
          loopStep H s0 = lift (stepEnd H s0 b sw) := by
        intro sw m tl hm2 hpay hsw
        simp only [s0] at hsw ⊢
        unfold loopStep
        have e1 : encMsg n.lastIn (⟨b, pay⟩ :: M) = encBound n.lastIn b ++ (encPay pay ++ encMsg b.ts M) := rfl
        rw [e1] at hsw ⊢
        rw [hread, Res.ok_bind]
        simp only []
        rw [hpay, List.append_assoc, vi_read m (by have : (2:Nat) < 2 ^ 56 := by norm_num
                                                   omega), Res.ok_bind]
        simp only [hi, u1, Res.ok_bind]
        rw [hpay, List.append_assoc] at hsw
        have hmm : ((m : Int)) % 256 = m := by omega
        simp only [hi] at hsw
        have hl1 : lift (Out.val upper) = .ok upper := rfl
        rw [hl1, Res.ok_bind]
        rw [hmm, hsw, Res.ok_bind]
      -- an iteration after which the loop goes on
      have common : ∀ (sw : Sw) (pre' : Bytes) (out : List Rng) (h1 hn1 : List Bytes) (sk' wr' : Bool) (m : Nat) (tl : Bytes), m ≤ 2 →
          encPay pay = vi m ++ tl →
          switchMode H s0 { n with lastIn := b.ts } (rd (pre ++ encBound n.lastIn b ++ vi m) (tl ++ encMsg b.ts M)) b idx upper m = .ok sw →
          sw.r = rd pre' (encMsg b.ts M) → sw.full ++ sw.part.buf = full ++ encMsg n.lastOut out → sw.upper = upper →
          sw.skipping = sk' → sw.part.last = lastTs out n.lastOut → sw.n.items = items → sw.n.limit = n.limit →
          sw.n.isClient = n.isClient → sw.n.lastIn = b.ts → sw.n.haves = n.haves ++ h1 → sw.n.haveNots = n.haveNots ++ hn1 →
          MsgOK n.lastOut out → 0 ≤ lastTs out n.lastOut → lastTs out n.lastOut ≤ b.ts →
          sw.full.length % 2 = 0 → exceeded n.limit (full.length + (encMsg n.lastOut out).length) 0 = false →
          (wr' = false → wr = false ∧ out = []) →
          (∀ M' h hn, ProcL (rangeFp H) n.isClient n.limit.isSome wr' M (dropW b (items.drop idx)) b sk' M' h hn →
            ProcL (rangeFp H) n.isClient n.limit.isSome wr (⟨b, pay⟩ :: M) (items.drop idx) pb sk (out ++ M') (h1 ++ h) (hn1 ++ hn)) →
          ∃ (M' : List Rng) (h hn : List Bytes) (s' : Loop),
            loop H (fuel + 1) s0 = .ok s' ∧ s'.full = full ++ encMsg n.lastOut M' ∧
            ProcL (rangeFp H) n.isClient n.limit.isSome wr (⟨b, pay⟩ :: M) (items.drop idx) pb sk M' h hn ∧ MsgOK n.lastOut M' ∧
            s'.n.items = items ∧ s'.n.limit = n.limit ∧ s'.n.isClient = n.isClient ∧ s'.n.haves = n.haves ++ h ∧
            s'.n.haveNots = n.haveNots ++ hn := by
        intro sw pre' out h1 hn1 sk' wr' m tl hm2 hpay hsw er efull eup esk elast eit elim ecl elin eh ehn hmo hl0 hlb hfe hnx' hwr' hproc
        have hlen2 : sw.full.length + sw.part.buf.length = full.length + (encMsg n.lastOut out).length := by
          rw [← List.length_append, efull, List.length_append]
        have hoe := encMsg_even out _ hmo
        obtain ⟨M', h', hn', s', i1, i2, i3, i4, i5, i6, i7, i8, i9⟩ := ih fuel pre' { sw.n with lastOut := sw.part.last }
          (sw.full ++ sw.part.buf) b upper sk' wr' (by simp only [elin]; exact m4) hmono' eit (by simp only [elim]; exact hlim)
          (by rw [List.length_append]; omega) (by simp only [elim, List.length_append, hlen2]; exact hnx')
          (by
            intro hw
            obtain ⟨w1, w2⟩ := hwr' hw
            have := hwr w1
            rw [List.length_append, hlen2, w2]
            simpa [encMsg] using this)
          (by simp only [elast]; exact hl0)
          (by simp only [elast]; exact hlb) m2 u3 hge' (by simp at hf; omega)
        have hex : exceeded n.limit sw.full.length sw.part.buf.length = false := by
          rw [exceeded_add hfe, hlen2]; exact hnx'
        have hstep : loopStep H s0 =
            .ok (⟨{ sw.n with lastOut := sw.part.last }, sw.r, sw.full ++ sw.part.buf, b, upper, sk'⟩, false) := by
          rw [hstep0 sw m tl hm2 hpay hsw]
          simp only [stepEnd, elim, hex, Bool.false_eq_true, if_false, Out.pure_eq, eup, esk, lift]
        refine ⟨out ++ M', h1 ++ h', hn1 ++ hn', s', ?_, ?_, ?_, ?_, i5, ?_, ?_, ?_, ?_⟩
        · unfold loop
          have hlen0 : s0.r.len > 0 := hlen
          simp only [hlen0, if_true, hstep, Res.ok_bind, Bool.false_eq_true, if_false]
          rw [er, ← elin]
          exact i1
        · rw [i2, efull]
          simp only [elast]
          rw [encMsg_append, List.append_assoc]
        · apply hproc
          rw [u5] at i3
          simp only [ecl, elim] at i3
          exact i3
        · simp only [elast] at i4
          exact msgOK_append hmo i4
        · rw [i6]; exact elim
        · rw [i7]; exact ecl
        · rw [i8]; simp only [eh, List.append_assoc]
        · rw [i9]; simp only [ehn, List.append_assoc]
      -- an iteration that ends the loop
      have common2 : ∀ (sw : Sw) (out : List Rng) (m : Nat) (tl : Bytes), m ≤ 2 → encPay pay = vi m ++ tl →
          switchMode H s0 { n with lastIn := b.ts } (rd (pre ++ encBound n.lastIn b ++ vi m) (tl ++ encMsg b.ts M)) b idx upper m = .ok sw →
          sw.full = full ++ encMsg n.lastOut out → sw.upper ≤ items.length → 0 ≤ sw.part.last → sw.part.last ≤ infiniteBound.ts →
          sw.n.items = items → sw.n.limit = n.limit →
          sw.n.isClient = n.isClient → sw.n.haves = n.haves → sw.n.haveNots = n.haveNots →
          MsgOK n.lastOut out → 0 ≤ lastTs out n.lastOut → lastTs out n.lastOut ≤ infiniteBound.ts →
          exceeded n.limit sw.full.length sw.part.buf.length = true →
          ProcL (rangeFp H) n.isClient n.limit.isSome wr (⟨b, pay⟩ :: M) (items.drop idx) pb sk
            (out ++ [rest (rangeFp H) (items.drop sw.upper)]) [] [] →
          ∃ (M' : List Rng) (h hn : List Bytes) (s' : Loop),
            loop H (fuel + 1) s0 = .ok s' ∧ s'.full = full ++ encMsg n.lastOut M' ∧
            ProcL (rangeFp H) n.isClient n.limit.isSome wr (⟨b, pay⟩ :: M) (items.drop idx) pb sk M' h hn ∧ MsgOK n.lastOut M' ∧
            s'.n.items = items ∧ s'.n.limit = n.limit ∧ s'.n.isClient = n.isClient ∧ s'.n.haves = n.haves ++ h ∧
            s'.n.haveNots = n.haveNots ++ hn := by
        intro sw out m tl hm2 hpay hsw efull eup p0 p1 eit elim ecl eh ehn hmo hl0 hlb hex hproc
        obtain ⟨g1, g2⟩ := fingerprint_eq H items hv sw.upper items.length eup (le_refl _)
        have htake : (items.drop sw.upper).take (items.length - sw.upper) = items.drop sw.upper := by
          apply List.take_of_length_le; simp
        rw [htake] at g1 g2
        have hwb := Wr.bound_eq (w := ⟨sw.full, sw.part.last⟩) goodInf p0 p1
        refine ⟨_, [], [], ⟨{ sw.n with lastOut := infiniteBound.ts }, sw.r,
          sw.full ++ encBound sw.part.last infiniteBound ++ hexEnc [1] ++ rangeFp H (items.drop sw.upper), pb, idx, sw.skipping⟩,
          ?_, ?_, hproc, ?_, eit, elim, ecl, by simp [eh], by simp [ehn]⟩
        · have hstep : loopStep H s0 = .ok (⟨{ sw.n with lastOut := infiniteBound.ts }, sw.r,
              sw.full ++ encBound sw.part.last infiniteBound ++ hexEnc [1] ++ rangeFp H (items.drop sw.upper), pb, idx, sw.skipping⟩, true) := by
            rw [hstep0 sw m tl hm2 hpay hsw]
            simp only [stepEnd, elim, hex, if_true, eit, g1, Out.val_bind, hwb, Wr.byte, Wr.hex, Out.pure_eq, lift, s0]
          unfold loop
          have hlen0 : s0.r.len > 0 := hlen
          simp only [hlen0, if_true, hstep, Res.ok_bind]
          rfl
        · simp only [efull]
          rw [encMsg_append, encBound_inf sw.part.last (lastTs out n.lastOut)]
          simp [encMsg, encPay, rest, vi_byte1]
        · exact msgOK_append hmo ⟨hl0, hlb, goodInf, g2, trivial⟩
      have hpi := hg.le_inf
      have hbi := m2.le_inf
      have hnil : exceeded n.limit (full.length + (encMsg n.lastOut []).length) 0 = false := by simpa [encMsg] using hnx
      cases pay with
      | skip =>
        refine common ⟨{ n with lastIn := b.ts }, rd (pre ++ encBound n.lastIn b ++ vi 0) (encMsg b.ts M), ⟨[], n.lastOut⟩, full, upper, true⟩
          (pre ++ encBound n.lastIn b ++ vi 0) [] [] [] true wr 0 [] (by omega) (by simp [encPay]) ?_ rfl (by simp [encMsg]) rfl rfl rfl
          hi rfl rfl rfl (by simp) (by simp) trivial h0 (by simp only [lastTs]; omega) hev hnil (fun h => ⟨h, rfl⟩) ?_
        · simp [switchMode, s0]
        · intro M' h hn hp
          exact ProcL.skip wr b M _ pb sk M' h hn hp
      | fp f =>
        obtain ⟨f1, f2⟩ := fingerprint_eq H items hv idx upper u2 u3
        rw [u4] at f1 f2
        have hrs := readString_rd (pre ++ encBound n.lastIn b ++ vi 1) f (encMsg b.ts M) 32 (by simp only [PayOK] at m3; omega)
        by_cases hf1 : f = rangeFp H (takeW b (items.drop idx))
        · refine common ⟨{ n with lastIn := b.ts }, rd (pre ++ encBound n.lastIn b ++ vi 1 ++ f) (encMsg b.ts M), ⟨[], n.lastOut⟩, full, upper, true⟩
            (pre ++ encBound n.lastIn b ++ vi 1 ++ f) [] [] [] true wr 1 f (by omega) (by simp [encPay]) ?_ rfl (by simp [encMsg]) rfl rfl rfl
            hi rfl rfl rfl (by simp) (by simp) trivial h0 (by simp only [lastTs]; omega) hev hnil (fun h => ⟨h, rfl⟩) ?_
          · simp only [switchMode, Nat.cast_one, one_ne_zero, if_false, if_true, switchFingerprint, s0]
            rw [hrs, Res.ok_bind]
            simp only [hi, f1, lift, Res.ok_bind]
            rw [if_pos hf1]
            rfl
          · intro M' h hn hp
            exact ProcL.fpEq wr b f M _ pb sk M' h hn hf1 hp
        · obtain ⟨k1, k2, k3⟩ := finishSkip_eq (sk := sk) (w := ⟨[], n.lastOut⟩) hg h0 hl
          have hlast0 : 0 ≤ (if sk then pb.ts else n.lastOut) := by split <;> omega
          have hlastb : (if sk then pb.ts else n.lastOut) ≤ pb.ts := by split <;> omega
          obtain ⟨N, n1, n2, n3, n4⟩ := splitRange_eq_count H items hv idx upper u2 u3 b m2
            ⟨[] ++ encMsg n.lastOut (fin sk pb), if sk then pb.ts else n.lastOut⟩
            (by rw [u4]; intro x hx; exact takeW_lt hx) hlast0 (by simp only; omega)
            (by
              intro x hx
              have := hge x (htk x hx)
              simp only
              by_contra hc
              exact this (Or.inl (by omega)))
          rw [u4] at n2
          simp only at k3
          have hmo : MsgOK n.lastOut (fin sk pb ++ N) := msgOK_append k2 (by rw [k3]; exact n3)
          have hlt0 : ∀ (a : List Rng) t, lastTs (a ++ N) t = b.ts := by
            intro a
            induction a with
            | nil => intro t; exact splitOK_lastTs n2 t
            | cons q a iha => intro t; exact iha _
          have henc : encMsg n.lastOut (fin sk pb ++ N) = encMsg n.lastOut (fin sk pb) ++ encMsg (if sk then pb.ts else n.lastOut) N := by
            rw [encMsg_append, k3]
          have hswm : switchMode H s0 { n with lastIn := b.ts } (rd (pre ++ encBound n.lastIn b ++ vi 1) (f ++ encMsg b.ts M)) b idx upper ((1 : Nat) : Int) =
              .ok ⟨{ n with lastIn := b.ts }, rd (pre ++ encBound n.lastIn b ++ vi 1 ++ f) (encMsg b.ts M),
                ⟨[] ++ encMsg n.lastOut (fin sk pb) ++ encMsg (if sk then pb.ts else n.lastOut) N, b.ts⟩, full, upper, false⟩ := by
            simp only [switchMode, Nat.cast_one, one_ne_zero, if_false, if_true, switchFingerprint, s0]
            rw [hrs, Res.ok_bind]
            simp only [hi, f1, lift, Res.ok_bind]
            rw [if_neg hf1]
            simp only [k1, n1, Res.ok_bind]
            rfl
          by_cases hx : exceeded n.limit (full.length + (encMsg n.lastOut (fin sk pb ++ N)).length) 0 = true
          · have hwt : wr = true := by
              cases hw : wr with
              | true => rfl
              | false =>
                exfalso
                have e1 := hwr hw
                have e2 := fin_size k2
                have e3 := split_size n2 n3 n4
                simp only at e2 e3
                rw [exceeded_small hlim (by rw [henc, List.length_append]; omega)] at hx
                cases hx
            have hpr : ProcL (rangeFp H) n.isClient n.limit.isSome wr (⟨b, .fp f⟩ :: M) (items.drop idx) pb sk
                ([] ++ [rest (rangeFp H) (items.drop upper)]) [] [] := by
              rw [hwt, u5]
              exact ProcL.fpStop b f M _ pb sk hf1 (exceeded_some hx)
            refine common2 _ [] 1 f (by omega) (by simp [encPay]) hswm (by simp [encMsg]) u3 (by simp only; omega) hbi
              hi rfl rfl rfl rfl trivial h0 (by simp only [lastTs]; omega) ?_ hpr
            rw [exceeded_add hev]
            rw [henc] at hx
            simpa using hx
          · refine common ⟨{ n with lastIn := b.ts }, rd (pre ++ encBound n.lastIn b ++ vi 1 ++ f) (encMsg b.ts M),
                ⟨[] ++ encMsg n.lastOut (fin sk pb) ++ encMsg (if sk then pb.ts else n.lastOut) N, b.ts⟩, full, upper, false⟩
              (pre ++ encBound n.lastIn b ++ vi 1 ++ f) (fin sk pb ++ N) [] [] false true 1 f (by omega) (by simp [encPay]) hswm rfl ?_ rfl rfl
              (hlt0 _ _).symm hi rfl rfl rfl (by simp) (by simp) hmo (by rw [hlt0]; omega) (by rw [hlt0]) hev (by simpa using hx)
              (fun h => by cases h) ?_
            · simp only [List.nil_append]
              rw [henc]
            · intro M' h hn hp
              rw [List.append_assoc]
              exact ProcL.fpNe wr b f M _ pb sk N M' h hn hf1 n2 hp
      | ids l =>
        obtain ⟨l1, l2⟩ := m3
        have hrn := vi_read l.length l1 (pre ++ encBound n.lastIn b ++ vi 2) (l.flatten ++ encMsg b.ts M)
        have hri := readIds_eq l (pre ++ encBound n.lastIn b ++ vi 2 ++ vi l.length) (encMsg b.ts M) l2
        have hrange : vecRange items idx upper = .val (takeW b (items.drop idx)) := by
          unfold vecRange
          rw [if_neg (by omega), u4]
        rcases Bool.eq_false_or_eq_true n.isClient with hcl | hcl
        · refine common (switchIdsClient s0 { n with lastIn := b.ts }
              (rd (pre ++ encBound n.lastIn b ++ vi 2 ++ vi l.length ++ l.flatten) (encMsg b.ts M)) l (takeW b (items.drop idx)) upper)
            (pre ++ encBound n.lastIn b ++ vi 2 ++ vi l.length ++ l.flatten) []
            (cancelIds l.dedup ((takeW b (items.drop idx)).map (·.id))).1 (cancelIds l.dedup ((takeW b (items.drop idx)).map (·.id))).2
            true wr 2 (vi l.length ++ l.flatten) (by omega) (by simp [encPay]) ?_ rfl (by simp [encMsg, switchIdsClient, s0]) rfl rfl rfl
            hi rfl rfl rfl rfl rfl trivial h0 (by simp only [lastTs]; omega) hev hnil (fun h => ⟨h, rfl⟩) ?_
          · simp only [switchMode, switchIds]
            rw [if_neg (by norm_num), if_neg (by norm_num), if_pos (by norm_num), List.append_assoc (vi l.length), hrn, Res.ok_bind]
            simp only [Int.toNat_natCast]
            rw [hri, Res.ok_bind]
            simp only [hi, hrange, lift, Res.ok_bind, hcl, if_true]
            rfl
          · intro M' h hn hp
            exact ProcL.idsC wr b l M _ pb sk M' h hn hcl hp
        · obtain ⟨k1, k2, k3⟩ := finishSkip_eq (sk := sk) (w := ⟨[], n.lastOut⟩) hg h0 hl
          simp only at k3
          have hlast0 : 0 ≤ (if sk then pb.ts else n.lastOut) := by split <;> omega
          have hlastb : (if sk then pb.ts else n.lastOut) ≤ b.ts := by split <;> omega
          have hlastp : (if sk then pb.ts else n.lastOut) ≤ pb.ts := by split <;> omega
          have hsz := hv.size
          have hidl : ∀ x ∈ takeW b (items.drop idx), x.id.length = 64 := fun x hx => hv.idLen x (List.mem_of_mem_drop (takeW_mem hx))
          have hcount : ∀ L : List Item, L <:+: takeW b (items.drop idx) → L.length < 2 ^ 56 := by
            intro L hL
            have h1 := hL.length_le
            have : (takeW b (items.drop idx)).length ≤ items.length := by
              rw [← u4]; simp
            omega
          -- the reply with the items `L` up to the bound `e`
          have hsrv : ∀ (L : List Item) (e : Item) (up : Nat) (stop : Option (Item × Nat)), L <:+: takeW b (items.drop idx) → GoodBound e →
              pb.ts ≤ e.ts → respLoop n.limit full.length 0 idx (takeW b (items.drop idx)) = (L.map (·.id), stop) →
              (match stop with | none => (b, upper) | some (item, index) => (item, index)) = (e, up) →
              switchMode H s0 { n with lastIn := b.ts } (rd (pre ++ encBound n.lastIn b ++ vi 2) (vi l.length ++ l.flatten ++ encMsg b.ts M)) b idx upper ((2 : Nat) : Int) =
                .ok ⟨{ n with lastIn := b.ts }, rd (pre ++ encBound n.lastIn b ++ vi 2 ++ vi l.length ++ l.flatten) (encMsg b.ts M), ⟨[], e.ts⟩,
                  full ++ encMsg n.lastOut (fin sk pb ++ [⟨e, .ids (L.map (·.id))⟩]), up, false⟩ ∧
              MsgOK n.lastOut (fin sk pb ++ [⟨e, .ids (L.map (·.id))⟩]) ∧
              lastTs (fin sk pb ++ [⟨e, .ids (L.map (·.id))⟩]) n.lastOut = e.ts ∧
              64 * L.length ≤ (encMsg n.lastOut (fin sk pb ++ [⟨e, .ids (L.map (·.id))⟩])).length := by
            intro L e up stop hL he hpe hresp hstop
            rcases stop with _ | ⟨i, j⟩ <;> cases hstop
            all_goals
              have hLid : ∀ i ∈ L.map (·.id), i.length = 64 := by
                intro i hi'
                obtain ⟨x, hx, rfl⟩ := List.mem_map.1 hi'
                exact hidl x (hL.subset hx)
              refine ⟨?_, ?_, ?_, ?_⟩
              · simp only [switchMode, switchIds]
                rw [if_neg (by norm_num), if_neg (by norm_num), if_pos (by norm_num), List.append_assoc (vi l.length), hrn, Res.ok_bind]
                simp only [Int.toNat_natCast]
                rw [hri, Res.ok_bind]
                simp only [hi, hrange, lift, Res.ok_bind, hcl, Bool.false_eq_true, if_false]
                simp only [switchIdsServer, k1, Out.val_bind, s0]
                rw [hresp]
                simp only []
                rw [Wr.bound_eq (w := ⟨[] ++ encMsg n.lastOut (fin sk pb), if sk then pb.ts else n.lastOut⟩) he hlast0 (by simp only; omega)]
                simp only [Out.val_bind, Wr.byte]
                rw [Wr.varInt_eq (by rw [List.length_map]; exact hcount L hL)]
                simp only [Out.val_bind, Out.pure_eq, Wr.hex]
                congr 2
                rw [encMsg_append, k3]
                simp [encMsg, encPay, vi_byte2]
              · refine msgOK_append k2 ?_
                rw [k3]
                exact ⟨hlast0, by simp only; omega, he, ⟨by rw [List.length_map]; exact hcount L hL, hLid⟩, trivial⟩
              · cases sk <;> rfl
              · have h4 := flatten_ids_length _ hLid
                rw [List.length_map] at h4
                rw [encMsg_append]
                simp only [encMsg, encPay, List.length_append]
                omega
          rcases respLoop_eq n.limit full.length (takeW b (items.drop idx)) 0 idx hidl with hresp | ⟨xs, y, ys, hcut, hresp, hexc⟩
          · obtain ⟨q1, q2, q3, q4⟩ := hsrv _ b upper none (List.infix_refl _) m2 hpbb hresp rfl
            by_cases hx : exceeded n.limit (full.length + (encMsg n.lastOut (fin sk pb ++ [⟨b, .ids ((takeW b (items.drop idx)).map (·.id))⟩])).length) 0 = true
            · refine common2 _ _ 2 (vi l.length ++ l.flatten) (by omega) (by simp [encPay]) q1 rfl u3 (by simp only; omega) hbi
                hi rfl rfl rfl rfl q2 (by rw [q3]; omega) (by rw [q3]; exact hbi) ?_ ?_
              · simpa using hx
              · simp only [u5, List.append_assoc, List.cons_append, List.nil_append]
                exact ProcL.idsFull wr b l M _ pb sk hcl (exceeded_some hx)
            · refine common _
                (pre ++ encBound n.lastIn b ++ vi 2 ++ vi l.length ++ l.flatten)
                (fin sk pb ++ [⟨b, .ids ((takeW b (items.drop idx)).map (·.id))⟩]) [] [] false true 2 (vi l.length ++ l.flatten)
                (by omega) (by simp [encPay]) q1 rfl (by simp) rfl rfl q3.symm hi rfl rfl rfl (by simp) (by simp) q2 (by rw [q3]; omega)
                (by rw [q3]) ?_ (by simpa using hx) (fun h => by cases h) ?_
              · have := encMsg_even _ _ q2
                simp only [List.length_append]
                omega
              · intro M' h hn hp
                simp only [List.append_assoc, List.nil_append, List.cons_append]
                exact ProcL.idsS wr b l M _ pb sk M' h hn hcl hp
          · have hy : y ∈ takeW b (items.drop idx) := by rw [hcut]; simp
            have hyv := List.mem_of_mem_drop (takeW_mem hy)
            have hgy : GoodBound y := ⟨Or.inr (hv.ts y hyv), by rw [hv.idLen y hyv], by rw [hv.idLen y hyv]⟩
            have hpy : pb.ts ≤ y.ts := by
              by_contra hc
              exact hge y (takeW_mem hy) (Or.inl (by omega))
            have hxs : xs ≠ [] := by
              rintro rfl
              simp only [List.length_nil, Nat.mul_zero, Nat.add_zero] at hexc
              rw [hnx] at hexc
              cases hexc
            obtain ⟨q1, q2, q3, q4⟩ := hsrv xs y (idx + xs.length) (some (y, idx + xs.length))
              (by rw [hcut]; exact (List.prefix_append _ _).isInfix) hgy hpy hresp rfl
            have hlen3 : idx + xs.length ≤ items.length := by
              have h1 : (takeW b (items.drop idx)).length ≤ (items.drop idx).length := (infix_takeW _ _).length_le
              rw [hcut] at h1
              simp only [List.length_append, List.length_cons, List.length_drop] at h1
              omega
            have hdrop : items.drop (idx + xs.length) = y :: ys ++ dropW b (items.drop idx) := by
              have h1 : items.drop idx = xs ++ (y :: ys ++ dropW b (items.drop idx)) := by
                rw [← List.append_assoc, ← hcut, takeW_append_dropW]
              rw [← List.drop_drop, h1, List.drop_left, ← h1]
            have hpr : ProcL (rangeFp H) n.isClient n.limit.isSome wr (⟨b, .ids l⟩ :: M) (items.drop idx) pb sk
                ((fin sk pb ++ [⟨y, .ids (xs.map (·.id))⟩]) ++ [rest (rangeFp H) (items.drop (idx + xs.length))]) [] [] := by
              rw [hdrop]
              simp only [List.append_assoc, List.cons_append, List.nil_append]
              exact ProcL.idsStop wr b l M _ pb sk xs y ys hcl (exceeded_some hexc) hcut hxs
            refine common2 _ _ 2 (vi l.length ++ l.flatten) (by omega) (by simp [encPay]) q1 rfl hlen3 (by simp only; omega) hgy.le_inf
              hi rfl rfl rfl rfl q2 (by rw [q3]; omega) (by rw [q3]; exact hgy.le_inf) ?_ hpr
            simp only [List.length_append, List.length_nil]
            refine exceeded_mono hexc ?_
            omega

end GoNostr.Neg
