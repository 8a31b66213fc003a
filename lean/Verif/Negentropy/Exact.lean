import Verif.Negentropy.Limits
/-!
# Reconciliation with frame size limits: exactly what is answered, and what gets lost (C50)

`procX` is the answer to a message as a function on ranges, sizes included; `reconcileX_eq` says that it is what `Reconcile` computes. With it the kernel can run a whole session of large
messages (`C50_both_limits_lose`).
-/

set_option autoImplicit false

namespace GoNostr.Neg

/-- The answer to a message by a party holding (from here on) the items `R`, after `fl` characters of output the last of which was a bound with timestamp `last`: the ranges written and what a
client reports. -/
def procX (fpOf : List Item → Bytes) (cl : Bool) (limit : Option Int) : List Rng → Nat → Int → List Item → Item → Bool → List Rng × List Bytes × List Bytes
  | [], _, _, _, _, _ => ([], [], [])
  | ⟨b, .skip⟩ :: M, fl, last, R, _, _ => procX fpOf cl limit M fl last (dropW b R) b true
  | ⟨b, .fp f⟩ :: M, fl, last, R, pb, sk =>
    if f = fpOf (takeW b R) then procX fpOf cl limit M fl last (dropW b R) b true
    else
      let out := fin sk pb ++ splitX fpOf (takeW b R) b
      let fl' := fl + (encMsg last out).length
      if exceeded limit fl' 0 then ([rest fpOf (dropW b R)], [], [])
      else
        let q := procX fpOf cl limit M fl' b.ts (dropW b R) b false
        (out ++ q.1, q.2.1, q.2.2)
  | ⟨b, .ids l⟩ :: M, fl, last, R, pb, sk =>
    if cl then
      let c := cancelIds l.dedup ((takeW b R).map (·.id))
      let q := procX fpOf cl limit M fl last (dropW b R) b true
      (q.1, c.1 ++ q.2.1, c.2 ++ q.2.2)
    else
      let a := respLoop limit fl 0 0 (takeW b R)
      match a.2 with
      | some (y, _) => (fin sk pb ++ [⟨y, .ids a.1⟩] ++ [rest fpOf (R.drop a.1.length)], [], [])
      | none =>
        let out := fin sk pb ++ [⟨b, .ids a.1⟩]
        let fl' := fl + (encMsg last out).length
        if exceeded limit fl' 0 then (out ++ [rest fpOf (dropW b R)], [], [])
        else
          let q := procX fpOf cl limit M fl' b.ts (dropW b R) b false
          (out ++ q.1, q.2.1, q.2.2)

section
variable {fpOf : List Item → Bytes} {cl : Bool} {limit : Option Int} {b pb : Item} {M M' : List Rng} {R : List Item} {fl : Nat} {last : Int} {sk : Bool} {h hn l : List Bytes} {f : Bytes}

theorem procX_fpEq (hf : f = fpOf (takeW b R)) : procX fpOf cl limit (⟨b, .fp f⟩ :: M) fl last R pb sk = procX fpOf cl limit M fl last (dropW b R) b true := by
  rw [procX, if_pos hf]

theorem procX_fpStop (hf : f ≠ fpOf (takeW b R)) (hx : exceeded limit (fl + (encMsg last (fin sk pb ++ splitX fpOf (takeW b R) b)).length) 0 = true) :
    procX fpOf cl limit (⟨b, .fp f⟩ :: M) fl last R pb sk = ([rest fpOf (dropW b R)], [], []) := by
  rw [procX, if_neg hf]
  simp only [hx, if_true]

theorem procX_fpNe (hf : f ≠ fpOf (takeW b R)) (hx : exceeded limit (fl + (encMsg last (fin sk pb ++ splitX fpOf (takeW b R) b)).length) 0 = false)
    (hq : procX fpOf cl limit M (fl + (encMsg last (fin sk pb ++ splitX fpOf (takeW b R) b)).length) b.ts (dropW b R) b false = (M', h, hn)) :
    procX fpOf cl limit (⟨b, .fp f⟩ :: M) fl last R pb sk = (fin sk pb ++ splitX fpOf (takeW b R) b ++ M', h, hn) := by
  rw [procX, if_neg hf]
  simp only [hx, hq, Bool.false_eq_true, if_false]

theorem procX_idsC (hc : cl = true) (hq : procX fpOf cl limit M fl last (dropW b R) b true = (M', h, hn)) :
    procX fpOf cl limit (⟨b, .ids l⟩ :: M) fl last R pb sk =
      ([] ++ M', (cancelIds l.dedup ((takeW b R).map (·.id))).1 ++ h, (cancelIds l.dedup ((takeW b R).map (·.id))).2 ++ hn) := by
  rw [procX, if_pos hc]
  simp only [hq, List.nil_append]

theorem respLoop_index (limit : Option Int) (full : Nat) : ∀ (mine : List Item) (resp i j : Nat),
    (respLoop limit full resp i mine).1 = (respLoop limit full resp j mine).1 ∧
    (respLoop limit full resp i mine).2.map Prod.fst = (respLoop limit full resp j mine).2.map Prod.fst
  | [], _, _, _ => ⟨rfl, rfl⟩
  | x :: mine, resp, i, j => by
    have ih := respLoop_index limit full mine (resp + x.id.length) (i + 1) (j + 1)
    simp only [respLoop]
    by_cases hc : exceeded limit full resp = true
    · unfold exceeded at hc
      rw [if_pos hc, if_pos hc]
      exact ⟨rfl, rfl⟩
    · unfold exceeded at hc
      rw [if_neg hc, if_neg hc]
      exact ⟨congrArg (x.id :: ·) ih.1, ih.2⟩

theorem respLoop_all {idx : Nat} {seg : List Item} {ids : List Bytes} (hr : respLoop limit fl 0 idx seg = (ids, none)) : respLoop limit fl 0 0 seg = (ids, none) := by
  obtain ⟨h1, h2⟩ := respLoop_index limit fl seg 0 idx 0
  rw [hr] at h1 h2
  ext1
  · exact h1.symm
  · exact Option.map_eq_none_iff.1 h2.symm

theorem respLoop_cut {idx i : Nat} {seg : List Item} {ids : List Bytes} {y : Item} (hr : respLoop limit fl 0 idx seg = (ids, some (y, i))) :
    ∃ j, respLoop limit fl 0 0 seg = (ids, some (y, j)) := by
  obtain ⟨h1, h2⟩ := respLoop_index limit fl seg 0 idx 0
  rw [hr] at h1 h2
  obtain ⟨⟨y', j⟩, h3, h4⟩ := Option.map_eq_some_iff.1 h2.symm
  simp only at h4
  subst h4
  exact ⟨j, by ext1; exact h1.symm; exact h3⟩

theorem procX_idsFull {idx : Nat} {ids : List Bytes} (hc : cl = false) (hr : respLoop limit fl 0 idx (takeW b R) = (ids, none))
    (hx : exceeded limit (fl + (encMsg last (fin sk pb ++ [⟨b, .ids ids⟩])).length) 0 = true) :
    procX fpOf cl limit (⟨b, .ids l⟩ :: M) fl last R pb sk = (fin sk pb ++ [⟨b, .ids ids⟩] ++ [rest fpOf (dropW b R)], [], []) := by
  rw [procX, if_neg (by rw [hc]; decide)]
  simp only [respLoop_all hr, hx, if_true]

theorem procX_idsS {idx : Nat} {ids : List Bytes} (hc : cl = false) (hr : respLoop limit fl 0 idx (takeW b R) = (ids, none))
    (hx : exceeded limit (fl + (encMsg last (fin sk pb ++ [⟨b, .ids ids⟩])).length) 0 = false)
    (hq : procX fpOf cl limit M (fl + (encMsg last (fin sk pb ++ [⟨b, .ids ids⟩])).length) b.ts (dropW b R) b false = (M', h, hn)) :
    procX fpOf cl limit (⟨b, .ids l⟩ :: M) fl last R pb sk = (fin sk pb ++ [⟨b, .ids ids⟩] ++ M', [] ++ h, [] ++ hn) := by
  rw [procX, if_neg (by rw [hc]; decide)]
  simp only [respLoop_all hr, hx, hq, Bool.false_eq_true, if_false, List.nil_append]

theorem procX_idsStop {idx i : Nat} {xs R' : List Item} {y : Item} (hc : cl = false) (hr : respLoop limit fl 0 idx (takeW b R) = (xs.map (·.id), some (y, i)))
    (_ : exceeded limit (fl + (encMsg last (fin sk pb ++ [⟨y, .ids (xs.map (·.id))⟩])).length) 0 = true) (hR : R' = R.drop xs.length) :
    procX fpOf cl limit (⟨b, .ids l⟩ :: M) fl last R pb sk = (fin sk pb ++ [⟨y, .ids (xs.map (·.id))⟩] ++ [rest fpOf R'], [], []) := by
  obtain ⟨j, hj⟩ := respLoop_cut hr
  rw [procX, if_neg (by rw [hc]; decide)]
  simp only [hj, List.length_map, hR]

end

theorem loopX_eq (H : Hash32) (items : List Item) (hv : VecOK items) : ∀ (M : List Rng) (fuel : Nat) (pre : Bytes) (n : Neg)
    (full : Bytes) (pb : Item) (idx : Nat) (sk : Bool), MsgOK n.lastIn M → Mono pb M → n.items = items → LimOK n.limit →
    full.length % 2 = 0 → exceeded n.limit full.length 0 = false →
    0 ≤ n.lastOut → n.lastOut ≤ pb.ts → GoodBound pb → idx ≤ items.length → (∀ x ∈ items.drop idx, ¬ ItemLt x pb) →
    M.length < fuel →
    ∃ (M' : List Rng) (h hn : List Bytes) (s' : Loop),
      loop H fuel ⟨n, rd pre (encMsg n.lastIn M), full, pb, idx, sk⟩ = .ok s' ∧ s'.full = full ++ encMsg n.lastOut M' ∧
      procX (rangeFp H) n.isClient n.limit M full.length n.lastOut (items.drop idx) pb sk = (M', h, hn) ∧ MsgOK n.lastOut M' ∧
      s'.n.items = items ∧ s'.n.limit = n.limit ∧ s'.n.isClient = n.isClient ∧ s'.n.haves = n.haves ++ h ∧
      s'.n.haveNots = n.haveNots ++ hn := by
  intro M
  induction M with
  | nil =>
    intro fuel pre n full pb idx sk _ _ hi hlim _ _ _ _ _ _ _ hf
    cases fuel with
    | zero => omega
    | succ fuel =>
      refine ⟨[], [], [], ⟨n, rd pre [], full, pb, idx, sk⟩, ?_, ?_, rfl, trivial, hi, rfl, rfl, ?_, ?_⟩
      · simp [loop, encMsg, rd_len]
      · simp [encMsg]
      · simp
      · simp
  | cons r M ih =>
    intro fuel pre n full pb idx sk hm hmono hi hlim hev hnx h0 hl hg hidx hge hf
    cases fuel with
    | zero => omega
    | succ fuel =>
      obtain ⟨b, pay⟩ := r
      obtain ⟨m0, m1, m2, m3, m4⟩ := hm
      obtain ⟨hb, hmono'⟩ := hmono
      simp only at m1 m2 m3 m4 hb hmono'
      have hpbb : pb.ts ≤ b.ts := by
        by_contra hc
        exact hb (Or.inl (by omega))
      obtain ⟨upper, u1, u2, u3, u4, u5⟩ := findLowerBound_eq items hv idx hidx b
      have hge' : ∀ x ∈ items.drop upper, ¬ ItemLt x b := by
        intro x hx
        rw [u5] at hx
        exact dropW_ge (List.Pairwise.sublist (List.drop_sublist _ _) hv.weak) hx
      have hlen : (rd pre (encMsg n.lastIn (⟨b, pay⟩ :: M))).len > 0 := by
        rw [rd_len]
        have := encMsg_length (⟨b, pay⟩ :: M) n.lastIn ⟨m0, m1, m2, m3, m4⟩
        simp only [List.length_cons] at this
        omega
      have hread := readBound_eq n.lastIn b (m2.ok m0 m1) pre (encPay pay ++ encMsg b.ts M)
      have htk : ∀ x ∈ (items.drop idx).take (upper - idx), x ∈ items.drop idx := fun x hx => List.mem_of_mem_take hx
      -- what the loop does with this range
      let s0 : Loop := ⟨n, rd pre (encMsg n.lastIn (⟨b, pay⟩ :: M)), full, pb, idx, sk⟩
      have hstep0 : ∀ (sw : Sw) (m : Nat) (tl : Bytes), m ≤ 2 → encPay pay = vi m ++ tl →
          switchMode H s0 { n with lastIn := b.ts } (rd (pre ++ encBound n.lastIn b ++ vi m) (tl ++ encMsg b.ts M)) b idx upper m = .ok sw →
          loopStep H s0 = lift (stepEnd H s0 b sw) := by
        intro sw m tl hm2 hpay hsw
        simp only [s0] at hsw ⊢
        unfold loopStep
        have e1 : encMsg n.lastIn (⟨b, pay⟩ :: M) = encBound n.lastIn b ++ (encPay pay ++ encMsg b.ts M) := rfl
        rw [e1] at hsw ⊢
        rw [hread, Res.ok_bind]
        simp only []
        rw [hpay, List.append_assoc, vi_read m (by have : (2:Nat) < 2 ^ 56 := by norm_num
                                                   omega), Res.ok_bind]
        simp only [hi, u1, Res.ok_bind]
        rw [hpay, List.append_assoc] at hsw
        have hmm : ((m : Int)) % 256 = m := by omega
        simp only [hi] at hsw
        have hl1 : lift (Out.val upper) = .ok upper := rfl
        rw [hl1, Res.ok_bind]
        rw [hmm, hsw, Res.ok_bind]
      -- an iteration after which the loop goes on
      have common : ∀ (sw : Sw) (pre' : Bytes) (out : List Rng) (h1 hn1 : List Bytes) (sk' : Bool) (m : Nat) (tl : Bytes), m ≤ 2 →
          encPay pay = vi m ++ tl →
          switchMode H s0 { n with lastIn := b.ts } (rd (pre ++ encBound n.lastIn b ++ vi m) (tl ++ encMsg b.ts M)) b idx upper m = .ok sw →
          sw.r = rd pre' (encMsg b.ts M) → sw.full ++ sw.part.buf = full ++ encMsg n.lastOut out → sw.upper = upper →
          sw.skipping = sk' → sw.part.last = lastTs out n.lastOut → sw.n.items = items → sw.n.limit = n.limit →
          sw.n.isClient = n.isClient → sw.n.lastIn = b.ts → sw.n.haves = n.haves ++ h1 → sw.n.haveNots = n.haveNots ++ hn1 →
          MsgOK n.lastOut out → 0 ≤ lastTs out n.lastOut → lastTs out n.lastOut ≤ b.ts →
          sw.full.length % 2 = 0 → exceeded n.limit (full.length + (encMsg n.lastOut out).length) 0 = false →
          (∀ M' h hn, procX (rangeFp H) n.isClient n.limit M (full.length + (encMsg n.lastOut out).length) (lastTs out n.lastOut) (dropW b (items.drop idx)) b sk' = (M', h, hn) →
            procX (rangeFp H) n.isClient n.limit (⟨b, pay⟩ :: M) full.length n.lastOut (items.drop idx) pb sk = (out ++ M', h1 ++ h, hn1 ++ hn)) →
          ∃ (M' : List Rng) (h hn : List Bytes) (s' : Loop),
            loop H (fuel + 1) s0 = .ok s' ∧ s'.full = full ++ encMsg n.lastOut M' ∧
            procX (rangeFp H) n.isClient n.limit (⟨b, pay⟩ :: M) full.length n.lastOut (items.drop idx) pb sk = (M', h, hn) ∧ MsgOK n.lastOut M' ∧
            s'.n.items = items ∧ s'.n.limit = n.limit ∧ s'.n.isClient = n.isClient ∧ s'.n.haves = n.haves ++ h ∧
            s'.n.haveNots = n.haveNots ++ hn := by
        intro sw pre' out h1 hn1 sk' m tl hm2 hpay hsw er efull eup esk elast eit elim ecl elin eh ehn hmo hl0 hlb hfe hnx' hproc
        have hlen2 : sw.full.length + sw.part.buf.length = full.length + (encMsg n.lastOut out).length := by
          rw [← List.length_append, efull, List.length_append]
        have hoe := encMsg_even out _ hmo
        obtain ⟨M', h', hn', s', i1, i2, i3, i4, i5, i6, i7, i8, i9⟩ := ih fuel pre' { sw.n with lastOut := sw.part.last }
          (sw.full ++ sw.part.buf) b upper sk' (by simp only [elin]; exact m4) hmono' eit (by simp only [elim]; exact hlim)
          (by rw [List.length_append]; omega) (by simp only [elim, List.length_append, hlen2]; exact hnx')
          (by simp only [elast]; exact hl0)
          (by simp only [elast]; exact hlb) m2 u3 hge' (by simp at hf; omega)
        have hex : exceeded n.limit sw.full.length sw.part.buf.length = false := by
          rw [exceeded_add hfe, hlen2]; exact hnx'
        have hstep : loopStep H s0 =
            .ok (⟨{ sw.n with lastOut := sw.part.last }, sw.r, sw.full ++ sw.part.buf, b, upper, sk'⟩, false) := by
          rw [hstep0 sw m tl hm2 hpay hsw]
          simp only [stepEnd, elim, hex, Bool.false_eq_true, if_false, Out.pure_eq, eup, esk, lift]
        refine ⟨out ++ M', h1 ++ h', hn1 ++ hn', s', ?_, ?_, ?_, ?_, i5, ?_, ?_, ?_, ?_⟩
        · unfold loop
          have hlen0 : s0.r.len > 0 := hlen
          simp only [hlen0, if_true, hstep, Res.ok_bind, Bool.false_eq_true, if_false]
          rw [er, ← elin]
          exact i1
        · rw [i2, efull]
          simp only [elast]
          rw [encMsg_append, List.append_assoc]
        · apply hproc
          rw [u5] at i3
          simp only [ecl, elim, elast, List.length_append, hlen2] at i3
          exact i3
        · simp only [elast] at i4
          exact msgOK_append hmo i4
        · rw [i6]; exact elim
        · rw [i7]; exact ecl
        · rw [i8]; simp only [eh, List.append_assoc]
        · rw [i9]; simp only [ehn, List.append_assoc]
      -- an iteration that ends the loop
      have common2 : ∀ (sw : Sw) (out : List Rng) (m : Nat) (tl : Bytes), m ≤ 2 → encPay pay = vi m ++ tl →
          switchMode H s0 { n with lastIn := b.ts } (rd (pre ++ encBound n.lastIn b ++ vi m) (tl ++ encMsg b.ts M)) b idx upper m = .ok sw →
          sw.full = full ++ encMsg n.lastOut out → sw.upper ≤ items.length → 0 ≤ sw.part.last → sw.part.last ≤ infiniteBound.ts →
          sw.n.items = items → sw.n.limit = n.limit →
          sw.n.isClient = n.isClient → sw.n.haves = n.haves → sw.n.haveNots = n.haveNots →
          MsgOK n.lastOut out → 0 ≤ lastTs out n.lastOut → lastTs out n.lastOut ≤ infiniteBound.ts →
          exceeded n.limit sw.full.length sw.part.buf.length = true →
          procX (rangeFp H) n.isClient n.limit (⟨b, pay⟩ :: M) full.length n.lastOut (items.drop idx) pb sk =
            (out ++ [rest (rangeFp H) (items.drop sw.upper)], [], []) →
          ∃ (M' : List Rng) (h hn : List Bytes) (s' : Loop),
            loop H (fuel + 1) s0 = .ok s' ∧ s'.full = full ++ encMsg n.lastOut M' ∧
            procX (rangeFp H) n.isClient n.limit (⟨b, pay⟩ :: M) full.length n.lastOut (items.drop idx) pb sk = (M', h, hn) ∧ MsgOK n.lastOut M' ∧
            s'.n.items = items ∧ s'.n.limit = n.limit ∧ s'.n.isClient = n.isClient ∧ s'.n.haves = n.haves ++ h ∧
            s'.n.haveNots = n.haveNots ++ hn := by
        intro sw out m tl hm2 hpay hsw efull eup p0 p1 eit elim ecl eh ehn hmo hl0 hlb hex hproc
        obtain ⟨g1, g2⟩ := fingerprint_eq H items hv sw.upper items.length eup (le_refl _)
        have htake : (items.drop sw.upper).take (items.length - sw.upper) = items.drop sw.upper := by
          apply List.take_of_length_le; simp
        rw [htake] at g1 g2
        have hwb := Wr.bound_eq (w := ⟨sw.full, sw.part.last⟩) goodInf p0 p1
        refine ⟨_, [], [], ⟨{ sw.n with lastOut := infiniteBound.ts }, sw.r,
          sw.full ++ encBound sw.part.last infiniteBound ++ hexEnc [1] ++ rangeFp H (items.drop sw.upper), pb, idx, sw.skipping⟩,
          ?_, ?_, hproc, ?_, eit, elim, ecl, by simp [eh], by simp [ehn]⟩
        · have hstep : loopStep H s0 = .ok (⟨{ sw.n with lastOut := infiniteBound.ts }, sw.r,
              sw.full ++ encBound sw.part.last infiniteBound ++ hexEnc [1] ++ rangeFp H (items.drop sw.upper), pb, idx, sw.skipping⟩, true) := by
            rw [hstep0 sw m tl hm2 hpay hsw]
            simp only [stepEnd, elim, hex, if_true, eit, g1, Out.val_bind, hwb, Wr.byte, Wr.hex, Out.pure_eq, lift, s0]
          unfold loop
          have hlen0 : s0.r.len > 0 := hlen
          simp only [hlen0, if_true, hstep, Res.ok_bind]
          rfl
        · simp only [efull]
          rw [encMsg_append, encBound_inf sw.part.last (lastTs out n.lastOut)]
          simp [encMsg, encPay, rest, vi_byte1]
        · exact msgOK_append hmo ⟨hl0, hlb, goodInf, g2, trivial⟩
      have hpi := hg.le_inf
      have hbi := m2.le_inf
      have hnil : exceeded n.limit (full.length + (encMsg n.lastOut []).length) 0 = false := by simpa [encMsg] using hnx
      cases pay with
      | skip =>
        refine common ⟨{ n with lastIn := b.ts }, rd (pre ++ encBound n.lastIn b ++ vi 0) (encMsg b.ts M), ⟨[], n.lastOut⟩, full, upper, true⟩
          (pre ++ encBound n.lastIn b ++ vi 0) [] [] [] true 0 [] (by omega) (by simp [encPay]) ?_ rfl (by simp [encMsg]) rfl rfl rfl
          hi rfl rfl rfl (by simp) (by simp) trivial h0 (by simp only [lastTs]; omega) hev hnil ?_
        · simp [switchMode, s0]
        · intro M' h hn hp
          simpa [procX, encMsg, lastTs] using hp
      | fp f =>
        obtain ⟨f1, f2⟩ := fingerprint_eq H items hv idx upper u2 u3
        rw [u4] at f1 f2
        have hrs := readString_rd (pre ++ encBound n.lastIn b ++ vi 1) f (encMsg b.ts M) 32 (by simp only [PayOK] at m3; omega)
        by_cases hf1 : f = rangeFp H (takeW b (items.drop idx))
        · refine common ⟨{ n with lastIn := b.ts }, rd (pre ++ encBound n.lastIn b ++ vi 1 ++ f) (encMsg b.ts M), ⟨[], n.lastOut⟩, full, upper, true⟩
            (pre ++ encBound n.lastIn b ++ vi 1 ++ f) [] [] [] true 1 f (by omega) (by simp [encPay]) ?_ rfl (by simp [encMsg]) rfl rfl rfl
            hi rfl rfl rfl (by simp) (by simp) trivial h0 (by simp only [lastTs]; omega) hev hnil ?_
          · simp only [switchMode, Nat.cast_one, one_ne_zero, if_false, if_true, switchFingerprint, s0]
            rw [hrs, Res.ok_bind]
            simp only [hi, f1, lift, Res.ok_bind]
            rw [if_pos hf1]
            rfl
          · intro M' h hn hp
            rw [procX_fpEq hf1]; simpa [encMsg, lastTs] using hp
        · obtain ⟨k1, k2, k3⟩ := finishSkip_eq (sk := sk) (w := ⟨[], n.lastOut⟩) hg h0 hl
          have hlast0 : 0 ≤ (if sk then pb.ts else n.lastOut) := by split <;> omega
          have hlastb : (if sk then pb.ts else n.lastOut) ≤ pb.ts := by split <;> omega
          obtain ⟨N, n1, n2, n3, n4, n5⟩ := splitRange_eq_exact H items hv idx upper u2 u3 b m2
            ⟨[] ++ encMsg n.lastOut (fin sk pb), if sk then pb.ts else n.lastOut⟩
            (by rw [u4]; intro x hx; exact takeW_lt hx) hlast0 (by simp only; omega)
            (by
              intro x hx
              have := hge x (htk x hx)
              simp only
              by_contra hc
              exact this (Or.inl (by omega)))
          rw [u4] at n2 n5
          simp only at k3
          have hmo : MsgOK n.lastOut (fin sk pb ++ N) := msgOK_append k2 (by rw [k3]; exact n3)
          have hlt0 : ∀ (a : List Rng) t, lastTs (a ++ N) t = b.ts := by
            intro a
            induction a with
            | nil => intro t; exact splitOK_lastTs n2 t
            | cons q a iha => intro t; exact iha _
          have henc : encMsg n.lastOut (fin sk pb ++ N) = encMsg n.lastOut (fin sk pb) ++ encMsg (if sk then pb.ts else n.lastOut) N := by
            rw [encMsg_append, k3]
          have hswm : switchMode H s0 { n with lastIn := b.ts } (rd (pre ++ encBound n.lastIn b ++ vi 1) (f ++ encMsg b.ts M)) b idx upper ((1 : Nat) : Int) =
              .ok ⟨{ n with lastIn := b.ts }, rd (pre ++ encBound n.lastIn b ++ vi 1 ++ f) (encMsg b.ts M),
                ⟨[] ++ encMsg n.lastOut (fin sk pb) ++ encMsg (if sk then pb.ts else n.lastOut) N, b.ts⟩, full, upper, false⟩ := by
            simp only [switchMode, Nat.cast_one, one_ne_zero, if_false, if_true, switchFingerprint, s0]
            rw [hrs, Res.ok_bind]
            simp only [hi, f1, lift, Res.ok_bind]
            rw [if_neg hf1]
            simp only [k1, n1, Res.ok_bind]
            rfl
          by_cases hx : exceeded n.limit (full.length + (encMsg n.lastOut (fin sk pb ++ N)).length) 0 = true
          · have hpr : procX (rangeFp H) n.isClient n.limit (⟨b, .fp f⟩ :: M) full.length n.lastOut (items.drop idx) pb sk =
                ([] ++ [rest (rangeFp H) (items.drop upper)], [], []) := by
              rw [u5]
              exact procX_fpStop hf1 (by rw [← n5]; exact hx)
            refine common2 _ [] 1 f (by omega) (by simp [encPay]) hswm (by simp [encMsg]) u3 (by simp only; omega) hbi
              hi rfl rfl rfl rfl trivial h0 (by simp only [lastTs]; omega) ?_ hpr
            rw [exceeded_add hev]
            rw [henc] at hx
            simpa using hx
          · refine common ⟨{ n with lastIn := b.ts }, rd (pre ++ encBound n.lastIn b ++ vi 1 ++ f) (encMsg b.ts M),
                ⟨[] ++ encMsg n.lastOut (fin sk pb) ++ encMsg (if sk then pb.ts else n.lastOut) N, b.ts⟩, full, upper, false⟩
              (pre ++ encBound n.lastIn b ++ vi 1 ++ f) (fin sk pb ++ N) [] [] false 1 f (by omega) (by simp [encPay]) hswm rfl ?_ rfl rfl
              (hlt0 _ _).symm hi rfl rfl rfl (by simp) (by simp) hmo (by rw [hlt0]; omega) (by rw [hlt0]) hev (by simpa using hx) ?_
            · simp only [List.nil_append]
              rw [henc]
            · intro M' h hn hp
              rw [hlt0] at hp
              have := procX_fpNe (sk := sk) (pb := pb) (M' := M') (h := h) (hn := hn) (fl := full.length) (last := n.lastOut) (cl := n.isClient) (M := M) hf1
                (by rw [← n5]; simpa using hx) (by rw [← n5]; exact hp)
              rw [← n5] at this
              simpa using this
      | ids l =>
        obtain ⟨l1, l2⟩ := m3
        have hrn := vi_read l.length l1 (pre ++ encBound n.lastIn b ++ vi 2) (l.flatten ++ encMsg b.ts M)
        have hri := readIds_eq l (pre ++ encBound n.lastIn b ++ vi 2 ++ vi l.length) (encMsg b.ts M) l2
        have hrange : vecRange items idx upper = .val (takeW b (items.drop idx)) := by
          unfold vecRange
          rw [if_neg (by omega), u4]
        rcases Bool.eq_false_or_eq_true n.isClient with hcl | hcl
        · refine common (switchIdsClient s0 { n with lastIn := b.ts }
              (rd (pre ++ encBound n.lastIn b ++ vi 2 ++ vi l.length ++ l.flatten) (encMsg b.ts M)) l (takeW b (items.drop idx)) upper)
            (pre ++ encBound n.lastIn b ++ vi 2 ++ vi l.length ++ l.flatten) []
            (cancelIds l.dedup ((takeW b (items.drop idx)).map (·.id))).1 (cancelIds l.dedup ((takeW b (items.drop idx)).map (·.id))).2
            true 2 (vi l.length ++ l.flatten) (by omega) (by simp [encPay]) ?_ rfl (by simp [encMsg, switchIdsClient, s0]) rfl rfl rfl
            hi rfl rfl rfl rfl rfl trivial h0 (by simp only [lastTs]; omega) hev hnil ?_
          · simp only [switchMode, switchIds]
            rw [if_neg (by norm_num), if_neg (by norm_num), if_pos (by norm_num), List.append_assoc (vi l.length), hrn, Res.ok_bind]
            simp only [Int.toNat_natCast]
            rw [hri, Res.ok_bind]
            simp only [hi, hrange, lift, Res.ok_bind, hcl, if_true]
            rfl
          · intro M' h hn hp
            exact procX_idsC hcl (by simpa [encMsg, lastTs] using hp)
        · obtain ⟨k1, k2, k3⟩ := finishSkip_eq (sk := sk) (w := ⟨[], n.lastOut⟩) hg h0 hl
          simp only at k3
          have hlast0 : 0 ≤ (if sk then pb.ts else n.lastOut) := by split <;> omega
          have hlastb : (if sk then pb.ts else n.lastOut) ≤ b.ts := by split <;> omega
          have hlastp : (if sk then pb.ts else n.lastOut) ≤ pb.ts := by split <;> omega
          have hsz := hv.size
          have hidl : ∀ x ∈ takeW b (items.drop idx), x.id.length = 64 := fun x hx => hv.idLen x (List.mem_of_mem_drop (takeW_mem hx))
          have hcount : ∀ L : List Item, L <:+: takeW b (items.drop idx) → L.length < 2 ^ 56 := by
            intro L hL
            have h1 := hL.length_le
            have : (takeW b (items.drop idx)).length ≤ items.length := by
              rw [← u4]; simp
            omega
          -- the reply with the items `L` up to the bound `e`
          have hsrv : ∀ (L : List Item) (e : Item) (up : Nat) (stop : Option (Item × Nat)), L <:+: takeW b (items.drop idx) → GoodBound e →
              pb.ts ≤ e.ts → respLoop n.limit full.length 0 idx (takeW b (items.drop idx)) = (L.map (·.id), stop) →
              (match stop with | none => (b, upper) | some (item, index) => (item, index)) = (e, up) →
              switchMode H s0 { n with lastIn := b.ts } (rd (pre ++ encBound n.lastIn b ++ vi 2) (vi l.length ++ l.flatten ++ encMsg b.ts M)) b idx upper ((2 : Nat) : Int) =
                .ok ⟨{ n with lastIn := b.ts }, rd (pre ++ encBound n.lastIn b ++ vi 2 ++ vi l.length ++ l.flatten) (encMsg b.ts M), ⟨[], e.ts⟩,
                  full ++ encMsg n.lastOut (fin sk pb ++ [⟨e, .ids (L.map (·.id))⟩]), up, false⟩ ∧
              MsgOK n.lastOut (fin sk pb ++ [⟨e, .ids (L.map (·.id))⟩]) ∧
              lastTs (fin sk pb ++ [⟨e, .ids (L.map (·.id))⟩]) n.lastOut = e.ts ∧
              64 * L.length ≤ (encMsg n.lastOut (fin sk pb ++ [⟨e, .ids (L.map (·.id))⟩])).length := by
            intro L e up stop hL he hpe hresp hstop
            rcases stop with _ | ⟨i, j⟩ <;> cases hstop
            all_goals
              have hLid : ∀ i ∈ L.map (·.id), i.length = 64 := by
                intro i hi'
                obtain ⟨x, hx, rfl⟩ := List.mem_map.1 hi'
                exact hidl x (hL.subset hx)
              refine ⟨?_, ?_, ?_, ?_⟩
              · simp only [switchMode, switchIds]
                rw [if_neg (by norm_num), if_neg (by norm_num), if_pos (by norm_num), List.append_assoc (vi l.length), hrn, Res.ok_bind]
                simp only [Int.toNat_natCast]
                rw [hri, Res.ok_bind]
                simp only [hi, hrange, lift, Res.ok_bind, hcl, Bool.false_eq_true, if_false]
                simp only [switchIdsServer, k1, Out.val_bind, s0]
                rw [hresp]
                simp only []
                rw [Wr.bound_eq (w := ⟨[] ++ encMsg n.lastOut (fin sk pb), if sk then pb.ts else n.lastOut⟩) he hlast0 (by simp only; omega)]
                simp only [Out.val_bind, Wr.byte]
                rw [Wr.varInt_eq (by rw [List.length_map]; exact hcount L hL)]
                simp only [Out.val_bind, Out.pure_eq, Wr.hex]
                congr 2
                rw [encMsg_append, k3]
                simp [encMsg, encPay, vi_byte2]
              · refine msgOK_append k2 ?_
                rw [k3]
                exact ⟨hlast0, by simp only; omega, he, ⟨by rw [List.length_map]; exact hcount L hL, hLid⟩, trivial⟩
              · cases sk <;> rfl
              · have h4 := flatten_ids_length _ hLid
                rw [List.length_map] at h4
                rw [encMsg_append]
                simp only [encMsg, encPay, List.length_append]
                omega
          rcases respLoop_eq n.limit full.length (takeW b (items.drop idx)) 0 idx hidl with hresp | ⟨xs, y, ys, hcut, hresp, hexc⟩
          · obtain ⟨q1, q2, q3, q4⟩ := hsrv _ b upper none (List.infix_refl _) m2 hpbb hresp rfl
            by_cases hx : exceeded n.limit (full.length + (encMsg n.lastOut (fin sk pb ++ [⟨b, .ids ((takeW b (items.drop idx)).map (·.id))⟩])).length) 0 = true
            · refine common2 _ _ 2 (vi l.length ++ l.flatten) (by omega) (by simp [encPay]) q1 rfl u3 (by simp only; omega) hbi
                hi rfl rfl rfl rfl q2 (by rw [q3]; omega) (by rw [q3]; exact hbi) ?_ ?_
              · simpa using hx
              · simp only [u5]
                exact procX_idsFull hcl hresp (by simpa using hx)
            · refine common _
                (pre ++ encBound n.lastIn b ++ vi 2 ++ vi l.length ++ l.flatten)
                (fin sk pb ++ [⟨b, .ids ((takeW b (items.drop idx)).map (·.id))⟩]) [] [] false 2 (vi l.length ++ l.flatten)
                (by omega) (by simp [encPay]) q1 rfl (by simp) rfl rfl q3.symm hi rfl rfl rfl (by simp) (by simp) q2 (by rw [q3]; omega)
                (by rw [q3]) ?_ (by simpa using hx) ?_
              · have := encMsg_even _ _ q2
                simp only [List.length_append]
                omega
              · intro M' h hn hp
                rw [q3] at hp
                exact procX_idsS hcl hresp (by simpa using hx) hp
          · have hy : y ∈ takeW b (items.drop idx) := by rw [hcut]; simp
            have hyv := List.mem_of_mem_drop (takeW_mem hy)
            have hgy : GoodBound y := ⟨Or.inr (hv.ts y hyv), by rw [hv.idLen y hyv], by rw [hv.idLen y hyv]⟩
            have hpy : pb.ts ≤ y.ts := by
              by_contra hc
              exact hge y (takeW_mem hy) (Or.inl (by omega))
            have hxs : xs ≠ [] := by
              rintro rfl
              simp only [List.length_nil, Nat.mul_zero, Nat.add_zero] at hexc
              rw [hnx] at hexc
              cases hexc
            obtain ⟨q1, q2, q3, q4⟩ := hsrv xs y (idx + xs.length) (some (y, idx + xs.length))
              (by rw [hcut]; exact (List.prefix_append _ _).isInfix) hgy hpy hresp rfl
            have hlen3 : idx + xs.length ≤ items.length := by
              have h1 : (takeW b (items.drop idx)).length ≤ (items.drop idx).length := (infix_takeW _ _).length_le
              rw [hcut] at h1
              simp only [List.length_append, List.length_cons, List.length_drop] at h1
              omega
            have hdrop : items.drop (idx + xs.length) = y :: ys ++ dropW b (items.drop idx) := by
              have h1 : items.drop idx = xs ++ (y :: ys ++ dropW b (items.drop idx)) := by
                rw [← List.append_assoc, ← hcut, takeW_append_dropW]
              rw [← List.drop_drop, h1, List.drop_left, ← h1]
            have hx : exceeded n.limit (full.length + (encMsg n.lastOut (fin sk pb ++ [⟨y, .ids (xs.map (·.id))⟩])).length) 0 = true :=
              exceeded_mono hexc (by omega)
            have hpr := procX_idsStop (fpOf := rangeFp H) (M := M) (l := l) hcl hresp hx (R' := items.drop (idx + xs.length)) (by rw [← List.drop_drop])
            refine common2 _ _ 2 (vi l.length ++ l.flatten) (by omega) (by simp [encPay]) q1 rfl hlen3 (by simp only; omega) hgy.le_inf
              hi rfl rfl rfl rfl q2 (by rw [q3]; omega) (by rw [q3]; exact hgy.le_inf) ?_ hpr
            simpa using hx


/-- `Reconcile` computes `procX`. -/
theorem reconcileX_eq (H : Hash32) (n : Neg) (hv : VecOK n.items) (hlim : LimOK n.limit) (M : List Rng) (hm : MsgOK 0 M) (hmono : Mono zeroBound M) {M' : List Rng} {h hn : List Bytes}
    (hq : procX (rangeFp H) n.isClient n.limit M 2 0 n.items zeroBound false = (M', h, hn)) : ∃ n',
      reconcile H n (wire M) = .ok (if M' = [] ∧ n.isClient = true then ([], n', true) else (wire M', n', false)) ∧ MsgOK 0 M' ∧
      n'.items = n.items ∧ n'.limit = n.limit ∧ n'.isClient = n.isClient ∧ n'.haves = n.haves ++ h ∧ n'.haveNots = n.haveNots ++ hn := by
  have hlen := encMsg_length M 0 hm
  obtain ⟨M'', h', hn', s', i1, i2, i3, i4, i5, i6, i7, i8, i9⟩ := loopX_eq H n.items hv M ((wire M).length + 1) (hexEnc [0x61])
    { n with lastIn := 0, lastOut := 0 } (hexEnc [0x61]) zeroBound 0 false hm hmono rfl hlim (by rw [length_hexEnc]; rfl)
    (exceeded_small hlim (by rw [length_hexEnc]; simp)) (le_refl _) (by simp [zeroBound])
    goodZero (by omega) (fun x hx => not_lt_zeroBound (hv.ts x (by simpa using hx)).1) (by simp only [wire, List.length_append]; omega)
  have hfl : (hexEnc [0x61]).length = 2 := rfl
  simp only [hfl, List.drop_zero] at i3
  rw [hq] at i3
  simp only [Prod.mk.injEq] at i3
  obtain ⟨rfl, rfl, rfl⟩ := i3
  have haux : reconcileAux H n (wire M) = .ok (wire M', s'.n) := by
    have e0 : (⟨wire M, 0⟩ : Reader) = rd [] (hexEnc [0x61] ++ encMsg 0 M) := rfl
    have e1 : reconcileAux H n (wire M) = (do
        let s ← loop H ((wire M).length + 1)
          { n := { n with lastIn := 0, lastOut := 0 }, r := rd (hexEnc [0x61]) (encMsg 0 M), full := hexEnc [0x61],
            prevBound := zeroBound, prevIndex := 0, skipping := false }
        return (s.full, s.n)) := by
      unfold reconcileAux
      rw [e0, readHexByte_rd, Res.ok_bind]
      simp only [ne_eq, not_true_eq_false, if_false, List.nil_append]
      rfl
    rw [e1, i1, Res.ok_bind, i2]
    rfl
  refine ⟨s'.n, ?_, i4, i5, i6, i7, i8, i9⟩
  have hlen := encMsg_length M' 0 i4
  have hw : (wire M').length = 2 ↔ M' = [] := by
    constructor
    · intro he
      simp only [wire, List.length_append, length_hexEnc, List.length_cons, List.length_nil] at he
      exact List.length_eq_zero_iff.1 (by omega)
    · rintro rfl; rfl
  unfold reconcile
  rw [haux, Res.ok_bind]
  simp only [hw, i7]
  by_cases hc : M' = [] ∧ n.isClient = true
  · rw [if_pos hc, if_pos hc]; rfl
  · rw [if_neg hc, if_neg hc]; rfl

/-! ## A session in which items get lost -/

/-- An id: its first word counts items of the client, the second items of the server, the fifth tells them apart. -/
def idW (a b k : Nat) : Bytes := hexEnc (put32 a ++ put32 b ++ List.replicate 8 0 ++ put32 k ++ List.replicate 12 0)

/-- 512 items of the client. -/
def lossC : List Item := (List.range 512).map fun (i : Nat) => ⟨4 * (i : Int), idW 1 0 i⟩

/-- 128 items of the server, all among or after the last quarter of the client's; the last two are the latest of all. -/
def lossS : List Item := (List.range 128).map fun (p : Nat) => ⟨if p < 126 then 4 * (384 + (p : Int)) + 2 else 2046 + ((p : Int) - 126), idW 0 1 p⟩

/-- Fingerprints of `n` items of the client or the server. -/
def fpC (n : Nat) : Bytes := hexEnc (put32 n ++ List.replicate 12 0)
/-- A value of the examples. -/
def fpS (n : Nat) : Bytes := hexEnc (put32 0 ++ put32 n ++ List.replicate 8 0)

/-- The first message of the client: fingerprints of 16 buckets. -/
def lossM0 : List Rng := (List.range 16).map fun (i : Nat) => ⟨if i = 15 then infiniteBound else ⟨128 * ((i : Int) + 1), []⟩, .fp (fpC 32)⟩

/-- The bounds of the 64 buckets into which the server splits the last four. -/
def lossBound (k : Nat) : Item :=
  if k = 63 then infiniteBound else ⟨if k = 62 then 2046 else if k % 16 = 15 then 4 * (386 + 2 * (k : Int)) else 4 * (386 + 2 * (k : Int)) + 2, []⟩

/-- The answer of the server. -/
def lossM1 : List Rng := ((List.range 12).map fun (i : Nat) => ⟨⟨128 * ((i : Int) + 1), []⟩, .ids []⟩) ++ (List.range 64).map fun k => ⟨lossBound k, .fp (fpS 2)⟩

/-- The ids of the client in each of these buckets. -/
def lossIdsC (k : Nat) : List Bytes :=
  (if k % 16 = 0 then [idW 1 0 (384 + 2 * k)] else []) ++ [idW 1 0 (385 + 2 * k)] ++ (if k % 16 = 15 then [] else [idW 1 0 (386 + 2 * k)]) ++ (if k = 62 then [idW 1 0 511] else [])

/-- The answer of the client: the last bucket no longer fits. -/
def lossM2 : List Rng := ⟨⟨128 * 12, []⟩, .skip⟩ :: (List.range 63).map (fun k => ⟨lossBound k, .ids (lossIdsC k)⟩) ++ [⟨infiniteBound, .fp (fpC 0)⟩]

/-- The answer of the server: neither do its items in the last bucket. -/
def lossM3 : List Rng := ⟨⟨128 * 12, []⟩, .skip⟩ :: (List.range 63).map (fun k => ⟨lossBound k, .ids [idW 0 1 (2 * k), idW 0 1 (2 * k + 1)]⟩) ++ [⟨infiniteBound, .fp (fpS 0)⟩]

theorem le32_put32 {n : Nat} (h : n < 2 ^ 32) : le32 (UInt8.ofNat (n % 256)) (UInt8.ofNat (n / 256 % 256)) (UInt8.ofNat (n / 65536 % 256)) (UInt8.ofNat (n / 16777216 % 256)) = n := by
  simp only [le32, UInt8.toNat_ofNat']
  omega

theorem put32_inj {m n : Nat} (hm : m < 2 ^ 32) (hn : n < 2 ^ 32) (h : put32 m = put32 n) : m = n := by
  have h1 := put32_leVal m hm []
  have h2 := put32_leVal n hn []
  rw [h] at h1
  omega

theorem addWords_put32 {p c : Nat} (h : p + c < 2 ^ 32) (as bs : Bytes) : addWords (put32 p ++ as) (put32 c ++ bs) 0 = (do
    let rest ← addWords as bs 0
    return put32 (p + c) ++ rest) := by
  show (do
    let rest ← addWords as bs _
    return put32 _ ++ rest) = _
  simp only [le32_put32 (show p < 2 ^ 32 by omega), le32_put32 (show c < 2 ^ 32 by omega)]
  rw [if_neg (by omega), Nat.add_zero, Nat.mod_eq_of_lt h]

theorem accumulate_idW (a b : Nat) : ∀ (l : List Item) (p q : Nat) (t tmp : Bytes), (∀ x ∈ l, ∃ k, x.id = idW a b k) → p + l.length * a < 2 ^ 32 → q + l.length * b < 2 ^ 32 → t.length = 24 →
    ∃ t', accumulate (put32 p ++ (put32 q ++ t)) tmp l = .val (put32 (p + l.length * a) ++ (put32 (q + l.length * b) ++ t')) ∧ t'.length = 24
  | [], p, q, t, tmp, _, _, _, ht => ⟨t, by simp [accumulate], ht⟩
  | x :: l, p, q, t, tmp, hl, hp, hq, ht => by
    obtain ⟨k, hk⟩ := hl x (by simp)
    simp only [List.length_cons, Nat.add_mul, Nat.one_mul] at hp hq ⊢
    have hlen : (put32 a ++ put32 b ++ List.replicate 8 0 ++ put32 k ++ List.replicate 12 0).length = 32 := by simp [put32]
    have hdec : hexDecodeInto tmp x.id = (put32 a ++ (put32 b ++ (List.replicate 8 0 ++ put32 k ++ List.replicate 12 0))) ++ tmp.drop 32 := by
      unfold hexDecodeInto
      rw [hk, idW, hexDecPartial_eq (hexDec_hexEnc _), hlen]
      simp
    obtain ⟨r, r1, r2⟩ := addWords_total 6 t (List.replicate 8 0 ++ put32 k ++ List.replicate 12 0) 0 (by omega) (by simp [put32])
    have hextra : ∀ (u v : Bytes) (n : Nat) (c : Nat), u.length = 4 * n → v.length = 4 * n → ∀ z, addWords u (v ++ z) c = addWords u v c := by
      intro u v n
      induction n generalizing u v with
      | zero =>
        intro c hu hv z
        have : u = [] := List.length_eq_zero_iff.1 (by omega)
        subst this
        simp [addWords]
      | succ n ih =>
        intro c hu hv z
        match u, v, hu, hv with
        | u0 :: u1 :: u2 :: u3 :: us, v0 :: v1 :: v2 :: v3 :: vs, hu, hv =>
          simp only [List.cons_append, addWords]
          rw [ih us vs _ (by simp at hu; omega) (by simp at hv; omega)]
    have hadd : accAdd (put32 p ++ (put32 q ++ t)) (hexDecodeInto tmp x.id) = .val (put32 (p + a) ++ (put32 (q + b) ++ r)) := by
      unfold accAdd
      rw [hdec, hextra _ _ 8 0 (by simp [put32, ht]) (by simp [put32]), addWords_put32 (by omega), addWords_put32 (by omega), r1]
      rfl
    obtain ⟨t', t1, t2⟩ := accumulate_idW a b l (p + a) (q + b) r (hexDecodeInto tmp x.id) (fun y hy => hl y (List.mem_cons_of_mem _ hy)) (by omega) (by omega) (by omega)
    refine ⟨t', ?_, t2⟩
    simp only [accumulate, hadd, Out.val_bind, t1]
    rw [show p + (l.length * a + a) = p + a + l.length * a by omega, show q + (l.length * b + b) = q + b + l.length * b by omega]

/-- The fingerprint of items of one side tells how many there are. -/
theorem rangeFp_idW {a b : Nat} {l : List Item} (hl : ∀ x ∈ l, ∃ k, x.id = idW a b k) (ha : l.length * a < 2 ^ 32) (hb : l.length * b < 2 ^ 32) (hn : l.length < 2 ^ 32) :
    ∃ t : Bytes, rangeFp padHash l = hexEnc (put32 (l.length * a) ++ (put32 (l.length * b) ++ t)) := by
  obtain ⟨t, t1, t2⟩ := accumulate_idW a b l 0 0 (List.replicate 24 0) (List.replicate 32 0) hl (by omega) (by omega) (by simp)
  have hlt : l.length < 2 ^ 56 := by
    have : (2 : Nat) ^ 32 < 2 ^ 56 := by norm_num
    omega
  obtain ⟨e, _, he, _⟩ := varInt_roundtrip l.length hlt
  have hz : (List.replicate 32 0 : Bytes) = put32 0 ++ (put32 0 ++ List.replicate 24 0) := by decide
  refine ⟨t.take 8, ?_⟩
  unfold rangeFp fingerprint vecRange
  rw [if_neg (by omega)]
  simp only [List.drop_zero, Nat.sub_zero, List.take_length, Out.val_bind]
  rw [show accumulate (List.replicate 32 0) (List.replicate 32 0) l = accumulate (put32 0 ++ (put32 0 ++ List.replicate 24 0)) (List.replicate 32 0) l by rw [← hz], t1]
  simp only [Out.val_bind, getFingerprint]
  rw [show ((l.length : Int) - ((0 : Nat) : Int)) = (l.length : Int) by simp, he]
  simp only [Out.val_bind, Out.pure_eq, padHash, Nat.zero_add]
  congr 1
  simp [put32, t2]

theorem loss0 : splitX (rangeFp padHash) lossC infiniteBound = lossM0 := by decide +kernel
theorem loss1 : procX (rangeFp padHash) false (some 4553) lossM0 2 0 lossS zeroBound false = (lossM1, [], []) := by decide +kernel

theorem loss2 : procX (rangeFp padHash) true (some 4553) lossM1 2 0 lossC zeroBound false = (lossM2, (List.range 384).map (idW 1 0), []) := by decide +kernel
theorem loss3 : procX (rangeFp padHash) false (some 4553) lossM2 2 0 lossS zeroBound false = (lossM3, [], []) := by decide +kernel
theorem loss4 : (procX (rangeFp padHash) true (some 4553) lossM3 2 0 lossC zeroBound false).1 = [] ∧
    idW 0 1 127 ∉ (procX (rangeFp padHash) true (some 4553) lossM3 2 0 lossC zeroBound false).2.2 := by decide +kernel


/-! ### The two witness vectors meet the hypotheses of the completeness theorem -/

theorem idW_length (a b k : Nat) : (idW a b k).length = 64 := by simp [idW, length_hexEnc, put32]

theorem idW_inj {a b k a' b' k' : Nat} (ha : a < 2 ^ 32) (ha' : a' < 2 ^ 32) (hk : k < 2 ^ 32) (hk' : k' < 2 ^ 32) (h : idW a b k = idW a' b' k') : a = a' ∧ k = k' := by
  have h := hexEnc_injective h
  simp only [List.append_assoc] at h
  obtain ⟨h1, h⟩ := List.append_inj h (by simp [put32])
  obtain ⟨_, h⟩ := List.append_inj h (by simp [put32])
  obtain ⟨_, h⟩ := List.append_inj h (by simp)
  obtain ⟨h2, _⟩ := List.append_inj h (by simp [put32])
  exact ⟨put32_inj ha ha' h1, put32_inj hk hk' h2⟩

theorem vecOK_map {n : Nat} (hn : n < 2 ^ 56) {t : Nat → Int} {i : Nat → Bytes} (hi : ∀ k, (i k).length = 64) (ht : ∀ a b, a < b → t a < t b) (h0 : ∀ k, 0 ≤ t k)
    (hm : ∀ k < n, t k + 1 < 2 ^ 56) : VecOK ((List.range n).map fun k => ⟨t k, i k⟩) := by
  refine ⟨?_, ?_, ?_, by simpa using hn, ?_⟩
  · rw [List.pairwise_map]
    exact List.pairwise_lt_range.imp (fun h => Or.inl (ht _ _ h))
  · intro x hx
    obtain ⟨k, _, rfl⟩ := List.mem_map.1 hx
    exact hi k
  · intro x hx
    obtain ⟨k, hk, rfl⟩ := List.mem_map.1 hx
    exact ⟨h0 k, hm k (List.mem_range.1 hk)⟩
  · rw [List.pairwise_map]
    exact List.pairwise_lt_range.imp (fun h => Or.inl (Int.ne_of_lt (ht _ _ h)))

theorem vecOK_lossC : VecOK lossC :=
  vecOK_map (by norm_num) (idW_length 1 0) (fun a b h => by omega) (fun k => by omega) (fun k hk => by omega)

theorem vecOK_lossS : VecOK lossS :=
  vecOK_map (t := fun p => if p < 126 then 4 * (384 + (p : Int)) + 2 else 2046 + ((p : Int) - 126)) (by norm_num) (idW_length 0 1)
    (fun a b h => by split <;> split <;> omega) (fun k => by split <;> omega) (fun k hk => by split <;> omega)

theorem mem_lossC {x : Item} (h : x ∈ lossC) : ∃ k : Nat, k < 512 ∧ x = ⟨4 * (k : Int), idW 1 0 k⟩ := by
  obtain ⟨k, hk, rfl⟩ := List.mem_map.1 h
  exact ⟨k, List.mem_range.1 hk, rfl⟩

theorem mem_lossS {x : Item} (h : x ∈ lossS) :
    ∃ p : Nat, p < 128 ∧ x = ⟨if p < 126 then 4 * (384 + (p : Int)) + 2 else 2046 + ((p : Int) - 126), idW 0 1 p⟩ := by
  obtain ⟨k, hk, rfl⟩ := List.mem_map.1 h
  exact ⟨k, List.mem_range.1 hk, rfl⟩

theorem idsIdentify_loss : IdsIdentify lossC lossS := by
  intro x hx y hy he
  rcases List.mem_append.1 hx with hx | hx <;> rcases List.mem_append.1 hy with hy | hy
  · obtain ⟨k, hk, rfl⟩ := mem_lossC hx
    obtain ⟨l, hl, rfl⟩ := mem_lossC hy
    have := (idW_inj (by norm_num) (by norm_num) (by omega) (by omega) he).2
    rw [this]
  · obtain ⟨k, hk, rfl⟩ := mem_lossC hx
    obtain ⟨l, hl, rfl⟩ := mem_lossS hy
    exact absurd (idW_inj (by norm_num) (by norm_num) (by omega) (by omega) he).1 (by decide)
  · obtain ⟨k, hk, rfl⟩ := mem_lossS hx
    obtain ⟨l, hl, rfl⟩ := mem_lossC hy
    exact absurd (idW_inj (by norm_num) (by norm_num) (by omega) (by omega) he).1 (by decide)
  · obtain ⟨k, hk, rfl⟩ := mem_lossS hx
    obtain ⟨l, hl, rfl⟩ := mem_lossS hy
    have := (idW_inj (by norm_num) (by norm_num) (by omega) (by omega) he).2
    rw [this]

theorem collisionFree_loss : CollisionFree padHash lossC lossS := by
  intro x y hx hy he
  have lx : x.length ≤ 512 := by have := hx.length_le; simpa [lossC] using this
  have ly : y.length ≤ 128 := by have := hy.length_le; simpa [lossS] using this
  obtain ⟨t, ht⟩ := rangeFp_idW (a := 1) (b := 0) (l := x)
    (fun z hz => by obtain ⟨k, _, rfl⟩ := mem_lossC (hx.subset hz); exact ⟨k, rfl⟩) (by omega) (by omega) (by omega)
  obtain ⟨u, hu⟩ := rangeFp_idW (a := 0) (b := 1) (l := y)
    (fun z hz => by obtain ⟨k, _, rfl⟩ := mem_lossS (hy.subset hz); exact ⟨k, rfl⟩) (by omega) (by omega) (by omega)
  rw [ht, hu] at he
  obtain ⟨h1, h⟩ := List.append_inj (hexEnc_injective he) (by simp [put32])
  obtain ⟨h2, _⟩ := List.append_inj h (by simp [put32])
  have h1 := put32_inj (by omega) (by omega) h1
  have h2 := put32_inj (by omega) (by omega) h2
  rw [List.length_eq_zero_iff.1 (show x.length = 0 by omega), List.length_eq_zero_iff.1 (show y.length = 0 by omega)]

/-- `Mono`, decided by the comparison of the code. -/
def monoB : Item → List Rng → Bool
  | _, [] => true
  | p, r :: M => itemCompare r.bound p != -1 && monoB r.bound M

theorem mono_of_monoB : ∀ (M : List Rng) (p : Item), monoB p M = true → Mono p M
  | [], _, _ => trivial
  | r :: M, p, h => by
    simp only [monoB, Bool.and_eq_true, bne_iff_ne, ne_eq] at h
    refine ⟨fun hlt => ?_, mono_of_monoB M _ h.2⟩
    rcases itemCompare_spec r.bound p with h' | h' | h'
    · exact h.1 h'.1
    · rw [h'.2] at hlt; exact ItemLt.irrefl _ hlt
    · exact h'.2.2.1 hlt

theorem lossMono : Mono zeroBound lossM0 ∧ Mono zeroBound lossM1 ∧ Mono zeroBound lossM2 ∧ Mono zeroBound lossM3 :=
  ⟨mono_of_monoB _ _ (by decide +kernel), mono_of_monoB _ _ (by decide +kernel), mono_of_monoB _ _ (by decide +kernel), mono_of_monoB _ _ (by decide +kernel)⟩

/-- A session of two round trips, run on messages. -/
theorem two_rounds (H : Hash32) (A B : List Item) (hA : VecOK A) (hB : VecOK B) (limit : Int) (hl : 4096 ≤ limit) (r : Nat) (M0 M1 M2 M3 : List Rng) (h1 hn1 hs1 hns1 hs2 hns2 : List Bytes)
    (R : List Rng × List Bytes × List Bytes)
    (m0 : Mono zeroBound M0) (m1 : Mono zeroBound M1) (m2 : Mono zeroBound M2) (m3 : Mono zeroBound M3) (hne : M2 ≠ [])
    (l0 : splitX (rangeFp H) A infiniteBound = M0)
    (l1 : procX (rangeFp H) false (some limit) M0 2 0 B zeroBound false = (M1, hs1, hns1))
    (l2 : procX (rangeFp H) true (some limit) M1 2 0 A zeroBound false = (M2, h1, hn1))
    (l3 : procX (rangeFp H) false (some limit) M2 2 0 B zeroBound false = (M3, hs2, hns2))
    (l4 : procX (rangeFp H) true (some limit) M3 2 0 A zeroBound false = R) (l5 : R.1 = []) :
    ∃ c s, syncLimited H (r + 2) limit limit A B = .ok (c, s) ∧ c.haves = h1 ++ R.2.1 ∧ c.haveNots = hn1 ++ R.2.2 := by
  obtain ⟨nc1, nl⟩ := new_eq (l := limit) (Or.inr hl) A
  obtain ⟨ns1, _⟩ := new_eq (l := limit) (Or.inr hl) B
  obtain ⟨N, n1, _, n3, _, n5⟩ := splitRange_eq_exact H A hA 0 A.length (by omega) (le_refl _) infiniteBound goodInf ⟨hexEnc [0x61], 0⟩
    (fun x hx => below_inf (hA.ts x (by simpa using hx)).2) (le_refl _) (by simp only [infiniteBound, maxTimestamp, two63]; norm_num)
    (fun x hx => (hA.ts x (by simpa using hx)).1)
  simp only [List.drop_zero, Nat.sub_zero, List.take_length, l0] at n5
  subst n5
  have e1 : start H { items := A, limit := limitOf limit } =
      .val (wire N, { items := A, limit := limitOf limit, isClient := true, lastOut := infiniteBound.ts }) := by
    unfold start
    simp only [n1, Out.val_bind]
    rfl
  have hlim : limitOf limit = some limit := by unfold limitOf; rw [if_neg (by omega)]
  rw [hlim] at nl e1 nc1 ns1
  obtain ⟨R1, R2, R3⟩ := R
  simp only at l5
  subst l5
  obtain ⟨s1, a1, a2, a3, a4, a5, _, _⟩ := reconcileX_eq H { items := B, limit := some limit } hB nl N n3 m0 l1
  rw [if_neg (by simp)] at a1
  obtain ⟨c1, b1, b2, b3, b4, b5, b6, b7⟩ := reconcileX_eq H { items := A, limit := some limit, isClient := true, lastOut := infiniteBound.ts } hA nl M1 a2 m1 l2
  rw [if_neg (by simp [hne])] at b1
  obtain ⟨s2, d1, d2, _, _, _, _, _⟩ := reconcileX_eq H s1 (by rw [a3]; exact hB) (by rw [a4]; exact nl) M2 b2 m2 (M' := M3) (h := hs2) (hn := hns2)
    (by rw [a3, a4, a5]; exact l3)
  rw [a5, if_neg (by simp)] at d1
  obtain ⟨c2, f1, _, _, _, _, f6, f7⟩ := reconcileX_eq H c1 (by rw [b3]; exact hA) (by rw [b4]; exact nl) M3 d2 m3 (M' := []) (h := R2) (hn := R3)
    (by rw [b3, b4, b5]; exact l4)
  rw [b5, if_pos ⟨rfl, rfl⟩] at f1
  refine ⟨c2, s2, ?_, by rw [f6, b6]; rfl, by rw [f7, b7]; rfl⟩
  unfold syncLimited
  simp only [nc1, ns1, lift, Res.ok_bind, e1]
  simp only [exchange, a1, b1, d1, f1, Res.ok_bind, Bool.false_eq_true, if_false, if_true]
  rfl

/-- **C50 fails when both sides have a limit.** There are vectors, whose fingerprints do not collide, and an accepted limit
such that, with this limit on both sides, the session ends without error and an item the server has and the client lacks
is never reported. (The client leaves its last buckets out of an answer and describes what it left out by a fingerprint
of nothing; the server leaves its items there out of its own answer and describes them by a fingerprint of nothing,
which the client finds equal to its own.) -/
theorem C50_both_limits_lose : ∃ (A B : List Item) (limit : Int), VecOK A ∧ VecOK B ∧ IdsIdentify A B ∧ CollisionFree padHash A B ∧ 4096 ≤ limit ∧
    ∃ c s, syncLimited padHash ((A.length + B.length + 4) * (A.length + B.length + 1)) limit limit A B = .ok (c, s) ∧
      ∃ x ∈ B, x ∉ A ∧ x.id ∉ c.haveNots := by
  refine ⟨lossC, lossS, 4553, vecOK_lossC, vecOK_lossS, idsIdentify_loss, collisionFree_loss, by norm_num, ?_⟩
  obtain ⟨m0, m1, m2, m3⟩ := lossMono
  obtain ⟨k1, k2⟩ := loss4
  have hrounds : (lossC.length + lossS.length + 4) * (lossC.length + lossS.length + 1) = 412802 + 2 := by
    simp only [lossC, lossS, List.length_map, List.length_range]
  rw [hrounds]
  obtain ⟨c, s, h1, _, h3⟩ := two_rounds padHash lossC lossS vecOK_lossC vecOK_lossS 4553 (by norm_num) 412802 lossM0 lossM1 lossM2 lossM3 _ _ _ _ _ _ _
    m0 m1 m2 m3 (List.cons_ne_nil _ _) loss0 loss1 loss2 loss3 rfl k1
  refine ⟨c, s, h1, ⟨2047, idW 0 1 127⟩, ?_, ?_, ?_⟩
  · exact List.mem_map.2 ⟨127, by simp, by norm_num⟩
  · intro h
    obtain ⟨k, hk, e⟩ := mem_lossC h
    have := (idW_inj (by norm_num) (by norm_num) (by norm_num) (by omega) (congrArg Item.id e)).1
    omega
  · rw [h3, List.nil_append]
    exact k2

/-- A whole exchange on messages, starting with the client's message `M`: what the client reports. Every message is checked
to have its bounds in order; `none` if one has not or the rounds run out. -/
def runX (fpOf : List Item → Bytes) (limC limS : Option Int) (A B : List Item) : Nat → List Rng → Option (List Bytes × List Bytes)
  | 0, _ => none
  | r + 1, M =>
    match procX fpOf false limS M 2 0 B zeroBound false with
    | (M1, _, _) =>
      match procX fpOf true limC M1 2 0 A zeroBound false with
      | (M2, h, hn) =>
        if monoB zeroBound M && monoB zeroBound M1 then
          if M2.isEmpty then some (h, hn) else (runX fpOf limC limS A B r M2).map fun p => (h ++ p.1, hn ++ p.2)
        else none

theorem exchangeX_eq (H : Hash32) (A B : List Item) (hA : VecOK A) (hB : VecOK B) : ∀ (r : Nat) (M : List Rng) (c s : Neg) (p : List Bytes × List Bytes),
    runX (rangeFp H) c.limit s.limit A B r M = some p → c.items = A → s.items = B → c.isClient = true → s.isClient = false → LimOK c.limit → LimOK s.limit →
    MsgOK 0 M → ∃ c' s', exchange H r c s (wire M) = .ok (c', s') ∧ c'.haves = c.haves ++ p.1 ∧ c'.haveNots = c.haveNots ++ p.2
  | 0, _, _, _, _, h, _, _, _, _, _, _, _ => by simp [runX] at h
  | r + 1, M, c, s, p, h, cA, sB, cc, sc, lc, ls, hM => by
    simp only [runX] at h
    generalize hX : procX (rangeFp H) false s.limit M 2 0 B zeroBound false = X at h
    obtain ⟨M1, u, v⟩ := X
    simp only at h
    generalize hY : procX (rangeFp H) true c.limit M1 2 0 A zeroBound false = Y at h
    obtain ⟨M2, h', hn'⟩ := Y
    simp only at h
    by_cases hm : (monoB zeroBound M && monoB zeroBound M1) = true
    · rw [if_pos hm] at h
      rw [Bool.and_eq_true] at hm
      obtain ⟨s1, a1, a2, a3, a4, a5, _, _⟩ := reconcileX_eq H s (by rw [sB]; exact hB) ls M hM (mono_of_monoB _ _ hm.1) (M' := M1) (h := u) (hn := v)
        (by rw [sB, sc]; exact hX)
      rw [sc, if_neg (by simp)] at a1
      obtain ⟨c1, b1, b2, b3, b4, b5, b6, b7⟩ := reconcileX_eq H c (by rw [cA]; exact hA) lc M1 a2 (mono_of_monoB _ _ hm.2) (M' := M2) (h := h') (hn := hn')
        (by rw [cA, cc]; exact hY)
      by_cases he : M2 = []
      · subst he
        rw [cc, if_pos ⟨rfl, rfl⟩] at b1
        simp only [List.isEmpty_nil, if_true, Option.some.injEq] at h
        subst h
        refine ⟨c1, s1, ?_, b6, b7⟩
        simp only [exchange, a1, b1, Res.ok_bind, if_true]
        rfl
      · rw [if_neg (by simp [he])] at b1
        rw [if_neg (by simp [he])] at h
        obtain ⟨q, hq, rfl⟩ := Option.map_eq_some_iff.1 h
        obtain ⟨c', s', e1, e2, e3⟩ := exchangeX_eq H A B hA hB r M2 c1 s1 q (by rw [b4, a4]; exact hq) (by rw [b3, cA]) (by rw [a3, sB]) (by rw [b5, cc]) (by rw [a5, sc])
          (by rw [b4]; exact lc) (by rw [a4]; exact ls) b2
        refine ⟨c', s', ?_, by rw [e2, b6, List.append_assoc], by rw [e3, b7, List.append_assoc]⟩
        simp only [exchange, a1, b1, Res.ok_bind, Bool.false_eq_true, if_false]
        exact e1
    · rw [if_neg hm] at h
      cases h

theorem runX_mono (f : List Item → Bytes) (lc ls : Option Int) (A B : List Item) : ∀ (r k : Nat) (M : List Rng) (p : List Bytes × List Bytes),
    runX f lc ls A B r M = some p → runX f lc ls A B (r + k) M = some p
  | 0, _, _, _, h => by simp [runX] at h
  | r + 1, k, M, p, h => by
    rw [Nat.add_right_comm]
    simp only [runX] at h ⊢
    split at h
    · rw [if_pos ‹_›]
      split at h
      · rw [if_pos ‹_›]; exact h
      · rw [if_neg ‹_›]
        obtain ⟨q, hq, rfl⟩ := Option.map_eq_some_iff.1 h
        rw [runX_mono f lc ls A B r k _ q hq]
        rfl
    · cases h

/-- A whole session, run on messages. -/
theorem syncX_eq (H : Hash32) (A B : List Item) (hA : VecOK A) (hB : VecOK B) (limC limS : Int) (hC : limC = 0 ∨ 4096 ≤ limC) (hS : limS = 0 ∨ 4096 ≤ limS) (r k : Nat) (p : List Bytes × List Bytes)
    (h : runX (rangeFp H) (limitOf limC) (limitOf limS) A B r (splitX (rangeFp H) A infiniteBound) = some p) :
    ∃ c s, syncLimited H (r + k) limC limS A B = .ok (c, s) ∧ c.haves = p.1 ∧ c.haveNots = p.2 := by
  obtain ⟨nc1, nl⟩ := new_eq hC A
  obtain ⟨ns1, sl⟩ := new_eq hS B
  obtain ⟨N, n1, _, n3, _, n5⟩ := splitRange_eq_exact H A hA 0 A.length (by omega) (le_refl _) infiniteBound goodInf ⟨hexEnc [0x61], 0⟩
    (fun x hx => below_inf (hA.ts x (by simpa using hx)).2) (le_refl _) (by simp only [infiniteBound, maxTimestamp, two63]; norm_num)
    (fun x hx => (hA.ts x (by simpa using hx)).1)
  simp only [List.drop_zero, Nat.sub_zero, List.take_length] at n5
  subst n5
  have e1 : start H { items := A, limit := limitOf limC } =
      .val (wire (splitX (rangeFp H) A infiniteBound), { items := A, limit := limitOf limC, isClient := true, lastOut := infiniteBound.ts }) := by
    unfold start
    simp only [n1, Out.val_bind]
    rfl
  obtain ⟨c', s', x1, x2, x3⟩ := exchangeX_eq H A B hA hB (r + k) _ { items := A, limit := limitOf limC, isClient := true, lastOut := infiniteBound.ts } { items := B, limit := limitOf limS } p
    (runX_mono _ _ _ _ _ r k _ _ h) rfl rfl rfl rfl nl sl n3
  refine ⟨c', s', ?_, x2, x3⟩
  unfold syncLimited
  simp only [nc1, ns1, lift, Res.ok_bind, e1]
  exact x1

/-! ### A limit on the client alone makes it report ids twice -/

/-- The server of the session in which ids are reported twice: two items between those of the client in the first four
buckets and in the sixth, none in the fifth. -/
def dupS : List Item := (List.range 160).map fun (p : Nat) => ⟨4 * ((if p < 128 then p else p + 32 : Nat) : Int) + 2, idW 0 1 p⟩

theorem vecOK_dupS : VecOK dupS :=
  vecOK_map (t := fun p => 4 * ((if p < 128 then p else p + 32 : Nat) : Int) + 2) (by norm_num) (idW_length 0 1)
    (fun a b h => by split <;> split <;> omega) (fun k => by split <;> omega) (fun k hk => by split <;> omega)

theorem mem_dupS {x : Item} (h : x ∈ dupS) : ∃ p : Nat, p < 160 ∧ x = ⟨4 * ((if p < 128 then p else p + 32 : Nat) : Int) + 2, idW 0 1 p⟩ := by
  obtain ⟨k, hk, rfl⟩ := List.mem_map.1 h
  exact ⟨k, List.mem_range.1 hk, rfl⟩

theorem idsIdentify_dup : IdsIdentify lossC dupS := by
  intro x hx y hy he
  rcases List.mem_append.1 hx with hx | hx <;> rcases List.mem_append.1 hy with hy | hy
  · obtain ⟨k, hk, rfl⟩ := mem_lossC hx
    obtain ⟨l, hl, rfl⟩ := mem_lossC hy
    have := (idW_inj (by norm_num) (by norm_num) (by omega) (by omega) he).2
    rw [this]
  · obtain ⟨k, hk, rfl⟩ := mem_lossC hx
    obtain ⟨l, hl, rfl⟩ := mem_dupS hy
    exact absurd (idW_inj (by norm_num) (by norm_num) (by omega) (by omega) he).1 (by decide)
  · obtain ⟨k, hk, rfl⟩ := mem_dupS hx
    obtain ⟨l, hl, rfl⟩ := mem_lossC hy
    exact absurd (idW_inj (by norm_num) (by norm_num) (by omega) (by omega) he).1 (by decide)
  · obtain ⟨k, hk, rfl⟩ := mem_dupS hx
    obtain ⟨l, hl, rfl⟩ := mem_dupS hy
    have := (idW_inj (by norm_num) (by norm_num) (by omega) (by omega) he).2
    rw [this]

theorem collisionFree_dup : CollisionFree padHash lossC dupS := by
  intro x y hx hy he
  have lx : x.length ≤ 512 := by have := hx.length_le; simpa [lossC] using this
  have ly : y.length ≤ 160 := by have := hy.length_le; simpa [dupS] using this
  obtain ⟨t, ht⟩ := rangeFp_idW (a := 1) (b := 0) (l := x)
    (fun z hz => by obtain ⟨k, _, rfl⟩ := mem_lossC (hx.subset hz); exact ⟨k, rfl⟩) (by omega) (by omega) (by omega)
  obtain ⟨u, hu⟩ := rangeFp_idW (a := 0) (b := 1) (l := y)
    (fun z hz => by obtain ⟨k, _, rfl⟩ := mem_dupS (hy.subset hz); exact ⟨k, rfl⟩) (by omega) (by omega) (by omega)
  rw [ht, hu] at he
  obtain ⟨h1, h⟩ := List.append_inj (hexEnc_injective he) (by simp [put32])
  obtain ⟨h2, _⟩ := List.append_inj h (by simp [put32])
  have h1 := put32_inj (by omega) (by omega) h1
  have h2 := put32_inj (by omega) (by omega) h2
  rw [List.length_eq_zero_iff.1 (show x.length = 0 by omega), List.length_eq_zero_iff.1 (show y.length = 0 by omega)]

theorem dup_run : (runX (rangeFp padHash) (some 4600) none lossC dupS 3 (splitX (rangeFp padHash) lossC infiniteBound)).map (fun p => p.1.length) = some 544 := by
  decide +kernel

/-- **C50: "each reported once" fails with a limit.** There are vectors, whose fingerprints do not collide, and an accepted
limit for the client, the server having none, such that the session ends without error and the client has reported the
same id as `Haves` more than once. (The client has reported the ids of a range, and before it writes that it is done
with it, it finds the next answer too long: the rest of its message starts at the last bound it wrote, so the server
answers the finished range again.) -/
theorem C50_limit_repeats : ∃ (A B : List Item) (limC : Int), VecOK A ∧ VecOK B ∧ IdsIdentify A B ∧ CollisionFree padHash A B ∧ 4096 ≤ limC ∧
    ∃ c s, syncLimited padHash ((A.length + B.length + 4) * (A.length + B.length + 1)) limC 0 A B = .ok (c, s) ∧ ¬ c.haves.Nodup := by
  refine ⟨lossC, dupS, 4600, vecOK_lossC, vecOK_dupS, idsIdentify_dup, collisionFree_dup, by norm_num, ?_⟩
  have hrounds : (lossC.length + dupS.length + 4) * (lossC.length + dupS.length + 1) = 3 + 454945 := by
    simp only [lossC, dupS, List.length_map, List.length_range]
  obtain ⟨p, h1, h2⟩ := Option.map_eq_some_iff.1 dup_run
  obtain ⟨c, s, c1, c2, _⟩ := syncX_eq padHash lossC dupS vecOK_lossC vecOK_dupS 4600 0 (Or.inr (by norm_num)) (Or.inl rfl) 3 454945 p h1
  obtain ⟨c', s', d1, d2, _⟩ := C50_limits_partial padHash lossC dupS vecOK_lossC vecOK_dupS idsIdentify_dup 4600 0 (Or.inr (by norm_num)) (Or.inl rfl)
  rw [hrounds] at d1
  rw [hrounds]
  rw [c1] at d1
  cases d1
  refine ⟨c, s, c1, fun hnd => ?_⟩
  have hsub : c.haves ⊆ lossC.map (·.id) := fun i hi => by
    obtain ⟨x, hx, _, rfl⟩ := d2 i hi
    exact List.mem_map_of_mem hx
  have := (hnd.subperm hsub).length_le
  rw [c2, h2] at this
  simp [lossC] at this

end GoNostr.Neg
