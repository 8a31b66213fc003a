import Mathlib.Data.List.Infix
import Verif.Negentropy.Wire
/-! # Splitting and reconciliation (C49, C50) -/

set_option autoImplicit false

namespace GoNostr.Neg

/-! ## C49 -/

/-- **C49.** For any number of items, splitting the range `[lower, upper)` of a vector writes consecutive ranges, the last
one ending at the given bound, that partition exactly the items of the range: their item lists concatenate to it, the
items of each lie below its bound and all later ones do not; each is sent as its ids (fewer than 32 items) or as the
fingerprints of non-empty, strictly smaller buckets. -/
theorem C49_split_partitions (H : Hash32) (items : List Item) (h : VecOK items) (lower upper : Nat) (hlu : lower ≤ upper)
    (hu : upper ≤ items.length) (ub : Item) (hub : GoodBound ub) (hlt : ∀ x ∈ (items.drop lower).take (upper - lower), ItemLt x ub)
    (w : Wr) (hw : w.last = 0) :
    ∃ parts : List (Item × List Item), ∃ msg : List Rng,
      splitRange H items lower upper ub w = .val ⟨w.buf ++ encMsg 0 msg, ub.ts⟩ ∧
      (parts.map (·.2)).flatten = (items.drop lower).take (upper - lower) ∧ Covers parts ∧
      (∃ init last, parts = init ++ [(ub, last)]) ∧
      (if upper - lower < 32 then msg = parts.map (fun p => ⟨p.1, .ids (p.2.map (·.id))⟩) ∧ parts.length = 1
       else msg = parts.map (fun p => ⟨p.1, .fp (rangeFp H p.2)⟩) ∧ ∀ p ∈ parts, p.2 ≠ [] ∧ p.2.length < upper - lower) := by
  have hpos : ∀ x ∈ (items.drop lower).take (upper - lower), 0 ≤ x.ts := fun x hx =>
    (h.ts x (List.mem_of_mem_drop (List.mem_of_mem_take hx))).1
  have hub0 : 0 ≤ ub.ts := by
    rcases hub.1 with h1 | ⟨h1, _⟩
    · rw [h1]; unfold maxTimestamp; norm_num
    · exact h1
  have hlen : ((items.drop lower).take (upper - lower)).length = upper - lower := by simp; omega
  obtain ⟨N, h1, h2, _⟩ := splitRange_eq H items h lower upper hlu hu ub hub w hlt (by omega) (by omega)
    (fun x hx => by have := hpos x hx; omega)
  rw [hw] at h1
  rcases h2 with ⟨h2, rfl⟩ | ⟨h2, parts, rfl, p2, p3, p4, p5⟩
  · refine ⟨[(ub, (items.drop lower).take (upper - lower))], _, h1, by simp, ⟨hlt, by simp, trivial⟩, ⟨[], _, rfl⟩, ?_⟩
    rw [if_pos (by omega)]
    simp
  · refine ⟨parts, _, h1, p2, p3, p4, ?_⟩
    rw [if_neg (by omega)]
    exact ⟨rfl, fun p hp => ⟨(p5 p hp).1, by have := (p5 p hp).2; omega⟩⟩

/-! ## The message loop, on the wire form of a message -/

theorem readIds_eq : ∀ (l : List Bytes) (pre rest : Bytes), (∀ i ∈ l, i.length = 64) →
    readIds l.length (rd pre (l.flatten ++ rest)) = .ok (l, rd (pre ++ l.flatten) rest)
  | [], pre, rest, _ => by simp [readIds]
  | x :: l, pre, rest, h => by
    have ih := readIds_eq l (pre ++ x) rest (fun i hi => h i (List.mem_cons_of_mem _ hi))
    have hx := h x (by simp)
    simp only [List.length_cons, readIds, List.flatten_cons, List.append_assoc]
    rw [readString_rd pre x (l.flatten ++ rest) 64 (by omega), Res.ok_bind]
    simp only []
    rw [ih, Res.ok_bind]
    simp

theorem respLoop_none (full : Nat) : ∀ (mine : List Item) (resp index : Nat),
    respLoop none full resp index mine = (mine.map (·.id), none)
  | [], _, _ => rfl
  | x :: mine, resp, index => by simp [respLoop, respLoop_none full mine]

theorem finishSkip_eq {sk : Bool} {pb : Item} {w : Wr} (hg : GoodBound pb) (h0 : 0 ≤ w.last) (hl : w.last ≤ pb.ts) :
    finishSkip sk pb w = .val ⟨w.buf ++ encMsg w.last (fin sk pb), if sk then pb.ts else w.last⟩ ∧
    MsgOK w.last (fin sk pb) ∧ lastTs (fin sk pb) w.last = (if sk then pb.ts else w.last) := by
  cases sk with
  | false => simp [finishSkip, fin, encMsg, MsgOK, lastTs]
  | true =>
    refine ⟨?_, ?_, by simp [fin, lastTs]⟩
    · simp only [finishSkip, if_true, Wr.bound_eq hg h0 hl, Out.val_bind, Out.pure_eq, fin, encMsg, encPay, vi_byte0, Wr.byte]
      simp
    · simp only [fin, if_true, MsgOK, PayOK]
      exact ⟨h0, hl, hg, trivial, trivial⟩

theorem splitOK_lastTs {fpOf : List Item → Bytes} {seg : List Item} {ub : Item} {N : List Rng} (h : SplitOK fpOf seg ub N) (t : Int) :
    lastTs N t = ub.ts := by
  have aux : ∀ (L : List Rng) (r : Rng) (t : Int), lastTs (L ++ [r]) t = r.bound.ts := by
    intro L r
    induction L with
    | nil => intro t; rfl
    | cons q L ih => intro t; exact ih _
  rcases h with ⟨_, rfl⟩ | ⟨_, parts, rfl, _, _, ⟨init, last, e⟩, _⟩
  · rfl
  · rw [e, List.map_append]
    exact aux _ _ t

theorem loop_eq (H : Hash32) (items : List Item) (hv : VecOK items) : ∀ (M : List Rng) (fuel : Nat) (pre : Bytes) (n : Neg)
    (full : Bytes) (pb : Item) (idx : Nat) (sk : Bool), MsgOK n.lastIn M → Mono pb M → n.items = items → n.limit = none →
    0 ≤ n.lastOut → n.lastOut ≤ pb.ts → GoodBound pb → idx ≤ items.length → (∀ x ∈ items.drop idx, ¬ ItemLt x pb) →
    M.length < fuel →
    ∃ (M' : List Rng) (h hn : List Bytes) (s' : Loop),
      loop H fuel ⟨n, rd pre (encMsg n.lastIn M), full, pb, idx, sk⟩ = .ok s' ∧ s'.full = full ++ encMsg n.lastOut M' ∧
      Proc (rangeFp H) n.isClient M (items.drop idx) pb sk M' h hn ∧ MsgOK n.lastOut M' ∧
      s'.n.items = items ∧ s'.n.limit = none ∧ s'.n.isClient = n.isClient ∧ s'.n.haves = n.haves ++ h ∧
      s'.n.haveNots = n.haveNots ++ hn := by
  intro M
  induction M with
  | nil =>
    intro fuel pre n full pb idx sk _ _ hi hlim _ _ _ _ _ hf
    cases fuel with
    | zero => omega
    | succ fuel =>
      refine ⟨[], [], [], ⟨n, rd pre [], full, pb, idx, sk⟩, ?_, ?_, Proc.nil _ _ _, trivial, hi, hlim, rfl, ?_, ?_⟩
      · simp [loop, encMsg, rd_len]
      · simp [encMsg]
      · simp
      · simp
  | cons r M ih =>
    intro fuel pre n full pb idx sk hm hmono hi hlim h0 hl hg hidx hge hf
    cases fuel with
    | zero => omega
    | succ fuel =>
      obtain ⟨b, pay⟩ := r
      obtain ⟨m0, m1, m2, m3, m4⟩ := hm
      obtain ⟨hb, hmono'⟩ := hmono
      simp only at m1 m2 m3 m4 hb hmono'
      have hpbb : pb.ts ≤ b.ts := by
        by_contra hc
        exact hb (Or.inl (by omega))
      obtain ⟨upper, u1, u2, u3, u4, u5⟩ := findLowerBound_eq items hv idx hidx b
      have hge' : ∀ x ∈ items.drop upper, ¬ ItemLt x b := by
        intro x hx
        rw [u5] at hx
        exact dropW_ge (List.Pairwise.sublist (List.drop_sublist _ _) hv.weak) hx
      have hlen : (rd pre (encMsg n.lastIn (⟨b, pay⟩ :: M))).len > 0 := by
        rw [rd_len]
        have := encMsg_length (⟨b, pay⟩ :: M) n.lastIn ⟨m0, m1, m2, m3, m4⟩
        simp only [List.length_cons] at this
        omega
      have hread := readBound_eq n.lastIn b (m2.ok m0 m1) pre (encPay pay ++ encMsg b.ts M)
      have htk : ∀ x ∈ (items.drop idx).take (upper - idx), x ∈ items.drop idx := fun x hx => List.mem_of_mem_take hx
      -- the common shape of one iteration
      have common : ∀ (sw : Sw) (pre' : Bytes) (out : List Rng) (h1 hn1 : List Bytes) (sk' : Bool) (m : Nat) (rest : Bytes), m ≤ 2 →
          encPay pay = vi m ++ rest →
          switchMode H ⟨n, rd pre (encMsg n.lastIn (⟨b, pay⟩ :: M)), full, pb, idx, sk⟩ { n with lastIn := b.ts }
            (rd (pre ++ encBound n.lastIn b ++ vi m) (rest ++ encMsg b.ts M)) b idx upper m = .ok sw →
          sw.r = rd pre' (encMsg b.ts M) → sw.full ++ sw.part.buf = full ++ encMsg n.lastOut out → sw.upper = upper →
          sw.skipping = sk' → sw.part.last = lastTs out n.lastOut → sw.n.items = items → sw.n.limit = none →
          sw.n.isClient = n.isClient → sw.n.lastIn = b.ts → sw.n.haves = n.haves ++ h1 → sw.n.haveNots = n.haveNots ++ hn1 →
          MsgOK n.lastOut out → 0 ≤ lastTs out n.lastOut → lastTs out n.lastOut ≤ b.ts →
          (∀ M' h hn, Proc (rangeFp H) n.isClient M (dropW b (items.drop idx)) b sk' M' h hn →
            Proc (rangeFp H) n.isClient (⟨b, pay⟩ :: M) (items.drop idx) pb sk (out ++ M') (h1 ++ h) (hn1 ++ hn)) →
          ∃ (M' : List Rng) (h hn : List Bytes) (s' : Loop),
            loop H (fuel + 1) ⟨n, rd pre (encMsg n.lastIn (⟨b, pay⟩ :: M)), full, pb, idx, sk⟩ = .ok s' ∧
            s'.full = full ++ encMsg n.lastOut M' ∧
            Proc (rangeFp H) n.isClient (⟨b, pay⟩ :: M) (items.drop idx) pb sk M' h hn ∧ MsgOK n.lastOut M' ∧
            s'.n.items = items ∧ s'.n.limit = none ∧ s'.n.isClient = n.isClient ∧ s'.n.haves = n.haves ++ h ∧
            s'.n.haveNots = n.haveNots ++ hn := by
        intro sw pre' out h1 hn1 sk' m rest hm2 hpay hsw er efull eup esk elast eit elim ecl elin eh ehn hmo hl0 hlb hproc
        obtain ⟨M', h', hn', s', i1, i2, i3, i4, i5, i6, i7, i8, i9⟩ := ih fuel pre' { sw.n with lastOut := sw.part.last }
          (sw.full ++ sw.part.buf) b upper sk' (by simp only [elin]; exact m4) hmono' eit elim (by simp only [elast]; exact hl0)
          (by simp only [elast]; exact hlb) m2 u3 hge' (by simp at hf; omega)
        have hstep : loopStep H ⟨n, rd pre (encMsg n.lastIn (⟨b, pay⟩ :: M)), full, pb, idx, sk⟩ =
            .ok (⟨{ sw.n with lastOut := sw.part.last }, sw.r, sw.full ++ sw.part.buf, b, upper, sk'⟩, false) := by
          unfold loopStep
          have e1 : encMsg n.lastIn (⟨b, pay⟩ :: M) = encBound n.lastIn b ++ (encPay pay ++ encMsg b.ts M) := rfl
          rw [e1] at hsw ⊢
          rw [hread, Res.ok_bind]
          simp only []
          rw [hpay, List.append_assoc, vi_read m (by have : (2:Nat) < 2 ^ 56 := by norm_num
                                                     omega), Res.ok_bind]
          simp only [hi, u1, lift, Res.ok_bind]
          rw [hpay, List.append_assoc] at hsw
          have hmm : ((m : Int)) % 256 = m := by omega
          simp only [hi] at hsw
          rw [hmm, hsw]
          simp only [Res.ok_bind, stepEnd, elim, exceeded, Bool.false_eq_true, if_false, Out.pure_eq, eup, esk]
        refine ⟨out ++ M', h1 ++ h', hn1 ++ hn', s', ?_, ?_, ?_, ?_, i5, i6, ?_, ?_, ?_⟩
        · unfold loop
          simp only [hlen, if_true, hstep, Res.ok_bind, Bool.false_eq_true, if_false]
          rw [er, ← elin]
          exact i1
        · rw [i2, efull]
          simp only [elast]
          rw [encMsg_append, List.append_assoc]
        · apply hproc
          rw [u5] at i3
          simp only [ecl] at i3
          exact i3
        · simp only [elast] at i4
          exact msgOK_append hmo i4
        · rw [i7]; exact ecl
        · rw [i8]; simp only [eh, List.append_assoc]
        · rw [i9]; simp only [ehn, List.append_assoc]
      cases pay with
      | skip =>
        refine common ⟨{ n with lastIn := b.ts }, rd (pre ++ encBound n.lastIn b ++ vi 0) (encMsg b.ts M), ⟨[], n.lastOut⟩, full, upper, true⟩
          (pre ++ encBound n.lastIn b ++ vi 0) [] [] [] true 0 [] (by omega) (by simp [encPay]) ?_ rfl (by simp [encMsg]) rfl rfl rfl
          hi hlim rfl rfl (by simp) (by simp) trivial h0 (by simp only [lastTs]; omega) ?_
        · simp [switchMode]
        · intro M' h hn hp
          exact Proc.skip b M _ pb sk M' h hn hp
      | fp f =>
        obtain ⟨f1, f2⟩ := fingerprint_eq H items hv idx upper u2 u3
        rw [u4] at f1 f2
        have hrs := readString_rd (pre ++ encBound n.lastIn b ++ vi 1) f (encMsg b.ts M) 32 (by simp only [PayOK] at m3; omega)
        by_cases hf1 : f = rangeFp H (takeW b (items.drop idx))
        · refine common ⟨{ n with lastIn := b.ts }, rd (pre ++ encBound n.lastIn b ++ vi 1 ++ f) (encMsg b.ts M), ⟨[], n.lastOut⟩, full, upper, true⟩
            (pre ++ encBound n.lastIn b ++ vi 1 ++ f) [] [] [] true 1 f (by omega) (by simp [encPay]) ?_ rfl (by simp [encMsg]) rfl rfl rfl
            hi hlim rfl rfl (by simp) (by simp) trivial h0 (by simp only [lastTs]; omega) ?_
          · simp only [switchMode, Nat.cast_one, one_ne_zero, if_false, if_true, switchFingerprint]
            rw [hrs, Res.ok_bind]
            simp only [hi, f1, lift, Res.ok_bind]
            rw [if_pos hf1]
            rfl
          · intro M' h hn hp
            exact Proc.fpEq b f M _ pb sk M' h hn hf1 hp
        · obtain ⟨k1, k2, k3⟩ := finishSkip_eq (sk := sk) (w := ⟨[], n.lastOut⟩) hg h0 hl
          have hlast0 : 0 ≤ (if sk then pb.ts else n.lastOut) := by split <;> omega
          have hlastb : (if sk then pb.ts else n.lastOut) ≤ pb.ts := by split <;> omega
          obtain ⟨N, n1, n2, n3⟩ := splitRange_eq H items hv idx upper u2 u3 b m2
            ⟨[] ++ encMsg n.lastOut (fin sk pb), if sk then pb.ts else n.lastOut⟩
            (by rw [u4]; intro x hx; exact takeW_lt hx) hlast0 (by simp only; omega)
            (by
              intro x hx
              have := hge x (htk x hx)
              simp only
              by_contra hc
              exact this (Or.inl (by omega)))
          rw [u4] at n2
          refine common ⟨{ n with lastIn := b.ts }, rd (pre ++ encBound n.lastIn b ++ vi 1 ++ f) (encMsg b.ts M),
              ⟨[] ++ encMsg n.lastOut (fin sk pb) ++ encMsg (if sk then pb.ts else n.lastOut) N, b.ts⟩, full, upper, false⟩
            (pre ++ encBound n.lastIn b ++ vi 1 ++ f) (fin sk pb ++ N) [] [] false 1 f (by omega) (by simp [encPay]) ?_ rfl ?_ rfl rfl ?_
            hi hlim rfl rfl (by simp) (by simp) (msgOK_append k2 (by rw [k3]; exact n3)) ?_ ?_ ?_
          · simp only [switchMode, Nat.cast_one, one_ne_zero, if_false, if_true, switchFingerprint]
            rw [hrs, Res.ok_bind]
            simp only [hi, f1, lift, Res.ok_bind]
            rw [if_neg hf1]
            simp only [k1, n1, Res.ok_bind]
            rfl
          · simp only [List.nil_append]
            rw [encMsg_append]
            simp only at k3
            rw [k3]
          · have : ∀ (a : List Rng) t, lastTs (a ++ N) t = b.ts := by
              intro a
              induction a with
              | nil => intro t; exact splitOK_lastTs n2 t
              | cons q a iha => intro t; exact iha _
            exact (this _ _).symm
          · have : ∀ (a : List Rng) t, lastTs (a ++ N) t = b.ts := by
              intro a
              induction a with
              | nil => intro t; exact splitOK_lastTs n2 t
              | cons q a iha => intro t; exact iha _
            rw [this]; omega
          · have : ∀ (a : List Rng) t, lastTs (a ++ N) t = b.ts := by
              intro a
              induction a with
              | nil => intro t; exact splitOK_lastTs n2 t
              | cons q a iha => intro t; exact iha _
            rw [this]
          · intro M' h hn hp
            rw [List.append_assoc]
            exact Proc.fpNe b f M _ pb sk N M' h hn hf1 n2 hp
      | ids l =>
        obtain ⟨l1, l2⟩ := m3
        have hrn := vi_read l.length l1 (pre ++ encBound n.lastIn b ++ vi 2) (l.flatten ++ encMsg b.ts M)
        have hri := readIds_eq l (pre ++ encBound n.lastIn b ++ vi 2 ++ vi l.length) (encMsg b.ts M) l2
        have hrange : vecRange items idx upper = .val (takeW b (items.drop idx)) := by
          unfold vecRange
          rw [if_neg (by omega), u4]
        cases hcl : n.isClient with
        | true =>
          rw [hcl] at common
          refine common (switchIdsClient ⟨n, rd pre (encMsg n.lastIn (⟨b, .ids l⟩ :: M)), full, pb, idx, sk⟩ { n with lastIn := b.ts }
              (rd (pre ++ encBound n.lastIn b ++ vi 2 ++ vi l.length ++ l.flatten) (encMsg b.ts M)) l (takeW b (items.drop idx)) upper)
            (pre ++ encBound n.lastIn b ++ vi 2 ++ vi l.length ++ l.flatten) []
            (cancelIds l.dedup ((takeW b (items.drop idx)).map (·.id))).1 (cancelIds l.dedup ((takeW b (items.drop idx)).map (·.id))).2
            true 2 (vi l.length ++ l.flatten) (by omega) (by simp [encPay]) ?_ rfl (by simp [encMsg, switchIdsClient]) rfl rfl rfl
            hi hlim hcl rfl rfl rfl trivial h0 (by simp only [lastTs]; omega) ?_
          · simp only [switchMode, switchIds]
            rw [if_neg (by norm_num), if_neg (by norm_num), if_pos (by norm_num), List.append_assoc (vi l.length), hrn, Res.ok_bind]
            simp only [Int.toNat_natCast]
            rw [hri, Res.ok_bind]
            simp only [hi, hrange, lift, Res.ok_bind, hcl, if_true]
            rfl
          · intro M' h hn hp
            exact Proc.idsC b l M _ pb sk M' h hn rfl hp
        | false =>
          rw [hcl] at common
          obtain ⟨k1, k2, k3⟩ := finishSkip_eq (sk := sk) (w := ⟨[], n.lastOut⟩) hg h0 hl
          simp only at k3
          have hlast0 : 0 ≤ (if sk then pb.ts else n.lastOut) := by split <;> omega
          have hlastb : (if sk then pb.ts else n.lastOut) ≤ b.ts := by split <;> omega
          have hsz := hv.size
          have hcount : (takeW b (items.drop idx)).length < 2 ^ 56 := by
            have : (takeW b (items.drop idx)).length ≤ items.length := by
              rw [← u4]; simp
            omega
          have hpayok : PayOK (.ids ((takeW b (items.drop idx)).map (·.id))) := by
            refine ⟨by rw [List.length_map]; exact hcount, ?_⟩
            intro i hi'
            obtain ⟨x, hx, rfl⟩ := List.mem_map.1 hi'
            exact hv.idLen x (List.mem_of_mem_drop (takeW_mem hx))
          refine common ⟨{ n with lastIn := b.ts }, rd (pre ++ encBound n.lastIn b ++ vi 2 ++ vi l.length ++ l.flatten) (encMsg b.ts M),
              ⟨[], b.ts⟩, full ++ encMsg n.lastOut (fin sk pb ++ [⟨b, .ids ((takeW b (items.drop idx)).map (·.id))⟩]), upper, false⟩
            (pre ++ encBound n.lastIn b ++ vi 2 ++ vi l.length ++ l.flatten)
            (fin sk pb ++ [⟨b, .ids ((takeW b (items.drop idx)).map (·.id))⟩]) [] [] false 2 (vi l.length ++ l.flatten)
            (by omega) (by simp [encPay]) ?_ rfl (by simp) rfl rfl ?_ hi hlim hcl rfl (by simp) (by simp) ?_ ?_ ?_ ?_
          · simp only [switchMode, switchIds]
            rw [if_neg (by norm_num), if_neg (by norm_num), if_pos (by norm_num), List.append_assoc (vi l.length), hrn, Res.ok_bind]
            simp only [Int.toNat_natCast]
            rw [hri, Res.ok_bind]
            simp only [hi, hrange, lift, Res.ok_bind, hcl, Bool.false_eq_true, if_false]
            simp only [switchIdsServer, k1, Out.val_bind, hlim, respLoop_none]
            rw [Wr.bound_eq (w := ⟨[] ++ encMsg n.lastOut (fin sk pb), if sk then pb.ts else n.lastOut⟩) m2 hlast0 hlastb]
            simp only [Out.val_bind, Wr.byte]
            rw [Wr.varInt_eq (by rw [List.length_map]; exact hcount)]
            simp only [Out.val_bind, Out.pure_eq, Wr.hex, hlim]
            congr 2
            rw [encMsg_append, k3]
            simp [encMsg, encPay, vi_byte2]
          · cases sk <;> rfl
          · refine msgOK_append k2 ?_
            rw [k3]
            exact ⟨hlast0, hlastb, m2, hpayok, trivial⟩
          · have : lastTs (fin sk pb ++ [⟨b, .ids ((takeW b (items.drop idx)).map (·.id))⟩]) n.lastOut = b.ts := by cases sk <;> rfl
            rw [this]; omega
          · have : lastTs (fin sk pb ++ [⟨b, .ids ((takeW b (items.drop idx)).map (·.id))⟩]) n.lastOut = b.ts := by cases sk <;> rfl
            rw [this]
          · intro M' h hn hp
            simp only [List.append_assoc, List.nil_append, List.cons_append]
            exact Proc.idsS b l M _ pb sk M' h hn rfl hp

/-! ## C50 -/

theorem proc_server {fpOf : List Item → Bytes} {cl : Bool} {M : List Rng} {R : List Item} {pb : Item} {sk : Bool}
    {M' : List Rng} {h hn : List Bytes} (hp : Proc fpOf cl M R pb sk M' h hn) : cl = false → h = [] ∧ hn = [] := by
  induction hp with
  | nil => intro _; exact ⟨rfl, rfl⟩
  | skip _ _ _ _ _ _ _ _ _ ih => exact ih
  | fpEq _ _ _ _ _ _ _ _ _ _ _ ih => exact ih
  | fpNe _ _ _ _ _ _ _ _ _ _ _ _ _ ih => exact ih
  | idsC _ _ _ _ _ _ _ _ _ hc _ _ => intro h; rw [h] at hc; cases hc
  | idsS _ _ _ _ _ _ _ _ _ _ _ ih => exact ih

/-- The zero bound messages start from. -/
def zeroBound : Item := ⟨0, []⟩

theorem not_lt_zeroBound {x : Item} (h : 0 ≤ x.ts) : ¬ ItemLt x zeroBound := by
  rintro (h2 | ⟨_, h2⟩)
  · simp [zeroBound] at h2; omega
  · cases hx : x.id <;> simp [zeroBound, hx, LexLt] at h2

theorem goodZero : GoodBound zeroBound := ⟨Or.inr ⟨by simp [zeroBound], by simp [zeroBound]⟩, rfl, by simp [zeroBound]⟩

/-- A whole message. -/
def wire (M : List Rng) : Bytes := hexEnc [0x61] ++ encMsg 0 M

theorem reconcileAux_eq (H : Hash32) (n : Neg) (hv : VecOK n.items) (hlim : n.limit = none) (M : List Rng) (hm : MsgOK 0 M)
    (hmono : Mono zeroBound M) : ∃ (M' : List Rng) (h hn : List Bytes) (n' : Neg),
      reconcileAux H n (wire M) = .ok (wire M', n') ∧ Proc (rangeFp H) n.isClient M n.items zeroBound false M' h hn ∧ MsgOK 0 M' ∧
      n'.items = n.items ∧ n'.limit = none ∧ n'.isClient = n.isClient ∧ n'.haves = n.haves ++ h ∧ n'.haveNots = n.haveNots ++ hn := by
  have hlen := encMsg_length M 0 hm
  obtain ⟨M', h, hn, s', i1, i2, i3, i4, i5, i6, i7, i8, i9⟩ := loop_eq H n.items hv M ((wire M).length + 1) (hexEnc [0x61])
    { n with lastIn := 0, lastOut := 0 } (hexEnc [0x61]) zeroBound 0 false hm hmono rfl hlim (le_refl _) (by simp [zeroBound])
    goodZero (by omega) (fun x hx => not_lt_zeroBound (hv.ts x (by simpa using hx)).1) (by simp only [wire, List.length_append]; omega)
  refine ⟨M', h, hn, s'.n, ?_, by simpa using i3, i4, i5, i6, i7, i8, i9⟩
  have e0 : (⟨wire M, 0⟩ : Reader) = rd [] (hexEnc [0x61] ++ encMsg 0 M) := rfl
  have e1 : reconcileAux H n (wire M) = (do
      let s ← loop H ((wire M).length + 1)
        { n := { n with lastIn := 0, lastOut := 0 }, r := rd (hexEnc [0x61]) (encMsg 0 M), full := hexEnc [0x61],
          prevBound := zeroBound, prevIndex := 0, skipping := false }
      return (s.full, s.n)) := by
    unfold reconcileAux
    rw [e0, readHexByte_rd, Res.ok_bind]
    simp only [ne_eq, not_true_eq_false, if_false, List.nil_append]
    rfl
  rw [e1, i1, Res.ok_bind, i2]
  rfl

theorem reconcile_eq (H : Hash32) (n : Neg) (hv : VecOK n.items) (hlim : n.limit = none) (M : List Rng) (hm : MsgOK 0 M)
    (hmono : Mono zeroBound M) : ∃ (M' : List Rng) (h hn : List Bytes) (n' : Neg),
      reconcile H n (wire M) = .ok (if M' = [] ∧ n.isClient = true then ([], n', true) else (wire M', n', false)) ∧
      Proc (rangeFp H) n.isClient M n.items zeroBound false M' h hn ∧ MsgOK 0 M' ∧
      n'.items = n.items ∧ n'.limit = none ∧ n'.isClient = n.isClient ∧ n'.haves = n.haves ++ h ∧ n'.haveNots = n.haveNots ++ hn := by
  obtain ⟨M', h, hn, n', i1, i2, i3, i4, i5, i6, i7, i8⟩ := reconcileAux_eq H n hv hlim M hm hmono
  refine ⟨M', h, hn, n', ?_, i2, i3, i4, i5, i6, i7, i8⟩
  have hlen := encMsg_length M' 0 i3
  have hw : (wire M').length = 2 ↔ M' = [] := by
    constructor
    · intro he
      simp only [wire, List.length_append, length_hexEnc, List.length_cons, List.length_nil] at he
      exact List.length_eq_zero_iff.1 (by omega)
    · rintro rfl; rfl
  unfold reconcile
  rw [i1, Res.ok_bind]
  simp only [hw, i6]
  by_cases hc : M' = [] ∧ n.isClient = true
  · rw [if_pos hc, if_pos hc]; rfl
  · rw [if_neg hc, if_neg hc]; rfl

/-- Alternate: the server answers the client's message, the client processes the answer, until the client is done. -/
def exchange (H : Hash32) : Nat → Neg → Neg → Bytes → Res Unit (Neg × Neg)
  | 0, _, _, _ => .err ()
  | rounds + 1, client, server, msg => do
    let (m1, server, _) ← reconcile H server msg
    let (m2, client, done) ← reconcile H client m1
    if done then return (client, server)
    exchange H rounds client server m2

/-- A whole session: `Start` on the client, then at most `rounds` round trips; `err` if that is not enough. -/
def sync (H : Hash32) (rounds : Nat) (client server : List Item) : Res Unit (Neg × Neg) := do
  let c ← lift (Neg.new client 0)
  let s ← lift (Neg.new server 0)
  let (msg, c) ← lift (start H c)
  exchange H rounds c s msg

/-- Fingerprints do not collide: contiguous ranges of the two vectors with equal fingerprints are equal. -/
def CollisionFree (H : Hash32) (A B : List Item) : Prop :=
  ∀ x y, x <:+: A → y <:+: B → rangeFp H x = rangeFp H y → x = y

/-- Ids identify items (an id is the hash of an event, so it fixes the timestamp). -/
def IdsIdentify (A B : List Item) : Prop := ∀ x ∈ A ++ B, ∀ y ∈ A ++ B, x.id = y.id → x = y

theorem infix_takeW (b : Item) (l : List Item) : takeW b l <:+: l := (List.takeWhile_prefix _).isInfix
theorem infix_dropW (b : Item) (l : List Item) : dropW b l <:+: l := (List.dropWhile_suffix _).isInfix

theorem ids_nodup {A : List Item} (hv : VecOK A) (h : ∀ x ∈ A, ∀ y ∈ A, x.id = y.id → x = y) : (A.map (·.id)).Nodup := by
  unfold List.Nodup
  rw [List.pairwise_map]
  refine hv.sorted.imp_of_mem (fun {a b} ha hb hlt he => ?_)
  have := h a ha b hb he
  subst this
  exact ItemLt.irrefl _ hlt

theorem exchange_eq (H : Hash32) (A B : List Item) (hA : VecOK A) (hB : VecOK B) (hid : IdsIdentify A B) (hcf : CollisionFree H A B) :
    ∀ (f k : Nat) (c s : Neg) (M : List Rng), k < f → c.items = A → s.items = B → c.limit = none → s.limit = none →
      c.isClient = true → s.isClient = false → MsgOK 0 M → Mono zeroBound M → Valid (rangeFp H) M A → Wt true k M A B →
      ∃ c' s', exchange H f c s (wire M) = .ok (c', s') ∧
        c'.haves.Perm (c.haves ++ (openS M A B).map (·.id)) ∧ c'.haveNots.Perm (c.haveNots ++ (openR M A B).map (·.id)) := by
  intro f
  have hidA : ∀ x ∈ A, ∀ y ∈ A, x.id = y.id → x = y := fun x hx y hy => hid x (List.mem_append_left _ hx) y (List.mem_append_left _ hy)
  have hidB : ∀ x ∈ B, ∀ y ∈ B, x.id = y.id → x = y := fun x hx y hy => hid x (List.mem_append_right _ hx) y (List.mem_append_right _ hy)
  have nA := ids_nodup hA hidA
  have nB := ids_nodup hB hidB
  have gA : ∀ x ∈ A, ¬ ItemLt x zeroBound := fun x hx => not_lt_zeroBound (hA.ts x hx).1
  have gB : ∀ x ∈ B, ¬ ItemLt x zeroBound := fun x hx => not_lt_zeroBound (hB.ts x hx).1
  have cf1 : ∀ b1 b2, rangeFp H (takeW b1 (dropW b2 A)) = rangeFp H (takeW b1 (dropW b2 B)) → takeW b1 (dropW b2 A) = takeW b1 (dropW b2 B) :=
    fun b1 b2 => hcf _ _ ((infix_takeW _ _).trans (infix_dropW _ _)) ((infix_takeW _ _).trans (infix_dropW _ _))
  have cf2 : ∀ b1, rangeFp H (takeW b1 A) = rangeFp H (takeW b1 B) → takeW b1 A = takeW b1 B :=
    fun b1 => hcf _ _ (infix_takeW _ _) (infix_takeW _ _)
  induction f with
  | zero => intro k c s M hk; omega
  | succ f ih =>
    intro k c s M hk ci si cl sl cc sc hm hmono hval hwt
    obtain ⟨M1, h1, hn1, s1, r1, r2, r3, r4, r5, r6, r7, r8⟩ := reconcile_eq H s (by rw [si]; exact hB) sl M hm hmono
    rw [sc] at r1 r2
    rw [si] at r2
    obtain ⟨rfl, rfl⟩ := proc_server r2 rfl
    obtain ⟨v1, mo1, o1, o2⟩ := proc_correct r2 A A B zeroBound (ItemLt.irrefl _) (by simp [Lag]) (by simp [Lag]) hA.weak hB.weak hmono gB
      hval nA nB (fun x hx y hy => hid x (List.mem_append_right _ hx) y (List.mem_append_left _ hy)) cf1 cf2
    obtain ⟨M2, h2, hn2, c2, q1, q2, q3, q4, q5, q6, q7, q8⟩ := reconcile_eq H c (by rw [ci]; exact hA) cl M1 r3 mo1
    rw [cc] at q1 q2
    rw [ci] at q2
    obtain ⟨v2, mo2, o3, o4⟩ := proc_correct q2 B B A zeroBound (ItemLt.irrefl _) (by simp [Lag]) (by simp [Lag]) hB.weak hA.weak mo1 gA
      v1 nB nA (fun x hx y hy => hid x (List.mem_append_left _ hx) y (List.mem_append_right _ hy))
      (fun b1 b2 he => (cf1 b1 b2 he.symm).symm) (fun b1 he => (cf2 b1 he.symm).symm)
    have pS : ((openS M A B).map (·.id)).Perm (h2 ++ (openS M2 A B).map (·.id)) := by
      have := o2.trans (by simpa using o3)
      simpa using this
    have pR : ((openR M A B).map (·.id)).Perm (hn2 ++ (openR M2 A B).map (·.id)) := by
      have := o1.trans (by simpa using o4)
      simpa using this
    have e1 : exchange H (f + 1) c s (wire M) = (do
        let (m2, client, done) ← reconcile H c (wire M1)
        if done then return (client, s1)
        exchange H f client s1 m2) := by
      rw [exchange, r1, Res.ok_bind]
      simp
    have hM2 : ∃ c' s', exchange H (f + 1) c s (wire M) = .ok (c', s') ∧
        c'.haves.Perm (c2.haves ++ (openS M2 A B).map (·.id)) ∧ c'.haveNots.Perm (c2.haveNots ++ (openR M2 A B).map (·.id)) := by
      by_cases hM2 : M2 = []
      · refine ⟨c2, s1, ?_, by simp [hM2, openS, todo], by simp [hM2, openR, todo]⟩
        rw [e1, q1, if_pos ⟨hM2, rfl⟩, Res.ok_bind]
        rfl
      · -- weights
        cases k with
        | zero =>
          exfalso
          have : M1 = [] := proc_zero r2 A hwt
          subst this
          have : M2 = [] := proc_zero q2 B trivial
          exact hM2 this
        | succ k =>
          have w1 : Wt false k M1 B A := proc_wt r2 k A A B (by simp [Lag]) (by simp [Lag]) hB.weak hmono gB hwt
          cases k with
          | zero => exact absurd (proc_zero q2 B w1) hM2
          | succ k =>
            have w2 : Wt true k M2 A B := proc_wt q2 k B B A (by simp [Lag]) (by simp [Lag]) hA.weak mo1 gA w1
            obtain ⟨c', s', x1, x2, x3⟩ := ih k c2 s1 M2 (by omega) (q4.trans ci) (r4.trans si) q5 r5 (q6.trans cc) (r6.trans sc) q3 mo2 v2 w2
            refine ⟨c', s', ?_, x2, x3⟩
            rw [e1, q1, if_neg (by simp [hM2]), Res.ok_bind]
            simpa using x1
    obtain ⟨c', s', x1, x2, x3⟩ := hM2
    refine ⟨c', s', x1, x2.trans ?_, x3.trans ?_⟩
    · rw [q7, List.append_assoc]; exact List.Perm.append_left _ pS.symm
    · rw [q8, List.append_assoc]; exact List.Perm.append_left _ pR.symm

/-- **C50 (partial: no frame size limit).** For any two vectors (any sizes) with collision-free fingerprints, the session
terminates within `|A| + |B| + 4` round trips, without error or panic, and the client has then reported as `Haves`
exactly the ids it has and the server lacks, and as `HaveNots` exactly the converse, each once. Missing: non-zero frame
size limits. -/
theorem C50_reconciliation_partial (H : Hash32) (A B : List Item) (hA : VecOK A) (hB : VecOK B) (hid : IdsIdentify A B)
    (hcf : CollisionFree H A B) : ∃ c s, sync H (A.length + B.length + 4) A B = .ok (c, s) ∧
      c.haves.Perm ((A.filter (fun x => decide (x ∉ B))).map (·.id)) ∧
      c.haveNots.Perm ((B.filter (fun x => decide (x ∉ A))).map (·.id)) := by
  have ginf : GoodBound infiniteBound := ⟨Or.inl rfl, rfl, by simp [infiniteBound]⟩
  have hinf : ∀ x : Item, x.ts + 1 < 2 ^ 56 → ItemLt x infiniteBound := by
    intro x hx
    left
    rw [two56] at hx
    simp only [infiniteBound, maxTimestamp, two63]
    omega
  have hall : ∀ L : List Item, VecOK L → takeW infiniteBound L = L := by
    intro L hL
    have := split_at (b := infiniteBound) (xs := L) (Z := []) (fun x hx => hinf x (hL.ts x hx).2) (by simp)
    simpa using this.1
  obtain ⟨N, n1, n2, n3⟩ := splitRange_eq H A hA 0 A.length (by omega) (le_refl _) infiniteBound ginf ⟨hexEnc [0x61], 0⟩
    (fun x hx => hinf x (hA.ts x (by simpa using hx)).2) (le_refl _) (by simp only [infiniteBound, maxTimestamp, two63]; norm_num)
    (fun x hx => (hA.ts x (by simpa using hx)).1)
  simp only [List.drop_zero, Nat.sub_zero, List.take_length] at n2
  have gA : ∀ x ∈ A, ¬ ItemLt x zeroBound := fun x hx => not_lt_zeroBound (hA.ts x hx).1
  have gi : ¬ ItemLt infiniteBound zeroBound := not_lt_zeroBound (by simp only [infiniteBound, maxTimestamp, two63]; norm_num)
  have n2' : SplitOK (rangeFp H) (takeW infiniteBound A) infiniteBound N := by rw [hall A hA]; exact n2
  obtain ⟨f1, f2, f3, f4, f5⟩ := splitOK_facts hA.weak gA gi n2'
  have hwt : Wt true (A.length + B.length + 3) N A B := by
    rcases n2 with ⟨_, rfl⟩ | ⟨_, parts, rfl, p2, p3, p4, p5⟩
    · exact ⟨by simp only; split <;> omega, trivial⟩
    · have hmem : ∀ q ∈ parts, ∀ x ∈ q.2, ¬ ItemLt x zeroBound := by
        intro q hq x hx
        apply gA
        rw [← p2]
        simp only [List.mem_flatten, List.mem_map]
        exact ⟨q.2, ⟨q, hq, rfl⟩, hx⟩
      have := wt_parts true (A.length + B.length + 3) A.length B.length (by omega) parts [] B zeroBound infiniteBound (rangeFp H) p3 p4
        (fun q hq => (p5 q hq).1) hmem (by simp) (fun q hq => (p5 q hq).2.le) (by rw [hall B hB])
      rw [p2, List.append_nil] at this
      exact this
  obtain ⟨c', s', x1, x2, x3⟩ := exchange_eq H A B hA hB hid hcf (A.length + B.length + 4) (A.length + B.length + 3)
    { items := A, isClient := true, lastOut := infiniteBound.ts } { items := B } N (by omega) rfl rfl rfl rfl rfl rfl n3 f2 f4 hwt
  have oS : openS N A B = diff A B := by
    have := open_seg N A B zeroBound f2 f1 f5 hA.weak hB.weak
    rwa [f3, hall A hA, hall B hB] at this
  have oR : openR N A B = diff B A := by
    rw [← openS_swap]
    have := open_seg N B A zeroBound f2 f1 f5 hB.weak hA.weak
    rwa [f3, hall A hA, hall B hB] at this
  refine ⟨c', s', ?_, ?_, ?_⟩
  · have e1 : start H { items := A } = .val (wire N, { items := A, isClient := true, lastOut := infiniteBound.ts }) := by
      unfold start
      simp only [n1, Out.val_bind]
      rfl
    unfold sync Neg.new
    simp only [if_true, lift, Res.ok_bind, e1]
    exact x1
  · simpa [oS, diff] using x2
  · simpa [oR, diff] using x3

/-- Sample data: ids `c` repeated, timestamps 1, 2, .... -/
def sampleVec (ts : Int) : List UInt8 → List Item
  | [] => []
  | c :: cs => ⟨ts, idOf c⟩ :: sampleVec (ts + 1) cs

/-- A hash for the examples: the first 32 bytes of the zero-padded input. -/
def padHash : Hash32 := fun x => ⟨(x ++ List.replicate 32 0).take 32, by
  rw [List.length_take, List.length_append, List.length_replicate]; omega⟩

/-- What the client has reported, or `none` if the session failed. -/
def report : Res Unit (Neg × Neg) → Option (List Bytes × List Bytes)
  | .ok (c, _) => some (c.haves, c.haveNots)
  | _ => none

example : report (sync padHash 10 (sampleVec 1 [49, 50, 51]) [⟨2, idOf 50⟩, ⟨7, idOf 57⟩]) =
    some ([idOf 49, idOf 51], [idOf 57]) := by decide +kernel

theorem mem_infixes {x l : List Item} (h : x <:+: l) : x ∈ l.tails.flatMap List.inits := by
  obtain ⟨t, h1, h2⟩ := List.infix_iff_prefix_suffix.1 h
  exact List.mem_flatMap.2 ⟨t, (List.mem_tails _ _).2 h2, (List.mem_inits _ _).2 h1⟩

/-- The hypotheses of the theorem hold for this pair. -/
example : VecOK (sampleVec 1 [49, 50]) ∧ VecOK [⟨2, idOf 50⟩] ∧ IdsIdentify (sampleVec 1 [49, 50]) [⟨2, idOf 50⟩] ∧
    CollisionFree padHash (sampleVec 1 [49, 50]) [⟨2, idOf 50⟩] := by
  refine ⟨⟨?_, ?_, ?_, ?_, ?_⟩, ⟨?_, ?_, ?_, ?_, ?_⟩, ?_, ?_⟩
  · decide +kernel
  · decide +kernel
  · intro x hx; rw [two56]; revert x; decide +kernel
  · simp [sampleVec]
  · unfold Separable; decide +kernel
  · decide +kernel
  · decide +kernel
  · intro x hx; rw [two56]; revert x; decide +kernel
  · simp
  · unfold Separable; decide +kernel
  · unfold IdsIdentify; decide +kernel
  · have key : ∀ x ∈ (sampleVec 1 [49, 50]).tails.flatMap List.inits, ∀ y ∈ ([⟨2, idOf 50⟩] : List Item).tails.flatMap List.inits,
        rangeFp padHash x = rangeFp padHash y → x = y := by decide +kernel
    exact fun x y hx hy => key x (mem_infixes hx) y (mem_infixes hy)

end GoNostr.Neg
