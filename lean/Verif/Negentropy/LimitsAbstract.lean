import Mathlib.Data.List.Infix
import Verif.Negentropy.Theorems
/-!
# Reconciliation with frame size limits, on ranges

Proof layer for `C50` with frame size limits: `ProcL` is one reply as a relation, with the three ways in which a limit
cuts it short, and five facts about it: replies are well formed, reports are true, nothing is lost as long as matching
fingerprints mean equal ranges, when fingerprints have that meaning, and that every reply is lighter.
-/

set_option autoImplicit false

namespace GoNostr.Neg

/-- The range that ends a reply that was cut short: a fingerprint up to infinity. -/
def rest (fpOf : List Item → Bytes) (X : List Item) : Rng := ⟨infiniteBound, .fp (fpOf X)⟩

/-- One pass over a message by a party holding (from here on) the items `R`, `lim` telling whether it has a frame size
limit and `wr` whether it has written something already: the reply and what a client reports. -/
inductive ProcL (fpOf : List Item → Bytes) (cl lim : Bool) :
    Bool → List Rng → List Item → Item → Bool → List Rng → List Bytes → List Bytes → Prop
  | nil (wr : Bool) (R : List Item) (pb : Item) (sk : Bool) : ProcL fpOf cl lim wr [] R pb sk [] [] []
  | skip (wr : Bool) (b : Item) (M : List Rng) (R : List Item) (pb : Item) (sk : Bool) (M' : List Rng) (h hn : List Bytes) :
      ProcL fpOf cl lim wr M (dropW b R) b true M' h hn → ProcL fpOf cl lim wr (⟨b, .skip⟩ :: M) R pb sk M' h hn
  | fpEq (wr : Bool) (b : Item) (f : Bytes) (M : List Rng) (R : List Item) (pb : Item) (sk : Bool) (M' : List Rng) (h hn : List Bytes) :
      f = fpOf (takeW b R) → ProcL fpOf cl lim wr M (dropW b R) b true M' h hn → ProcL fpOf cl lim wr (⟨b, .fp f⟩ :: M) R pb sk M' h hn
  | fpNe (wr : Bool) (b : Item) (f : Bytes) (M : List Rng) (R : List Item) (pb : Item) (sk : Bool) (N M' : List Rng) (h hn : List Bytes) :
      f ≠ fpOf (takeW b R) → SplitOK fpOf (takeW b R) b N → ProcL fpOf cl lim true M (dropW b R) b false M' h hn →
      ProcL fpOf cl lim wr (⟨b, .fp f⟩ :: M) R pb sk (fin sk pb ++ (N ++ M')) h hn
  | fpStop (b : Item) (f : Bytes) (M : List Rng) (R : List Item) (pb : Item) (sk : Bool) :
      f ≠ fpOf (takeW b R) → lim = true → ProcL fpOf cl lim true (⟨b, .fp f⟩ :: M) R pb sk [rest fpOf (dropW b R)] [] []
  | idsC (wr : Bool) (b : Item) (l : List Bytes) (M : List Rng) (R : List Item) (pb : Item) (sk : Bool) (M' : List Rng) (h hn : List Bytes) :
      cl = true → ProcL fpOf cl lim wr M (dropW b R) b true M' h hn →
      ProcL fpOf cl lim wr (⟨b, .ids l⟩ :: M) R pb sk M' ((cancelIds l.dedup ((takeW b R).map (·.id))).1 ++ h)
        ((cancelIds l.dedup ((takeW b R).map (·.id))).2 ++ hn)
  | idsS (wr : Bool) (b : Item) (l : List Bytes) (M : List Rng) (R : List Item) (pb : Item) (sk : Bool) (M' : List Rng) (h hn : List Bytes) :
      cl = false → ProcL fpOf cl lim true M (dropW b R) b false M' h hn →
      ProcL fpOf cl lim wr (⟨b, .ids l⟩ :: M) R pb sk (fin sk pb ++ (⟨b, .ids ((takeW b R).map (·.id))⟩ :: M')) h hn
  | idsFull (wr : Bool) (b : Item) (l : List Bytes) (M : List Rng) (R : List Item) (pb : Item) (sk : Bool) :
      cl = false → lim = true →
      ProcL fpOf cl lim wr (⟨b, .ids l⟩ :: M) R pb sk
        (fin sk pb ++ [⟨b, .ids ((takeW b R).map (·.id))⟩, rest fpOf (dropW b R)]) [] []
  | idsStop (wr : Bool) (b : Item) (l : List Bytes) (M : List Rng) (R : List Item) (pb : Item) (sk : Bool) (xs : List Item)
      (y : Item) (ys : List Item) :
      cl = false → lim = true → takeW b R = xs ++ y :: ys → xs ≠ [] →
      ProcL fpOf cl lim wr (⟨b, .ids l⟩ :: M) R pb sk
        (fin sk pb ++ [⟨y, .ids (xs.map (·.id))⟩, rest fpOf (y :: ys ++ dropW b R)]) [] []

/-! ## Lists of items -/

theorem dropW_suffix (b : Item) (l : List Item) : dropW b l <:+ l := List.dropWhile_suffix _

theorem mem_takeW {b x : Item} {l : List Item} (hs : Sorted l) (h : x ∈ l) (hx : ItemLt x b) : x ∈ takeW b l := by
  rw [← takeW_append_dropW b l] at h
  rcases List.mem_append.1 h with h | h
  · exact h
  · exact absurd hx (dropW_ge hs h)

theorem mem_dropW {b x : Item} {l : List Item} (h : x ∈ l) (hx : ¬ ItemLt x b) : x ∈ dropW b l := by
  rw [← takeW_append_dropW b l] at h
  rcases List.mem_append.1 h with h | h
  · exact absurd (takeW_lt h) hx
  · exact h

theorem all_below {b : Item} {l : List Item} (h : ∀ x ∈ l, ItemLt x b) : takeW b l = l ∧ dropW b l = [] := by
  have := split_at (b := b) (xs := l) (Z := []) h (by simp)
  simpa using this

theorem length_split (b : Item) (l : List Item) : (takeW b l).length + (dropW b l).length = l.length := by
  rw [← List.length_append, takeW_append_dropW]

/-- The circumstances in which a message is read: the reader and the writer of it hold `R` and `S` from the current bound
`pb` on, and the reply has been written up to `p`, from where on they hold `R0` and `S0`. -/
structure Ctx (sk : Bool) (pb p : Item) (S S0 R R0 : List Item) (M : List Rng) : Prop where
  le : ¬ ItemLt pb p
  top : ¬ ItemLt infiniteBound pb
  lagS : Lag sk pb S0 S
  lagR : Lag sk pb R0 R
  sS : Sorted S0
  sR : Sorted R0
  tS : ∀ x ∈ S0, ItemLt x infiniteBound
  tR : ∀ x ∈ R0, ItemLt x infiniteBound
  gS : ∀ x ∈ S, ¬ ItemLt x pb
  gR : ∀ x ∈ R, ¬ ItemLt x pb
  mono : Mono pb M
  bdd : ∀ r ∈ M, ¬ ItemLt infiniteBound r.bound

theorem Lag.suffix {sk : Bool} {pb : Item} {L0 L : List Item} (h : Lag sk pb L0 L) : L <:+ L0 := by
  unfold Lag at h
  cases sk with
  | false => simp at h; rw [h]
  | true => simp at h; rw [h]; exact dropW_suffix _ _

namespace Ctx
variable {sk : Bool} {pb p : Item} {S S0 R R0 : List Item} {r : Rng} {M : List Rng}

theorem sufS (c : Ctx sk pb p S S0 R R0 M) : S <:+ S0 := c.lagS.suffix
theorem sufR (c : Ctx sk pb p S S0 R R0 M) : R <:+ R0 := c.lagR.suffix
theorem sortS (c : Ctx sk pb p S S0 R R0 M) : Sorted S := List.Pairwise.sublist c.sufS.sublist c.sS
theorem sortR (c : Ctx sk pb p S S0 R R0 M) : Sorted R := List.Pairwise.sublist c.sufR.sublist c.sR

/-- Nothing is written for the next range. -/
theorem quiet (c : Ctx sk pb p S S0 R R0 (r :: M)) :
    Ctx true r.bound p (dropW r.bound S) S0 (dropW r.bound R) R0 M where
  le := ItemLt.le_trans c.le c.mono.1
  top := c.bdd r (by simp)
  lagS := c.lagS.step c.mono.1
  lagR := c.lagR.step c.mono.1
  sS := c.sS
  sR := c.sR
  tS := c.tS
  tR := c.tR
  gS := fun _ hx => dropW_ge c.sortS hx
  gR := fun _ hx => dropW_ge c.sortR hx
  mono := c.mono.2
  bdd := fun q hq => c.bdd q (List.mem_cons_of_mem _ hq)

/-- The reply has caught up with the next range. -/
theorem fresh (c : Ctx sk pb p S S0 R R0 (r :: M)) :
    Ctx false r.bound r.bound (dropW r.bound S) (dropW r.bound S) (dropW r.bound R) (dropW r.bound R) M where
  le := ItemLt.irrefl _
  top := c.bdd r (by simp)
  lagS := by simp [Lag]
  lagR := by simp [Lag]
  sS := sorted_dropW c.sortS
  sR := sorted_dropW c.sortR
  tS := fun x hx => c.tS x (c.sufS.subset (dropW_mem hx))
  tR := fun x hx => c.tR x (c.sufR.subset (dropW_mem hx))
  gS := fun _ hx => dropW_ge c.sortS hx
  gR := fun _ hx => dropW_ge c.sortR hx
  mono := c.mono.2
  bdd := fun q hq => c.bdd q (List.mem_cons_of_mem _ hq)

/-- What only one of them has from `pb` on, only that one has from `p` on. -/
theorem diff_lag (c : Ctx sk pb p S S0 R R0 M) {x : Item} (h : x ∈ diff R S) : x ∈ diff R0 S0 := by
  rw [mem_diff] at h ⊢
  refine ⟨c.sufR.subset h.1, fun hx => h.2 ?_⟩
  have hge := c.gR x h.1
  have hl := c.lagS
  unfold Lag at hl
  cases sk with
  | false => simp at hl; rw [hl]; exact hx
  | true => simp at hl; rw [hl]; exact mem_dropW hx hge

theorem diff_lag' (c : Ctx sk pb p S S0 R R0 M) {x : Item} (h : x ∈ diff S R) : x ∈ diff S0 R0 := by
  rw [mem_diff] at h ⊢
  refine ⟨c.sufS.subset h.1, fun hx => h.2 ?_⟩
  have hge := c.gS x h.1
  have hl := c.lagR
  unfold Lag at hl
  cases sk with
  | false => simp at hl; rw [hl]; exact hx
  | true => simp at hl; rw [hl]; exact mem_dropW hx hge

end Ctx

/-- Everything open is a difference. -/
theorem openS_sub (M : List Rng) : ∀ (S R : List Item), Sorted S → Sorted R → ∀ x ∈ openS M S R, x ∈ diff S R := by
  induction M with
  | nil => intro S R _ _ x hx; simp [openS, todo] at hx
  | cons r M ih =>
    intro S R hS hR x hx
    have hx' : x ∈ diff (takeW r.bound S) (takeW r.bound R) ∨ x ∈ openS M (dropW r.bound S) (dropW r.bound R) := by
      unfold openS at hx ⊢
      simp only [todo, List.flatMap_append, List.mem_append] at hx
      rcases hx with hx | hx
      · by_cases hr : r.pay = .skip
        · simp [hr] at hx
        · simp only [hr, if_false, List.flatMap_cons, List.flatMap_nil, List.append_nil] at hx
          exact Or.inl hx
      · exact Or.inr hx
    rw [mem_diff]
    rcases hx' with hx | hx
    · rw [mem_diff] at hx
      exact ⟨takeW_mem hx.1, fun h => hx.2 (mem_takeW hR h (takeW_lt hx.1))⟩
    · have := ih _ _ (sorted_dropW hS) (sorted_dropW hR) x hx
      rw [mem_diff] at this
      exact ⟨dropW_mem this.1, fun h => this.2 (mem_dropW h (dropW_ge hS this.1))⟩

theorem openR_sub (M : List Rng) (S R : List Item) (hS : Sorted S) (hR : Sorted R) : ∀ x ∈ openR M S R, x ∈ diff R S := by
  rw [← openS_swap]; exact openS_sub M R S hR hS

/-! ## What messages look like -/

/-- Lists of ids are those of the sender's items, fingerprints are of some last part of them. -/
def Own (fpOf : List Item → Bytes) : List Rng → List Item → Prop
  | [], _ => True
  | r :: M, S => (match r.pay with
      | .skip => True
      | .fp f => ∃ X, X <:+ takeW r.bound S ∧ f = fpOf X
      | .ids l => l = (takeW r.bound S).map (·.id)) ∧ Own fpOf M (dropW r.bound S)

/-- Someone has an item in every range that is not skipped, except at the end. -/
def Prog : List Rng → List Item → List Item → Prop
  | [], _, _ => True
  | r :: M, S, R => (r.pay = .skip ∨ takeW r.bound S ≠ [] ∨ takeW r.bound R ≠ [] ∨
      (dropW r.bound S = [] ∧ dropW r.bound R = [] ∧ ∀ q ∈ M, ∃ f, q.pay = .fp f)) ∧ Prog M (dropW r.bound S) (dropW r.bound R)

/-- Someone has an item in every range that is not skipped. -/
def Full : List Rng → List Item → List Item → Prop
  | [], _, _ => True
  | r :: M, S, R => (r.pay = .skip ∨ takeW r.bound S ≠ [] ∨ takeW r.bound R ≠ []) ∧ Full M (dropW r.bound S) (dropW r.bound R)

theorem own_of_valid {fpOf : List Item → Bytes} : ∀ (M : List Rng) (S : List Item), Valid fpOf M S → Own fpOf M S
  | [], _, _ => trivial
  | ⟨b, pay⟩ :: M, S, h => by
    refine ⟨?_, own_of_valid M _ h.2⟩
    have h1 := h.1
    cases pay with
    | skip => trivial
    | fp f => exact ⟨_, List.suffix_refl _, h1⟩
    | ids l => exact h1

theorem own_fin {fpOf : List Item → Bytes} {sk : Bool} {pb : Item} {R0 R : List Item} (hR : Lag sk pb R0 R)
    {X : List Rng} (h : Own fpOf X R) : Own fpOf (fin sk pb ++ X) R0 := by
  unfold Lag at *
  cases sk with
  | false => simp at hR; simpa [fin, ← hR] using h
  | true => simp at hR; simp [fin, Own, ← hR]; exact h

theorem own_append {fpOf : List Item → Bytes} {N M : List Rng} : ∀ {S : List Item} {p : Item}, N ≠ [] → Mono p N →
    Own fpOf N S → Own fpOf M (dropW (lastBound N p) S) → Own fpOf (N ++ M) S := by
  induction N with
  | nil => intro S p h; exact absurd rfl h
  | cons r N ih =>
    intro S p _ hm h1 h2
    refine ⟨h1.1, ?_⟩
    by_cases hN : N = []
    · subst hN; exact h2
    · refine ih hN hm.2 h1.2 ?_
      rw [dropW_dropW (lastBound_ge _ _ hm.2)]
      exact h2

theorem prog_fin {sk : Bool} {pb : Item} {S0 S R0 R : List Item} (hS : Lag sk pb S0 S) (hR : Lag sk pb R0 R)
    {X : List Rng} (h : Prog X R S) : Prog (fin sk pb ++ X) R0 S0 := by
  unfold Lag at *
  cases sk with
  | false => simp at hS hR; simpa [fin, ← hS, ← hR] using h
  | true => simp at hS hR; simp [fin, Prog, ← hS, ← hR]; exact h

theorem prog_append {N M : List Rng} : ∀ {S R : List Item} {p : Item}, N ≠ [] → Mono p N → Full N S R →
    Prog M (dropW (lastBound N p) S) (dropW (lastBound N p) R) → Prog (N ++ M) S R := by
  induction N with
  | nil => intro S R p h; exact absurd rfl h
  | cons r N ih =>
    intro S R p _ hm h1 h2
    refine ⟨?_, ?_⟩
    · rcases h1.1 with h | h | h
      · exact Or.inl h
      · exact Or.inr (Or.inl h)
      · exact Or.inr (Or.inr (Or.inl h))
    by_cases hN : N = []
    · subst hN; exact h2
    · refine ih hN hm.2 h1.2 ?_
      rw [dropW_dropW (lastBound_ge _ _ hm.2), dropW_dropW (lastBound_ge _ _ hm.2)]
      exact h2

theorem full_parts : ∀ (parts : List (Item × List Item)) (fpOf : List Item → Bytes) (rs R : List Item) (ub : Item), Covers parts →
    (∃ init last, parts = init ++ [(ub, last)]) → (∀ q ∈ parts, q.2 ≠ []) → (∀ x ∈ rs, ¬ ItemLt x ub) →
    (∀ q ∈ parts, ¬ ItemLt ub q.1) →
    Full (parts.map (fun q => (⟨q.1, .fp (fpOf q.2)⟩ : Rng))) ((parts.map (·.2)).flatten ++ rs) R := by
  intro parts
  induction parts with
  | nil => intros; trivial
  | cons q parts ih =>
    intro fpOf rs R ub hc hl hne hrs hub
    obtain ⟨b, xs⟩ := q
    obtain ⟨c1, c2, c3⟩ := hc
    have hall : ∀ x ∈ (parts.map (·.2)).flatten ++ rs, ¬ ItemLt x b := by
      intro x hx
      rcases List.mem_append.1 hx with hx | hx
      · simp only [List.mem_flatten, List.mem_map] at hx
        obtain ⟨l, ⟨q, hq, rfl⟩, hx⟩ := hx
        exact c2 q hq x hx
      · exact ItemLt.le_trans (hub (b, xs) (by simp)) (hrs x hx)
    simp only [List.map_cons, List.flatten_cons, List.append_assoc, Full]
    obtain ⟨s1, s2⟩ := split_at c1 hall
    rw [s1, s2]
    refine ⟨Or.inr (Or.inl (hne (b, xs) (by simp))), ?_⟩
    by_cases hp : parts = []
    · subst hp; trivial
    · have hl' : ∃ init last, parts = init ++ [(ub, last)] := by
        obtain ⟨i, l, he⟩ := hl
        cases i with
        | nil => simp at he; exact absurd he.2 hp
        | cons y i => simp at he; exact ⟨i, l, he.2⟩
      exact ih fpOf rs _ ub c3 hl' (fun q hq => hne q (List.mem_cons_of_mem _ hq)) hrs (fun q hq => hub q (List.mem_cons_of_mem _ hq))

/-- A split has an item in every range, and its bounds do not exceed that of what it splits. -/
theorem split_full {fpOf : List Item → Bytes} {R S : List Item} {b p : Item} {N : List Rng} (hR : Sorted R)
    (hge : ∀ x ∈ R, ¬ ItemLt x p) (hne : takeW b R ≠ [] ∨ takeW b S ≠ []) (h : SplitOK fpOf (takeW b R) b N) :
    Full N R S ∧ ∀ r ∈ N, ¬ ItemLt b r.bound := by
  rcases h with ⟨_, rfl⟩ | ⟨_, parts, rfl, h2, h3, h4, h5⟩
  · exact ⟨⟨Or.inr hne, trivial⟩, by simp [ItemLt.irrefl]⟩
  · have hmem : ∀ q ∈ parts, ∀ x ∈ q.2, ¬ ItemLt x p := by
      intro q hq x hx
      apply hge
      apply takeW_mem (b := b)
      rw [← h2]
      simp only [List.mem_flatten, List.mem_map]
      exact ⟨q.2, ⟨q, hq, rfl⟩, hx⟩
    obtain ⟨_, _, _, a4⟩ := covers_facts parts (dropW b R) p b fpOf h3 h4 (fun q hq => (h5 q hq).1) hmem (fun x hx => dropW_ge hR hx)
    refine ⟨?_, ?_⟩
    · have := full_parts parts fpOf (dropW b R) S b h3 h4 (fun q hq => (h5 q hq).1) (fun x hx => dropW_ge hR hx) a4
      rwa [h2, takeW_append_dropW] at this
    · intro r hr
      obtain ⟨q, hq, rfl⟩ := List.mem_map.1 hr
      exact a4 q hq

/-- A fingerprint that differs from the receiver's is of a range in which someone has an item. -/
theorem ne_items {fpOf : List Item → Bytes} {b : Item} {S R X : List Item} {f : Bytes} (hX : X <:+ takeW b S) (hf : f = fpOf X)
    (hne : f ≠ fpOf (takeW b R)) : takeW b R ≠ [] ∨ takeW b S ≠ [] := by
  by_contra hc
  simp only [not_or, not_not] at hc
  apply hne
  rw [hc.2] at hX
  rw [hf, hc.1, List.suffix_nil.1 hX]

/-- Where nobody has anything nothing is answered. -/
theorem procL_empty {fpOf : List Item → Bytes} {cl lim wr : Bool} {M : List Rng} {R : List Item} {pb : Item} {sk : Bool}
    {M' : List Rng} {h hn : List Bytes} (hp : ProcL fpOf cl lim wr M R pb sk M' h hn) : R = [] → Own fpOf M [] →
      (∀ q ∈ M, ∃ f, q.pay = .fp f) → M' = [] ∧ h = [] ∧ hn = [] := by
  have key : ∀ (b : Item) (f : Bytes) (R : List Item), R = [] → (∃ X, X <:+ takeW b [] ∧ f = fpOf X) → f = fpOf (takeW b R) := by
    rintro b f R rfl ⟨X, hX, rfl⟩
    have : takeW b [] = [] := rfl
    rw [this] at hX ⊢
    rw [List.suffix_nil.1 hX]
  induction hp with
  | nil => intro _ _ _; exact ⟨rfl, rfl, rfl⟩
  | skip wr b M R pb sk M' h hn _ ih => intro _ _ hq; obtain ⟨f, hf⟩ := hq _ (List.mem_cons_self ..); cases hf
  | fpEq wr b f M R pb sk M' h hn hf _ ih =>
    intro hR ho hq
    exact ih (by rw [hR]; rfl) ho.2 (fun q hq' => hq q (List.mem_cons_of_mem _ hq'))
  | fpNe wr b f M R pb sk N M' h hn hf _ _ _ => intro hR ho _; exact absurd (key b f R hR ho.1) hf
  | fpStop b f M R pb sk hf _ => intro hR ho _; exact absurd (key b f R hR ho.1) hf
  | idsC wr b l M R pb sk M' h hn _ _ _ => intro _ _ hq; obtain ⟨f, hf⟩ := hq _ (List.mem_cons_self ..); cases hf
  | idsS wr b l M R pb sk M' h hn _ _ _ => intro _ _ hq; obtain ⟨f, hf⟩ := hq _ (List.mem_cons_self ..); cases hf
  | idsFull wr b l M R pb sk _ _ => intro _ _ hq; obtain ⟨f, hf⟩ := hq _ (List.mem_cons_self ..); cases hf
  | idsStop wr b l M R pb sk xs y ys _ _ _ _ => intro _ _ hq; obtain ⟨f, hf⟩ := hq _ (List.mem_cons_self ..); cases hf

theorem bdd_fin {sk : Bool} {pb : Item} {X : List Rng} (h : ¬ ItemLt infiniteBound pb) (hX : ∀ r ∈ X, ¬ ItemLt infiniteBound r.bound) :
    ∀ r ∈ fin sk pb ++ X, ¬ ItemLt infiniteBound r.bound := by
  intro r hr
  rcases List.mem_append.1 hr with hr | hr
  · cases sk with
    | false => simp [fin] at hr
    | true => simp [fin] at hr; rw [hr]; exact h
  · exact hX r hr

/-- Facts about the place where a list of ids was cut. -/
theorem cut_facts {b y : Item} {R xs ys : List Item} (hs : R.Pairwise ItemLt) (h : takeW b R = xs ++ y :: ys) :
    takeW y R = xs ∧ dropW y R = y :: ys ++ dropW b R ∧ y ∈ R ∧ ItemLt y b := by
  have hy : y ∈ takeW b R := by rw [h]; simp
  have hR : R = xs ++ (y :: ys ++ dropW b R) := by
    rw [← List.append_assoc, ← h, takeW_append_dropW]
  rw [hR, List.pairwise_append] at hs
  have h1 : ∀ x ∈ xs, ItemLt x y := fun x hx => hs.2.2 x hx y (by simp)
  have h2 : ∀ x ∈ y :: ys ++ dropW b R, ¬ ItemLt x y := by
    intro x hx
    have h3 := hs.2.1
    rw [List.cons_append, List.pairwise_cons] at h3
    rw [List.cons_append] at hx
    rcases List.mem_cons.1 hx with rfl | hx
    · exact ItemLt.irrefl _
    · exact (h3.1 x hx).asymm
  obtain ⟨s1, s2⟩ := split_at h1 h2
  rw [← hR] at s1 s2
  exact ⟨s1, s2, takeW_mem hy, takeW_lt hy⟩

/-- **Shape.** The reply to a well-formed message is well formed. -/
theorem procL_shape {fpOf : List Item → Bytes} {cl lim wr : Bool} {M : List Rng} {R : List Item} {pb : Item} {sk : Bool}
    {M' : List Rng} {h hn : List Bytes} (hp : ProcL fpOf cl lim wr M R pb sk M' h hn) :
    ∀ (S S0 R0 : List Item) (p : Item), Ctx sk pb p S S0 R R0 M → R.Pairwise ItemLt → Own fpOf M S → Prog M S R →
      Own fpOf M' R0 ∧ Mono p M' ∧ (∀ r ∈ M', ¬ ItemLt infiniteBound r.bound) ∧ Prog M' R0 S0 := by
  have sub : ∀ {R : List Item} (b : Item), R.Pairwise ItemLt → (dropW b R).Pairwise ItemLt :=
    fun b h => h.sublist (dropW_suffix b _).sublist
  induction hp with
  | nil => intros; exact ⟨trivial, trivial, by simp, trivial⟩
  | skip wr b M R pb sk M' h hn _ ih =>
    intro S S0 R0 p c hs ho hg
    exact ih _ _ _ _ c.quiet (sub b hs) ho.2 hg.2
  | fpEq wr b f M R pb sk M' h hn hf _ ih =>
    intro S S0 R0 p c hs ho hg
    exact ih _ _ _ _ c.quiet (sub b hs) ho.2 hg.2
  | fpNe wr b f M R pb sk N M' h hn hf hsp _ ih =>
    intro S S0 R0 p c hs ho hg
    obtain ⟨i1, i2, i3, i4⟩ := ih _ _ _ _ c.fresh (sub b hs) ho.2 hg.2
    obtain ⟨f1, f2, f3, f4, f5⟩ := splitOK_facts c.sortR c.gR c.mono.1 hsp
    obtain ⟨X, hX, hfX⟩ := ho.1
    have hne := ne_items hX hfX hf
    obtain ⟨g1, g2⟩ := split_full (S := S) c.sortR c.gR hne hsp
    have hbt : ¬ ItemLt infiniteBound b := c.bdd ⟨b, .fp f⟩ (by simp)
    refine ⟨own_fin c.lagR (own_append f1 f2 (own_of_valid _ _ f4) (by rw [f3]; exact i1)),
      mono_fin c.le (mono_append f2 (by rw [f3]; exact i2)), bdd_fin c.top ?_,
      prog_fin c.lagS c.lagR (prog_append f1 f2 g1 (by rw [f3]; exact i4))⟩
    intro r hr
    rcases List.mem_append.1 hr with hr | hr
    · exact ItemLt.le_trans (g2 r hr) hbt
    · exact i3 r hr
  | fpStop b f M R pb sk hf _ =>
    intro S S0 R0 p c hs ho hg
    obtain ⟨t1, t2⟩ := all_below c.tR
    obtain ⟨u1, u2⟩ := all_below c.tS
    refine ⟨⟨⟨_, ?_, rfl⟩, trivial⟩, ⟨ItemLt.le_trans c.le c.top, trivial⟩, by simp [rest, ItemLt.irrefl], ⟨Or.inr (Or.inr (Or.inr ?_)), trivial⟩⟩
    · simp only [rest]
      rw [t1]
      exact (dropW_suffix _ _).trans c.sufR
    · simp only [rest]
      exact ⟨t2, u2, by simp⟩
  | idsC wr b l M R pb sk M' h hn _ _ ih =>
    intro S S0 R0 p c hs ho hg
    exact ih _ _ _ _ c.quiet (sub b hs) ho.2 hg.2
  | idsS wr b l M R pb sk M' h hn hcl hpr ih =>
    intro S S0 R0 p c hs ho hg
    obtain ⟨i1, i2, i3, i4⟩ := ih _ _ _ _ c.fresh (sub b hs) ho.2 hg.2
    have hbt : ¬ ItemLt infiniteBound b := c.bdd ⟨b, .ids l⟩ (by simp)
    refine ⟨own_fin c.lagR ⟨rfl, i1⟩, mono_fin c.le ⟨c.mono.1, i2⟩, bdd_fin c.top ?_, prog_fin c.lagS c.lagR ⟨?_, i4⟩⟩
    · intro r hr
      rcases List.mem_cons.1 hr with rfl | hr
      · exact hbt
      · exact i3 r hr
    · rcases hg.1 with h1 | h1 | h1 | ⟨h1, h2, h3⟩
      · cases h1
      · exact Or.inr (Or.inr (Or.inl h1))
      · exact Or.inr (Or.inl h1)
      · simp only at h1 h2
        have ho2 := ho.2
        simp only [h1] at ho2
        obtain ⟨e, _, _⟩ := procL_empty hpr h2 ho2 h3
        exact Or.inr (Or.inr (Or.inr ⟨h2, h1, by simp [e]⟩))
  | idsFull wr b l M R pb sk hcl _ =>
    intro S S0 R0 p c hs ho hg
    have hbt : ¬ ItemLt infiniteBound b := c.bdd ⟨b, .ids l⟩ (by simp)
    obtain ⟨t1, t2⟩ := all_below c.fresh.tR
    obtain ⟨u1, u2⟩ := all_below c.fresh.tS
    simp only at t1 t2 u1 u2
    refine ⟨own_fin c.lagR ⟨rfl, ⟨_, ?_, rfl⟩, trivial⟩, mono_fin c.le ⟨c.mono.1, hbt, trivial⟩, bdd_fin c.top ?_,
      prog_fin c.lagS c.lagR ⟨?_, Or.inr (Or.inr (Or.inr ⟨t2, u2, by simp⟩)), trivial⟩⟩
    · simp only [rest, t1]; exact List.suffix_refl _
    · intro r hr
      simp only [List.mem_cons, List.not_mem_nil, or_false] at hr
      rcases hr with rfl | rfl
      · exact hbt
      · simp [rest, ItemLt.irrefl]
    · rcases hg.1 with h1 | h1 | h1 | ⟨h1, h2, h3⟩
      · cases h1
      · exact Or.inr (Or.inr (Or.inl h1))
      · exact Or.inr (Or.inl h1)
      · exact Or.inr (Or.inr (Or.inr ⟨h2, h1, by simp [rest]⟩))
  | idsStop wr b l M R pb sk xs y ys hcl _ hcut hx =>
    intro S S0 R0 p c hs ho hg
    have hbt : ¬ ItemLt infiniteBound b := c.bdd ⟨b, .ids l⟩ (by simp)
    obtain ⟨c1, c2, c3, c4⟩ := cut_facts hs hcut
    have hyt : ¬ ItemLt infiniteBound y := (c.tR y (c.sufR.subset c3)).asymm
    have hyp : ¬ ItemLt y pb := c.gR y c3
    have t : takeW infiniteBound (dropW y R) = dropW y R ∧ dropW infiniteBound (dropW y R) = [] :=
      all_below (fun x hx => c.tR x (c.sufR.subset (dropW_mem hx)))
    have u : takeW infiniteBound (dropW y S) = dropW y S ∧ dropW infiniteBound (dropW y S) = [] :=
      all_below (fun x hx => c.tS x (c.sufS.subset (dropW_mem hx)))
    refine ⟨own_fin c.lagR ⟨by simp [c1], ⟨_, ?_, rfl⟩, trivial⟩, mono_fin c.le ⟨hyp, hyt, trivial⟩, bdd_fin c.top ?_,
      prog_fin c.lagS c.lagR ⟨Or.inr (Or.inl (by simp only [c1]; exact hx)), Or.inr (Or.inr (Or.inr ⟨t.2, u.2, by simp⟩)), trivial⟩⟩
    · simp only [rest]; rw [t.1, c2]
    · intro r hr
      simp only [List.mem_cons, List.not_mem_nil, or_false] at hr
      rcases hr with rfl | rfl
      · exact hyt
      · simp [rest, ItemLt.irrefl]

/-! ## What is reported is true -/

theorem procL_sound {fpOf : List Item → Bytes} {cl lim wr : Bool} {M : List Rng} {R : List Item} {pb : Item} {sk : Bool}
    {M' : List Rng} {h hn : List Bytes} (hp : ProcL fpOf cl lim wr M R pb sk M' h hn) :
    ∀ (S : List Item), Sorted S → Sorted R → Own fpOf M S → (R.map (·.id)).Nodup →
      (∀ i ∈ h, ∃ x ∈ diff R S, x.id = i) ∧ (∀ i ∈ hn, ∃ x ∈ diff S R, x.id = i) := by
  have down : ∀ {b : Item} {R S : List Item} {h hn : List Bytes}, Sorted S → Sorted R →
      (∀ i ∈ h, ∃ x ∈ diff (dropW b R) (dropW b S), x.id = i) ∧ (∀ i ∈ hn, ∃ x ∈ diff (dropW b S) (dropW b R), x.id = i) →
      (∀ i ∈ h, ∃ x ∈ diff R S, x.id = i) ∧ (∀ i ∈ hn, ∃ x ∈ diff S R, x.id = i) := by
    intro b R S h hn hS hR hh
    refine ⟨fun i hi => ?_, fun i hi => ?_⟩
    · obtain ⟨x, hx, e⟩ := hh.1 i hi
      rw [mem_diff] at hx
      exact ⟨x, mem_diff.2 ⟨dropW_mem hx.1, fun hc => hx.2 (mem_dropW hc (dropW_ge hR hx.1))⟩, e⟩
    · obtain ⟨x, hx, e⟩ := hh.2 i hi
      rw [mem_diff] at hx
      exact ⟨x, mem_diff.2 ⟨dropW_mem hx.1, fun hc => hx.2 (mem_dropW hc (dropW_ge hS hx.1))⟩, e⟩
  have nd : ∀ {b : Item} {R : List Item}, (R.map (·.id)).Nodup → ((dropW b R).map (·.id)).Nodup :=
    fun h => h.sublist ((List.dropWhile_sublist _).map _)
  induction hp with
  | nil => intro S _ _ _ _; simp
  | skip wr b M R pb sk M' h hn _ ih =>
    intro S hS hR ho hnd; exact down hS hR (ih _ (sorted_dropW hS) (sorted_dropW hR) ho.2 (nd hnd))
  | fpEq wr b f M R pb sk M' h hn hf _ ih =>
    intro S hS hR ho hnd; exact down hS hR (ih _ (sorted_dropW hS) (sorted_dropW hR) ho.2 (nd hnd))
  | fpNe wr b f M R pb sk N M' h hn hf hsp _ ih =>
    intro S hS hR ho hnd; exact down hS hR (ih _ (sorted_dropW hS) (sorted_dropW hR) ho.2 (nd hnd))
  | fpStop => intro S _ _ _ _; simp
  | idsC wr b l M R pb sk M' h hn _ _ ih =>
    intro S hS hR ho hnd
    obtain ⟨i1, i2⟩ := down hS hR (ih _ (sorted_dropW hS) (sorted_dropW hR) ho.2 (nd hnd))
    have hl : l = (takeW b S).map (·.id) := ho.1
    have hnt : ((takeW b R).map (·.id)).Nodup := hnd.sublist ((List.takeWhile_sublist _).map _)
    rw [cancelIds_eq _ _ hnt]
    refine ⟨fun i hi => ?_, fun i hi => ?_⟩
    · rcases List.mem_append.1 hi with hi | hi
      · simp only [List.mem_filter, List.mem_dedup, decide_eq_true_eq, List.mem_map] at hi
        obtain ⟨⟨x, hx, rfl⟩, hi⟩ := hi
        refine ⟨x, mem_diff.2 ⟨takeW_mem hx, fun hc => hi ?_⟩, rfl⟩
        rw [hl]
        exact List.mem_map.2 ⟨x, mem_takeW hS hc (takeW_lt hx), rfl⟩
      · exact i1 i hi
    · rcases List.mem_append.1 hi with hi | hi
      · simp only [List.mem_filter, List.mem_dedup, decide_eq_true_eq, hl] at hi
        obtain ⟨hm, hi⟩ := hi
        obtain ⟨x, hx, rfl⟩ := List.mem_map.1 hm
        refine ⟨x, mem_diff.2 ⟨takeW_mem hx, fun hc => hi ?_⟩, rfl⟩
        exact List.mem_map.2 ⟨x, mem_takeW hR hc (takeW_lt hx), rfl⟩
      · exact i2 i hi
  | idsS wr b l M R pb sk M' h hn hcl _ ih =>
    intro S hS hR ho hnd; exact down hS hR (ih _ (sorted_dropW hS) (sorted_dropW hR) ho.2 (nd hnd))
  | idsFull => intro S _ _ _ _; simp
  | idsStop => intro S _ _ _ _; simp

/-! ## Nothing is lost while matching fingerprints mean equal ranges -/

/-- Fingerprints that match the receiver's are of ranges that are equal. -/
def Faith (fpOf : List Item → Bytes) : List Rng → List Item → List Item → Prop
  | [], _, _ => True
  | r :: M, S, R => (match r.pay with
      | .fp f => f = fpOf (takeW r.bound R) → takeW r.bound S = takeW r.bound R
      | _ => True) ∧ Faith fpOf M (dropW r.bound S) (dropW r.bound R)

theorem procL_complete {fpOf : List Item → Bytes} {cl lim wr : Bool} {M : List Rng} {R : List Item} {pb : Item} {sk : Bool}
    {M' : List Rng} {h hn : List Bytes} (hp : ProcL fpOf cl lim wr M R pb sk M' h hn) :
    ∀ (S S0 R0 : List Item) (p : Item), Ctx sk pb p S S0 R R0 M → R.Pairwise ItemLt → Own fpOf M S → Faith fpOf M S R →
      (R.map (·.id)).Nodup → (∀ x ∈ R, ∀ y ∈ S, x.id = y.id → x = y) →
      (∀ x ∈ openR M S R, x.id ∈ h ∨ x ∈ openS M' R0 S0) ∧ (∀ x ∈ openS M S R, x.id ∈ hn ∨ x ∈ openR M' R0 S0) := by
  have sub : ∀ {R : List Item} (b : Item), R.Pairwise ItemLt → (dropW b R).Pairwise ItemLt :=
    fun b h => h.sublist (dropW_suffix b _).sublist
  have nd : ∀ {b : Item} {R : List Item}, (R.map (·.id)).Nodup → ((dropW b R).map (·.id)).Nodup :=
    fun h => h.sublist ((List.dropWhile_sublist _).map _)
  have inj : ∀ {b : Item} {R S : List Item}, (∀ x ∈ R, ∀ y ∈ S, x.id = y.id → x = y) →
      ∀ x ∈ dropW b R, ∀ y ∈ dropW b S, x.id = y.id → x = y := fun h x hx y hy => h x (dropW_mem hx) y (dropW_mem hy)
  -- a reply that was cut short leaves everything open
  have cut : ∀ {sk : Bool} {pb p : Item} {S S0 R R0 : List Item} {M : List Rng}, Ctx sk pb p S S0 R R0 M → ∀ (T : List Rng),
      T ≠ [] → Mono pb T → (∀ r ∈ T, r.pay ≠ .skip) → lastBound T pb = infiniteBound →
      (∀ x ∈ openR M S R, x ∈ openS (fin sk pb ++ T) R0 S0) ∧ (∀ x ∈ openS M S R, x ∈ openR (fin sk pb ++ T) R0 S0) := by
    intro sk pb p S S0 R R0 M c T h1 h2 h3 h4
    have tS : takeW infiniteBound S = S := (all_below (fun x hx => c.tS x (c.sufS.subset hx))).1
    have tR : takeW infiniteBound R = R := (all_below (fun x hx => c.tR x (c.sufR.subset hx))).1
    have e1 : openS (fin sk pb ++ T) R0 S0 = diff R S := by
      unfold openS
      rw [todo_fin c.lagS c.lagR]
      have := open_seg T R S pb h2 h1 h3 c.sortR c.sortS
      rw [h4, tS, tR] at this
      exact this
    have e2 : openR (fin sk pb ++ T) R0 S0 = diff S R := by
      unfold openR
      rw [todo_fin c.lagS c.lagR]
      have := open_seg T S R pb h2 h1 h3 c.sortS c.sortR
      rw [h4, tS, tR, openS_swap] at this
      exact this
    rw [e1, e2]
    exact ⟨openR_sub _ _ _ c.sortS c.sortR, openS_sub _ _ _ c.sortS c.sortR⟩
  induction hp with
  | nil => intro S S0 R0 p _ _ _ _ _ _; simp [openS, openR, todo]
  | skip wr b M R pb sk M' h hn _ ih =>
    intro S S0 R0 p c hs ho hf hnd hi
    have := ih _ _ _ _ c.quiet (sub b hs) ho.2 hf.2 (nd hnd) (inj hi)
    simpa [openS, openR, todo] using this
  | fpEq wr b f M R pb sk M' h hn hfe _ ih =>
    intro S S0 R0 p c hs ho hf hnd hi
    have := ih _ _ _ _ c.quiet (sub b hs) ho.2 hf.2 (nd hnd) (inj hi)
    have he : takeW b S = takeW b R := hf.1 hfe
    have hd : ∀ L : List Item, diff L L = [] := by intro L; simp [diff]
    simpa [openS, openR, todo, he, hd] using this
  | fpNe wr b f M R pb sk N M' h hn hfne hsp _ ih =>
    intro S S0 R0 p c hs ho hf hnd hi
    obtain ⟨i1, i2⟩ := ih _ _ _ _ c.fresh (sub b hs) ho.2 hf.2 (nd hnd) (inj hi)
    obtain ⟨f1, f2, f3, f4, f5⟩ := splitOK_facts c.sortR c.gR c.mono.1 hsp
    have t1 : todo (fin sk pb ++ (N ++ M')) R0 S0 = todo N R S ++ todo M' (dropW b R) (dropW b S) := by
      rw [todo_fin c.lagS c.lagR, todo_append N M' R S pb f2, if_neg f1, f3]
    have o1 : openS N R S = diff (takeW b R) (takeW b S) := by
      have := open_seg N R S pb f2 f1 f5 c.sortR c.sortS
      rwa [f3] at this
    have o2 : openR N R S = diff (takeW b S) (takeW b R) := by
      rw [← openS_swap]
      have := open_seg N S R pb f2 f1 f5 c.sortS c.sortR
      rwa [f3] at this
    have e1 : openS (fin sk pb ++ (N ++ M')) R0 S0 = diff (takeW b R) (takeW b S) ++ openS M' (dropW b R) (dropW b S) := by
      rw [← o1]; unfold openS; rw [t1, List.flatMap_append]
    have e2 : openR (fin sk pb ++ (N ++ M')) R0 S0 = diff (takeW b S) (takeW b R) ++ openR M' (dropW b R) (dropW b S) := by
      rw [← o2]; unfold openR; rw [t1, List.flatMap_append]
    have hL1 : openR (⟨b, .fp f⟩ :: M) S R = diff (takeW b R) (takeW b S) ++ openR M (dropW b S) (dropW b R) := by
      simp [openR, todo]
    have hL2 : openS (⟨b, .fp f⟩ :: M) S R = diff (takeW b S) (takeW b R) ++ openS M (dropW b S) (dropW b R) := by
      simp [openS, todo]
    rw [e1, e2, hL1, hL2]
    simp only at i1 i2
    refine ⟨fun x hx => ?_, fun x hx => ?_⟩
    · rcases List.mem_append.1 hx with hx | hx
      · exact Or.inr (List.mem_append_left _ hx)
      · rcases i1 x hx with h1 | h1
        · exact Or.inl h1
        · exact Or.inr (List.mem_append_right _ h1)
    · rcases List.mem_append.1 hx with hx | hx
      · exact Or.inr (List.mem_append_left _ hx)
      · rcases i2 x hx with h1 | h1
        · exact Or.inl h1
        · exact Or.inr (List.mem_append_right _ h1)
  | fpStop b f M R pb sk hfne _ =>
    intro S S0 R0 p c hs ho hf hnd hi
    have t0 : takeW infiniteBound R0 = R0 := (all_below c.tR).1
    have u0 : takeW infiniteBound S0 = S0 := (all_below c.tS).1
    have e1 : openS [rest fpOf (dropW b R)] R0 S0 = diff R0 S0 := by simp [openS, todo, rest, t0, u0]
    have e2 : openR [rest fpOf (dropW b R)] R0 S0 = diff S0 R0 := by simp [openR, todo, rest, t0, u0]
    rw [e1, e2]
    exact ⟨fun x hx => Or.inr (c.diff_lag (openR_sub _ _ _ c.sortS c.sortR x hx)),
      fun x hx => Or.inr (c.diff_lag' (openS_sub _ _ _ c.sortS c.sortR x hx))⟩
  | idsC wr b l M R pb sk M' h hn _ _ ih =>
    intro S S0 R0 p c hs ho hf hnd hi
    obtain ⟨i1, i2⟩ := ih _ _ _ _ c.quiet (sub b hs) ho.2 hf.2 (nd hnd) (inj hi)
    have hl : l = (takeW b S).map (·.id) := ho.1
    have hnt : ((takeW b R).map (·.id)).Nodup := hnd.sublist ((List.takeWhile_sublist _).map _)
    rw [cancelIds_eq _ _ hnt]
    have hL1 : openR (⟨b, .ids l⟩ :: M) S R = diff (takeW b R) (takeW b S) ++ openR M (dropW b S) (dropW b R) := by
      simp [openR, todo]
    have hL2 : openS (⟨b, .ids l⟩ :: M) S R = diff (takeW b S) (takeW b R) ++ openS M (dropW b S) (dropW b R) := by
      simp [openS, todo]
    rw [hL1, hL2]
    simp only at i1 i2
    refine ⟨fun x hx => ?_, fun x hx => ?_⟩
    · rcases List.mem_append.1 hx with hx | hx
      · left
        apply List.mem_append_left
        rw [mem_diff] at hx
        simp only [List.mem_filter, List.mem_dedup, decide_eq_true_eq]
        refine ⟨List.mem_map.2 ⟨x, hx.1, rfl⟩, fun hc => hx.2 ?_⟩
        rw [hl] at hc
        obtain ⟨y, hy, e⟩ := List.mem_map.1 hc
        rw [hi x (takeW_mem hx.1) y (takeW_mem hy) e.symm]
        exact hy
      · rcases i1 x hx with h1 | h1
        · exact Or.inl (List.mem_append_right _ h1)
        · exact Or.inr h1
    · rcases List.mem_append.1 hx with hx | hx
      · left
        apply List.mem_append_left
        rw [mem_diff] at hx
        simp only [List.mem_filter, List.mem_dedup, decide_eq_true_eq]
        refine ⟨by rw [hl]; exact List.mem_map.2 ⟨x, hx.1, rfl⟩, fun hc => hx.2 ?_⟩
        obtain ⟨y, hy, e⟩ := List.mem_map.1 hc
        rw [← hi y (takeW_mem hy) x (takeW_mem hx.1) e]
        exact hy
      · rcases i2 x hx with h1 | h1
        · exact Or.inl (List.mem_append_right _ h1)
        · exact Or.inr h1
  | idsS wr b l M R pb sk M' h hn hcl _ ih =>
    intro S S0 R0 p c hs ho hf hnd hi
    obtain ⟨i1, i2⟩ := ih _ _ _ _ c.fresh (sub b hs) ho.2 hf.2 (nd hnd) (inj hi)
    have t1 : todo (fin sk pb ++ (⟨b, .ids ((takeW b R).map (·.id))⟩ :: M')) R0 S0 =
        (takeW b R, takeW b S) :: todo M' (dropW b R) (dropW b S) := by
      rw [todo_fin c.lagS c.lagR]; simp [todo]
    have e1 : openS (fin sk pb ++ (⟨b, .ids ((takeW b R).map (·.id))⟩ :: M')) R0 S0 =
        diff (takeW b R) (takeW b S) ++ openS M' (dropW b R) (dropW b S) := by
      unfold openS; rw [t1, List.flatMap_cons]
    have e2 : openR (fin sk pb ++ (⟨b, .ids ((takeW b R).map (·.id))⟩ :: M')) R0 S0 =
        diff (takeW b S) (takeW b R) ++ openR M' (dropW b R) (dropW b S) := by
      unfold openR; rw [t1, List.flatMap_cons]
    have hL1 : openR (⟨b, .ids l⟩ :: M) S R = diff (takeW b R) (takeW b S) ++ openR M (dropW b S) (dropW b R) := by
      simp [openR, todo]
    have hL2 : openS (⟨b, .ids l⟩ :: M) S R = diff (takeW b S) (takeW b R) ++ openS M (dropW b S) (dropW b R) := by
      simp [openS, todo]
    rw [e1, e2, hL1, hL2]
    simp only at i1 i2
    refine ⟨fun x hx => ?_, fun x hx => ?_⟩
    · rcases List.mem_append.1 hx with hx | hx
      · exact Or.inr (List.mem_append_left _ hx)
      · rcases i1 x hx with h1 | h1
        · exact Or.inl h1
        · exact Or.inr (List.mem_append_right _ h1)
    · rcases List.mem_append.1 hx with hx | hx
      · exact Or.inr (List.mem_append_left _ hx)
      · rcases i2 x hx with h1 | h1
        · exact Or.inl h1
        · exact Or.inr (List.mem_append_right _ h1)
  | idsFull wr b l M R pb sk hcl _ =>
    intro S S0 R0 p c hs ho hf hnd hi
    have := cut c [⟨b, .ids ((takeW b R).map (·.id))⟩, rest fpOf (dropW b R)] (by simp)
      ⟨c.mono.1, c.bdd ⟨b, .ids l⟩ (by simp), trivial⟩ (by simp [rest]) rfl
    exact ⟨fun x hx => Or.inr (this.1 x hx), fun x hx => Or.inr (this.2 x hx)⟩
  | idsStop wr b l M R pb sk xs y ys hcl _ hcut hx =>
    intro S S0 R0 p c hs ho hf hnd hi
    obtain ⟨c1, c2, c3, c4⟩ := cut_facts hs hcut
    have := cut c [⟨y, .ids (xs.map (·.id))⟩, rest fpOf (y :: ys ++ dropW b R)] (by simp)
      ⟨c.gR y c3, (c.tR y (c.sufR.subset c3)).asymm, trivial⟩ (by simp [rest]) rfl
    exact ⟨fun x hx => Or.inr (this.1 x hx), fun x hx => Or.inr (this.2 x hx)⟩

/-! ## When matching fingerprints mean equal ranges -/

/-- The sender has an item in every range it sent a fingerprint of. -/
def NE : List Rng → List Item → Prop
  | [], _ => True
  | r :: M, S => ((∃ f, r.pay = .fp f) → takeW r.bound S ≠ []) ∧ NE M (dropW r.bound S)

theorem faith_fin {fpOf : List Item → Bytes} {sk : Bool} {pb : Item} {S0 S R0 R : List Item} (hS : Lag sk pb S0 S) (hR : Lag sk pb R0 R)
    {X : List Rng} (h : Faith fpOf X R S) : Faith fpOf (fin sk pb ++ X) R0 S0 := by
  unfold Lag at *
  cases sk with
  | false => simp at hS hR; simpa [fin, ← hS, ← hR] using h
  | true => simp at hS hR; simp [fin, Faith, ← hS, ← hR]; exact h

theorem faith_append {fpOf : List Item → Bytes} {N M : List Rng} : ∀ {S R : List Item} {p : Item}, N ≠ [] → Mono p N → Faith fpOf N S R →
    Faith fpOf M (dropW (lastBound N p) S) (dropW (lastBound N p) R) → Faith fpOf (N ++ M) S R := by
  induction N with
  | nil => intro S R p h; exact absurd rfl h
  | cons r N ih =>
    intro S R p _ hm h1 h2
    refine ⟨h1.1, ?_⟩
    by_cases hN : N = []
    · subst hN; exact h2
    · refine ih hN hm.2 h1.2 ?_
      rw [dropW_dropW (lastBound_ge _ _ hm.2), dropW_dropW (lastBound_ge _ _ hm.2)]
      exact h2

theorem faith_of_valid {fpOf : List Item → Bytes} : ∀ (M : List Rng) (S R : List Item),
    (∀ X Y, X <:+: S → Y <:+: R → fpOf X = fpOf Y → X = Y) → Valid fpOf M S → Faith fpOf M S R
  | [], _, _, _, _ => trivial
  | ⟨b, pay⟩ :: M, S, R, hc, h => by
    refine ⟨?_, faith_of_valid M _ _ (fun X Y hX hY => hc X Y (hX.trans (infix_dropW _ _)) (hY.trans (infix_dropW _ _))) h.2⟩
    have h1 := h.1
    cases pay with
    | skip => trivial
    | fp f =>
      intro he
      exact hc _ _ (infix_takeW _ _) (infix_takeW _ _) (by rw [← he]; exact h1.symm)
    | ids l => trivial

theorem ne_fin {sk : Bool} {pb : Item} {R0 R : List Item} (hR : Lag sk pb R0 R) {X : List Rng} (h : NE X R) : NE (fin sk pb ++ X) R0 := by
  unfold Lag at *
  cases sk with
  | false => simp at hR; simpa [fin, ← hR] using h
  | true => simp at hR; simp [fin, NE, ← hR]; exact h

theorem ne_append {N M : List Rng} : ∀ {S : List Item} {p : Item}, N ≠ [] → Mono p N →
    NE N S → NE M (dropW (lastBound N p) S) → NE (N ++ M) S := by
  induction N with
  | nil => intro S p h; exact absurd rfl h
  | cons r N ih =>
    intro S p _ hm h1 h2
    refine ⟨h1.1, ?_⟩
    by_cases hN : N = []
    · subst hN; exact h2
    · refine ih hN hm.2 h1.2 ?_
      rw [dropW_dropW (lastBound_ge _ _ hm.2)]
      exact h2

theorem ne_of_full : ∀ (M : List Rng) (S : List Item), Full M S [] → NE M S
  | [], _, _ => trivial
  | ⟨b, pay⟩ :: M, S, h => by
    refine ⟨?_, ne_of_full M _ h.2⟩
    rintro ⟨f, hf⟩
    rcases h.1 with h1 | h1 | h1
    · rw [h1] at hf; cases hf
    · exact h1
    · exact absurd rfl h1

/-- A split is of non-empty ranges, unless it is a list of ids. -/
theorem ne_split {fpOf : List Item → Bytes} {R : List Item} {b p : Item} {N : List Rng} (hR : Sorted R)
    (hge : ∀ x ∈ R, ¬ ItemLt x p) (h : SplitOK fpOf (takeW b R) b N) : NE N R := by
  by_cases hne : takeW b R = []
  · rcases h with ⟨_, rfl⟩ | ⟨h1, _⟩
    · exact ⟨(by rintro ⟨f, hf⟩; cases hf), trivial⟩
    · rw [hne] at h1; simp at h1
  · exact ne_of_full _ _ (split_full hR hge (Or.inl hne) h).1

theorem procL_faith {fpOf : List Item → Bytes} {cl lim wr : Bool} {M : List Rng} {R : List Item} {pb : Item} {sk : Bool}
    {M' : List Rng} {h hn : List Bytes} (hp : ProcL fpOf cl lim wr M R pb sk M' h hn) :
    ∀ (S S0 R0 : List Item) (p : Item), Ctx sk pb p S S0 R R0 M → R.Pairwise ItemLt →
      (∀ X Y, X <:+: R0 → Y <:+: S0 → fpOf X = fpOf Y → X = Y) → (lim = true → NE M S) →
      Faith fpOf M' R0 S0 ∧ (lim = false → NE M' R0) := by
  have sub : ∀ {R : List Item} (b : Item), R.Pairwise ItemLt → (dropW b R).Pairwise ItemLt :=
    fun b h => h.sublist (dropW_suffix b _).sublist
  induction hp with
  | nil => intros; exact ⟨trivial, fun _ => trivial⟩
  | skip wr b M R pb sk M' h hn _ ih =>
    intro S S0 R0 p c hs hc hne
    exact ih _ _ _ _ c.quiet (sub b hs) hc (fun hl => (hne hl).2)
  | fpEq wr b f M R pb sk M' h hn hf _ ih =>
    intro S S0 R0 p c hs hc hne
    exact ih _ _ _ _ c.quiet (sub b hs) hc (fun hl => (hne hl).2)
  | fpNe wr b f M R pb sk N M' h hn hf hsp _ ih =>
    intro S S0 R0 p c hs hc hne
    have hcR : ∀ X Y, X <:+: R → Y <:+: S → fpOf X = fpOf Y → X = Y :=
      fun X Y hX hY => hc X Y (hX.trans c.sufR.isInfix) (hY.trans c.sufS.isInfix)
    obtain ⟨i1, i2⟩ := ih _ _ _ _ c.fresh (sub b hs)
      (fun X Y hX hY => hcR X Y (hX.trans (infix_dropW _ _)) (hY.trans (infix_dropW _ _))) (fun hl => (hne hl).2)
    obtain ⟨f1, f2, f3, f4, f5⟩ := splitOK_facts c.sortR c.gR c.mono.1 hsp
    refine ⟨faith_fin c.lagS c.lagR (faith_append f1 f2 (faith_of_valid _ _ _ hcR f4) (by rw [f3]; exact i1)), fun hl => ?_⟩
    exact ne_fin c.lagR (ne_append f1 f2 (ne_split c.sortR c.gR hsp) (by rw [f3]; exact i2 hl))
  | fpStop b f M R pb sk hf hl =>
    intro S S0 R0 p c hs hc hne
    have t0 : takeW infiniteBound R0 = R0 := (all_below c.tR).1
    have u0 : takeW infiniteBound S0 = S0 := (all_below c.tS).1
    refine ⟨⟨?_, trivial⟩, fun h => by rw [hl] at h; cases h⟩
    simp only [rest, t0, u0]
    intro he
    exfalso
    have hx := hc _ _ ((dropW_suffix b R).isInfix.trans c.sufR.isInfix) (List.infix_refl S0) he
    have hn1 := (hne hl).1 ⟨f, rfl⟩
    simp only at hn1
    obtain ⟨x, hx1⟩ := List.exists_mem_of_ne_nil _ hn1
    have : x ∈ dropW b R := by rw [hx]; exact c.sufS.subset (takeW_mem hx1)
    exact dropW_ge c.sortR this (takeW_lt hx1)
  | idsC wr b l M R pb sk M' h hn _ _ ih =>
    intro S S0 R0 p c hs hc hne
    exact ih _ _ _ _ c.quiet (sub b hs) hc (fun hl => (hne hl).2)
  | idsS wr b l M R pb sk M' h hn hcl _ ih =>
    intro S S0 R0 p c hs hc hne
    have hcR : ∀ X Y, X <:+: R → Y <:+: S → fpOf X = fpOf Y → X = Y :=
      fun X Y hX hY => hc X Y (hX.trans c.sufR.isInfix) (hY.trans c.sufS.isInfix)
    obtain ⟨i1, i2⟩ := ih _ _ _ _ c.fresh (sub b hs)
      (fun X Y hX hY => hcR X Y (hX.trans (infix_dropW _ _)) (hY.trans (infix_dropW _ _))) (fun hl => (hne hl).2)
    refine ⟨faith_fin c.lagS c.lagR ⟨trivial, i1⟩, fun hl => ne_fin c.lagR ⟨?_, i2 hl⟩⟩
    rintro ⟨f, hf⟩; cases hf
  | idsFull wr b l M R pb sk hcl hl =>
    intro S S0 R0 p c hs hc hne
    have hcR : ∀ X Y, X <:+: R → Y <:+: S → fpOf X = fpOf Y → X = Y :=
      fun X Y hX hY => hc X Y (hX.trans c.sufR.isInfix) (hY.trans c.sufS.isInfix)
    have t : takeW infiniteBound (dropW b R) = dropW b R := (all_below c.fresh.tR).1
    have u : takeW infiniteBound (dropW b S) = dropW b S := (all_below c.fresh.tS).1
    refine ⟨faith_fin c.lagS c.lagR ⟨trivial, ?_, trivial⟩, fun h => by rw [hl] at h; cases h⟩
    simp only [rest, t, u]
    exact hcR _ _ (infix_dropW _ _) (infix_dropW _ _)
  | idsStop wr b l M R pb sk xs y ys hcl hl hcut hx =>
    intro S S0 R0 p c hs hc hne
    have hcR : ∀ X Y, X <:+: R → Y <:+: S → fpOf X = fpOf Y → X = Y :=
      fun X Y hX hY => hc X Y (hX.trans c.sufR.isInfix) (hY.trans c.sufS.isInfix)
    obtain ⟨c1, c2, c3, c4⟩ := cut_facts hs hcut
    have t : takeW infiniteBound (dropW y R) = dropW y R :=
      (all_below (fun x hx => c.tR x (c.sufR.subset (dropW_mem hx)))).1
    have u : takeW infiniteBound (dropW y S) = dropW y S :=
      (all_below (fun x hx => c.tS x (c.sufS.subset (dropW_mem hx)))).1
    refine ⟨faith_fin c.lagS c.lagR ⟨trivial, ?_, trivial⟩, fun h => by rw [hl] at h; cases h⟩
    simp only [rest, t, u, ← c2]
    exact hcR _ _ (infix_dropW _ _) (infix_dropW _ _)

/-! ## Progress -/

/-- Weight of a message: that of its first open range, and `K` for every item from there on. -/
def Ms (cl : Bool) (K k : Nat) : List Rng → List Item → List Item → Prop
  | [], _, _ => True
  | r :: M, S, R => match r.pay with
      | .skip => Ms cl K k M (dropW r.bound S) (dropW r.bound R)
      | .ids _ => (if cl then 2 else 1) + K * (S.length + R.length) ≤ k
      | .fp _ => (takeW r.bound S = [] ∧ takeW r.bound R = [] → Ms cl K k M (dropW r.bound S) (dropW r.bound R)) ∧
          (¬ (takeW r.bound S = [] ∧ takeW r.bound R = []) →
            3 + (takeW r.bound S).length + (takeW r.bound R).length + K * (S.length + R.length) ≤ k)

theorem ms_slack {cl : Bool} {K k : Nat} : ∀ (M : List Rng) (S R : List Item), K * (S.length + R.length + 1) ≤ k + 1 →
    S.length + R.length + 4 ≤ K → Ms cl K k M S R
  | [], _, _, _, _ => trivial
  | ⟨b, pay⟩ :: M, S, R, h, hK => by
    have hS := length_split b S
    have hR := length_split b R
    have hsub : K * ((dropW b S).length + (dropW b R).length + 1) ≤ K * (S.length + R.length + 1) :=
      Nat.mul_le_mul_left _ (by omega)
    have hrec : Ms cl K k M (dropW b S) (dropW b R) := ms_slack M _ _ (by omega) (by omega)
    rw [Nat.mul_add, Nat.mul_one] at h
    cases pay with
    | skip => exact hrec
    | ids l => simp only [Ms]; split <;> omega
    | fp f => exact ⟨fun _ => hrec, fun _ => by simp only; omega⟩

theorem ms_empty {cl : Bool} {K k : Nat} : ∀ (M : List Rng) (S R : List Item), S = [] → R = [] → (∀ q ∈ M, ∃ f, q.pay = .fp f) →
    Ms cl K k M S R
  | [], _, _, _, _, _ => trivial
  | ⟨b, pay⟩ :: M, S, R, hS, hR, h => by
    obtain ⟨f, hf⟩ := h _ (List.mem_cons_self ..)
    simp only at hf
    subst hf hS hR
    exact ⟨fun _ => ms_empty M _ _ rfl rfl (fun q hq => h q (List.mem_cons_of_mem _ hq)), fun hc => absurd ⟨rfl, rfl⟩ hc⟩

theorem ms_fin {cl : Bool} {K k : Nat} {sk : Bool} {pb : Item} {S0 S R0 R : List Item} (hS : Lag sk pb S0 S) (hR : Lag sk pb R0 R)
    {X : List Rng} (h : Ms cl K k X R S) : Ms cl K k (fin sk pb ++ X) R0 S0 := by
  unfold Lag at *
  cases sk with
  | false => simp at hS hR; simpa [fin, ← hS, ← hR] using h
  | true => simp at hS hR; simp [fin, Ms, ← hS, ← hR]; exact h

theorem procL_ms {fpOf : List Item → Bytes} {cl lim wr : Bool} {M : List Rng} {R : List Item} {pb : Item} {sk : Bool}
    {M' : List Rng} {h hn : List Bytes} (hp : ProcL fpOf cl lim wr M R pb sk M' h hn) :
    ∀ (K k : Nat) (S S0 R0 : List Item) (p : Item), wr = false → Ctx sk pb p S S0 R R0 M → R.Pairwise ItemLt → Own fpOf M S → Prog M S R →
      Ms (!cl) K (k + 1) M S R → S.length + R.length + 4 ≤ K → Ms cl K k M' R0 S0 := by
  have sub : ∀ {R : List Item} (b : Item), R.Pairwise ItemLt → (dropW b R).Pairwise ItemLt :=
    fun b h => h.sublist (dropW_suffix b _).sublist
  have len : ∀ {b : Item} {S R : List Item} {K : Nat}, S.length + R.length + 4 ≤ K → (dropW b S).length + (dropW b R).length + 4 ≤ K := by
    intro b S R K h
    have := length_split b S
    have := length_split b R
    omega
  have next : ∀ {b : Item} {S R : List Item} {K k w : Nat} {c : Bool} (M : List Rng), S.length + R.length + 4 ≤ K →
      (takeW b S ≠ [] ∨ takeW b R ≠ []) → w + K * (S.length + R.length) ≤ k + 1 → Ms c K (k + 1) M (dropW b S) (dropW b R) := by
    intro b S R K k w c M hK hne hw
    have h1 := length_split b S
    have h2 := length_split b R
    have h3 : 0 < (takeW b S).length + (takeW b R).length := by
      rcases hne with h | h
      · have := List.length_pos_iff.2 h; omega
      · have := List.length_pos_iff.2 h; omega
    apply ms_slack
    · have : K * ((dropW b S).length + (dropW b R).length + 1) ≤ K * (S.length + R.length) := Nat.mul_le_mul_left _ (by omega)
      omega
    · omega
  induction hp with
  | nil => intros; trivial
  | skip wr b M R pb sk M' h hn _ ih =>
    intro K k S S0 R0 p hw c hs ho hg hm hK
    exact ih K k _ _ _ _ hw c.quiet (sub b hs) ho.2 hg.2 hm (len hK)
  | fpEq wr b f M R pb sk M' h hn hf _ ih =>
    intro K k S S0 R0 p hw c hs ho hg hm hK
    refine ih K k _ _ _ _ hw c.quiet (sub b hs) ho.2 hg.2 ?_ (len hK)
    by_cases he : takeW b S = [] ∧ takeW b R = []
    · exact hm.1 he
    · exact next M hK (by tauto) (hm.2 he)
  | fpNe wr b f M R pb sk N M' h hn hf hsp _ _ =>
    intro K k S S0 R0 p hw c hs ho hg hm hK
    obtain ⟨X, hX, hfX⟩ := ho.1
    have hne := ne_items hX hfX hf
    have hwt := hm.2 (by simp only; tauto)
    simp only at hwt
    have hcm0 : K * (R.length + S.length) = K * (S.length + R.length) := by rw [Nat.add_comm]
    apply ms_fin c.lagS c.lagR
    rcases hsp with ⟨_, rfl⟩ | ⟨hbig, parts, rfl, h2, h3, h4, h5⟩
    · simp only [List.cons_append, Ms]
      split <;> omega
    · cases parts with
      | nil => obtain ⟨i, l, he⟩ := h4; simp at he
      | cons q parts =>
        obtain ⟨b1, xs⟩ := q
        obtain ⟨c1, c2, c3⟩ := h3
        have h5' := h5 (b1, xs) (by simp)
        simp only at h5'
        -- the first bucket is the start of the receiver's items
        have hmem : ∀ q ∈ ((b1, xs) :: parts), ∀ x ∈ q.2, ¬ ItemLt x pb := by
          intro q hq x hx
          apply c.gR
          apply takeW_mem (b := b)
          rw [← h2]
          simp only [List.mem_flatten, List.mem_map]
          exact ⟨q.2, ⟨q, hq, rfl⟩, hx⟩
        obtain ⟨_, _, _, a4⟩ := covers_facts ((b1, xs) :: parts) (dropW b R) pb b fpOf ⟨c1, c2, c3⟩ h4 (fun q hq => (h5 q hq).1) hmem
          (fun x hx => dropW_ge c.sortR hx)
        have hb1 : ¬ ItemLt b b1 := a4 (b1, xs) (by simp)
        have hR : R = xs ++ ((parts.map (·.2)).flatten ++ dropW b R) := by
          rw [← List.append_assoc]
          simp only [List.map_cons, List.flatten_cons] at h2
          rw [h2, takeW_append_dropW]
        have hall : ∀ x ∈ (parts.map (·.2)).flatten ++ dropW b R, ¬ ItemLt x b1 := by
          intro x hx
          rcases List.mem_append.1 hx with hx | hx
          · simp only [List.mem_flatten, List.mem_map] at hx
            obtain ⟨l, ⟨q, hq, rfl⟩, hx⟩ := hx
            exact c2 q hq x hx
          · exact ItemLt.le_trans hb1 (dropW_ge c.sortR hx)
        have htk : takeW b1 R = xs := by
          rw [hR]; exact (split_at c1 hall).1
        have hSle : (takeW b1 S).length ≤ (takeW b S).length := by
          rw [takeW_split hb1 S, List.length_append]; omega
        simp only [List.map_cons, List.cons_append, Ms]
        rw [htk]
        refine ⟨fun hc => absurd hc.1 h5'.1, fun _ => ?_⟩
        have := h5'.2
        have hcm : K * (R.length + S.length) = K * (S.length + R.length) := by rw [Nat.add_comm]
        omega
  | fpStop => intro K k S S0 R0 p hw; cases hw
  | idsC wr b l M R pb sk M' h hn hcl _ ih =>
    intro K k S S0 R0 p hw c hs ho hg hm hK
    subst hcl
    refine ih K k _ _ _ _ hw c.quiet (sub b hs) ho.2 hg.2 ?_ (len hK)
    rcases hg.1 with h1 | h1 | h1 | ⟨h1, h2, h3⟩
    · cases h1
    · exact next M hK (Or.inl h1) hm
    · exact next M hK (Or.inr h1) hm
    · exact ms_empty _ _ _ h1 h2 h3
  | idsS wr b l M R pb sk M' h hn hcl _ ih =>
    intro K k S S0 R0 p hw c hs ho hg hm hK
    subst hcl
    apply ms_fin c.lagS c.lagR
    simp only [Ms, Bool.not_false, if_true, Bool.false_eq_true, if_false] at hm ⊢
    have hcm : K * (R.length + S.length) = K * (S.length + R.length) := by rw [Nat.add_comm]
    omega
  | idsFull wr b l M R pb sk hcl hl =>
    intro K k S S0 R0 p hw c hs ho hg hm hK
    subst hcl
    apply ms_fin c.lagS c.lagR
    simp only [Ms, Bool.not_false, if_true, Bool.false_eq_true, if_false] at hm ⊢
    have hcm : K * (R.length + S.length) = K * (S.length + R.length) := by rw [Nat.add_comm]
    omega
  | idsStop wr b l M R pb sk xs y ys hcl hl hcut hx =>
    intro K k S S0 R0 p hw c hs ho hg hm hK
    subst hcl
    apply ms_fin c.lagS c.lagR
    simp only [Ms, Bool.not_false, if_true, Bool.false_eq_true, if_false] at hm ⊢
    have hcm : K * (R.length + S.length) = K * (S.length + R.length) := by rw [Nat.add_comm]
    omega

/-- A weightless message causes no reply. -/
theorem procL_zero {fpOf : List Item → Bytes} {cl lim wr : Bool} {M : List Rng} {R : List Item} {pb : Item} {sk : Bool}
    {M' : List Rng} {h hn : List Bytes} (hp : ProcL fpOf cl lim wr M R pb sk M' h hn) :
    ∀ (K : Nat) (S : List Item), Own fpOf M S → Ms (!cl) K 0 M S R → M' = [] := by
  induction hp with
  | nil => intros; rfl
  | skip wr b M R pb sk M' h hn _ ih => intro K S ho hm; exact ih K _ ho.2 hm
  | fpEq wr b f M R pb sk M' h hn hf _ ih =>
    intro K S ho hm
    by_cases he : takeW b S = [] ∧ takeW b R = []
    · exact ih K _ ho.2 (hm.1 he)
    · have := hm.2 he; omega
  | fpNe wr b f M R pb sk N M' h hn hf hsp _ _ =>
    intro K S ho hm
    obtain ⟨X, hX, hfX⟩ := ho.1
    have hne := ne_items hX hfX hf
    have := hm.2 (by simp only; tauto)
    omega
  | fpStop b f M R pb sk hf _ =>
    intro K S ho hm
    obtain ⟨X, hX, hfX⟩ := ho.1
    have hne := ne_items hX hfX hf
    have := hm.2 (by simp only; tauto)
    omega
  | idsC wr b l M R pb sk M' h hn hcl _ ih => intro K S ho hm; simp only [Ms] at hm; split at hm <;> omega
  | idsS wr b l M R pb sk M' h hn hcl _ ih => intro K S ho hm; simp only [Ms] at hm; split at hm <;> omega
  | idsFull wr b l M R pb sk hcl hl => intro K S ho hm; simp only [Ms] at hm; split at hm <;> omega
  | idsStop wr b l M R pb sk xs y ys hcl hl hcut hx => intro K S ho hm; simp only [Ms] at hm; split at hm <;> omega

/-- A server reports nothing. -/
theorem procL_server {fpOf : List Item → Bytes} {cl lim wr : Bool} {M : List Rng} {R : List Item} {pb : Item} {sk : Bool}
    {M' : List Rng} {h hn : List Bytes} (hp : ProcL fpOf cl lim wr M R pb sk M' h hn) : cl = false → h = [] ∧ hn = [] := by
  induction hp with
  | nil => intro _; exact ⟨rfl, rfl⟩
  | skip _ _ _ _ _ _ _ _ _ _ ih => exact ih
  | fpEq _ _ _ _ _ _ _ _ _ _ _ _ ih => exact ih
  | fpNe _ _ _ _ _ _ _ _ _ _ _ _ _ _ ih => exact ih
  | fpStop => intro _; exact ⟨rfl, rfl⟩
  | idsC _ _ _ _ _ _ _ _ _ _ hc _ _ => intro h; rw [h] at hc; cases hc
  | idsS _ _ _ _ _ _ _ _ _ _ _ _ ih => exact ih
  | idsFull => intro _; exact ⟨rfl, rfl⟩
  | idsStop => intro _; exact ⟨rfl, rfl⟩

end GoNostr.Neg
