import Verif.Base.Num
import Verif.Helpers.Model
/-!
# C82, C83, C84, C94: the cashu wallet (nip60)

`uint64` arithmetic wraps. Outside the model, as parameters: the mint's answers (keysets, swaps), `cashu.AmountSplit` of the gonuts library (how an amount is split into
denominations), blinding and signatures.
-/

set_option autoImplicit false

namespace GoNostr.Nip60

/-- `cashu.Proof`: amount, keyset id, and the key its secret locks it to (serialised), if any. The rest (secret, signature, DLEQ) is outside the model. -/
structure Proof where
  amount : Nat
  keyset : Bytes
  lock : Option Bytes
  deriving DecidableEq, Repr

/-- `nut02.Keyset`: id and input fee in parts per thousand. -/
structure Keyset where
  id : Bytes
  ppk : Nat
  deriving DecidableEq, Repr

/-- `Token` (token.go:12-19); `eventId` is the id of its event if it has one. -/
structure Token where
  mint : Bytes
  proofs : List Proof
  eventId : Option Bytes
  deriving DecidableEq, Repr

/-- `uint64` addition and subtraction. -/
def addU (a b : Nat) : Nat := (a + b) % 18446744073709551616
/-- Subtraction of `uint64` wraps around. -/
def subU (a b : Nat) : Nat := (a + 18446744073709551616 - b) % 18446744073709551616

/-- The mathematical sum. -/
def total (ps : List Proof) : Nat := (ps.map (·.amount)).sum

/-- `cashu.Proofs.Amount`. -/
def amountOf (ps : List Proof) : Nat := total ps % 18446744073709551616

/-- The loop of `calculateFee` (helpers.go:25-39): a proof of an unknown keyset panics. -/
def feePpk (keysets : List Keyset) : List Proof → Option Nat
  | [] => some 0
  | p :: ps => match keysets.find? (fun k => k.id == p.keyset), feePpk keysets ps with
    | some k, some n => some (k.ppk + n)
    | _, _ => none

/-- `calculateFee` (helpers.go:25-39). -/
def calculateFee (ps : List Proof) (keysets : List Keyset) : Out Nat :=
  match feePpk keysets ps with
  | none => .panic
  | some n => .val (addU (n % 18446744073709551616) 999 / 1000)

/-! ## Choosing tokens -/

/-- `chosenTokens` (send.go:45-51); `tokens` is determined by the indexes. -/
structure Part where
  mint : Bytes
  indexes : List Nat
  proofs : List Proof
  keysets : List Keyset
  deriving DecidableEq, Repr

/-- The errors of `getProofsForSending` (nip60/send.go:189-234). -/
inductive SelErr
  | keysets | notEnough
  deriving DecidableEq, Repr

/-- May this mint be used? (send.go:197-202) -/
def eligible (specific : Bytes) (exclude : List Bytes) (mint : Bytes) : Bool := (specific = [] ∨ mint = specific) ∧ mint ∉ exclude

/-- The loop of `getProofsForSending` (send.go:196-230) at token number `t`; `m` is `byMint`, `net` the mints' answers to `GetAllKeysets`. -/
def select (net : Bytes → Option (List Keyset)) (amount : Nat) (specific : Bytes) (exclude : List Bytes) :
    Nat → List Token → (Bytes → Option Part) → Res SelErr (Part × Nat)
  | _, [], _ => .err .notEnough
  | t, tok :: rest, m =>
    if ¬ eligible specific exclude tok.mint then select net amount specific exclude (t + 1) rest m
    else match (m tok.mint).or ((net tok.mint).map (fun ks => ⟨tok.mint, [], [], ks⟩)) with
      | none => .err .keysets
      | some p =>
        let p' : Part := { p with
          indexes := p.indexes ++ [t]
          proofs := p.proofs ++ tok.proofs }
        if amountOf p'.proofs ≥ amount then
          match calculateFee p'.proofs p'.keysets with
          | .panic => .panic
          | .val fee => if amountOf p'.proofs ≥ addU amount fee then .ok (p', fee)
            else select net amount specific exclude (t + 1) rest (fun x => if x = tok.mint then some p' else m x)
        else select net amount specific exclude (t + 1) rest (fun x => if x = tok.mint then some p' else m x)

/-- `getProofsForSending` (send.go:189-234). -/
def getProofs (net : Bytes → Option (List Keyset)) (amount : Nat) (specific : Bytes) (exclude : List Bytes) (tokens : List Token) : Res SelErr (Part × Nat) :=
  select net amount specific exclude 0 tokens (fun _ => none)

/-! ### Specification -/

/-- The positions and the proofs of the tokens of a mint. -/
def idxsOf (ts : List Token) (mint : Bytes) : List Nat := (ts.zipIdx.filter (fun x => x.1.mint == mint)).map (·.2)
/-- All proofs of the tokens, in order. -/
def proofsOf (ts : List Token) (mint : Bytes) : List Proof := (ts.filter (fun x => x.mint == mint)).flatMap (·.proofs)

/-- The proofs cover the amount and the fee for spending them. -/
def Enough (amount : Nat) (keysets : List Keyset) (ps : List Proof) : Prop :=
  ∃ fee, calculateFee ps keysets = .val fee ∧ amount ≤ amountOf ps ∧ addU amount fee ≤ amountOf ps

/-- The state of the loop after the tokens `pre`. -/
structure SelInv (net : Bytes → Option (List Keyset)) (amount : Nat) (specific : Bytes) (exclude : List Bytes) (pre : List Token) (m : Bytes → Option Part) : Prop where
  known : ∀ mint p, m mint = some p → eligible specific exclude mint = true ∧ p.mint = mint ∧ p.indexes = idxsOf pre mint ∧ p.proofs = proofsOf pre mint ∧ net mint = some p.keysets
  fresh : ∀ mint, m mint = none → eligible specific exclude mint = true → ∀ tok ∈ pre, tok.mint ≠ mint
  short : ∀ q r, pre = q ++ r → ∀ mint, eligible specific exclude mint = true → (∃ tok ∈ q, tok.mint = mint) →
    ∃ ks, net mint = some ks ∧ ¬ Enough amount ks (proofsOf q mint)

theorem idxsOf_append (ts : List Token) (tok : Token) (mint : Bytes) :
    idxsOf (ts ++ [tok]) mint = idxsOf ts mint ++ (if tok.mint = mint then [ts.length] else []) := by
  unfold idxsOf
  rw [List.zipIdx_append]
  simp only [List.filter_append, List.map_append, List.zipIdx_cons, List.zipIdx_nil, Nat.zero_add]
  congr 1
  by_cases h : tok.mint = mint <;> simp [h]

theorem proofsOf_append (ts : List Token) (tok : Token) (mint : Bytes) :
    proofsOf (ts ++ [tok]) mint = proofsOf ts mint ++ (if tok.mint = mint then tok.proofs else []) := by
  unfold proofsOf
  by_cases h : tok.mint = mint <;> simp [List.filter_append, List.flatMap_append, h]

theorem idxsOf_absent {ts : List Token} {mint : Bytes} (h : ∀ tok ∈ ts, tok.mint ≠ mint) : idxsOf ts mint = [] := by
  unfold idxsOf
  rw [List.map_eq_nil_iff, List.filter_eq_nil_iff]
  rintro ⟨tok, i⟩ hx
  have := h tok (List.fst_mem_of_mem_zipIdx hx)
  simpa using this

theorem proofsOf_absent {ts : List Token} {mint : Bytes} (h : ∀ tok ∈ ts, tok.mint ≠ mint) : proofsOf ts mint = [] := by
  unfold proofsOf
  have : ts.filter (fun x => x.mint == mint) = [] := by rw [List.filter_eq_nil_iff]; intro x hx; simpa using h x hx
  rw [this]; rfl

theorem eq_append_cases {α : Type} {pre : List α} {x : α} {q r : List α} (h : pre ++ [x] = q ++ r) :
    (q = pre ++ [x] ∧ r = []) ∨ ∃ r', pre = q ++ r' := by
  rcases List.eq_nil_or_concat r with rfl | ⟨r', y, rfl⟩
  · left; simpa using h.symm
  · right
    rw [List.concat_eq_append, ← List.append_assoc] at h
    exact ⟨r', (List.append_inj' h rfl).1⟩

theorem select_spec (net : Bytes → Option (List Keyset)) (amount : Nat) (specific : Bytes) (exclude : List Bytes) :
    ∀ (rest pre : List Token) (m : Bytes → Option Part), SelInv net amount specific exclude pre m →
    match select net amount specific exclude pre.length rest m with
    | .ok (p, fee) => ∃ tok pre' post, pre ++ rest = pre' ++ tok :: post ∧ tok.mint = p.mint ∧ eligible specific exclude p.mint = true ∧
        p.indexes = idxsOf (pre' ++ [tok]) p.mint ∧ p.proofs = proofsOf (pre' ++ [tok]) p.mint ∧ net p.mint = some p.keysets ∧
        calculateFee p.proofs p.keysets = .val fee ∧ amount ≤ amountOf p.proofs ∧ addU amount fee ≤ amountOf p.proofs
    | .err .keysets => ∃ tok ∈ pre ++ rest, eligible specific exclude tok.mint = true ∧ net tok.mint = none
    | .err .notEnough => ∃ m', SelInv net amount specific exclude (pre ++ rest) m'
    | .panic => ∃ q r mint ks, pre ++ rest = q ++ r ∧ eligible specific exclude mint = true ∧ net mint = some ks ∧ calculateFee (proofsOf q mint) ks = .panic
  | [], pre, m, hI => by simpa [select] using ⟨m, hI⟩
  | tok :: rest, pre, m, hI => by
    have hlen : pre.length + 1 = (pre ++ [tok]).length := by simp
    have happ : pre ++ tok :: rest = (pre ++ [tok]) ++ rest := by simp
    unfold select
    by_cases he : eligible specific exclude tok.mint = true
    · rw [if_neg (by simp [he])]
      -- the part before this token
      cases hp : (m tok.mint).or ((net tok.mint).map (fun ks => (⟨tok.mint, [], [], ks⟩ : Part))) with
      | none =>
        simp only
        refine ⟨tok, by simp, he, ?_⟩
        cases hm : m tok.mint with
        | some _ => rw [hm] at hp; cases hp
        | none =>
          rw [hm] at hp
          cases hn : net tok.mint with
          | none => rfl
          | some _ => rw [hn] at hp; cases hp
      | some p =>
        have hpp : p.mint = tok.mint ∧ p.indexes = idxsOf pre tok.mint ∧ p.proofs = proofsOf pre tok.mint ∧ net tok.mint = some p.keysets := by
          cases hm : m tok.mint with
          | some p0 =>
            rw [hm] at hp
            cases hp
            exact (hI.known _ _ hm).2
          | none =>
            rw [hm, Option.none_or] at hp
            have habs := hI.fresh _ hm he
            cases hn : net tok.mint with
            | none => rw [hn] at hp; cases hp
            | some ks =>
              rw [hn] at hp
              cases hp
              exact ⟨rfl, (idxsOf_absent habs).symm, (proofsOf_absent habs).symm, rfl⟩
        obtain ⟨h1, h2, h3, h4⟩ := hpp
        simp only
        have hproofs : p.proofs ++ tok.proofs = proofsOf (pre ++ [tok]) tok.mint := by rw [proofsOf_append, h3]; simp
        have hidx : p.indexes ++ [pre.length] = idxsOf (pre ++ [tok]) tok.mint := by rw [idxsOf_append, h2]; simp
        -- the invariant after this token, if it was not enough
        have next : ¬ Enough amount p.keysets (proofsOf (pre ++ [tok]) tok.mint) →
            SelInv net amount specific exclude (pre ++ [tok])
              (fun x => if x = tok.mint then some { p with indexes := p.indexes ++ [pre.length], proofs := p.proofs ++ tok.proofs } else m x) := by
          intro hne
          refine ⟨?_, ?_, ?_⟩
          · intro mint p1 hp1
            by_cases hx : mint = tok.mint
            · rw [if_pos hx] at hp1
              cases hp1
              subst hx
              exact ⟨he, h1, hidx, hproofs, h4⟩
            · rw [if_neg hx] at hp1
              obtain ⟨q0, q1, q2, q3, q4⟩ := hI.known _ _ hp1
              have : ¬ tok.mint = mint := fun h => hx h.symm
              exact ⟨q0, q1, by rw [idxsOf_append, if_neg this, List.append_nil]; exact q2, by rw [proofsOf_append, if_neg this, List.append_nil]; exact q3, q4⟩
          · intro mint hn hel x hx
            by_cases hxm : mint = tok.mint
            · rw [if_pos hxm] at hn; cases hn
            · rw [if_neg hxm] at hn
              rcases List.mem_append.1 hx with hx | hx
              · exact hI.fresh _ hn hel x hx
              · simp at hx; subst hx; exact fun h => hxm h.symm
          · intro q r hqr mint hel hex
            rcases eq_append_cases hqr with ⟨rfl, -⟩ | ⟨r', hr'⟩
            · by_cases hxm : tok.mint = mint
              · subst hxm
                exact ⟨p.keysets, h4, hne⟩
              · have hex' : ∃ x ∈ pre, x.mint = mint := by
                  obtain ⟨x, hx, hxm'⟩ := hex
                  rcases List.mem_append.1 hx with hx | hx
                  · exact ⟨x, hx, hxm'⟩
                  · simp at hx; subst hx; exact absurd hxm' hxm
                have := hI.short pre [] (by simp) mint hel hex'
                rw [proofsOf_append, if_neg hxm, List.append_nil]
                exact this
            · exact hI.short q r' hr' mint hel hex
        by_cases ha : amountOf (p.proofs ++ tok.proofs) ≥ amount
        · rw [if_pos ha]
          cases hf : calculateFee (p.proofs ++ tok.proofs) p.keysets with
          | panic =>
            simp only
            exact ⟨pre ++ [tok], rest, tok.mint, p.keysets, happ, he, h4, by rw [← hproofs]; exact hf⟩
          | val fee =>
            simp only
            by_cases hb : amountOf (p.proofs ++ tok.proofs) ≥ addU amount fee
            · rw [if_pos hb]
              simp only
              refine ⟨tok, pre, rest, rfl, h1.symm, by rw [h1]; exact he, ?_, ?_, by rw [h1]; exact h4, hf, ha, hb⟩
              · rw [h1]; exact hidx
              · rw [h1]; exact hproofs
            · rw [if_neg hb, hlen, happ]
              refine select_spec net amount specific exclude rest (pre ++ [tok]) _ (next ?_)
              rintro ⟨fee', hf', -, hc⟩
              rw [← hproofs, hf] at hf'
              cases hf'
              rw [← hproofs] at hc
              exact hb hc
        · rw [if_neg ha, hlen, happ]
          refine select_spec net amount specific exclude rest (pre ++ [tok]) _ (next ?_)
          rintro ⟨fee', -, hb, -⟩
          rw [← hproofs] at hb
          exact ha hb
    · rw [if_pos he, hlen, happ]
      have he' : eligible specific exclude tok.mint = false := by simpa using he
      refine select_spec net amount specific exclude rest (pre ++ [tok]) m ⟨?_, ?_, ?_⟩
      · intro mint p hp
        obtain ⟨q0, q1, q2, q3, q4⟩ := hI.known _ _ hp
        have hxm : ¬ tok.mint = mint := by rintro rfl; rw [he'] at q0; cases q0
        exact ⟨q0, q1, by rw [idxsOf_append, if_neg hxm, List.append_nil]; exact q2, by rw [proofsOf_append, if_neg hxm, List.append_nil]; exact q3, q4⟩
      · intro mint hn hel x hx
        rcases List.mem_append.1 hx with hx | hx
        · exact hI.fresh _ hn hel x hx
        · simp at hx; subst hx; rintro rfl; rw [he'] at hel; cases hel
      · intro q r hqr mint hel hex
        rcases eq_append_cases hqr with ⟨rfl, -⟩ | ⟨r', hr'⟩
        · have hxm : ¬ tok.mint = mint := by rintro rfl; rw [he'] at hel; cases hel
          have hex' : ∃ x ∈ pre, x.mint = mint := by
            obtain ⟨x, hx, hxm'⟩ := hex
            rcases List.mem_append.1 hx with hx | hx
            · exact ⟨x, hx, hxm'⟩
            · simp at hx; subst hx; exact absurd hxm' hxm
          have := hI.short pre [] (by simp) mint hel hex'
          rw [proofsOf_append, if_neg hxm, List.append_nil]
          exact this
        · exact hI.short q r' hr' mint hel hex

/-- The sum of a part is at most the sum of the whole. -/
theorem total_append (a b : List Proof) : total (a ++ b) = total a + total b := by simp [total]

theorem selInv_nil (net : Bytes → Option (List Keyset)) (amount : Nat) (specific : Bytes) (exclude : List Bytes) :
    SelInv net amount specific exclude [] (fun _ => none) :=
  ⟨by intro _ _ h; (cases h), by intro _ _ _ _ h; (cases h), by
    intro q r h mint _ ⟨tok, ht, _⟩
    obtain ⟨rfl, -⟩ := List.append_eq_nil_iff.1 h.symm
    cases ht⟩

/-- **C83 (selection).** A successful selection consists of all tokens of one mint up to some position (their positions and their proofs, in order), the mint is not excluded and is
the requested one if there is one, the fee is the fee for exactly these proofs, and the proofs cover amount and fee. -/
theorem C83_selection (net : Bytes → Option (List Keyset)) (amount : Nat) (specific : Bytes) (exclude : List Bytes) (tokens : List Token) (p : Part) (fee : Nat)
    (h : getProofs net amount specific exclude tokens = .ok (p, fee)) :
    (p.mint ∉ exclude ∧ (specific ≠ [] → p.mint = specific)) ∧
    (∃ pre post, tokens = pre ++ post ∧ p.indexes = idxsOf pre p.mint ∧ p.proofs = proofsOf pre p.mint ∧ p.indexes ≠ []) ∧
    net p.mint = some p.keysets ∧ calculateFee p.proofs p.keysets = .val fee ∧ addU amount fee ≤ amountOf p.proofs ∧
    (total p.proofs + fee < 18446744073709551616 → amount + fee ≤ total p.proofs) := by
  have hs := select_spec net amount specific exclude tokens [] (fun _ => none) (selInv_nil _ _ _ _)
  simp only [List.length_nil, List.nil_append] at hs
  have h' : select net amount specific exclude 0 tokens (fun _ => none) = .ok (p, fee) := h
  rw [h'] at hs
  simp only at hs
  obtain ⟨tok, pre, post, h1, h2, h3, h4, h5, h6, h7, h8, h9⟩ := hs
  have he : (specific = [] ∨ p.mint = specific) ∧ p.mint ∉ exclude := by simpa [eligible] using h3
  refine ⟨⟨he.2, fun hn => he.1.resolve_left hn⟩, ⟨pre ++ [tok], post, by rw [h1]; simp, h4, h5, ?_⟩, h6, h7, h9, ?_⟩
  · rw [h4, idxsOf_append, if_pos h2]; simp
  · intro hb
    have e1 : amountOf p.proofs = total p.proofs := Nat.mod_eq_of_lt (by omega)
    rw [e1] at h8 h9
    have e2 : addU amount fee = amount + fee := Nat.mod_eq_of_lt (by omega)
    rw [e2] at h9
    exact h9

/-- **C83 (failure).** Selection reports "not enough" only if no usable mint's tokens, in order, would do: for every prefix of the wallet's tokens and every usable mint in it, the mint's
proofs in the prefix do not cover the amount and the fee. -/
theorem C83_not_enough (net : Bytes → Option (List Keyset)) (amount : Nat) (specific : Bytes) (exclude : List Bytes) (tokens : List Token)
    (h : getProofs net amount specific exclude tokens = .err .notEnough) :
    ∀ pre post, tokens = pre ++ post → ∀ mint, mint ∉ exclude → (specific ≠ [] → mint = specific) → (∃ tok ∈ pre, tok.mint = mint) →
      ∃ ks, net mint = some ks ∧ ¬ Enough amount ks (proofsOf pre mint) := by
  have hs := select_spec net amount specific exclude tokens [] (fun _ => none) (selInv_nil _ _ _ _)
  simp only [List.length_nil, List.nil_append] at hs
  have h' : select net amount specific exclude 0 tokens (fun _ => none) = .err .notEnough := h
  rw [h'] at hs
  simp only at hs
  obtain ⟨m', hI⟩ := hs
  intro pre post hpp mint hm hsp hex
  have he : eligible specific exclude mint = true := by
    have : specific = [] ∨ mint = specific := by
      by_cases hn : specific = []
      · exact .inl hn
      · exact .inr (hsp hn)
    simpa [eligible] using ⟨this, hm⟩
  exact hI.short pre post hpp mint he hex

/-- **C83 (the other failures).** A keyset error names a usable mint whose keysets could not be fetched (although another mint might have sufficed); a panic happens only for proofs
whose keyset the mint no longer reports. -/
theorem C83_other_failures (net : Bytes → Option (List Keyset)) (amount : Nat) (specific : Bytes) (exclude : List Bytes) (tokens : List Token) :
    (getProofs net amount specific exclude tokens = .err .keysets → ∃ tok ∈ tokens, tok.mint ∉ exclude ∧ net tok.mint = none) ∧
    (getProofs net amount specific exclude tokens = .panic → ∃ pre post mint ks, tokens = pre ++ post ∧ net mint = some ks ∧
      ∃ p ∈ proofsOf pre mint, ∀ k ∈ ks, k.id ≠ p.keyset) := by
  have hs := select_spec net amount specific exclude tokens [] (fun _ => none) (selInv_nil _ _ _ _)
  simp only [List.length_nil, List.nil_append] at hs
  refine ⟨?_, ?_⟩
  · intro h
    have h' : select net amount specific exclude 0 tokens (fun _ => none) = .err .keysets := h
    rw [h'] at hs
    obtain ⟨tok, h1, h2, h3⟩ := hs
    have : (specific = [] ∨ tok.mint = specific) ∧ tok.mint ∉ exclude := by simpa [eligible] using h2
    exact ⟨tok, h1, this.2, h3⟩
  · intro h
    have h' : select net amount specific exclude 0 tokens (fun _ => none) = .panic := h
    rw [h'] at hs
    obtain ⟨q, r, mint, ks, h1, -, h2, h3⟩ := hs
    refine ⟨q, r, mint, ks, h1, h2, ?_⟩
    have hn : feePpk ks (proofsOf q mint) = none := by
      unfold calculateFee at h3
      split at h3
      · assumption
      · cases h3
    clear h3 h1 h'
    generalize proofsOf q mint = l at hn
    induction l with
    | nil => cases hn
    | cons a l ih =>
      by_cases hf : (ks.find? (fun k => k.id == a.keyset)) = none
      · refine ⟨a, by simp, ?_⟩
        intro k hk
        simpa using List.find?_eq_none.1 hf k hk
      · obtain ⟨k, hk⟩ := Option.ne_none_iff_exists'.1 hf
        cases hl : feePpk ks l with
        | none =>
          obtain ⟨p, hp, hq⟩ := ih hl
          exact ⟨p, List.mem_cons_of_mem _ hp, hq⟩
        | some n => rw [feePpk, hk, hl] at hn; cases hn

/-! ## Swapping -/

/-- The amounts in `splitIntoPrincipalAndChange` (swap.go:123-140): principal and change, or an error. -/
def splitAmounts (keysets : List Keyset) (ps : List Proof) (target : Nat) : Res Unit (Nat × Nat) :=
  match calculateFee ps keysets with
  | .panic => .panic
  | .val fee =>
    if target < amountOf ps then .ok (target, subU (subU (amountOf ps) target) fee)
    else if target = amountOf ps then .ok (subU target fee, 0)
    else .err ()

/-- **C83 (split).** For the tokens `getProofsForSending` chose, the split gives the recipient exactly the amount, and amount, change and fee make up what is spent: nothing wraps. -/
theorem C83_split_exact (net : Bytes → Option (List Keyset)) (amount : Nat) (specific : Bytes) (exclude : List Bytes) (tokens : List Token) (p : Part) (fee : Nat)
    (h : getProofs net amount specific exclude tokens = .ok (p, fee)) (hb : total p.proofs + fee < 18446744073709551616) :
    ∃ change, splitAmounts p.keysets p.proofs amount = .ok (amount, change) ∧ amount + change + fee = total p.proofs := by
  obtain ⟨-, -, -, hf, -, hc⟩ := C83_selection _ _ _ _ _ _ _ h
  have hc := hc hb
  have e1 : amountOf p.proofs = total p.proofs := Nat.mod_eq_of_lt (by omega)
  unfold splitAmounts
  rw [hf]
  simp only
  rw [e1]
  by_cases hlt : amount < total p.proofs
  · rw [if_pos hlt]
    refine ⟨total p.proofs - amount - fee, ?_, by omega⟩
    have : subU (subU (total p.proofs) amount) fee = total p.proofs - amount - fee := by unfold subU; omega
    rw [this]
  · have : amount = total p.proofs := by omega
    have hz : fee = 0 := by omega
    rw [if_neg hlt, if_pos this]
    refine ⟨0, ?_, by omega⟩
    have : subU amount fee = amount := by unfold subU; omega
    rw [this]

/-- **C83 (receiving).** `Receive` swaps everything (receive.go:80): when the fee exceeds the value, the principal wraps to almost 2^64. -/
theorem C83_receive_underflows (keysets : List Keyset) (ps : List Proof) (fee : Nat) (hf : calculateFee ps keysets = .val fee) (hlt : amountOf ps < fee)
    (hfee : fee < 18446744073709551616) :
    splitAmounts keysets ps (amountOf ps) = .ok (18446744073709551616 - (fee - amountOf ps), 0) := by
  unfold splitAmounts
  rw [hf]
  simp only
  rw [if_neg (Nat.lt_irrefl _)]
  simp only [if_true]
  have : subU (amountOf ps) fee = 18446744073709551616 - (fee - amountOf ps) := by unfold subU; omega
  rw [this]

example : calculateFee [⟨1, b! "k", none⟩] [⟨b! "k", 2000⟩] = .val 2 ∧ amountOf [⟨1, b! "k", none⟩] < 2 := by decide +kernel

/-- **C83 (paying an invoice).** `PayBolt11` selects for `invoice*101/100 + 1` and splits for `invoice + fee` (pay.go:42-44, 70, 89-95), where the fee is taken from the change a second
time. With two proofs of 7 and an input fee of 3 in total, paying 10 asks the mint for change of 2^64 - 2. -/
theorem C83_pay_change_underflows :
    let ks : List Keyset := [⟨b! "k", 1500⟩]
    let ps : List Proof := [⟨7, b! "k", none⟩, ⟨7, b! "k", none⟩]
    getProofs (fun _ => some ks) (10 * 101 / 100 + 1) [] [] [⟨b! "m", ps, none⟩] = .ok (⟨b! "m", [0], ps, ks⟩, 3) ∧
    splitAmounts ks ps (10 + 3) = .ok (13, 18446744073709551614) := by
  decide +kernel

/-- A non-trivial selection: the first mint's tokens do not suffice, the second mint's do with their second token. -/
example : getProofs (fun _ => some [⟨b! "k", 100⟩]) 9 [] []
    [⟨b! "a", [⟨8, b! "k", none⟩], none⟩, ⟨b! "b", [⟨8, b! "k", none⟩], none⟩, ⟨b! "b", [⟨2, b! "k", none⟩], none⟩] =
    .ok (⟨b! "b", [1, 2], [⟨8, b! "k", none⟩, ⟨2, b! "k", none⟩], [⟨b! "k", 100⟩]⟩, 1) := by decide +kernel

example : getProofs (fun _ => some [⟨b! "k", 100⟩]) 10 [] [] [⟨b! "a", [⟨8, b! "k", none⟩], none⟩, ⟨b! "b", [⟨8, b! "k", none⟩], none⟩] = .err .notEnough := by decide +kernel

/-! ## Sending -/

/-- A blinded message: its amount and the key its secret is locked to. -/
structure Output where
  amount : Nat
  lock : Option Bytes
  deriving DecidableEq, Repr

/-- A blinded signature: the amount and the keyset the mint says it signed. -/
structure Sig where
  amount : Nat
  keyset : Bytes
  deriving DecidableEq, Repr

/-- `createBlindedMessages` (helpers.go:42-83): every output carries the spending condition. Failing randomness is not modelled. -/
def createOutputs (lock : Option Bytes) (amounts : List Nat) : List Output := amounts.map (fun a => ⟨a, lock⟩)

/-- The errors of `Send` (nip60/send.go:53-119). -/
inductive SendErr
  | select (e : SelErr) | noP2pk | swap | key | tooMuch | changeEvent
  deriving DecidableEq, Repr

/-- `constructProofs` (helpers.go:117-167): the amount is the mint's, the secret is ours; more signatures than outputs panic. The DLEQ check is not modelled. -/
def construct (keys : List Nat) : List Output → List Sig → Res SendErr (List Proof)
  | _, [] => .ok []
  | [], s :: _ => if s.amount ∉ keys then .err .key else .panic
  | o :: os, s :: ss =>
    if s.amount ∉ keys then .err .key
    else match construct keys os ss with
      | .ok ps => .ok (⟨s.amount, s.keyset, o.lock⟩ :: ps)
      | .err e => .err e
      | .panic => .panic

/-- What the mints and the signer do during a `Send`. -/
structure World where
  /-- `client.GetAllKeysets` -/
  keysets : Bytes → Option (List Keyset)
  /-- `client.GetMintInfo`: reachable and supporting nut11 -/
  p2pk : Bytes → Bool
  /-- amounts the active keyset has keys for -/
  keys : Bytes → List Nat
  /-- `client.PostSwap` -/
  swap : Bytes → List Proof → List Output → Option (List Sig)
  /-- `cashu.AmountSplit` -/
  split : Nat → List Nat
  /-- encrypting and signing the change token: its event id -/
  sign : List Proof → Option Bytes

/-- `swapProofs` (swap.go:22-107). Keyset collisions and the keys of other mints (swap.go:29-63) are not modelled: those paths only return errors, before anything is spent. -/
def swapProofs (w : World) (mint : Bytes) (ps : List Proof) (target : Nat) (lock : Option Bytes) : Res SendErr (List Proof × List Proof) :=
  match w.keysets mint with
  | none => .err .swap
  | some ks => match splitAmounts ks ps target with
    | .panic => .panic
    | .err _ => .err .tooMuch
    | .ok (a, c) =>
      let pre := createOutputs lock (w.split a)
      let chg := createOutputs lock (w.split c)
      match w.swap mint ps (pre ++ chg) with
      | none => .err .swap
      | some sigs =>
        if sigs.length < pre.length then .panic
        else match construct (w.keys mint) pre (sigs.take pre.length) with
          | .panic => .panic
          | .err e => .err e
          | .ok p => match construct (w.keys mint) chg (sigs.drop pre.length) with
            | .panic => .panic
            | .err e => .err e
            | .ok c => .ok (p, c)

/-- The tokens whose index is not in `used`. -/
def without (tokens : List Token) (used : List Nat) : List Token := (tokens.zipIdx.filter (fun x => !used.contains x.2)).map (·.1)

/-- `saveChangeAndDeleteUsedTokens` (send.go:121-187): the wallet's new tokens, or an error with the tokens as they were. Publishing is not modelled. -/
def saveChange (w : World) (tokens : List Token) (mint : Bytes) (change : List Proof) (used : List Nat) : Option (List Token) :=
  if 0 < change.length then
    match w.sign change with
    | none => none
    | some id => some (without tokens used ++ [⟨mint, change, some id⟩])
  else some tokens

/-- `Send` (send.go:53-119), given the locking key, if any: the proofs to hand over, if it succeeds, and the tokens in the wallet afterwards. -/
def send (w : World) (tokens : List Token) (amount : Nat) (specific : Bytes) (lock : Option Bytes) : Res SendErr (List Proof) × List Token :=
  match getProofs w.keysets amount specific [] tokens with
  | .panic => (.panic, tokens)
  | .err e => (.err (.select e), tokens)
  | .ok (p, _) =>
    if lock.isSome ∧ ¬ w.p2pk p.mint then (.err .noP2pk, tokens)
    else match swapProofs w p.mint p.proofs amount lock with
      | .panic => (.panic, tokens)
      | .err e => (.err e, tokens)
      | .ok (out, change) => match saveChange w tokens p.mint change p.indexes with
        | none => (.err .changeEvent, tokens)
        | some tokens' => (.ok out, tokens')

/-- `Balance` (wallet.go:246-252), without wrapping. -/
def balance (tokens : List Token) : Nat := (tokens.map (fun t => total t.proofs)).sum

/-- A mint that signs what it is asked to sign, and the contract of `cashu.AmountSplit`. -/
structure Honest (w : World) : Prop where
  swap : ∀ m ps outs sigs, w.swap m ps outs = some sigs → sigs.map (·.amount) = outs.map (·.amount)
  split : ∀ a, (w.split a).sum = a
  pos : ∀ a, ∀ x ∈ w.split a, 0 < x

theorem construct_ok {keys : List Nat} : ∀ {outs : List Output} {sigs : List Sig} {ps : List Proof}, construct keys outs sigs = .ok ps →
    ps.map (·.amount) = sigs.map (·.amount) ∧ ps.map (·.lock) = (outs.take sigs.length).map (·.lock)
  | outs, [], ps, h => by
    have : ps = [] := by cases outs <;> simpa [construct] using h.symm
    simp [this]
  | [], s :: _, ps, h => by
    simp only [construct] at h
    split at h <;> cases h
  | o :: os, s :: ss, ps, h => by
    simp only [construct] at h
    split at h
    · cases h
    · split at h
      · next ps' hps =>
        cases h
        have := construct_ok hps
        simp [this.1, this.2]
      · cases h
      · cases h

theorem createOutputs_amounts (lock : Option Bytes) (l : List Nat) : (createOutputs lock l).map (·.amount) = l := by
  unfold createOutputs
  rw [List.map_map]
  exact List.map_id l

/-- What a successful swap gives. -/
theorem swapProofs_ok {w : World} (hw : Honest w) {mint : Bytes} {ps : List Proof} {target : Nat} {lock : Option Bytes} {p c : List Proof}
    (h : swapProofs w mint ps target lock = .ok (p, c)) :
    ∃ ks a ca, w.keysets mint = some ks ∧ splitAmounts ks ps target = .ok (a, ca) ∧ p.map (·.amount) = w.split a ∧ c.map (·.amount) = w.split ca ∧
      (∀ x ∈ p, x.lock = lock) ∧ (∀ x ∈ c, x.lock = lock) := by
  unfold swapProofs at h
  cases hk : w.keysets mint with
  | none => rw [hk] at h; cases h
  | some ks =>
    rw [hk] at h
    simp only at h
    cases hs : splitAmounts ks ps target with
    | panic => rw [hs] at h; cases h
    | err e => rw [hs] at h; cases h
    | ok r =>
      obtain ⟨a, ca⟩ := r
      rw [hs] at h
      simp only at h
      cases hsw : w.swap mint ps (createOutputs lock (w.split a) ++ createOutputs lock (w.split ca)) with
      | none => rw [hsw] at h; cases h
      | some sigs =>
        rw [hsw] at h
        simp only at h
        split at h
        · cases h
        · next hlen =>
          have hh := hw.swap _ _ _ _ hsw
          rw [List.map_append, createOutputs_amounts, createOutputs_amounts] at hh
          have hl1 : (createOutputs lock (w.split a)).length = (w.split a).length := by simp [createOutputs]
          rw [hl1] at h
          split at h
          · cases h
          · cases h
          · next p' hp =>
            split at h
            · cases h
            · cases h
            · next c' hc =>
              cases h
              have k1 := construct_ok hp
              have k2 := construct_ok hc
              refine ⟨ks, a, ca, rfl, hs, ?_, ?_, ?_, ?_⟩
              · rw [k1.1, List.map_take, hh, List.take_left']; rfl
              · rw [k2.1, List.map_drop, hh, List.drop_left']; rfl
              · intro x hx
                have : x.lock ∈ p.map (·.lock) := List.mem_map_of_mem hx
                rw [k1.2] at this
                obtain ⟨o, ho, hol⟩ := List.mem_map.1 this
                have := List.mem_of_mem_take ho
                simp [createOutputs] at this
                obtain ⟨_, _, rfl⟩ := this
                exact hol.symm
              · intro x hx
                have : x.lock ∈ c.map (·.lock) := List.mem_map_of_mem hx
                rw [k2.2] at this
                obtain ⟨o, ho, hol⟩ := List.mem_map.1 this
                have := List.mem_of_mem_take ho
                simp [createOutputs] at this
                obtain ⟨_, _, rfl⟩ := this
                exact hol.symm

theorem sum_zero_nil : ∀ {l : List Nat}, (∀ x ∈ l, 0 < x) → l.sum = 0 → l = []
  | [], _, _ => rfl
  | a :: l, h, hs => by have := h a (by simp); simp at hs; omega

/-- What a successful send did. -/
theorem send_ok {w : World} (hw : Honest w) {tokens : List Token} {amount : Nat} {specific : Bytes} {lock : Option Bytes} {out : List Proof} {tokens' : List Token}
    (h : send w tokens amount specific lock = (.ok out, tokens')) :
    ∃ p fee change, getProofs w.keysets amount specific [] tokens = .ok (p, fee) ∧ (lock.isSome → w.p2pk p.mint = true) ∧
      saveChange w tokens p.mint change p.indexes = some tokens' ∧
      (∀ x ∈ out, x.lock = lock) ∧ (∀ x ∈ change, x.lock = lock) ∧
      (total p.proofs + fee < 18446744073709551616 → total out = amount ∧ amount + total change + fee = total p.proofs ∧ (total change = 0 → change = [])) := by
  unfold send at h
  cases hg : getProofs w.keysets amount specific [] tokens with
  | panic => rw [hg] at h; cases h
  | err e => rw [hg] at h; cases h
  | ok r =>
    obtain ⟨p, fee⟩ := r
    rw [hg] at h
    simp only at h
    split at h
    · cases h
    · next hl =>
      split at h
      · cases h
      · cases h
      · next out' change hsw =>
        split at h
        · cases h
        · next tk hsc =>
          cases h
          obtain ⟨ks, a, ca, k1, k2, k3, k4, k5, k6⟩ := swapProofs_ok hw hsw
          refine ⟨p, fee, change, rfl, ?_, hsc, k5, k6, ?_⟩
          · intro hs
            by_cases hq : w.p2pk p.mint = true
            · exact hq
            · exact absurd ⟨hs, hq⟩ hl
          · intro hb
            obtain ⟨c, hc1, hc2⟩ := C83_split_exact _ _ _ _ _ _ _ hg hb
            have hks : ks = p.keysets := by
              have := (C83_selection _ _ _ _ _ _ _ hg).2.2.1
              rw [k1] at this
              exact Option.some.inj this
            rw [hks, hc1] at k2
            injection k2 with k2
            injection k2 with k2a k2c
            subst k2a k2c
            have s1 : total out = amount := by unfold total; rw [k3]; exact hw.split _
            have s2 : total change = c := by unfold total; rw [k4]; exact hw.split _
            refine ⟨s1, by omega, fun hz => ?_⟩
            have : change.map (·.amount) = [] := by
              rw [k4]
              exact sum_zero_nil (hw.pos _) (by rw [hw.split]; omega)
            exact List.map_eq_nil_iff.1 this

theorem map_fst_filter_zipIdx (f : Token → Bool) : ∀ (l : List Token) (k : Nat), ((l.zipIdx k).filter (fun x => f x.1)).map (·.1) = l.filter f
  | [], _ => rfl
  | a :: l, k => by
    rw [List.zipIdx_cons, List.filter_cons, List.filter_cons]
    by_cases h : f a = true
    · simp [h, map_fst_filter_zipIdx f l (k + 1)]
    · simp [h, map_fst_filter_zipIdx f l (k + 1)]

theorem mem_idxsOf {pre : List Token} {mint : Bytes} {i : Nat} : i ∈ idxsOf pre mint ↔ ∃ tok, pre[i]? = some tok ∧ tok.mint = mint := by
  unfold idxsOf
  simp only [List.mem_map, List.mem_filter]
  constructor
  · rintro ⟨⟨tok, j⟩, ⟨h1, h2⟩, rfl⟩
    exact ⟨tok, List.mem_zipIdx_iff_getElem?.1 h1, by simpa using h2⟩
  · rintro ⟨tok, h1, h2⟩
    exact ⟨(tok, i), ⟨List.mem_zipIdx_iff_getElem?.2 h1, by simpa using h2⟩, rfl⟩

/-- The tokens kept are the other mints' tokens and everything after the last token used, in order. -/
theorem without_eq (mint : Bytes) (pre post : List Token) :
    without (pre ++ post) (idxsOf pre mint) = pre.filter (fun t => !(t.mint == mint)) ++ post := by
  unfold without
  rw [List.zipIdx_append, List.filter_append, List.map_append]
  congr 1
  · rw [← map_fst_filter_zipIdx (fun t => !(t.mint == mint)) pre 0]
    congr 1
    apply List.filter_congr
    rintro ⟨tok, i⟩ hx
    have hi := List.mem_zipIdx_iff_getElem?.1 hx
    simp only at hi
    by_cases hm : tok.mint = mint
    · have : i ∈ idxsOf pre mint := mem_idxsOf.2 ⟨tok, hi, hm⟩
      simp [this, hm]
    · have : i ∉ idxsOf pre mint := by
        intro h
        obtain ⟨t2, h1, h2⟩ := mem_idxsOf.1 h
        rw [hi] at h1
        cases h1
        exact hm h2
      simp [this, hm]
  · have e : (post.zipIdx (0 + pre.length)).filter (fun x => !(idxsOf pre mint).contains x.2) = post.zipIdx (0 + pre.length) := by
      rw [List.filter_eq_self]
      rintro ⟨tok, i⟩ hx
      have hi : 0 + pre.length ≤ i := (List.mem_zipIdx hx).1
      have : i ∉ idxsOf pre mint := by
        intro h
        obtain ⟨t2, h1, h2⟩ := mem_idxsOf.1 h
        have := (List.getElem?_eq_some_iff.1 h1).1
        omega
      simp [this]
    rw [e]
    simp

/-- What is in the wallet splits into what is kept and what is used. -/
theorem balance_split (mint : Bytes) : ∀ (pre : List Token), balance (pre.filter (fun t => !(t.mint == mint))) + total (proofsOf pre mint) = balance pre
  | [] => rfl
  | a :: l => by
    have ih := balance_split mint l
    by_cases h : a.mint = mint
    · have e1 : (a :: l).filter (fun t => !(t.mint == mint)) = l.filter (fun t => !(t.mint == mint)) := by simp [h]
      have e2 : proofsOf (a :: l) mint = a.proofs ++ proofsOf l mint := by simp [proofsOf, h]
      rw [e1, e2, total_append]
      simp only [balance, List.map_cons, List.sum_cons] at ih ⊢
      omega
    · have e1 : (a :: l).filter (fun t => !(t.mint == mint)) = a :: l.filter (fun t => !(t.mint == mint)) := by simp [h]
      have e2 : proofsOf (a :: l) mint = proofsOf l mint := by simp [proofsOf, h]
      rw [e1, e2]
      simp only [balance, List.map_cons, List.sum_cons] at ih ⊢
      omega

theorem balance_append (a b : List Token) : balance (a ++ b) = balance a + balance b := by simp [balance]

/-- **C82 (with change).** If a send succeeds and there is change to come back (the chosen tokens are worth more than amount and fee), then the recipient gets exactly the amount, the
spent tokens are gone, the other tokens stay in their order, one token with the change is added, and the balance went down by exactly amount and fee.
Missing for the full property: the exact spend, where the property is false (`C82_exact_spend_keeps_tokens`). -/
theorem C82_send_partial (w : World) (hw : Honest w) (tokens : List Token) (amount : Nat) (specific : Bytes) (lock : Option Bytes) (out : List Proof) (tokens' : List Token)
    (hb : ∀ p fee, getProofs w.keysets amount specific [] tokens = .ok (p, fee) → total p.proofs + fee < 18446744073709551616)
    (h : send w tokens amount specific lock = (.ok out, tokens')) :
    ∃ p fee, getProofs w.keysets amount specific [] tokens = .ok (p, fee) ∧ total out = amount ∧
      (amount + fee < total p.proofs →
        ∃ change id pre post, tokens = pre ++ post ∧ p.proofs = proofsOf pre p.mint ∧
          tokens' = (pre.filter (fun t => !(t.mint == p.mint)) ++ post) ++ [⟨p.mint, change, some id⟩] ∧
          amount + fee + total change = total p.proofs ∧
          balance tokens' + amount + fee = balance tokens) := by
  obtain ⟨p, fee, change, h1, -, h3, -, -, h4⟩ := send_ok hw h
  obtain ⟨s1, s2, s3⟩ := h4 (hb p fee h1)
  refine ⟨p, fee, h1, s1, fun hlt => ?_⟩
  obtain ⟨-, ⟨pre, post, e1, e2, e3, -⟩, -⟩ := C83_selection _ _ _ _ _ _ _ h1
  have hlen : 0 < change.length := by
    rcases Nat.eq_zero_or_pos change.length with hz | hz
    · have : change = [] := List.length_eq_zero_iff.1 hz
      rw [this] at s2
      simp [total] at s2 hlt
      omega
    · exact hz
  unfold saveChange at h3
  rw [if_pos hlen] at h3
  cases hs : w.sign change with
  | none => rw [hs] at h3; cases h3
  | some id =>
    rw [hs] at h3
    simp only [Option.some.injEq] at h3
    rw [e2, e1, without_eq] at h3
    refine ⟨change, id, pre, post, e1, e3, h3.symm, by omega, ?_⟩
    rw [← h3, e1, balance_append, balance_append, balance_append]
    have := balance_split p.mint pre
    rw [← e3] at this
    have : balance [⟨p.mint, change, some id⟩] = total change := by simp [balance]
    omega

/-- **C82 fails for an exact spend.** Whenever the chosen tokens are worth exactly amount and fee, so that no change comes back, a successful send leaves all of the wallet's tokens
where they are, including the ones just spent: the balance does not change. -/
theorem C82_exact_spend_keeps_tokens (w : World) (hw : Honest w) (tokens : List Token) (amount : Nat) (specific : Bytes) (lock : Option Bytes) (out : List Proof)
    (tokens' : List Token) (p : Part) (fee : Nat) (hg : getProofs w.keysets amount specific [] tokens = .ok (p, fee))
    (hb : total p.proofs + fee < 18446744073709551616) (hx : total p.proofs = amount + fee)
    (h : send w tokens amount specific lock = (.ok out, tokens')) : tokens' = tokens ∧ total out = amount := by
  obtain ⟨p', fee', change, h1, -, h3, -, -, h4⟩ := send_ok hw h
  rw [hg] at h1
  cases h1
  obtain ⟨s1, s2, s3⟩ := h4 hb
  have : change = [] := s3 (by omega)
  subst this
  simp only [saveChange, List.length_nil, Nat.lt_irrefl, if_false, Option.some.injEq] at h3
  exact ⟨h3.symm, s1⟩

/-- **C82 (errors).** Whatever fails, the wallet's tokens stay as they were, also when the tokens have been swapped at the mint and only the change token could not be made: then the
spent tokens stay and the new proofs are lost. -/
theorem C82_error_keeps_tokens (w : World) (tokens : List Token) (amount : Nat) (specific : Bytes) (lock : Option Bytes)
    (h : ∀ out, (send w tokens amount specific lock).1 ≠ .ok out) : (send w tokens amount specific lock).2 = tokens := by
  unfold send at h ⊢
  cases hg : getProofs w.keysets amount specific [] tokens with
  | panic => rfl
  | err e => rfl
  | ok r =>
    rw [hg] at h
    simp only at h ⊢
    split
    · rfl
    · next hl =>
      rw [if_neg hl] at h
      split
      · rfl
      · rfl
      · next out change hsw =>
        rw [hsw] at h
        simp only at h
        split
        · rfl
        · next tk hsc =>
          rw [hsc] at h
          exact absurd rfl (h out)

/-- A split into a single denomination and a mint that signs everything: the world of the witnesses below. -/
def toySplit (a : Nat) : List Nat := if a = 0 then [] else [a]

/-- A value of the examples. -/
def toyWorld (ppk : Nat) : World :=
  { keysets := fun _ => some [⟨b! "k", ppk⟩]
    p2pk := fun _ => true
    keys := fun _ => [1, 2, 4, 8, 16]
    swap := fun _ _ outs => some (outs.map (fun o => ⟨o.amount, b! "k"⟩))
    split := toySplit
    sign := fun _ => some (b! "new") }

theorem toyWorld_honest (ppk : Nat) : Honest (toyWorld ppk) := by
  refine ⟨?_, ?_, ?_⟩
  · intro m ps outs sigs h
    simp only [toyWorld, Option.some.injEq] at h
    subst h
    simp
  · intro a
    by_cases h : a = 0 <;> simp [toyWorld, toySplit, h]
  · intro a x hx
    by_cases h : a = 0
    · simp [toyWorld, toySplit, h] at hx
    · simp [toyWorld, toySplit, h] at hx
      omega

/-- Sending 4 out of a token worth 8 with a fee of 2: the change token is worth 2. -/
example : send (toyWorld 1500) [⟨b! "m", [⟨8, b! "k", none⟩], some (b! "id")⟩] 4 [] none =
    (.ok [⟨4, b! "k", none⟩], [⟨b! "m", [⟨2, b! "k", none⟩], some (b! "new")⟩]) := by decide +kernel

/-- Sending exactly what a token is worth: the recipient has the money and the wallet still shows the token. -/
example : send (toyWorld 0) [⟨b! "m", [⟨8, b! "k", none⟩], some (b! "id")⟩] 8 [] none =
    (.ok [⟨8, b! "k", none⟩], [⟨b! "m", [⟨8, b! "k", none⟩], some (b! "id")⟩]) ∧
    getProofs (toyWorld 0).keysets 8 [] [] [⟨b! "m", [⟨8, b! "k", none⟩], some (b! "id")⟩] = .ok (⟨b! "m", [0], [⟨8, b! "k", none⟩], [⟨b! "k", 0⟩]⟩, 0) := by decide +kernel

/-! ## Locking (C85) -/

/-- `WithP2PK` (send.go:26-31) followed by `SerializeCompressed` (send.go:89): both errors are dropped; `parse` is `btcec.ParsePubKey` with the compressed form of the key. -/
def withP2PK (parse : Bytes → Option Bytes) (pubkey : Bytes) : Option Bytes := parse (hexDecPartial pubkey)

/-- **C85 (when the key parses).** If the key parses, a successful send locks every proof handed over to it, and fails if the mint does not support locking. (The change is locked to it as
well: `C85_change_is_locked_too`.) Missing for the full property: keys that do not parse, where it is false. -/
theorem C85_locked_partial (w : World) (hw : Honest w) (parse : Bytes → Option Bytes) (tokens : List Token) (amount : Nat) (specific pubkey key : Bytes)
    (hk : withP2PK parse pubkey = some key) (out : List Proof) (tokens' : List Token) (h : send w tokens amount specific (withP2PK parse pubkey) = (.ok out, tokens')) :
    ∀ x ∈ out, x.lock = some key := by
  obtain ⟨p, fee, change, h1, -, h3, k5, -⟩ := send_ok hw h
  intro x hx
  rw [← hk]
  exact k5 x hx

/-- **C85 is false for 32-byte keys.** `WithP2PK` is given nostr public keys, 32 bytes in hex, but `btcec.ParsePubKey` takes 33 or 65 bytes: for every valid nostr public key, nothing
is locked and no error is reported; the send does exactly what a send without a lock does. -/
theorem C85_nostr_key_not_locked (parse : Bytes → Option Bytes) (hparse : ∀ b k, parse b = some k → b.length = 33 ∨ b.length = 65)
    (parsePub : Bytes → Bool) (hpub : ∀ b, parsePub b = true → b.length = 32)
    (w : World) (hw : Honest w) (tokens : List Token) (amount : Nat) (specific pubkey : Bytes) (hv : isValidPublicKey parsePub pubkey = true) :
    send w tokens amount specific (withP2PK parse pubkey) = send w tokens amount specific none ∧
    ∀ out tokens', send w tokens amount specific (withP2PK parse pubkey) = (.ok out, tokens') → ∀ x ∈ out, x.lock = none := by
  have hn : withP2PK parse pubkey = none := by
    unfold withP2PK
    have : parsePub (hexDecPartial pubkey) = true := by
      unfold isValidPublicKey at hv
      split at hv
      · cases hv
      · exact hv
    have hl := hpub _ this
    cases hp : parse (hexDecPartial pubkey) with
    | none => rfl
    | some k => rcases hparse _ _ hp with h | h <;> omega
  rw [hn]
  refine ⟨rfl, fun out tokens' h x hx => ?_⟩
  obtain ⟨p, fee, change, h1, -, h3, k5, -⟩ := send_ok hw h
  exact k5 x hx

/-- **C85 (change).** The wallet's own change carries the recipient's lock: it can be spent by the recipient only. -/
theorem C85_change_is_locked_too (w : World) (hw : Honest w) (tokens : List Token) (amount : Nat) (specific : Bytes) (lock : Option Bytes)
    (out : List Proof) (tokens' : List Token) (h : send w tokens amount specific lock = (.ok out, tokens')) :
    tokens' = tokens ∨ ∃ kept change tok, tokens' = kept ++ [tok] ∧ tok.proofs = change ∧ ∀ x ∈ change, x.lock = lock := by
  obtain ⟨p, fee, change, h1, -, h3, -, k6, -⟩ := send_ok hw h
  unfold saveChange at h3
  split at h3
  · split at h3
    · cases h3
    · next id _ =>
      simp only [Option.some.injEq] at h3
      exact .inr ⟨_, change, _, h3.symm, rfl, k6⟩
  · simp only [Option.some.injEq] at h3
    exact .inl h3.symm

example : send (toyWorld 0) [⟨b! "m", [⟨8, b! "k", none⟩], some (b! "id")⟩] 4 [] (some (b! "key")) =
    (.ok [⟨4, b! "k", some (b! "key")⟩], [⟨b! "m", [⟨4, b! "k", some (b! "key")⟩], some (b! "new")⟩]) := by decide +kernel

end GoNostr.Nip60
