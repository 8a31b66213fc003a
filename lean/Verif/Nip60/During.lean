import Verif.Nip60.Wallet
import Mathlib.Data.List.Perm.Basic
import Mathlib.Data.List.Nodup
/-!
# C186: deletions that arrive during a payment

`Send` holds `tokensMu` from choosing tokens until its bookkeeping is done, but the goroutine that handles deletions takes the other lock (wallet.go:145): it can remove tokens in between, while the mint is being asked. The bookkeeping then uses the *positions* chosen before.

Simplifications: the deletions are all handled after the choice and before the bookkeeping, which is atomic here as in `Verif.Nip60.Wallet` (tokens cannot be added meanwhile: that needs `tokensMu`, C185); stored events have ended (C94).
-/

set_option autoImplicit false

namespace GoNostr.Nip60.During
open List

/-- The loop of `removeDeletedToken` (wallet.go:235-244) at indices below `t`: the last token is moved into the gap. -/
def dropBelow (id : Bytes) : Nat → List Token → List Token
  | 0, l => l
  | t + 1, l => match l[t]? with
    | some x => if x.eventId = some id then dropBelow id t ((l.set t (l.getLast?.getD x)).dropLast) else dropBelow id t l
    | none => dropBelow id t l

/-- `removeDeletedToken` (wallet.go:235-244). -/
def dropDeleted (l : List Token) (id : Bytes) : List Token := dropBelow id l.length l

/-- `Send` (send.go:53-119) while the deletions of `ds` are handled (wallet.go:144-156) after it has chosen its tokens: the rest is `send`. -/
def sendDuring (w : World) (tokens : List Token) (ds : List Bytes) (amount : Nat) (specific : Bytes) (lock : Option Bytes) : Res SendErr (List Proof) × List Token :=
  match getProofs w.keysets amount specific [] tokens with
  | .panic => (.panic, tokens)
  | .err e => (.err (.select e), tokens)
  | .ok (p, _) =>
    let now := ds.foldl dropDeleted tokens
    if lock.isSome ∧ ¬ w.p2pk p.mint then (.err .noP2pk, now)
    else match swapProofs w p.mint p.proofs amount lock with
      | .panic => (.panic, now)
      | .err e => (.err e, now)
      | .ok (out, change) => match saveChange w now p.mint change p.indexes with
        | none => (.err .changeEvent, now)
        | some tokens' => (.ok out, tokens')

/-- Without deletions it is `send`. -/
theorem sendDuring_nil (w : World) (tokens : List Token) (amount : Nat) (specific : Bytes) (lock : Option Bytes) : sendDuring w tokens [] amount specific lock = send w tokens amount specific lock := rfl

/-! ### Specification -/

/-- Specification: a deletion of the token came in. -/
def Gone (ds : List Bytes) (t : Token) : Prop := ∃ id ∈ ds, t.eventId = some id

instance (ds : List Bytes) (t : Token) : Decidable (Gone ds t) := by unfold Gone; infer_instance

/-! ### Proofs -/

theorem swapDelete_perm {l : List Token} {t : Nat} {x : Token} (h : l[t]? = some x) : (l.set t (l.getLast?.getD x)).dropLast ~ l.eraseIdx t := by
  obtain ⟨ht, hx⟩ := List.getElem?_eq_some_iff.1 h
  have hl : l = l.take t ++ x :: l.drop (t + 1) := by rw [← hx, List.getElem_cons_drop, List.take_append_drop]
  have hlen : (l.take t).length = t := by rw [List.length_take]; omega
  generalize l.take t = a at hl hlen
  generalize l.drop (t + 1) = b at hl
  subst hl hlen
  rcases List.eq_nil_or_concat b with rfl | ⟨b', y, rfl⟩
  · rw [List.eraseIdx_append_of_length_le (Nat.le_refl _)]
    simp
  · rw [List.concat_eq_append]
    have e1 : (a ++ x :: (b' ++ [y])).getLast? = some y := by simp [List.getLast?_append, List.getLast?_cons]
    rw [e1]
    have e2 : (a ++ x :: (b' ++ [y])).set a.length ((some y).getD x) = (a ++ y :: b') ++ [y] := by simp
    rw [e2, List.dropLast_concat, List.eraseIdx_append_of_length_le (Nat.le_refl _)]
    simp only [Nat.sub_self, List.eraseIdx_cons_zero]
    exact Perm.append_left a (perm_append_singleton y b').symm

theorem filter_eraseIdx {l : List Token} {t : Nat} {x : Token} (f : Token → Bool) (h : l[t]? = some x) (hf : f x = false) : (l.eraseIdx t).filter f = l.filter f := by
  obtain ⟨ht, hx⟩ := List.getElem?_eq_some_iff.1 h
  rw [List.eraseIdx_eq_take_drop_succ]
  conv_rhs => rw [← List.take_append_drop t l, ← List.getElem_cons_drop ht, hx]
  simp [hf]

/-- What removing one id does: the rest stays, in some order; what is still within range and not removed is where it was. -/
theorem dropBelow_spec (id : Bytes) : ∀ (t : Nat) (l : List Token), t ≤ l.length → (∀ i tok, t ≤ i → l[i]? = some tok → tok.eventId ≠ some id) →
    (dropBelow id t l ~ l.filter (fun x => decide (x.eventId ≠ some id))) ∧
    (∀ u tok, l[u]? = some tok → tok.eventId ≠ some id → u < (dropBelow id t l).length → (dropBelow id t l)[u]? = some tok)
  | 0, l, _, h => by
    refine ⟨?_, fun u tok hu _ _ => hu⟩
    rw [dropBelow, List.filter_eq_self.2]
    intro x hx
    obtain ⟨i, hi⟩ := List.mem_iff_getElem?.1 hx
    simpa using h i x (Nat.zero_le _) hi
  | t + 1, l, hl, h => by
    have ht : l[t]? = some l[t] := List.getElem?_eq_getElem (by omega)
    rw [dropBelow, ht]
    simp only
    by_cases hx : l[t].eventId = some id
    · rw [if_pos hx]
      have hlen1 : ((l.set t (l.getLast?.getD l[t])).dropLast).length = l.length - 1 := by simp
      have hget : ∀ u, u ≠ t → u < l.length - 1 → ((l.set t (l.getLast?.getD l[t])).dropLast)[u]? = l[u]? := by
        intro u hu hlt
        rw [List.getElem?_dropLast, List.length_set, if_pos hlt, List.getElem?_set_ne (Ne.symm hu)]
      have hno : ∀ i tok, t ≤ i → ((l.set t (l.getLast?.getD l[t])).dropLast)[i]? = some tok → tok.eventId ≠ some id := by
        intro i tok hi hc
        have hlt : i < l.length - 1 := by rw [← hlen1]; exact (List.getElem?_eq_some_iff.1 hc).1
        rcases Nat.lt_or_ge t i with h' | h'
        · rw [hget i (by omega) hlt] at hc
          exact h i tok h' hc
        · have : i = t := by omega
          subst this
          rw [List.getElem?_dropLast, List.length_set, if_pos hlt, List.getElem?_set_self (by omega), Option.some.injEq] at hc
          rw [List.getLast?_eq_getElem?] at hc
          have hlast : l[l.length - 1]? = some tok := by
            rw [List.getElem?_eq_getElem (by omega)] at hc ⊢
            rw [← hc]; rfl
          exact h _ tok (by omega) hlast
      obtain ⟨p1, p2⟩ := dropBelow_spec id t _ (by rw [hlen1]; omega) hno
      refine ⟨p1.trans ?_, ?_⟩
      · refine ((swapDelete_perm ht).filter _).trans ?_
        rw [filter_eraseIdx _ ht (by simp [hx])]
      · intro u tok hu hne hlt
        have hle : (dropBelow id t ((l.set t (l.getLast?.getD l[t])).dropLast)).length ≤ l.length - 1 := by
          rw [← hlen1, p1.length_eq]; exact List.length_filter_le _ _
        have hut : u ≠ t := by
          rintro rfl
          rw [ht, Option.some.injEq] at hu
          exact hne (hu ▸ hx)
        exact p2 u tok (by rw [hget u hut (by omega)]; exact hu) hne hlt
    · rw [if_neg hx]
      refine dropBelow_spec id t l (by omega) ?_
      intro i tok hi hc
      rcases Nat.lt_or_ge t i with h' | h'
      · exact h i tok h' hc
      · have : i = t := by omega
        subst this
        rw [ht, Option.some.injEq] at hc
        exact hc ▸ hx

theorem dropDeleted_spec (id : Bytes) (l : List Token) : (dropDeleted l id ~ l.filter (fun x => decide (x.eventId ≠ some id))) ∧
    (∀ u tok, l[u]? = some tok → tok.eventId ≠ some id → u < (dropDeleted l id).length → (dropDeleted l id)[u]? = some tok) :=
  dropBelow_spec id l.length l (Nat.le_refl _) (fun i tok hi hc => by
    have := (List.getElem?_eq_some_iff.1 hc).1
    omega)

theorem dropAll_spec : ∀ (ds : List Bytes) (l : List Token), (ds.foldl dropDeleted l ~ l.filter (fun x => decide (¬ Gone ds x))) ∧
    (∀ u tok, l[u]? = some tok → ¬ Gone ds tok → u < (ds.foldl dropDeleted l).length → (ds.foldl dropDeleted l)[u]? = some tok)
  | [], l => by
    refine ⟨?_, fun u tok hu _ _ => hu⟩
    rw [List.foldl_nil, List.filter_eq_self.2]
    intro x _
    simp [Gone]
  | id :: ds, l => by
    obtain ⟨a1, a2⟩ := dropDeleted_spec id l
    obtain ⟨b1, b2⟩ := dropAll_spec ds (dropDeleted l id)
    rw [List.foldl_cons]
    refine ⟨b1.trans ((a1.filter _).trans ?_), ?_⟩
    · rw [List.filter_filter]
      refine Perm.of_eq (List.filter_congr fun x _ => ?_)
      by_cases h1 : x.eventId = some id <;> by_cases h2 : Gone ds x <;> simp_all [Gone]
    · intro u tok hu hg hlt
      have h1 : tok.eventId ≠ some id := fun hh => hg ⟨id, List.mem_cons_self, hh⟩
      have h2 : ¬ Gone ds tok := fun ⟨i, hi, he⟩ => hg ⟨i, List.mem_cons_of_mem _ hi, he⟩
      have hle : (ds.foldl dropDeleted (dropDeleted l id)).length ≤ (dropDeleted l id).length := by
        rw [b1.length_eq]; exact List.length_filter_le _ _
      exact b2 u tok (a2 u tok hu h1 (by omega)) h2 hlt

theorem mem_without {l : List Token} {used : List Nat} {tok : Token} : tok ∈ without l used ↔ ∃ u, l[u]? = some tok ∧ u ∉ used := by
  unfold without
  simp only [List.mem_map, List.mem_filter, Prod.exists, List.mem_zipIdx_iff_getElem?]
  constructor
  · rintro ⟨a, b, ⟨h1, h2⟩, rfl⟩
    exact ⟨b, h1, by simpa using h2⟩
  · rintro ⟨u, h1, h2⟩
    exact ⟨tok, u, ⟨h1, by simpa using h2⟩, rfl⟩

/-- The bookkeeping, given different tokens and deletions that concern none of those being spent. -/
theorem bookkeeping {tokens : List Token} (hnd : tokens.Nodup) {used : List Nat} {ds : List Bytes} (hds : ∀ u ∈ used, ∀ tok, tokens[u]? = some tok → ¬ Gone ds tok) (tok : Token) :
    tok ∈ without (ds.foldl dropDeleted tokens) used ↔
      tok ∈ tokens ∧ ¬ Gone ds tok ∧ ∀ u ∈ used, tokens[u]? = some tok → (tokens.filter (fun x => decide (¬ Gone ds x))).length ≤ u := by
  obtain ⟨p1, p2⟩ := dropAll_spec ds tokens
  rw [mem_without]
  have hnd' : (ds.foldl dropDeleted tokens).Nodup := p1.nodup_iff.2 (hnd.filter _)
  constructor
  · rintro ⟨v, hv, hvu⟩
    have hm : tok ∈ tokens.filter (fun x => decide (¬ Gone ds x)) := p1.mem_iff.1 (List.mem_of_getElem? hv)
    obtain ⟨m1, m2⟩ := List.mem_filter.1 hm
    have m2 : ¬ Gone ds tok := by simpa using m2
    refine ⟨m1, m2, fun u hu htok => ?_⟩
    rw [← p1.length_eq]
    refine Classical.byContradiction fun hlt => ?_
    have := p2 u tok htok m2 (by omega)
    obtain ⟨l1, e1⟩ := List.getElem?_eq_some_iff.1 this
    obtain ⟨l2, e2⟩ := List.getElem?_eq_some_iff.1 hv
    have : u = v := (List.Nodup.getElem_inj_iff hnd').1 (e1.trans e2.symm)
    exact hvu (this ▸ hu)
  · rintro ⟨m1, m2, m3⟩
    have hm : tok ∈ ds.foldl dropDeleted tokens := p1.mem_iff.2 (List.mem_filter.2 ⟨m1, by simpa using m2⟩)
    obtain ⟨v, hv⟩ := List.mem_iff_getElem?.1 hm
    refine ⟨v, hv, fun hvu => ?_⟩
    have hlt := (List.getElem?_eq_some_iff.1 hv).1
    -- position v held a token from the start, and it is still there
    have hlen : (ds.foldl dropDeleted tokens).length ≤ tokens.length := by rw [p1.length_eq]; exact List.length_filter_le _ _
    have hv0 : tokens[v]? = some tokens[v] := List.getElem?_eq_getElem (by omega)
    have := p2 v _ hv0 (hds v hvu _ hv0) hlt
    rw [hv, Option.some.injEq] at this
    have hb := m3 v hvu (by rw [hv0, this])
    rw [← p1.length_eq] at hb
    omega

/-- **C186 (partial: see `C186_spent_token_stays`).** `Send` succeeds with change to come back, while deletions of other tokens are handled. Then nothing is lost: the tokens neither spent nor deleted are all kept, the deleted ones are gone and the change is added. Of the tokens spent, exactly those are gone
whose position is below the number of tokens the deletions left; in particular all of them, if the deletions left enough tokens. -/
theorem C186_send_partial (w : World) (tokens : List Token) (hnd : tokens.Nodup) (ds : List Bytes) (amount : Nat) (specific : Bytes) (lock : Option Bytes) (out : List Proof) (tokens' : List Token) (p : Part) (fee : Nat)
    (hp : getProofs w.keysets amount specific [] tokens = .ok (p, fee)) (hds : ∀ u ∈ p.indexes, ∀ tok, tokens[u]? = some tok → ¬ Gone ds tok)
    (h : sendDuring w tokens ds amount specific lock = (.ok out, tokens')) :
    ∃ change, swapProofs w p.mint p.proofs amount lock = .ok (out, change) ∧ (change ≠ [] → ∃ id kept, w.sign change = some id ∧ tokens' = kept ++ [⟨p.mint, change, some id⟩] ∧
      (∀ tok ∈ kept, tok ∈ tokens ∧ ¬ Gone ds tok) ∧
      (∀ tok ∈ tokens, ¬ Gone ds tok → (∀ u ∈ p.indexes, tokens[u]? ≠ some tok) → tok ∈ kept) ∧
      (∀ u ∈ p.indexes, ∀ tok, tokens[u]? = some tok → (tok ∈ kept ↔ (tokens.filter (fun x => decide (¬ Gone ds x))).length ≤ u))) := by
  unfold sendDuring at h
  rw [hp] at h
  simp only at h
  split at h
  · cases h
  · cases hs : swapProofs w p.mint p.proofs amount lock with
    | panic => rw [hs] at h; cases h
    | err e => rw [hs] at h; cases h
    | ok r =>
      obtain ⟨o, change⟩ := r
      rw [hs] at h
      simp only at h
      cases hc : saveChange w (ds.foldl dropDeleted tokens) p.mint change p.indexes with
      | none => rw [hc] at h; cases h
      | some ts =>
        rw [hc] at h
        simp only [Prod.mk.injEq, Res.ok.injEq] at h
        obtain ⟨rfl, rfl⟩ := h
        refine ⟨change, rfl, fun hne => ?_⟩
        unfold saveChange at hc
        rw [if_pos (List.length_pos_iff.2 hne)] at hc
        cases hsig : w.sign change with
        | none => rw [hsig] at hc; cases hc
        | some id =>
          rw [hsig] at hc
          simp only [Option.some.injEq] at hc
          refine ⟨id, without (ds.foldl dropDeleted tokens) p.indexes, rfl, hc.symm, ?_, ?_, ?_⟩
          · intro tok ht
            obtain ⟨a, b, -⟩ := (bookkeeping hnd hds tok).1 ht
            exact ⟨a, b⟩
          · intro tok ht hg hu
            exact (bookkeeping hnd hds tok).2 ⟨ht, hg, fun u hm he => absurd he (hu u hm)⟩
          · intro u hu tok ht
            rw [bookkeeping hnd hds tok]
            refine ⟨fun hh => hh.2.2 u hu ht, fun hh => ⟨List.mem_of_getElem? ht, hds u hu tok ht, fun v hv hvt => ?_⟩⟩
            obtain ⟨l1, e1⟩ := List.getElem?_eq_some_iff.1 ht
            obtain ⟨l2, e2⟩ := List.getElem?_eq_some_iff.1 hvt
            have : u = v := (List.Nodup.getElem_inj_iff hnd).1 (e1.trans e2.symm)
            omega

/-- Tokens of the examples: one of another mint, one being spent, one not needed. -/
def elsewhere : Token := ⟨b! "n", [⟨16, b! "k", none⟩], some (b! "x")⟩
/-- See above. -/
def spentOne : Token := ⟨b! "m", [⟨8, b! "k", none⟩], some (b! "a")⟩
/-- See above. -/
def spare : Token := ⟨b! "m", [⟨8, b! "k", none⟩], some (b! "b")⟩

/-- A case in which all is well: another device deletes the first token, and enough tokens are left. -/
example : sendDuring (toyWorld 0) [elsewhere, spentOne, spare] [b! "x"] 4 (b! "m") none = (.ok [⟨4, b! "k", none⟩], [spare, ⟨b! "m", [⟨4, b! "k", none⟩], some (b! "new")⟩]) ∧
    getProofs (toyWorld 0).keysets 4 (b! "m") [] [elsewhere, spentOne, spare] = .ok (⟨b! "m", [1], [⟨8, b! "k", none⟩], [⟨b! "k", 0⟩]⟩, 0) ∧
    [elsewhere, spentOne, spare].Nodup ∧ ¬ Gone [b! "x"] spentOne := by decide +kernel

/-- **C186 is false.** The wallet has a token of another mint and the one it spends; while the mint is asked, the deletion of the first comes in. The spent token moves to its place, the bookkeeping looks for it where it was, and the wallet keeps it together with the change: after paying 4 out of 8
it shows 12. -/
theorem C186_spent_token_stays : Honest (toyWorld 0) ∧ sendDuring (toyWorld 0) [elsewhere, spentOne] [b! "x"] 4 (b! "m") none = (.ok [⟨4, b! "k", none⟩], [spentOne, ⟨b! "m", [⟨4, b! "k", none⟩], some (b! "new")⟩]) ∧
    balance [spentOne, ⟨b! "m", [⟨4, b! "k", none⟩], some (b! "new")⟩] = 12 ∧ balance [elsewhere, spentOne] = 24 := ⟨toyWorld_honest 0, by decide +kernel, by decide +kernel, by decide +kernel⟩

/-- **C186 is false (the other way round).** If the deletion that comes in concerns the very token being spent (another device has moved its proofs into a new token event), the token that takes its place is dropped although nobody spent or deleted it. -/
theorem C186_unspent_token_lost : sendDuring (toyWorld 0) [spentOne, spare] [b! "a"] 4 (b! "m") none = (.ok [⟨4, b! "k", none⟩], [⟨b! "m", [⟨4, b! "k", none⟩], some (b! "new")⟩]) ∧
    ¬ Gone [b! "a"] spare ∧ getProofs (toyWorld 0).keysets 4 (b! "m") [] [spentOne, spare] = .ok (⟨b! "m", [0], [⟨8, b! "k", none⟩], [⟨b! "k", 0⟩]⟩, 0) := by decide +kernel

end GoNostr.Nip60.During
