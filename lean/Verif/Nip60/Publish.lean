import Verif.Nip60.Pay
import Verif.Nip60.Load
import Mathlib.Data.List.Induction

/-!
# What a wallet tells the user's other devices (C171)

The events `Send`, `PayBolt11` and `Receive` hand to `PublishUpdate` (nip60/send.go:121-187, pay.go:121-145, receive.go:122-161), and what another device that loads these events holds
(`Verif.Nip60.Load`). The tokens themselves are those of `Verif.Nip60.Wallet` and `Verif.Nip60.Pay`. History events are not modelled here (C91), encryption and JSON of token events neither (C88, C166).
-/

set_option autoImplicit false

namespace GoNostr.Nip60

/-- An event given to `PublishUpdate`: the deletion of a token event (its signature may be missing), or a token event with its mint, proofs and `del` list. -/
inductive Pub
  | delete (id : Bytes) (signed : Bool)
  | token (id mint : Bytes) (proofs : List Proof) (del : List Bytes)
  deriving DecidableEq, Repr

/-- The deletions `saveChangeAndDeleteUsedTokens` publishes (send.go:139-165), one for each used token that has an event. The result of `SignEvent` is ignored (send.go:149); `d` is whether it signs. The spent id
is appended to the `Deleted` list of the loop's copy of the spent token (send.go:142), not to that of the change token. -/
def deletions (d : Bool) (tokens : List Token) (used : List Nat) : List Pub :=
  ((tokens.zipIdx.filter (fun x => used.contains x.2)).filterMap (fun x => x.1.eventId)).map (fun id => .delete id d)

/-- What `saveChangeAndDeleteUsedTokens` publishes (send.go:139-175). -/
def savePubs (w : World) (d : Bool) (tokens : List Token) (mint : Bytes) (change : List Proof) (used : List Nat) : List Pub :=
  deletions d tokens used ++ (if 0 < change.length then match w.sign change with
    | none => []
    | some id => [.token id mint change []] else [])

/-- What `Send` publishes (send.go:53-119). -/
def sendPubs (w : World) (d : Bool) (tokens : List Token) (amount : Nat) (specific : Bytes) (lock : Option Bytes) : List Pub :=
  match getProofs w.keysets amount specific [] tokens with
  | .ok (p, _) =>
    if lock.isSome ∧ ¬ w.p2pk p.mint then []
    else match swapProofs w p.mint p.proofs amount lock with
      | .ok (_, change) => savePubs w d tokens p.mint change p.indexes
      | _ => []
  | _ => []

/-- What `PayBolt11` publishes (pay.go:14-145). -/
def payPubs (w : PayWorld) (d : Bool) (tokens : List Token) (invoice specific : Bytes) : List Pub :=
  match satoshis invoice with
  | none => []
  | some sats =>
    match findMelt w tokens invoice sats specific 5 0 1 [] with
    | .ok (p, fee, q) =>
      if ¬ w.active p.mint then []
      else match payOutputs w.toWorld p (addU sats fee) with
        | .panic => []
        | .val outs => match settle (w.melt p.mint q p.proofs outs) with
          | .ok (_, sigs) => match construct (w.keys p.mint) outs sigs with
            | .ok change => savePubs w.toWorld d tokens p.mint change p.indexes
            | _ => []
          | _ => []
    | _ => []

/-- What `Receive` publishes (receive.go:124-154). -/
def receivePubs (w : PayWorld) (ps : List Proof) (mint : Bytes) (dests : List Bytes) : List Pub :=
  if ps.any w.htlc then []
  else
    let source := w.norm mint
    match w.keysets source with
    | none => []
    | some keysets => match swapProofs w.toWorld source ps (amountOf ps) none with
      | .ok (new, _) =>
        match (if dests.contains source then moveTo w new source keysets dests else .ok (new, source)) with
        | .ok (kept, at_) => match w.sign kept with
          | none => []
          | some id => [.token id at_ kept []]
        | _ => []
      | _ => []

/-! ## Specification -/

/-- A call of the wallet's methods, with the mints and the signer as they are at that time. -/
inductive Call
  | send (w : World) (amount : Nat) (specific : Bytes) (lock : Option Bytes)
  | pay (w : PayWorld) (invoice specific : Bytes)
  | receive (w : PayWorld) (proofs : List Proof) (mint : Bytes) (dests : List Bytes)

/-- The tokens after a call. -/
def Call.after (tokens : List Token) : Call → List Token
  | .send w a s l => (Nip60.send w tokens a s l).2
  | .pay w i s => (payBolt11 w tokens i s).2
  | .receive w ps m ds => (Nip60.receive w tokens ps m ds).2

/-- What a call publishes; `d`: deletions get signed. -/
def Call.pubs (d : Bool) (tokens : List Token) : Call → List Pub
  | .send w a s l => sendPubs w d tokens a s l
  | .pay w i s => payPubs w d tokens i s
  | .receive w ps m ds => receivePubs w ps m ds

/-- Event ids the call's signer may give to new token events. -/
def Call.signs : Call → List Proof → Option Bytes
  | .send w _ _ _ => w.sign
  | .pay w _ _ => w.sign
  | .receive w _ _ _ => w.sign

/-- The ids of published token events. -/
def created (pubs : List Pub) : List Bytes := pubs.filterMap (fun p => match p with
  | .token id _ _ _ => some id
  | _ => none)

/-- What relays keep of a published event, as a loading wallet sees it: events without a signature are refused. -/
def Pub.kept : Pub → Option LoadOp
  | .delete id true => some (.deletion [id])
  | .delete _ false => none
  | .token id _ _ del => some (.token id del)

/-- The tokens (by event id) of a device that has loaded these events, in some order and possibly several times, up to the end of stored events. -/
def Loads (pubs : List Pub) (ids : List Bytes) : Prop :=
  ∃ ops : List LoadOp, (∀ op, op ∈ ops ↔ op ∈ pubs.filterMap Pub.kept) ∧ ids = ((ops ++ [LoadOp.eose]).foldl loadStep emptyLoad).tokens

/-- A history of calls on a wallet that was empty: its tokens and everything published. -/
def history (d : Bool) (calls : List Call) : List Token × List Pub :=
  calls.foldl (fun s c => (c.after s.1, s.2 ++ c.pubs d s.1)) ([], [])

/-- In every call new event ids are new, and if a token was deleted then change was saved. -/
def Clean (d : Bool) (calls : List Call) : Prop :=
  ∀ (before : List Call) (c : Call) (rest : List Call), calls = before ++ c :: rest →
    (∀ ps id, c.signs ps = some id → id ∉ created (history d before).2) ∧
    ((∃ id s, Pub.delete id s ∈ c.pubs d (history d before).1) → ∃ id m ps del, Pub.token id m ps del ∈ c.pubs d (history d before).1)

/-! ## Calls and what they publish -/

/-- What one call does: nothing; or it adds a published token; or it replaces the used tokens by a published one; or (no change, or no event for it) it only deletes. -/
inductive Effect (d : Bool) (sign : List Proof → Option Bytes) (tokens : List Token) : List Token → List Pub → Prop
  | nothing : Effect d sign tokens tokens []
  | add (id mint : Bytes) (ps : List Proof) : sign ps = some id → Effect d sign tokens (tokens ++ [⟨mint, ps, some id⟩]) [.token id mint ps []]
  | replace (id mint : Bytes) (ps : List Proof) (used : List Nat) : sign ps = some id →
      Effect d sign tokens (without tokens used ++ [⟨mint, ps, some id⟩]) (deletions d tokens used ++ [.token id mint ps []])
  | only (used : List Nat) : Effect d sign tokens tokens (deletions d tokens used)

theorem save_effect (w : World) (d : Bool) (tokens : List Token) (mint : Bytes) (change : List Proof) (used : List Nat) :
    Effect d w.sign tokens ((saveChange w tokens mint change used).getD tokens) (savePubs w d tokens mint change used) := by
  unfold saveChange savePubs
  split
  · cases hs : w.sign change with
    | none => simpa using Effect.only used
    | some id => exact .replace id mint change used hs
  · simpa using Effect.only used

theorem call_effect (d : Bool) (tokens : List Token) (c : Call) : Effect d c.signs tokens (c.after tokens) (c.pubs d tokens) := by
  cases c with
  | send w a s l =>
    simp only [Call.after, Call.pubs, Call.signs, send, sendPubs]
    cases getProofs w.keysets a s [] tokens with
    | panic => exact .nothing
    | err e => exact .nothing
    | ok r =>
      obtain ⟨p, fee⟩ := r
      simp only
      split
      · exact .nothing
      · cases swapProofs w p.mint p.proofs a l with
        | panic => exact .nothing
        | err e => exact .nothing
        | ok q =>
          obtain ⟨out, change⟩ := q
          have h := save_effect w d tokens p.mint change p.indexes
          simp only
          cases hs : saveChange w tokens p.mint change p.indexes with
          | none => rw [hs] at h; exact h
          | some t => rw [hs] at h; exact h
  | pay w i s =>
    simp only [Call.after, Call.pubs, Call.signs, payBolt11, payPubs]
    cases satoshis i with
    | none => exact .nothing
    | some sats =>
      simp only
      cases findMelt w tokens i sats s 5 0 1 [] with
      | panic => exact .nothing
      | err e => exact .nothing
      | ok r =>
        obtain ⟨p, fee, q⟩ := r
        simp only
        split
        · exact .nothing
        · cases payOutputs w.toWorld p (addU sats fee) with
          | panic => exact .nothing
          | val outs =>
            simp only
            cases settle (w.melt p.mint q p.proofs outs) with
            | panic => exact .nothing
            | err e => exact .nothing
            | ok r =>
              obtain ⟨pre, sigs⟩ := r
              simp only
              cases construct (w.keys p.mint) outs sigs with
              | panic => exact .nothing
              | err e => exact .nothing
              | ok change =>
                have h := save_effect w.toWorld d tokens p.mint change p.indexes
                simp only
                cases hs : saveChange w.toWorld tokens p.mint change p.indexes with
                | none => rw [hs] at h; exact h
                | some t => rw [hs] at h; exact h
  | receive w ps m ds =>
    simp only [Call.after, Call.pubs, Call.signs, receive, receivePubs]
    split
    · exact .nothing
    · cases w.keysets (w.norm m) with
      | none => exact .nothing
      | some keysets =>
        simp only
        cases swapProofs w.toWorld (w.norm m) ps (amountOf ps) none with
        | panic => exact .nothing
        | err e => exact .nothing
        | ok r =>
          obtain ⟨new, _⟩ := r
          simp only
          generalize (if ds.contains (w.norm m) then moveTo w new (w.norm m) keysets ds else .ok (new, w.norm m)) = x
          cases x with
          | panic => exact .nothing
          | err e => exact .nothing
          | ok r =>
            obtain ⟨kept, at_⟩ := r
            simp only
            cases hs : w.sign kept with
            | none => exact .nothing
            | some id => exact .add id at_ kept hs

theorem created_append (a b : List Pub) : created (a ++ b) = created a ++ created b := by simp [created]

theorem mem_created {pubs : List Pub} {id : Bytes} : id ∈ created pubs ↔ ∃ m ps del, Pub.token id m ps del ∈ pubs := by
  simp only [created, List.mem_filterMap]
  constructor
  · rintro ⟨p, hp, e⟩
    cases p with
    | delete i s => cases e
    | token i m ps del => simp only [Option.some.injEq] at e; subst e; exact ⟨m, ps, del, hp⟩
  · rintro ⟨m, ps, del, h⟩
    exact ⟨_, h, rfl⟩

theorem mem_deletions {d : Bool} {tokens : List Token} {used : List Nat} {p : Pub} :
    p ∈ deletions d tokens used ↔ ∃ i t id, i ∈ used ∧ tokens[i]? = some t ∧ t.eventId = some id ∧ p = .delete id d := by
  simp only [deletions, List.mem_map, List.mem_filterMap, List.mem_filter, List.contains_iff_mem, Prod.exists]
  constructor
  · rintro ⟨id, ⟨t, i, ⟨h1, h2⟩, h3⟩, rfl⟩
    rw [List.mem_zipIdx_iff_getElem?] at h1
    exact ⟨i, t, id, h2, h1, h3, rfl⟩
  · rintro ⟨i, t, id, h1, h2, h3, rfl⟩
    exact ⟨id, ⟨t, i, ⟨List.mem_zipIdx_iff_getElem?.2 h2, h1⟩, h3⟩, rfl⟩

theorem mem_without {tokens : List Token} {used : List Nat} {t : Token} : t ∈ without tokens used ↔ ∃ i, i ∉ used ∧ tokens[i]? = some t := by
  simp only [without, List.mem_map, List.mem_filter, Prod.exists, exists_and_right, exists_eq_right, Bool.not_eq_true', List.contains_eq_mem, decide_eq_false_iff_not]
  constructor
  · rintro ⟨i, h1, h2⟩
    rw [List.mem_zipIdx_iff_getElem?] at h1
    exact ⟨i, h2, h1⟩
  · rintro ⟨i, h1, h2⟩
    exact ⟨i, List.mem_zipIdx_iff_getElem?.2 h2, h1⟩

/-- The wallet's tokens are those published and not deleted, each with the mint and the proofs published, and event ids are distinct. -/
structure Agrees (tokens : List Token) (pubs : List Pub) : Prop where
  ids : ∀ id, (∃ t ∈ tokens, t.eventId = some id) ↔ id ∈ created pubs ∧ Pub.delete id true ∉ pubs
  contents : ∀ t ∈ tokens, ∃ id, t.eventId = some id ∧ Pub.token id t.mint t.proofs [] ∈ pubs
  distinct : tokens.Pairwise (fun a b => a.eventId ≠ b.eventId)
  known : ∀ id s, Pub.delete id s ∈ pubs → id ∈ created pubs

theorem agrees_step {tokens tokens' : List Token} {pubs new : List Pub} {sign : List Proof → Option Bytes} (h : Agrees tokens pubs) (e : Effect true sign tokens tokens' new)
    (fresh : ∀ ps id, sign ps = some id → id ∉ created pubs) (saved : (∃ id s, Pub.delete id s ∈ new) → ∃ id m ps del, Pub.token id m ps del ∈ new) :
    Agrees tokens' (pubs ++ new) := by
  cases e with
  | nothing => simpa using h
  | only used =>
    have hn : deletions true tokens used = [] := by
      cases hd : deletions true tokens used with
      | nil => rfl
      | cons p l =>
        have hp : p ∈ deletions true tokens used := by rw [hd]; simp
        obtain ⟨i, t, id, -, -, -, rfl⟩ := mem_deletions.1 hp
        obtain ⟨id', m, ps, del, hm⟩ := saved ⟨id, true, hp⟩
        obtain ⟨_, _, _, -, -, -, he⟩ := mem_deletions.1 hm
        cases he
    rw [hn]
    simpa using h
  | add id mint ps hs =>
    have hf := fresh ps id hs
    refine ⟨fun y => ?_, fun t ht => ?_, ?_, fun y s hy => ?_⟩
    · have hc1 : created [Pub.token id mint ps []] = [id] := rfl
      rw [created_append, hc1]
      simp only [List.mem_append, List.mem_singleton, reduceCtorEq, or_false]
      constructor
      · rintro ⟨t, ht | ht, hy⟩
        · obtain ⟨h1, h2⟩ := (h.ids y).1 ⟨t, ht, hy⟩
          exact ⟨.inl h1, h2⟩
        · subst ht
          simp only [Option.some.injEq] at hy
          subst hy
          exact ⟨.inr rfl, fun hd => hf (h.known _ _ hd)⟩
      · rintro ⟨h1 | h1, h2⟩
        · obtain ⟨t, ht, hy⟩ := (h.ids y).2 ⟨h1, h2⟩
          exact ⟨t, .inl ht, hy⟩
        · exact ⟨_, .inr rfl, by rw [h1]⟩
    · rcases List.mem_append.1 ht with ht | ht
      · obtain ⟨i, h1, h2⟩ := h.contents t ht
        exact ⟨i, h1, List.mem_append_left _ h2⟩
      · rw [List.mem_singleton] at ht
        subst ht
        exact ⟨id, rfl, by simp⟩
    · rw [List.pairwise_append]
      refine ⟨h.distinct, by simp, fun a ha b hb => ?_⟩
      rw [List.mem_singleton] at hb
      subst hb
      intro he
      exact hf ((h.ids id).1 ⟨a, ha, he⟩).1
    · rw [created_append]
      rcases List.mem_append.1 hy with hy | hy
      · exact List.mem_append_left _ (h.known y s hy)
      · simp at hy
  | replace id mint ps used hs =>
    have hf := fresh ps id hs
    have hdist : ∀ {i j : Nat} {a b : Token}, tokens[i]? = some a → tokens[j]? = some b → a.eventId = b.eventId → i = j := by
      intro i j a b ha hb hab
      have hp := List.pairwise_iff_getElem.1 h.distinct
      obtain ⟨hi, rfl⟩ := List.getElem?_eq_some_iff.1 ha
      obtain ⟨hj, rfl⟩ := List.getElem?_eq_some_iff.1 hb
      rcases Nat.lt_trichotomy i j with hij | hij | hij
      · exact absurd hab (hp i j hi hj hij)
      · exact hij
      · exact absurd hab.symm (hp j i hj hi hij)
    have hcr : created (deletions true tokens used) = [] := by
      cases hd : created (deletions true tokens used) with
      | nil => rfl
      | cons y l =>
        have : y ∈ created (deletions true tokens used) := by rw [hd]; simp
        obtain ⟨m, ps, del, hm⟩ := mem_created.1 this
        obtain ⟨_, _, _, -, -, -, he⟩ := mem_deletions.1 hm
        cases he
    have hc1 : created [Pub.token id mint ps []] = [id] := rfl
    refine ⟨fun y => ?_, fun t ht => ?_, ?_, fun y s hy => ?_⟩
    · rw [created_append, created_append, hcr, hc1]
      simp only [List.nil_append, List.mem_append, List.mem_singleton, reduceCtorEq, or_false, not_or]
      constructor
      · rintro ⟨t, ht | ht, hy⟩
        · obtain ⟨i, hi, hti⟩ := mem_without.1 ht
          have hmem : t ∈ tokens := List.mem_of_getElem? hti
          obtain ⟨q1, q2⟩ := (h.ids y).1 ⟨t, hmem, hy⟩
          refine ⟨.inl q1, q2, fun hd => ?_⟩
          obtain ⟨j, t', id', hj, hj2, hj3, he⟩ := mem_deletions.1 hd
          simp only [Pub.delete.injEq] at he
          have := hdist hti hj2 (by rw [hy, hj3, he.1])
          exact hi (this ▸ hj)
        · subst ht
          simp only [Option.some.injEq] at hy
          subst hy
          refine ⟨.inr rfl, fun hd => hf (h.known _ _ hd), fun hd => ?_⟩
          obtain ⟨j, t', id', hj, hj2, hj3, he⟩ := mem_deletions.1 hd
          simp only [Pub.delete.injEq] at he
          rw [← he.1] at hj3
          exact hf ((h.ids id).1 ⟨t', List.mem_of_getElem? hj2, hj3⟩).1
      · rintro ⟨hy | hy, h2, h3⟩
        · obtain ⟨t, ht, hty⟩ := (h.ids y).2 ⟨hy, h2⟩
          obtain ⟨i, hi⟩ := List.getElem?_of_mem ht
          refine ⟨t, .inl (mem_without.2 ⟨i, fun hu => h3 (mem_deletions.2 ⟨i, t, y, hu, hi, hty, rfl⟩), hi⟩), hty⟩
        · exact ⟨_, .inr rfl, by rw [hy]⟩
    · rcases List.mem_append.1 ht with ht | ht
      · obtain ⟨i, hi, hti⟩ := mem_without.1 ht
        obtain ⟨i, h1, h2⟩ := h.contents t (List.mem_of_getElem? hti)
        exact ⟨i, h1, List.mem_append_left _ h2⟩
      · rw [List.mem_singleton] at ht
        subst ht
        exact ⟨id, rfl, by simp⟩
    · rw [List.pairwise_append]
      refine ⟨?_, by simp, fun a ha b hb => ?_⟩
      · unfold without
        rw [List.pairwise_map]
        refine List.Pairwise.filter _ ?_
        rw [List.pairwise_iff_getElem]
        intro i j hi hj hij
        simp only [List.length_zipIdx] at hi hj
        simp only [List.getElem_zipIdx]
        exact List.pairwise_iff_getElem.1 h.distinct i j hi hj hij
      · rw [List.mem_singleton] at hb
        subst hb
        intro he
        obtain ⟨i, hi, hti⟩ := mem_without.1 ha
        exact hf ((h.ids id).1 ⟨a, List.mem_of_getElem? hti, he⟩).1
    · rw [created_append]
      rcases List.mem_append.1 hy with hy | hy
      · exact List.mem_append_left _ (h.known y s hy)
      · rcases List.mem_append.1 hy with hy | hy
        · obtain ⟨j, t', id', hj, hj2, hj3, he⟩ := mem_deletions.1 hy
          simp only [Pub.delete.injEq] at he
          rw [he.1]
          exact List.mem_append_left _ ((h.ids id').1 ⟨t', List.mem_of_getElem? hj2, hj3⟩).1
        · simp at hy

theorem history_append (d : Bool) (a : List Call) (c : Call) :
    history d (a ++ [c]) = (c.after (history d a).1, (history d a).2 ++ c.pubs d (history d a).1) := by
  simp [history]

theorem agrees_history (calls : List Call) (hc : Clean true calls) : Agrees (history true calls).1 (history true calls).2 := by
  induction calls using List.reverseRecOn with
  | nil => exact ⟨by simp [history, created], by simp [history], by simp [history], by simp [history]⟩
  | append_singleton calls c ih =>
    have ih' := ih (fun b x r e => hc b x (r ++ [c]) (by rw [e]; simp))
    obtain ⟨h1, h2⟩ := hc calls c [] rfl
    rw [history_append]
    exact agrees_step ih' (call_effect true _ c) h1 h2

/-- Deletions all concern published tokens; tokens name no others in their `del` list. -/
theorem effect_del {d : Bool} {sign : List Proof → Option Bytes} {tokens tokens' : List Token} {new : List Pub} (e : Effect d sign tokens tokens' new) {id m : Bytes}
    {ps : List Proof} {del : List Bytes} (h : Pub.token id m ps del ∈ new) : del = [] := by
  cases e with
  | nothing => simp at h
  | add i m' ps' hs => simp only [List.mem_singleton, Pub.token.injEq] at h; exact h.2.2.2
  | replace i m' ps' used hs =>
    rcases List.mem_append.1 h with h | h
    · obtain ⟨_, _, _, -, -, -, he⟩ := mem_deletions.1 h; cases he
    · simp only [List.mem_singleton, Pub.token.injEq] at h; exact h.2.2.2
  | only used => obtain ⟨_, _, _, -, -, -, he⟩ := mem_deletions.1 h; cases he

/-- **C171 (`del` is never used).** No token event a wallet publishes names the tokens it replaces: its `del` list is always empty. Who relies on that list alone sees spent tokens. -/
theorem C171_del_empty (d : Bool) (calls : List Call) (id m : Bytes) (ps : List Proof) (del : List Bytes) (h : Pub.token id m ps del ∈ (history d calls).2) : del = [] := by
  induction calls using List.reverseRecOn with
  | nil => simp [history] at h
  | append_singleton calls c ih =>
    rw [history_append] at h
    rcases List.mem_append.1 h with h | h
    · exact ih h
    · exact effect_del (call_effect d _ c) h

theorem loads_iff {d : Bool} {calls : List Call} {ids : List Bytes} (hl : Loads (history d calls).2 ids) (y : Bytes) :
    y ∈ ids ↔ y ∈ created (history d calls).2 ∧ Pub.delete y true ∉ (history d calls).2 := by
  obtain ⟨ops, ho, rfl⟩ := hl
  have hne : LoadOp.eose ∉ ops := by
    intro h
    obtain ⟨p, -, hp⟩ := List.mem_filterMap.1 ((ho _).1 h)
    cases p with
    | delete i s => cases s <;> simp [Pub.kept] at hp
    | token i m ps del => simp [Pub.kept] at hp
  rw [C94_stored_events ops hne]
  have r1 : y ∈ ops.flatMap LoadOp.received ↔ y ∈ created (history d calls).2 := by
    rw [mem_created]
    simp only [List.mem_flatMap, ho, List.mem_filterMap]
    constructor
    · rintro ⟨op, ⟨p, hp, he⟩, hy⟩
      cases p with
      | delete i s => cases s <;> simp [Pub.kept] at he; subst he; simp [LoadOp.received] at hy
      | token i m ps del =>
        simp only [Pub.kept, Option.some.injEq] at he
        subst he
        simp only [LoadOp.received, List.mem_singleton] at hy
        subst hy
        exact ⟨m, ps, del, hp⟩
    · rintro ⟨m, ps, del, hp⟩
      exact ⟨.token y del, ⟨_, hp, rfl⟩, by simp [LoadOp.received]⟩
  have r2 : y ∈ ops.flatMap LoadOp.deleted ↔ Pub.delete y true ∈ (history d calls).2 := by
    simp only [List.mem_flatMap, ho, List.mem_filterMap]
    constructor
    · rintro ⟨op, ⟨p, hp, he⟩, hy⟩
      cases p with
      | delete i s =>
        cases s with
        | false => simp [Pub.kept] at he
        | true =>
          simp only [Pub.kept, Option.some.injEq] at he
          subst he
          simp only [LoadOp.deleted, List.mem_singleton] at hy
          subst hy
          exact hp
      | token i m ps del =>
        simp only [Pub.kept, Option.some.injEq] at he
        subst he
        simp only [LoadOp.deleted] at hy
        rw [C171_del_empty d calls i m ps del hp] at hy
        simp at hy
    · intro hp
      exact ⟨.deletion [y], ⟨_, hp, rfl⟩, by simp [LoadOp.deleted]⟩
  rw [r1, r2]

/-- **C171 (other devices agree).** After any history of sends, payments and receipts on a wallet that was empty, in which new events have new ids and every call that deleted tokens saved change, a device
that loads the published events, in whatever order, holds exactly the wallet's tokens, and each was published with its mint and proofs. Missing for the full property: calls that
delete tokens and save no change (`C171_exact_spend_diverges`, `C171_failed_change_diverges`), deletions that cannot be signed (`C171_unsigned_deletion`). -/
theorem C171_devices_agree_partial (calls : List Call) (hc : Clean true calls) (ids : List Bytes) (hl : Loads (history true calls).2 ids) :
    (∀ id, id ∈ ids ↔ ∃ t ∈ (history true calls).1, t.eventId = some id) ∧
    ∀ t ∈ (history true calls).1, ∃ id, t.eventId = some id ∧ Pub.token id t.mint t.proofs [] ∈ (history true calls).2 := by
  have h := agrees_history calls hc
  exact ⟨fun id => by rw [loads_iff hl, h.ids], h.contents⟩

/-! ## Where devices disagree -/

/-- **C171 is false for exact spends.** Whenever the chosen tokens are worth exactly amount and fee, a successful send deletes every chosen token for all other devices and keeps all of them in its own wallet. -/
theorem C171_exact_spend_diverges (w : World) (hw : Honest w) (tokens : List Token) (amount : Nat) (specific : Bytes) (lock : Option Bytes) (out : List Proof)
    (tokens' : List Token) (p : Part) (fee : Nat) (hg : getProofs w.keysets amount specific [] tokens = .ok (p, fee))
    (hb : total p.proofs + fee < 18446744073709551616) (hx : total p.proofs = amount + fee) (h : send w tokens amount specific lock = (.ok out, tokens'))
    (i : Nat) (t : Token) (id : Bytes) (hi : i ∈ p.indexes) (ht : tokens[i]? = some t) (hid : t.eventId = some id) :
    Pub.delete id true ∈ sendPubs w true tokens amount specific lock ∧ t ∈ tokens' := by
  have hk := (C82_exact_spend_keeps_tokens w hw tokens amount specific lock out tokens' p fee hg hb hx h).1
  refine ⟨?_, hk ▸ List.mem_of_getElem? ht⟩
  unfold sendPubs
  unfold send at h
  rw [hg] at h ⊢
  simp only at h ⊢
  split
  · next hl => rw [if_pos hl] at h; cases h
  · next hl =>
    rw [if_neg hl] at h
    cases hs : swapProofs w p.mint p.proofs amount lock with
    | panic => rw [hs] at h; cases h
    | err e => rw [hs] at h; cases h
    | ok r =>
      exact List.mem_append_left _ (mem_deletions.2 ⟨i, t, id, hi, ht, hid, rfl⟩)

example : ∃ t, send (toyWorld 0) [⟨b! "m", [⟨8, b! "k", none⟩], some (b! "e")⟩] 8 [] none = (.ok [⟨8, b! "k", none⟩], t) ∧ b! "e" ∈ t.filterMap (·.eventId) ∧
    sendPubs (toyWorld 0) true [⟨b! "m", [⟨8, b! "k", none⟩], some (b! "e")⟩] 8 [] none = [.delete (b! "e") true] :=
  ⟨[⟨b! "m", [⟨8, b! "k", none⟩], some (b! "e")⟩], by decide +kernel⟩

/-- **C171 is false when the change token cannot be made.** The spent tokens are deleted for all other devices before; this wallet keeps them and `Send` fails. -/
theorem C171_failed_change_diverges : ∃ (w : World) (tokens : List Token), (send w tokens 4 [] none).1 = .err .changeEvent ∧ (send w tokens 4 [] none).2 = tokens ∧
    sendPubs w true tokens 4 [] none = [.delete (b! "e") true] ∧ b! "e" ∈ tokens.filterMap (·.eventId) :=
  ⟨{ toyWorld 0 with sign := fun _ => none }, [⟨b! "m", [⟨8, b! "k", none⟩], some (b! "e")⟩], by decide +kernel⟩

/-- A history: a token of 8 is received, then 4 are sent. -/
def exCalls : List Call :=
  [.receive { toyWorld 0 with
      nut08 := fun _ => true, active := fun _ => true, meltQuote := fun _ _ _ => none, melt := fun _ _ _ _ => [], mintQuote := fun _ _ _ => none, mintState := fun _ _ => none,
      mint := fun _ _ _ => none, norm := id, htlc := fun _ => false, sign := fun _ => some (b! "e") } [⟨8, b! "k", none⟩] (b! "m") [],
   .send (toyWorld 0) 4 [] none]

/-- **C171 is false when deletions are not signed.** The error of signing the deletion is ignored; relays refuse the event, and other devices still hold the spent token next to the change. -/
theorem C171_unsigned_deletion : (history false exCalls).1.map (·.eventId) = [some (b! "new")] ∧
    ((((history false exCalls).2.filterMap Pub.kept) ++ [LoadOp.eose]).foldl loadStep emptyLoad).tokens = [b! "e", b! "new"] := by decide +kernel

theorem exCalls_clean : Clean true exCalls := by
  intro before c rest e
  match before, e with
  | [], e =>
    simp only [exCalls, List.nil_append, List.cons.injEq] at e
    obtain ⟨rfl, -⟩ := e
    exact ⟨by simp [history, created], fun _ => ⟨b! "e", b! "m", [⟨8, b! "k", none⟩], [], by decide +kernel⟩⟩
  | [x], e =>
    simp only [exCalls, List.cons_append, List.nil_append, List.cons.injEq] at e
    obtain ⟨rfl, rfl, -⟩ := e
    refine ⟨fun ps id hs => ?_, fun _ => ⟨b! "new", b! "m", [⟨4, b! "k", none⟩], [], by decide +kernel⟩⟩
    simp only [Call.signs, toyWorld, Option.some.injEq] at hs
    subst hs
    decide +kernel
  | x :: y :: l, e =>
    simp only [exCalls, List.cons_append, List.cons.injEq] at e
    obtain ⟨-, -, e⟩ := e
    cases l <;> cases e

example : Clean true exCalls ∧ (history true exCalls).1.map (fun t => (t.eventId, total t.proofs)) = [(some (b! "new"), 4)] ∧
    (history true exCalls).2 = [.token (b! "e") (b! "m") [⟨8, b! "k", none⟩] [], .delete (b! "e") true, .token (b! "new") (b! "m") [⟨4, b! "k", none⟩] []] :=
  ⟨exCalls_clean, by decide +kernel⟩

/-! ## The wallet's own events come back -/

/-- The loader gets a token event (wallet.go:186-190). -/
def echo (tokens : List Token) (t : Token) : List Token := if tokens.any (fun c => c.eventId == t.eventId) then tokens else tokens ++ [t]

/-- `Receive` publishes the new token event and only then takes `tokensMu` and appends the token (receive.go:149-158); the event may come back from a relay any number of times before and after that. -/
def receiveEchoed (tokens : List Token) (t : Token) (before after : Nat) : List Token :=
  (List.replicate after t).foldl echo ((List.replicate before t).foldl echo tokens ++ [t])

theorem echo_known {tokens : List Token} {t : Token} (h : ∃ c ∈ tokens, c.eventId = t.eventId) : ∀ n, (List.replicate n t).foldl echo tokens = tokens
  | 0 => rfl
  | n + 1 => by
    rw [List.replicate_succ, List.foldl_cons]
    have : echo tokens t = tokens := by
      obtain ⟨c, hc, he⟩ := h
      unfold echo
      rw [if_pos (List.any_eq_true.2 ⟨c, hc, by simp [he]⟩)]
    rw [this]
    exact echo_known h n

/-- **C171 (a token is received twice).** A token that is new is in the wallet once if its event first comes back after `Receive` has stored it, and twice if it comes back at least once before: then the wallet's balance counts it twice. -/
theorem C171_received_twice (tokens : List Token) (t : Token) (hnew : ∀ c ∈ tokens, c.eventId ≠ t.eventId) (after : Nat) :
    receiveEchoed tokens t 0 after = tokens ++ [t] ∧
    ∀ before, receiveEchoed tokens t (before + 1) after = tokens ++ [t, t] ∧
      balance (receiveEchoed tokens t (before + 1) after) = balance tokens + 2 * total t.proofs := by
  have h1 : receiveEchoed tokens t 0 after = tokens ++ [t] := by
    unfold receiveEchoed
    exact echo_known ⟨t, by simp, rfl⟩ after
  refine ⟨h1, fun before => ?_⟩
  have h2 : receiveEchoed tokens t (before + 1) after = tokens ++ [t, t] := by
    unfold receiveEchoed
    have e : echo tokens t = tokens ++ [t] := by
      unfold echo
      rw [if_neg]
      intro h
      obtain ⟨c, hc, he⟩ := List.any_eq_true.1 h
      exact hnew c hc (by simpa using he)
    rw [List.replicate_succ, List.foldl_cons, e, echo_known ⟨t, by simp, rfl⟩ before, echo_known ⟨t, by simp, rfl⟩ after]
    simp
  refine ⟨h2, ?_⟩
  rw [h2, balance_append]
  simp [balance]
  omega

example : balance (receiveEchoed [] ⟨b! "m", [⟨8, b! "k", none⟩], some (b! "e")⟩ 1 0) = 16 := by decide +kernel

end GoNostr.Nip60
