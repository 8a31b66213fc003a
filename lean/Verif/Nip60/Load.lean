import Verif.Nip60.Wallet
/-!
# C84, C94: loading the wallet from events (nip60/wallet.go)

The three goroutines of `loadWallet` are modelled as one sequence of steps: a wallet event, a token event, a deletion event, the end of stored events. The step at the end of stored
events runs without the lock in the code (wallet.go:129-141); here it is atomic.
-/

set_option autoImplicit false

namespace GoNostr.Nip60

/-! ## Wallet metadata -/

/-- A kind 17375 event after decryption: its time, whether decrypting and unmarshalling the content work, the tags inside the content (`none` for an empty content) and the public tags. -/
structure MetaEvent where
  createdAt : Int
  opened : Bool
  hidden : Option (List (List Bytes))
  pub : List (List Bytes)
  deriving DecidableEq, Repr

/-- The wallet's metadata: `event`, `Mints`, `PrivateKey` (nip60/wallet.go:19-50). -/
structure Meta where
  event : Option MetaEvent
  mints : List Bytes
  key : Option Bytes
  deriving DecidableEq, Repr

/-- The loop over the tags (wallet.go:420-434): mints and key so far; a key that is not hex is an error. -/
def readTags : List (List Bytes) → List Bytes → Option Bytes → Option (List Bytes × Option Bytes)
  | [], ms, k => some (ms, k)
  | (a :: v :: _) :: rest, ms, k =>
    if a = b! "mint" then readTags rest (ms ++ [v]) k
    else if a = b! "privkey" then (hexDec v).bind (fun sk => readTags rest ms (some sk))
    else readTags rest ms k
  | _ :: rest, ms, k => readTags rest ms k

/-- The tags `parse` looks at (wallet.go:408-415): the public ones only count if there is a content. -/
def MetaEvent.tags (e : MetaEvent) : List (List Bytes) := match e.hidden with
  | none => []
  | some t => t ++ e.pub

/-- `Wallet.parse` (wallet.go:397-444): success and the new metadata. -/
def parseMeta (w : Meta) (e : MetaEvent) : Bool × Meta :=
  let w1 := { w with event := some e }
  if ¬ e.opened then (false, w1)
  else match readTags e.tags [] none with
    | none => (false, w1)
    | some (ms, k) => (true, { w1 with mints := ms, key := k.or w.key })

/-- The case for kind 17375 in `loadWallet` (wallet.go:163-175). -/
def onMeta (w : Meta) (e : MetaEvent) : Meta :=
  let (ok, w1) := parseMeta w e
  if ¬ ok then w1
  else match w1.event with
    | none => (parseMeta w1 e).2
    | some cur => if e.createdAt > cur.createdAt then (parseMeta w1 e).2 else w1

/-- The empty wallet (wallet.go:120-126). -/
def emptyMeta : Meta := ⟨none, [], none⟩

/-! ### Specification -/

/-- What an event says: its mints in order, and its last private key. -/
def mintsOf (tags : List (List Bytes)) : List Bytes := tags.filterMap (fun t => match t with
  | a :: v :: _ => if a = b! "mint" then some v else none
  | _ => none)

/-- Specification: the private keys of an event, in order. -/
def keysOf (tags : List (List Bytes)) : List Bytes := tags.filterMap (fun t => match t with
  | a :: v :: _ => if a = b! "privkey" then some v else none
  | _ => none)

/-- The event can be read: it decrypts and its keys are hex. -/
def Readable (e : MetaEvent) : Prop := e.opened = true ∧ ∀ k ∈ keysOf e.tags, (hexDec k).isSome

theorem readTags_spec : ∀ (tags : List (List Bytes)) (ms : List Bytes) (k : Option Bytes),
    (∀ k' ∈ keysOf tags, (hexDec k').isSome) →
    readTags tags ms k = some (ms ++ mintsOf tags, ((keysOf tags).getLast?.bind hexDec).or k)
  | [], ms, k, _ => by simp [readTags, mintsOf, keysOf]
  | [] :: rest, ms, k, h => by
    have := readTags_spec rest ms k h
    simpa [readTags, mintsOf, keysOf] using this
  | [a] :: rest, ms, k, h => by
    have := readTags_spec rest ms k h
    simpa [readTags, mintsOf, keysOf] using this
  | (a :: v :: t) :: rest, ms, k, h => by
    by_cases hm : a = b! "mint"
    · have e1 : mintsOf ((a :: v :: t) :: rest) = v :: mintsOf rest := by simp [mintsOf, hm]
      have hne : ¬ a = b! "privkey" := by rw [hm]; decide +kernel
      have e2 : keysOf ((a :: v :: t) :: rest) = keysOf rest := by simp [keysOf, hne]
      rw [e2] at h ⊢
      rw [readTags, if_pos hm, readTags_spec rest _ k h, e1]
      simp
    · have e1 : mintsOf ((a :: v :: t) :: rest) = mintsOf rest := by simp [mintsOf, hm]
      by_cases hp : a = b! "privkey"
      · have e2 : keysOf ((a :: v :: t) :: rest) = v :: keysOf rest := by simp [keysOf, hp]
        rw [e2] at h
        obtain ⟨sk, hsk⟩ := Option.isSome_iff_exists.1 (h v (by simp))
        rw [readTags, if_neg hm, if_pos hp, hsk, Option.bind_some,
          readTags_spec rest ms (some sk) (fun k' hk => h k' (List.mem_cons_of_mem _ hk)), e1, e2]
        cases hl : (keysOf rest).getLast? with
        | none => simp [List.getLast?_cons, hl, hsk]
        | some x =>
          have hx : x ∈ keysOf rest := List.mem_of_getLast? hl
          obtain ⟨y, hy⟩ := Option.isSome_iff_exists.1 (h x (List.mem_cons_of_mem _ hx))
          simp [List.getLast?_cons, hl, hy]
      · have e2 : keysOf ((a :: v :: t) :: rest) = keysOf rest := by simp [keysOf, hp]
        rw [e2] at h ⊢
        rw [readTags, if_neg hm, if_neg hp, readTags_spec rest _ k h, e1]

theorem onMeta_readable (w : Meta) (e : MetaEvent) (h : Readable e) :
    onMeta w e = ⟨some e, mintsOf e.tags, ((keysOf e.tags).getLast?.bind hexDec).or w.key⟩ := by
  have h1 := readTags_spec e.tags [] none h.2
  unfold onMeta parseMeta
  rw [h1]
  simp [h.1]

/-- **C84 (what it does).** After any sequence of readable wallet events, the mints are those of the event processed *last*, and the key is the last key seen. -/
theorem C84_last_processed_wins (w : Meta) (es : List MetaEvent) (e : MetaEvent) (h : ∀ x ∈ es ++ [e], Readable x) :
    ((es ++ [e]).foldl onMeta w).mints = mintsOf e.tags ∧ ((es ++ [e]).foldl onMeta w).event = some e := by
  rw [List.foldl_append]
  simp only [List.foldl_cons, List.foldl_nil]
  rw [onMeta_readable _ e (h e (by simp))]
  exact ⟨rfl, rfl⟩

/-- **C84 (inside one event).** The mints are those hidden in the content, then the public ones; a public key tag overrides a hidden one; with an empty content the public tags do not count. -/
theorem C84_hidden_then_public (w : Meta) (e : MetaEvent) (h : Readable e) :
    (∀ t, e.hidden = some t → (onMeta w e).mints = mintsOf t ++ mintsOf e.pub ∧
      (onMeta w e).key = (((keysOf e.pub).getLast?.or (keysOf t).getLast?).bind hexDec).or w.key) ∧
    (e.hidden = none → (onMeta w e).mints = [] ∧ (onMeta w e).key = w.key) := by
  rw [onMeta_readable w e h]
  refine ⟨fun t ht => ?_, fun hn => ?_⟩
  · simp [MetaEvent.tags, ht, mintsOf, keysOf, List.filterMap_append, List.getLast?_append]
  · simp [MetaEvent.tags, hn, mintsOf, keysOf]

example : Readable ⟨5, true, some [[b! "mint", b! "a"], [b! "privkey", b! "01"]], [[b! "mint", b! "b"]]⟩ := by
  refine ⟨rfl, ?_⟩
  decide +kernel

/-- **C84 (in order).** If the wallet events arrive oldest first and each carries a key, mints and key are those of the newest one. Missing for the full property: other orders of arrival
(refuted by `C84_older_event_overrides`) and events without a key (the older key stays). -/
theorem C84_newest_partial (es : List MetaEvent) (e : MetaEvent) (h : ∀ x ∈ es ++ [e], Readable x)
    (hord : (es ++ [e]).Pairwise (fun a b => a.createdAt ≤ b.createdAt)) (hk : keysOf e.tags ≠ []) :
    (∀ x ∈ es, x.createdAt ≤ e.createdAt) ∧
    (((es ++ [e]).foldl onMeta emptyMeta).mints = mintsOf e.tags ∧
     ((es ++ [e]).foldl onMeta emptyMeta).key = ((keysOf e.tags).getLast?).bind hexDec) := by
  refine ⟨fun x hx => (List.pairwise_append.1 hord).2.2 x hx e (by simp), (C84_last_processed_wins _ _ _ h).1, ?_⟩
  rw [List.foldl_append]
  simp only [List.foldl_cons, List.foldl_nil]
  have hr := h e (by simp)
  rw [onMeta_readable _ e hr]
  simp only
  have hl : (keysOf e.tags).getLast? = some ((keysOf e.tags).getLast hk) := List.getLast?_eq_some_getLast hk
  rw [hl, Option.bind_some]
  obtain ⟨y, hy⟩ := Option.isSome_iff_exists.1 (hr.2 _ (List.getLast_mem hk))
  rw [hy]
  rfl

/-- A value of the examples. -/
def metaEvent (t : Int) (mint : Bytes) : MetaEvent := ⟨t, true, some [[b! "privkey", b! "01"], [b! "mint", mint]], []⟩

example : Readable (metaEvent 5 (b! "https://a")) ∧ keysOf (metaEvent 5 (b! "https://a")).tags ≠ [] := by
  refine ⟨⟨rfl, ?_⟩, by decide +kernel⟩
  intro k hk
  have : keysOf (metaEvent 5 (b! "https://a")).tags = [b! "01"] := by decide +kernel
  rw [this] at hk
  simp at hk
  subst hk
  decide +kernel

/-- **C84 is false.** The check for a newer event comes after the event has already been taken (wallet.go:164, 398): an older event that arrives later replaces the newer metadata. -/
theorem C84_older_event_overrides :
    ∃ new old : MetaEvent, old.createdAt < new.createdAt ∧ Readable new ∧ Readable old ∧
      ([new, old].foldl onMeta emptyMeta).mints = mintsOf old.tags ∧ mintsOf old.tags ≠ mintsOf new.tags := by
  refine ⟨metaEvent 9 (b! "https://new"), metaEvent 5 (b! "https://old"), by decide +kernel, ?_, ?_, by decide +kernel, by decide +kernel⟩ <;>
  · refine ⟨rfl, ?_⟩
    intro k hk
    simp [metaEvent, MetaEvent.tags, keysOf, Bytes] at hk
    revert hk
    first
      | (intro hk; subst hk; decide +kernel)
      | (intro hk; rcases hk with hk | hk <;> simp_all)

theorem readTags_bad : ∀ (tags : List (List Bytes)) (ms : List Bytes) (k : Option Bytes), (∃ k' ∈ keysOf tags, hexDec k' = none) → readTags tags ms k = none
  | [], ms, k, h => by simp [keysOf] at h
  | [] :: rest, ms, k, h => by simpa [readTags] using readTags_bad rest ms k (by simpa [keysOf] using h)
  | [a] :: rest, ms, k, h => by simpa [readTags] using readTags_bad rest ms k (by simpa [keysOf] using h)
  | (a :: v :: t) :: rest, ms, k, h => by
    by_cases hm : a = b! "mint"
    · have hne : ¬ a = b! "privkey" := by rw [hm]; decide +kernel
      have e2 : keysOf ((a :: v :: t) :: rest) = keysOf rest := by simp [keysOf, hne]
      rw [e2] at h
      rw [readTags, if_pos hm, readTags_bad rest _ k h]
    · by_cases hp : a = b! "privkey"
      · have e2 : keysOf ((a :: v :: t) :: rest) = v :: keysOf rest := by simp [keysOf, hp]
        rw [e2] at h
        rw [readTags, if_neg hm, if_pos hp]
        cases hv : hexDec v with
        | none => rfl
        | some sk =>
          rw [Option.bind_some]
          obtain ⟨k', hk', hn⟩ := h
          rcases List.mem_cons.1 hk' with rfl | hk'
          · rw [hv] at hn
            cases hn
          · exact readTags_bad rest ms (some sk) ⟨k', hk', hn⟩
      · have e2 : keysOf ((a :: v :: t) :: rest) = keysOf rest := by simp [keysOf, hp]
        rw [e2] at h
        rw [readTags, if_neg hm, if_neg hp, readTags_bad rest _ k h]

theorem unreadable (e : MetaEvent) (h : ¬ Readable e) : e.opened = false ∨ readTags e.tags [] none = none := by
  unfold Readable at h
  rw [Classical.not_and_iff_not_or_not] at h
  rcases h with h | h
  · exact .inl (by simpa using h)
  · refine .inr (readTags_bad _ _ _ ?_)
    simpa [Option.isSome_iff_ne_none] using h

/-- **C84 (unreadable events).** An event that cannot be read, or one of whose keys is not hex, leaves mints and key alone, but replaces the wallet's event. -/
theorem C84_unreadable (w : Meta) (e : MetaEvent) (h : ¬ Readable e) : onMeta w e = { w with event := some e } := by
  rcases unreadable e h with h | h <;> simp [onMeta, parseMeta, h]

/-- **C84 (what is reported).** The error handed to `Processed` is nil exactly if the event can be read. -/
theorem C84_reported (w : Meta) (e : MetaEvent) : (parseMeta w e).1 = true ↔ Readable e := by
  constructor
  · intro ht
    refine Classical.byContradiction fun h => ?_
    rcases unreadable e h with h | h <;> simp [parseMeta, h] at ht
  · intro h
    simp [parseMeta, h.1, readTags_spec e.tags [] none h.2]

example : ¬ Readable ⟨5, true, some [[b! "privkey", b! "zz"]], []⟩ ∧ ¬ Readable ⟨5, false, none, []⟩ ∧ Readable ⟨5, true, some [[b! "privkey", b! "0a"]], []⟩ := by
  refine ⟨?_, ?_, ?_⟩ <;> simp only [Readable] <;> decide +kernel

/-! ## Tokens and deletions (C94) -/

/-- What the loader sees: a token event (its id and the ids in its `del` list), a deletion event (its `e` tags), the end of stored events. -/
inductive LoadOp
  | token (id : Bytes) (del : List Bytes)
  | deletion (ids : List Bytes)
  | eose
  deriving DecidableEq, Repr

/-- The wallet's tokens (by event id), `pendingDeletions`, `eosed`. -/
structure Load where
  tokens : List Bytes
  pending : List Bytes
  eosed : Bool
  deriving DecidableEq, Repr

/-- The loop of `removeDeletedToken` (wallet.go:235-244), at indices below `t`: the last token is moved into the gap. -/
def removeBelow (id : Bytes) : Nat → List Bytes → List Bytes
  | 0, l => l
  | t + 1, l => match l[t]? with
    | some x => if x = id then removeBelow id t ((l.set t (l.getLast?.getD [])).dropLast) else removeBelow id t l
    | none => removeBelow id t l

/-- `removeDeletedToken` (nip60/wallet.go:235-244). -/
def removeDeleted (l : List Bytes) (id : Bytes) : List Bytes := removeBelow id l.length l

/-- One step of the loader (wallet.go:129-137, 143-157, 176-201). -/
def loadStep (w : Load) : LoadOp → Load
  | .token id del =>
    let tokens := if w.tokens.contains id then w.tokens else w.tokens ++ [id]
    if w.eosed then { w with tokens := del.foldl removeDeleted tokens }
    else { w with tokens := tokens, pending := w.pending ++ del }
  | .deletion ids => if w.eosed then { w with tokens := ids.foldl removeDeleted w.tokens } else { w with pending := w.pending ++ ids }
  | .eose => { tokens := w.pending.foldl removeDeleted w.tokens, pending := [], eosed := true }

/-- The wallet before anything arrived (nip60/wallet.go:120-126). -/
def emptyLoad : Load := ⟨[], [], false⟩

/-! ### Specification -/

/-- The token an event brings. -/
def LoadOp.received : LoadOp → List Bytes
  | .token id _ => [id]
  | _ => []

/-- The tokens an event deletes. -/
def LoadOp.deleted : LoadOp → List Bytes
  | .token _ del => del
  | .deletion ids => ids
  | .eose => []

theorem mem_swapDelete {l : List Bytes} {t : Nat} {x : Bytes} (hx : l[t]? = some x) (y : Bytes) :
    y ∈ (l.set t (l.getLast?.getD [])).dropLast ↔ ∃ i, i ≠ t ∧ l[i]? = some y := by
  obtain ⟨ht, hxe⟩ := List.getElem?_eq_some_iff.1 hx
  have hne : l ≠ [] := by rintro rfl; simp at ht
  have hlast : l.getLast?.getD [] = l[l.length - 1]'(by omega) := by
    rw [List.getLast?_eq_getElem?, List.getElem?_eq_getElem (by omega)]; rfl
  rw [hlast, List.mem_iff_getElem?]
  constructor
  · rintro ⟨i, hi⟩
    rw [List.getElem?_dropLast] at hi
    simp only [List.length_set] at hi
    split at hi
    · next hlt =>
      rw [List.getElem?_set] at hi
      split at hi
      · next heq =>
        subst heq
        simp only [Option.some.injEq] at hi
        exact ⟨l.length - 1, by omega, by rw [List.getElem?_eq_getElem (by omega)]; exact congrArg some hi⟩
      · next hneq => exact ⟨i, fun h => hneq h.symm, hi⟩
    · cases hi
  · rintro ⟨i, hit, hi⟩
    have hil := (List.getElem?_eq_some_iff.1 hi).1
    by_cases hl : i = l.length - 1
    · refine ⟨t, ?_⟩
      rw [List.getElem?_dropLast]
      simp only [List.length_set]
      rw [if_pos (by omega), List.getElem?_set_self ht]
      rw [hl, List.getElem?_eq_getElem (by omega)] at hi
      exact hi
    · refine ⟨i, ?_⟩
      rw [List.getElem?_dropLast]
      simp only [List.length_set]
      rw [if_pos (by omega), List.getElem?_set_ne (Ne.symm hit)]
      exact hi

theorem removeBelow_spec (id : Bytes) : ∀ (t : Nat) (l : List Bytes), t ≤ l.length → (∀ i, t ≤ i → l[i]? ≠ some id) →
    ∀ y, y ∈ removeBelow id t l ↔ y ∈ l ∧ y ≠ id
  | 0, l, _, h, y => by
    rw [removeBelow]
    refine ⟨fun hy => ⟨hy, ?_⟩, fun hy => hy.1⟩
    rintro rfl
    obtain ⟨i, hi⟩ := List.mem_iff_getElem?.1 hy
    exact h i (Nat.zero_le _) hi
  | t + 1, l, hl, h, y => by
    have ht : l[t]? = some l[t] := List.getElem?_eq_getElem (by omega)
    rw [removeBelow, ht]
    simp only
    by_cases hx : l[t] = id
    · rw [if_pos hx]
      have hm := fun y => mem_swapDelete ht y
      have hlen : t ≤ ((l.set t (l.getLast?.getD [])).dropLast).length := by simp; omega
      have hno : ∀ i, t ≤ i → ((l.set t (l.getLast?.getD [])).dropLast)[i]? ≠ some id := by
        intro i hi hc
        rw [List.getElem?_dropLast] at hc
        simp only [List.length_set] at hc
        split at hc
        · next hlt =>
          rw [List.getElem?_set] at hc
          split at hc
          · next heq =>
            simp only [show t < l.length by omega, if_true, Option.some.injEq] at hc
            rw [List.getLast?_eq_getElem?, List.getElem?_eq_getElem (by omega)] at hc
            exact h (l.length - 1) (by omega) (by rw [List.getElem?_eq_getElem (by omega)]; exact congrArg some hc)
          · next hneq => exact h i (by omega) hc
        · cases hc
      rw [removeBelow_spec id t _ hlen hno y, hm y]
      constructor
      · rintro ⟨⟨i, _, hi⟩, hy⟩
        exact ⟨List.mem_of_getElem? hi, hy⟩
      · rintro ⟨hy, hne⟩
        obtain ⟨i, hi⟩ := List.mem_iff_getElem?.1 hy
        refine ⟨⟨i, ?_, hi⟩, hne⟩
        rintro rfl
        rw [ht, Option.some.injEq] at hi
        exact hne (hi.symm.trans hx)
    · rw [if_neg hx]
      refine removeBelow_spec id t l (by omega) ?_ y
      intro i hi hc
      rcases Nat.lt_or_ge t i with h' | h'
      · exact h i h' hc
      · have : i = t := by omega
        subst this
        rw [ht, Option.some.injEq] at hc
        exact hx hc

/-- `removeDeletedToken` removes exactly the tokens with that id. -/
theorem mem_removeDeleted (l : List Bytes) (id y : Bytes) : y ∈ removeDeleted l id ↔ y ∈ l ∧ y ≠ id := by
  unfold removeDeleted
  refine removeBelow_spec id l.length l (Nat.le_refl _) ?_ y
  intro i hi hc
  have := (List.getElem?_eq_some_iff.1 hc).1
  omega

theorem mem_removeAll : ∀ (ids l : List Bytes) (y : Bytes), y ∈ ids.foldl removeDeleted l ↔ y ∈ l ∧ y ∉ ids
  | [], l, y => by simp
  | a :: ids, l, y => by
    rw [List.foldl_cons, mem_removeAll ids, mem_removeDeleted]
    simp only [List.mem_cons, not_or]
    constructor
    · rintro ⟨⟨h1, h2⟩, h3⟩; exact ⟨h1, h2, h3⟩
    · rintro ⟨h1, h2, h3⟩; exact ⟨⟨h1, h2⟩, h3⟩

theorem mem_tokenAdd (l : List Bytes) (id y : Bytes) : y ∈ (if l.contains id then l else l ++ [id]) ↔ y ∈ l ∨ y = id := by
  by_cases h : id ∈ l
  · simp [h]
    rintro rfl
    exact h
  · simp [h]

/-- State before the end of stored events. -/
theorem load_before : ∀ (ops : List LoadOp) (w : Load), w.eosed = false → LoadOp.eose ∉ ops →
    (ops.foldl loadStep w).eosed = false ∧
    (∀ y, y ∈ (ops.foldl loadStep w).tokens ↔ y ∈ w.tokens ∨ y ∈ ops.flatMap LoadOp.received) ∧
    (∀ y, y ∈ (ops.foldl loadStep w).pending ↔ y ∈ w.pending ∨ y ∈ ops.flatMap LoadOp.deleted)
  | [], w, h, _ => by simp [h]
  | op :: ops, w, h, hne => by
    have hne' : LoadOp.eose ∉ ops := fun hm => hne (List.mem_cons_of_mem _ hm)
    rw [List.foldl_cons]
    cases op with
    | eose => exact absurd (by simp) hne
    | token id del =>
      have ih := load_before ops (loadStep w (.token id del)) (by simp [loadStep, h]) hne'
      refine ⟨ih.1, fun y => ?_, fun y => ?_⟩
      · rw [ih.2.1 y]
        simp only [loadStep, h, Bool.false_eq_true, if_false, List.flatMap_cons, List.mem_append, LoadOp.received, List.mem_singleton]
        rw [mem_tokenAdd]
        exact or_assoc
      · rw [ih.2.2 y]
        simp only [loadStep, h, Bool.false_eq_true, if_false, List.flatMap_cons, List.mem_append, LoadOp.deleted]
        exact or_assoc
    | deletion ids =>
      have ih := load_before ops (loadStep w (.deletion ids)) (by simp [loadStep, h]) hne'
      refine ⟨ih.1, fun y => ?_, fun y => ?_⟩
      · rw [ih.2.1 y]
        simp [loadStep, h, LoadOp.received]
      · rw [ih.2.2 y]
        simp only [loadStep, h, Bool.false_eq_true, if_false, List.flatMap_cons, List.mem_append, LoadOp.deleted]
        exact or_assoc

/-- **C94 (stored events).** When stored events have ended, the wallet holds exactly the tokens received and not deleted, whatever the order in which tokens and deletions came. -/
theorem C94_stored_events (ops : List LoadOp) (h : LoadOp.eose ∉ ops) (y : Bytes) :
    y ∈ ((ops ++ [LoadOp.eose]).foldl loadStep emptyLoad).tokens ↔ y ∈ ops.flatMap LoadOp.received ∧ y ∉ ops.flatMap LoadOp.deleted := by
  obtain ⟨-, h2, h3⟩ := load_before ops emptyLoad rfl h
  rw [List.foldl_append]
  simp only [List.foldl_cons, List.foldl_nil, loadStep]
  rw [mem_removeAll, h2, h3]
  simp [emptyLoad]

theorem load_after : ∀ (ops : List LoadOp) (w : Load) (y : Bytes), w.eosed = true → w.pending = [] → y ∉ ops.flatMap LoadOp.received → y ∉ w.tokens →
    y ∉ (ops.foldl loadStep w).tokens
  | [], _, _, _, _, _, h => h
  | op :: ops, w, y, he, hp, hr, h => by
    rw [List.foldl_cons]
    have hr' : y ∉ ops.flatMap LoadOp.received := fun hm => hr (by simp only [List.flatMap_cons, List.mem_append]; exact .inr hm)
    have hr1 : y ∉ op.received := fun hm => hr (by simp only [List.flatMap_cons, List.mem_append]; exact .inl hm)
    cases op with
    | eose => exact load_after ops _ y rfl rfl hr' (by simp only [loadStep, hp, List.foldl_nil]; exact h)
    | token id del =>
      refine load_after ops _ y (by simp [loadStep, he]) (by simp [loadStep, he, hp]) hr' ?_
      simp only [loadStep, he, if_true]
      rw [mem_removeAll, mem_tokenAdd]
      rintro ⟨h1 | h1, -⟩
      · exact h h1
      · exact hr1 (by simp [LoadOp.received, h1])
    | deletion ids =>
      refine load_after ops _ y (by simp [loadStep, he]) (by simp [loadStep, he, hp]) hr' ?_
      simp only [loadStep, he, if_true]
      rw [mem_removeAll]
      exact fun h1 => h h1.1

/-- **C94 (later deletions).** After stored events have ended, a deletion takes effect at once, and the token stays away unless its event is received again. Missing for the full property: a
token event received after its deletion (refuted by `C94_deleted_token_returns`). -/
theorem C94_later_deletion_partial (before after : List LoadOp) (op : LoadOp) (y : Bytes) (hop : y ∈ op.deleted)
    (he : (before.foldl loadStep emptyLoad).eosed = true) (hp : (before.foldl loadStep emptyLoad).pending = []) (hr : y ∉ after.flatMap LoadOp.received) :
    y ∉ ((before ++ op :: after).foldl loadStep emptyLoad).tokens := by
  rw [List.foldl_append, List.foldl_cons]
  generalize before.foldl loadStep emptyLoad = w at he hp
  cases op with
  | eose => simp [LoadOp.deleted] at hop
  | token id del =>
    refine load_after after _ y (by simp [loadStep, he]) (by simp [loadStep, he, hp]) hr ?_
    simp only [loadStep, he, if_true]
    rw [mem_removeAll]
    exact fun h1 => h1.2 hop
  | deletion ids =>
    refine load_after after _ y (by simp [loadStep, he]) (by simp [loadStep, he, hp]) hr ?_
    simp only [loadStep, he, if_true]
    rw [mem_removeAll]
    exact fun h1 => h1.2 hop

example : (([LoadOp.token (b! "t") [], .eose]).foldl loadStep emptyLoad).eosed = true ∧ (([LoadOp.token (b! "t") [], .eose]).foldl loadStep emptyLoad).pending = [] ∧
    b! "t" ∈ (([LoadOp.token (b! "t") [], .eose]).foldl loadStep emptyLoad).tokens := by decide +kernel

/-- **C94 is false after the stored events.** Deletions are not remembered: a token deleted before, whose event arrives (again) later from a slower relay, is in the wallet. -/
theorem C94_deleted_token_returns :
    b! "t" ∈ (([LoadOp.token (b! "t") [], .deletion [b! "t"], .eose, .token (b! "t") []]).foldl loadStep emptyLoad).tokens ∧
    b! "t" ∈ (([LoadOp.eose, .deletion [b! "t"], .token (b! "t") []]).foldl loadStep emptyLoad).tokens := by decide +kernel

end GoNostr.Nip60
