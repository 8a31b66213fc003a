import Verif.Sdk.Store
import Verif.Filter.Theorems
import Verif.Nip19.Model
/-!
# sdk/specific_event.go, sdk/outbox.go: fetching one event; the relays of a user

The network is a parameter: what `Pool.FetchMany` would yield, in order, for a list of relays and a filter, and what the
local store answers. The rotation `FallbackRelays.Next()` is given by the urls it returns.
-/

set_option autoImplicit false

namespace GoNostr.Sdk

open GoNostr.Nip19

/-! ## specific_event.go -/

/-- The surroundings of one call of `FetchSpecificEvent`. -/
structure Surroundings where
  /-- what three calls of `sys.FallbackRelays.Next()` return, in order -/
  next1 : Bytes
  next2 : Bytes
  next3 : Bytes
  /-- `sys.JustIDRelays.URLs` -/
  justIds : List Bytes
  /-- `sys.StoreRelay.QuerySync` -/
  store : Filter → List Event
  /-- `sys.FetchOutboxRelays(ctx, author, 3)`; see `fetchOutbox` -/
  outbox : Bytes → Out (List Bytes)
  /-- what `sys.Pool.FetchMany` yields, with the url of the relay, if its channel is read to the end -/
  network : List Bytes → Filter → List (Event × Bytes)
  /-- `slices.SortFunc` on more than twelve elements -/
  pdqSort : (Bytes → Bytes → Int) → List Bytes → List Bytes

/-- What is looked for and where: the filter, the author, the relays to ask first, the relays to ask then, and the ones
that are to come first in the answer. -/
structure Plan where
  filter : Filter
  author : Bytes
  relays : List Bytes
  fallback : List Bytes
  priority : List Bytes

/-- specific_event.go:74-92. A `ProfilePointer` has no case. -/
def plan (s : Surroundings) : Pointer → Plan
  | .event v =>
    ⟨{ ids := some [v.id] }, v.author, appendUnique (v.relays.getD []) [s.next1], appendUnique s.justIds [s.next2], v.relays.getD []⟩
  | .entity v =>
    ⟨{ authors := some [v.publicKey], tags := some [(b! "d", some [v.identifier])], kinds := some [v.kind] },
      v.publicKey, appendUnique (v.relays.getD []) [s.next1], [s.next2, s.next3], v.relays.getD []⟩
  | .profile _ => ⟨{}, [], [], [], []⟩

/-- specific_event.go:155-157. -/
def newer (result : Option Event) (e : Event) : Option Event :=
  match result with
  | none => some e
  | some r => if e.createdAt > r.createdAt then some e else some r

/-- The variables of the loop over the attempts; `stop` says whether it was left (`break attempts`). -/
structure Round where
  result : Option Event := none
  success : List Bytes := []
  stop : Bool := false

/-- specific_event.go:144-164: one round over what `FetchMany` yields. -/
def attempt (slow : Bool) : Round → List (Event × Bytes) → Round
  | r, [] => r
  | r, (e, url) :: rest =>
    let r' : Round := { result := newer r.result e, success := r.success ++ [url], stop := !slow }
    if slow then attempt slow r' rest else r'

/-- The comparison of specific_event.go:177-187. -/
def compareRelays (priority : List Bytes) (a b : Bytes) : Int :=
  let vpa := decide (a ∈ priority)
  let vpb := decide (b ∈ priority)
  if vpa = vpb then 1 else if vpa && !vpb then 1 else -1

/-- The inner loop of `insertionSortCmpFunc`, on the reversed sorted part: the new element moves left while it compares
below its neighbour. -/
def insertBack (cmp : Bytes → Bytes → Int) (x : Bytes) : List Bytes → List Bytes
  | [] => [x]
  | y :: ys => if cmp x y < 0 then y :: insertBack cmp x ys else x :: y :: ys

/-- `slices.SortFunc`: an insertion sort up to twelve elements. -/
def sortFunc (s : Surroundings) (cmp : Bytes → Bytes → Int) (l : List Bytes) : List Bytes :=
  if l.length ≤ 12 then (l.foldl (fun acc x => insertBack cmp x acc) []).reverse else s.pdqSort cmp l

/-- What a call does: the answer (`none` for an error), and the relay lists it asked, in order. -/
structure Outcome where
  answer : Option (Event × List Bytes)
  asked : List (List Bytes)
  stored : Option Event
  deriving DecidableEq

/-- specific_event.go:102-116: the relays of the author, if one is known. -/
def authorRelaysOf (s : Surroundings) (author : Bytes) : Out (List Bytes) := if author = [] then .val [] else s.outbox author

/-- specific_event.go:60-190 `FetchSpecificEvent`. Left out: the hints it saves, the profile it prefetches. -/
def fetchSpecific (s : Surroundings) (pointer : Pointer) (withRelays skipLocalStore : Bool) : Out Outcome :=
  let p := plan s pointer
  match (if skipLocalStore then [] else s.store p.filter) with
  | e :: _ => .val ⟨some (e, []), [], none⟩
  | [] => do
    let authorRelays ← authorRelaysOf s p.author
    let relays := appendUnique p.relays authorRelays
    let r1 := attempt withRelays {} (s.network relays p.filter)
    let r2 := if r1.stop then r1 else attempt false r1 (s.network p.fallback p.filter)
    let asked := if r1.stop then [relays] else [relays, p.fallback]
    match r2.result with
    | none => return ⟨none, asked, none⟩
    | some e =>
      return ⟨some (e, sortFunc s (compareRelays (appendUnique p.priority authorRelays)) r2.success), asked,
        if skipLocalStore then none else some e⟩

/-! ## C110 -/

/-- Spec: the store and the network only deliver what was asked for (C24 for the network). -/
def Faithful (s : Surroundings) : Prop :=
  (∀ f e, e ∈ s.store f → Spec.Matches f e) ∧ (∀ relays f e url, (e, url) ∈ s.network relays f → Spec.Matches f e)

/-- Spec: the event is the one the pointer points to. -/
def PointsTo : Pointer → Event → Prop
  | .event v, e => e.id = v.id
  | .entity v, e => e.pubkey = v.publicKey ∧ e.kind = v.kind ∧ ∃ t ∈ e.tags, ∃ rest, t = b! "d" :: v.identifier :: rest
  | .profile _, _ => False

theorem newer_mem {r : Option Event} {x e : Event} (h : newer r x = some e) : r = some e ∨ e = x := by
  unfold newer at h
  split at h
  · cases h; exact Or.inr rfl
  · split at h
    · cases h; exact Or.inr rfl
    · exact Or.inl h

theorem newer_ne (r : Option Event) (x : Event) : newer r x ≠ none := by
  unfold newer
  split
  · simp
  · split <;> simp

theorem attempt_mem : ∀ (slow : Bool) (l : List (Event × Bytes)) (r : Round) (e : Event),
    (attempt slow r l).result = some e → r.result = some e ∨ ∃ u, (e, u) ∈ l
  | slow, [], r, e, h => Or.inl h
  | slow, (x, u) :: rest, r, e, h => by
    unfold attempt at h
    simp only at h
    have key : newer r.result x = some e → r.result = some e ∨ ∃ u', (e, u') ∈ (x, u) :: rest := by
      intro h
      rcases newer_mem h with h | rfl
      · exact Or.inl h
      · exact Or.inr ⟨u, by simp⟩
    split at h
    · rcases attempt_mem slow rest _ e h with h | ⟨u', h⟩
      · exact key h
      · exact Or.inr ⟨u', by simp [h]⟩
    · exact key h

theorem attempt_none : ∀ (slow : Bool) (l : List (Event × Bytes)) (r : Round), (attempt slow r l).result = none ↔ r.result = none ∧ l = []
  | slow, [], r => by simp [attempt]
  | slow, (x, u) :: rest, r => by
    unfold attempt
    simp only
    split
    · rw [attempt_none slow rest]
      simp [newer_ne]
    · simp [newer_ne]

theorem attempt_slow_stop : ∀ (l : List (Event × Bytes)) (r : Round), r.stop = false → (attempt true r l).stop = false
  | [], r, h => h
  | (x, u) :: rest, r, h => by
    unfold attempt
    simp only [if_true]
    exact attempt_slow_stop rest _ rfl

theorem attempt_fast (l : List (Event × Bytes)) (r : Round) (h : r.stop = false) : (attempt false r l).stop = true ↔ l ≠ [] := by
  cases l with
  | nil => simp [attempt, h]
  | cons x rest => simp [attempt]

theorem matches_pointsTo (s : Surroundings) (p : Pointer) (hp : ∀ q, p ≠ .profile q) (e : Event)
    (h : Spec.Matches (plan s p).filter e) : PointsTo p e := by
  obtain ⟨⟨h1, h2, h3, h4⟩, _⟩ := h
  cases p with
  | profile q => exact absurd rfl (hp q)
  | event v => simpa [PointsTo, plan] using h1 [v.id] rfl
  | entity v =>
    refine ⟨by simpa using h3 [v.publicKey] rfl, by simpa using h2 [v.kind] rfl, ?_⟩
    obtain ⟨t, ht, w, rest, hw, hv⟩ := h4 _ rfl (b! "d") [v.identifier] (by simp)
    simp only [List.mem_singleton] at hv
    exact ⟨t, ht, rest, by rw [hw, hv]⟩

/-- **C110 (partial).** If the store and the relays only deliver what they are asked for, whatever event
`FetchSpecificEvent` returns for an event or entity pointer is the one pointed to; it came from the local store, or it
came from a relay list that was asked and then it is put in the local store unless that was to be skipped. Missing:
profile pointers (`C110_profile_any_event`), the newest version (`C110_not_newest`, `C110_stale`). -/
theorem C110_points_partial (s : Surroundings) (hs : Faithful s) (p : Pointer) (hp : ∀ q, p ≠ .profile q) (withRelays skip : Bool)
    (o : Outcome) (e : Event) (rs : List Bytes) (h : fetchSpecific s p withRelays skip = .val o) (ha : o.answer = some (e, rs)) :
    PointsTo p e ∧
      ((skip = false ∧ e ∈ s.store (plan s p).filter) ∨
       ((∃ relays ∈ o.asked, ∃ u, (e, u) ∈ s.network relays (plan s p).filter) ∧ o.stored = if skip then none else some e)) := by
  unfold fetchSpecific at h
  simp only at h
  split at h
  · rename_i x xs hx
    simp only [Out.val.injEq] at h
    subst h
    simp only [Option.some.injEq, Prod.mk.injEq] at ha
    obtain ⟨rfl, rfl⟩ := ha
    split at hx
    · cases hx
    · rename_i hskip
      have hm : x ∈ s.store (plan s p).filter := by rw [hx]; simp
      exact ⟨matches_pointsTo s p hp _ (hs.1 _ _ hm), Or.inl ⟨by simpa using hskip, hm⟩⟩
  · cases ho : authorRelaysOf s (plan s p).author with
    | panic => rw [ho] at h; cases h
    | val authorRelays =>
      rw [ho] at h
      simp only [Out.val_bind] at h
      split at h
      · simp only [Out.pure_eq, Out.val.injEq] at h
        subst h
        cases ha
      · rename_i e' he
        simp only [Out.pure_eq, Out.val.injEq] at h
        subst h
        simp only [Option.some.injEq, Prod.mk.injEq] at ha
        obtain ⟨rfl, rfl⟩ := ha
        have hmem : ∃ relays ∈ (if (attempt withRelays {} (s.network (appendUnique (plan s p).relays authorRelays) (plan s p).filter)).stop = true
            then [appendUnique (plan s p).relays authorRelays] else [appendUnique (plan s p).relays authorRelays, (plan s p).fallback]),
            ∃ u, (e', u) ∈ s.network relays (plan s p).filter := by
          split at he
          · rename_i hst
            rw [if_pos hst]
            rcases attempt_mem _ _ _ _ he with h | ⟨u, h⟩
            · cases h
            · exact ⟨_, by simp, u, h⟩
          · rename_i hst
            rw [if_neg hst]
            rcases attempt_mem _ _ _ _ he with h | ⟨u, h⟩
            · rcases attempt_mem _ _ _ _ h with h | ⟨u, h⟩
              · cases h
              · exact ⟨_, by simp, u, h⟩
            · exact ⟨_, by simp, u, h⟩
        obtain ⟨relays, hr, u, hu⟩ := hmem
        exact ⟨matches_pointsTo s p hp _ (hs.2 _ _ _ _ hu), Or.inr ⟨⟨relays, hr, u, hu⟩, rfl⟩⟩

/-- **C110 (partial).** The event is found whenever the local store or one of the relay lists delivers one: an error means
that the store, if it was asked, and both relay lists delivered nothing. -/
theorem C110_found (s : Surroundings) (p : Pointer) (withRelays skip : Bool) (o : Outcome)
    (h : fetchSpecific s p withRelays skip = .val o) :
    o.answer = none ↔ (skip = true ∨ s.store (plan s p).filter = []) ∧
      ∃ relays, o.asked = [relays, (plan s p).fallback] ∧ s.network relays (plan s p).filter = [] ∧
        s.network (plan s p).fallback (plan s p).filter = [] := by
  unfold fetchSpecific at h
  simp only at h
  split at h
  · rename_i x xs hx
    simp only [Out.val.injEq] at h
    subst h
    split at hx
    · cases hx
    · rename_i hskip
      simp [hx, hskip]
  · rename_i hx
    have hst : skip = true ∨ s.store (plan s p).filter = [] := by
      split at hx
      · rename_i hskip; exact Or.inl hskip
      · exact Or.inr hx
    cases ho : authorRelaysOf s (plan s p).author with
    | panic => rw [ho] at h; cases h
    | val authorRelays =>
      rw [ho] at h
      simp only [Out.val_bind] at h
      have key : ∀ r1 : Round, r1 = attempt withRelays {} (s.network (appendUnique (plan s p).relays authorRelays) (plan s p).filter) →
          (r1.result = none ↔ s.network (appendUnique (plan s p).relays authorRelays) (plan s p).filter = []) ∧
          (r1.stop = true → r1.result ≠ none) := by
        rintro r1 rfl
        refine ⟨by rw [attempt_none]; simp, ?_⟩
        intro hstop
        cases withRelays with
        | true => rw [attempt_slow_stop _ _ rfl] at hstop; cases hstop
        | false =>
          rw [attempt_fast _ _ rfl] at hstop
          rw [ne_eq, attempt_none]
          simp [hstop]
      obtain ⟨k1, k2⟩ := key _ rfl
      split at h
      · rename_i hn
        simp only [Out.pure_eq, Out.val.injEq] at h
        subst h
        simp only [true_iff]
        refine ⟨hst, appendUnique (plan s p).relays authorRelays, ?_⟩
        split at hn
        · rename_i hstop
          exact absurd hn (k2 hstop)
        · rename_i hstop
          rw [if_neg hstop]
          rw [attempt_none, k1] at hn
          exact ⟨rfl, hn⟩
      · rename_i e he
        simp only [Out.pure_eq, Out.val.injEq] at h
        subst h
        simp only [reduceCtorEq, false_iff, not_and, not_exists]
        intro _ relays hask hn1 hn2
        split at he
        · rename_i hstop
          rw [if_pos hstop] at hask
          simp at hask
        · rename_i hstop
          rw [if_neg hstop] at hask
          simp only [List.cons.injEq, and_true] at hask
          subst hask
          rw [k1.2 hn1 |> fun _ => hn2] at he
          simp only [attempt] at he
          rw [k1.2 hn1] at he
          cases he

/-- The surroundings of the examples: a store, two relays. -/
def around (stored : List Event) (net : List (Event × Bytes)) : Surroundings where
  next1 := b! "wss://one"
  next2 := b! "wss://two"
  next3 := b! "wss://three"
  justIds := [b! "wss://ids"]
  store := fun f => stored.filter fun e => f.matches (some e)
  outbox := fun _ => .val [b! "wss://author"]
  network := fun relays f => net.filter fun x => decide (x.2 ∈ relays) && f.matches (some x.1)
  pdqSort := fun _ l => l

/-- A value of the examples. -/
def article (id : Bytes) (ts : Int) : Event :=
  { id := id, pubkey := b! "alice", createdAt := ts, kind := 30023, tags := [[b! "d", b! "x"]], content := [], sig := [] }

/-- A value of the examples. -/
def toArticle : Pointer := .entity { publicKey := b! "alice", kind := 30023, identifier := b! "x", relays := some [b! "wss://hint"] }

/-- Not vacuous: the article is found on the hinted relay. -/
example : fetchSpecific (around [] [(article (b! "a") 5, b! "wss://hint")]) toArticle false false =
    .val ⟨some (article (b! "a") 5, [b! "wss://hint"]), [[b! "wss://hint", b! "wss://one", b! "wss://author"]], some (article (b! "a") 5)⟩ := by
  decide +kernel

/-- C110 is false for profile pointers: the filter is empty, and any event of the local store is returned. -/
theorem C110_profile_any_event (s : Surroundings) (q : ProfilePointer) (e : Event) (rest : List Event) (withRelays : Bool)
    (h : s.store {} = e :: rest) : fetchSpecific s (.profile q) withRelays false = .val ⟨some (e, []), [], none⟩ := by
  simp [fetchSpecific, plan, h]

/-- … and false about versions: of two versions of an article on the same relay the first to arrive is returned … -/
theorem C110_not_newest :
    fetchSpecific (around [] [(article (b! "a") 5, b! "wss://hint"), (article (b! "b") 9, b! "wss://hint")]) toArticle false false =
      .val ⟨some (article (b! "a") 5, [b! "wss://hint"]), [[b! "wss://hint", b! "wss://one", b! "wss://author"]], some (article (b! "a") 5)⟩ := by
  decide +kernel

/-- … and a version in the local store hides every newer one: the relays are not asked. -/
theorem C110_stale (s : Surroundings) (p : Pointer) (e : Event) (rest : List Event) (withRelays : Bool)
    (h : s.store (plan s p).filter = e :: rest) : fetchSpecific s p withRelays false = .val ⟨some (e, []), [], none⟩ := by
  simp [fetchSpecific, h]

theorem attempt_newest : ∀ (slow : Bool) (l : List (Event × Bytes)) (r : Round) (e : Event), (attempt slow r l).result = some e →
    (∀ x, r.result = some x → x.createdAt ≤ e.createdAt) ∧ (slow = true → ∀ x u, (x, u) ∈ l → x.createdAt ≤ e.createdAt)
  | slow, [], r, e, h => ⟨fun x hx => by simp only [attempt] at h; rw [h] at hx; cases hx; exact Int.le_refl _, fun _ x u hx => by simp at hx⟩
  | slow, (y, v) :: rest, r, e, h => by
    have hn : ∀ w, newer r.result y = some w → y.createdAt ≤ w.createdAt ∧ ∀ x, r.result = some x → x.createdAt ≤ w.createdAt := by
      intro w hw
      unfold newer at hw
      split at hw
      · rename_i hr; cases hw; exact ⟨Int.le_refl _, fun x hx => by rw [hr] at hx; cases hx⟩
      · rename_i q hr
        split at hw
        · cases hw; exact ⟨Int.le_refl _, fun x hx => by rw [hr] at hx; cases hx; omega⟩
        · cases hw; exact ⟨by omega, fun x hx => by rw [hr] at hx; cases hx; omega⟩
    unfold attempt at h
    simp only at h
    split at h
    · rename_i hs
      obtain ⟨h1, h2⟩ := attempt_newest slow rest _ e h
      cases hw : newer r.result y with
      | none => exact absurd hw (newer_ne _ _)
      | some w =>
        obtain ⟨n1, n2⟩ := hn w hw
        have h3 := h1 w hw
        refine ⟨fun x hx => Int.le_trans (n2 x hx) h3, fun _ x u hx => ?_⟩
        simp only [List.mem_cons, Prod.mk.injEq] at hx
        rcases hx with ⟨rfl, _⟩ | hx
        · exact Int.le_trans n1 h3
        · exact h2 hs x u hx
    · rename_i hs
      exact ⟨(hn e h).2, fun h => absurd h hs⟩

/-- **C110 (partial).** With `WithRelays`, and when the local store does not answer, no relay of the first list delivered a
newer version than the one returned. -/
theorem C110_newest_partial (s : Surroundings) (p : Pointer) (skip : Bool) (o : Outcome) (e : Event) (rs : List Bytes)
    (h : fetchSpecific s p true skip = .val o) (ha : o.answer = some (e, rs)) (relays : List Bytes) (more : List (List Bytes))
    (hq : o.asked = relays :: more) : ∀ x u, (x, u) ∈ s.network relays (plan s p).filter → x.createdAt ≤ e.createdAt := by
  unfold fetchSpecific at h
  simp only at h
  split at h
  · simp only [Out.val.injEq] at h
    subst h
    simp at hq
  · cases ho : authorRelaysOf s (plan s p).author with
    | panic => rw [ho] at h; cases h
    | val authorRelays =>
      rw [ho] at h
      simp only [Out.val_bind, attempt_slow_stop _ _ (rfl : ({} : Round).stop = false), Bool.false_eq_true, if_false] at h
      split at h
      · simp only [Out.pure_eq, Out.val.injEq] at h
        subst h
        cases ha
      · rename_i e' he
        simp only [Out.pure_eq, Out.val.injEq] at h
        subst h
        simp only [Option.some.injEq, Prod.mk.injEq] at ha
        obtain ⟨rfl, _⟩ := ha
        simp only [List.cons.injEq] at hq
        obtain ⟨rfl, _⟩ := hq
        intro x u hx
        have h2 := (attempt_newest _ _ _ _ he).1
        cases hr : (attempt true {} (s.network (appendUnique (plan s p).relays authorRelays) (plan s p).filter)).result with
        | none =>
          rw [attempt_none] at hr
          rw [hr.2] at hx
          simp at hx
        | some w =>
          exact Int.le_trans ((attempt_newest _ _ _ _ hr).2 rfl x u hx) (h2 w hr)

/-- Not vacuous: of the versions of two relays the newer one is returned; both relay lists are asked. -/
example : fetchSpecific (around [] [(article (b! "a") 5, b! "wss://hint"), (article (b! "b") 9, b! "wss://one")]) toArticle true false =
    .val ⟨some (article (b! "b") 9, [b! "wss://one", b! "wss://hint"]),
      [[b! "wss://hint", b! "wss://one", b! "wss://author"], [b! "wss://two", b! "wss://three"]], some (article (b! "b") 9)⟩ := by
  decide +kernel

/-! ## C111 -/

theorem compareRelays_neg (pr : List Bytes) (a b : Bytes) : compareRelays pr a b < 0 ↔ a ∉ pr ∧ b ∈ pr := by
  unfold compareRelays
  by_cases ha : a ∈ pr <;> by_cases hb : b ∈ pr <;> simp [ha, hb]

theorem insertBack_eq (pr : List Bytes) (x : Bytes) : ∀ (P Q : List Bytes), (∀ y ∈ P, y ∈ pr) → (∀ y ∈ Q, y ∉ pr) →
    insertBack (compareRelays pr) x (P ++ Q) = if x ∈ pr then x :: P ++ Q else P ++ x :: Q
  | [], Q, _, hQ => by
    cases Q with
    | nil => simp [insertBack]
    | cons q Q =>
      have : ¬ compareRelays pr x q < 0 := by rw [compareRelays_neg]; exact fun h => hQ q (by simp) h.2
      simp [insertBack, this]
  | p :: P, Q, hP, hQ => by
    have ih := insertBack_eq pr x P Q (fun y hy => hP y (by simp [hy])) hQ
    have hp : p ∈ pr := hP p (by simp)
    simp only [List.cons_append, insertBack]
    by_cases hx : x ∈ pr
    · rw [if_neg (by rw [compareRelays_neg]; exact fun h => h.1 hx)]
      simp [hx]
    · rw [if_pos (by rw [compareRelays_neg]; exact ⟨hx, hp⟩), ih]
      simp [hx]

theorem foldl_insertBack (pr : List Bytes) : ∀ (l P Q : List Bytes), (∀ y ∈ P, y ∈ pr) → (∀ y ∈ Q, y ∉ pr) →
    l.foldl (fun acc x => insertBack (compareRelays pr) x acc) (P ++ Q) =
      (l.filter (fun x => decide (x ∈ pr))).reverse ++ P ++ ((l.filter (fun x => decide (x ∉ pr))).reverse ++ Q)
  | [], P, Q, _, _ => by simp
  | x :: l, P, Q, hP, hQ => by
    rw [List.foldl_cons, insertBack_eq pr x P Q hP hQ]
    by_cases hx : x ∈ pr
    · rw [if_pos hx, foldl_insertBack pr l (x :: P) Q (by simpa [hx] using hP) hQ]
      simp [hx]
    · rw [if_neg hx, foldl_insertBack pr l P (x :: Q) hP (by simpa [hx] using hQ)]
      simp [hx]

/-- **C111 is false.** The relays an event was found on are returned the wrong way round: the hinted relays and those of
the author, which are to come first, come last. (Up to twelve relays, where `slices.SortFunc` is an insertion sort.) -/
theorem C111_priority_last (s : Surroundings) (priority success : List Bytes) (h : success.length ≤ 12) :
    sortFunc s (compareRelays priority) success =
      success.filter (fun r => decide (r ∉ priority)) ++ success.filter (fun r => decide (r ∈ priority)) := by
  have := foldl_insertBack priority success [] [] (by simp) (by simp)
  simp only [List.append_nil] at this
  simp [sortFunc, h, this]

/-- **C111 is false** about the relays asked, too: when the first of the author's relays is asked anyway, the others are
left out (see C77). Here the author publishes to `wss://hint` and `wss://home`, and only the latter has the event. -/
theorem C111_author_relay_not_asked :
    let s := { around [] [(article (b! "a") 5, b! "wss://home")] with outbox := fun _ => .val [b! "wss://hint", b! "wss://home"] }
    fetchSpecific s toArticle true false =
      .val ⟨none, [[b! "wss://hint", b! "wss://one"], [b! "wss://two", b! "wss://three"]], none⟩ := by
  decide +kernel

theorem appendUnique_keeps {α : Type} [DecidableEq α] (arr items : List α) : ∀ x ∈ arr, x ∈ appendUnique arr items :=
  (C77_complete_when_new arr items).1

/-- **C111 (partial).** Every relay the pointer itself names is asked, in the first list, whenever relays are asked at all;
and what the author's relay list adds is asked too if none of it was in the list before. Missing:
`C111_author_relay_not_asked`, and the order of the answer, `C111_priority_last`. -/
theorem C111_hints_asked_partial (s : Surroundings) (p : Pointer) (withRelays skip : Bool) (o : Outcome)
    (h : fetchSpecific s p withRelays skip = .val o) (relays : List Bytes) (more : List (List Bytes)) (hq : o.asked = relays :: more) :
    (∀ r ∈ (plan s p).priority, r ∈ relays) ∧
    (∀ home, (plan s p).author ≠ [] → s.outbox (plan s p).author = .val home → home.Nodup → (∀ r ∈ home, r ∉ (plan s p).relays) →
      ∀ r ∈ home, r ∈ relays) := by
  unfold fetchSpecific at h
  simp only at h
  split at h
  · simp only [Out.val.injEq] at h
    subst h
    simp at hq
  · cases ho : authorRelaysOf s (plan s p).author with
    | panic => rw [ho] at h; cases h
    | val authorRelays =>
      rw [ho] at h
      simp only [Out.val_bind] at h
      have hrel : relays = appendUnique (plan s p).relays authorRelays := by
        split at h <;>
        · simp only [Out.pure_eq, Out.val.injEq] at h
          subst h
          simp only at hq
          split at hq <;> (simp only [List.cons.injEq] at hq; exact hq.1.symm)
      subst hrel
      constructor
      · intro r hr
        apply appendUnique_keeps
        cases p with
        | event v => exact appendUnique_keeps _ _ _ hr
        | entity v => exact appendUnique_keeps _ _ _ hr
        | profile v => simp [plan] at hr
      · intro home hne hhome hnd hnew r hr
        unfold authorRelaysOf at ho
        rw [if_neg hne, hhome] at ho
        simp only [Out.val.injEq] at ho
        subst ho
        rw [(C77_complete_when_new (plan s p).relays home).2 hnd hnew]
        exact List.mem_append_right _ hr

/-- Not vacuous: `C111_hints_asked_partial` applies to the example above, with both parts. -/
example : (plan (around [] []) toArticle).priority = [b! "wss://hint"] ∧ (plan (around [] []) toArticle).author ≠ [] ∧
    (∀ r ∈ [b! "wss://author"], r ∉ (plan (around [] []) toArticle).relays) := by
  decide +kernel

theorem attempt_success : ∀ (slow : Bool) (l : List (Event × Bytes)) (r : Round),
    (attempt slow r l).success.length ≤ r.success.length + l.length ∧ (slow = false → (attempt slow r l).success.length ≤ r.success.length + 1) ∧
    ∀ u ∈ (attempt slow r l).success, u ∈ r.success ∨ ∃ e, (e, u) ∈ l
  | slow, [], r => by simp [attempt]
  | slow, (x, v) :: rest, r => by
    unfold attempt
    simp only
    split
    · rename_i hs
      obtain ⟨h1, _, h3⟩ := attempt_success slow rest { result := newer r.result x, success := r.success ++ [v], stop := !slow }
      refine ⟨?_, (fun h => by rw [hs] at h; cases h), fun u hu => ?_⟩
      · simp only [List.length_append, List.length_cons, List.length_nil] at h1 ⊢; omega
      · rcases h3 u hu with h | ⟨e, h⟩
        · simp only [List.mem_append, List.mem_singleton] at h
          rcases h with h | rfl
          · exact Or.inl h
          · exact Or.inr ⟨x, by simp⟩
        · exact Or.inr ⟨e, by simp [h]⟩
    · refine ⟨by simp, by simp, fun u hu => ?_⟩
      simp only [List.mem_append, List.mem_singleton] at hu
      rcases hu with h | rfl
      · exact Or.inl h
      · exact Or.inr ⟨x, by simp⟩

theorem insertBack_length (cmp : Bytes → Bytes → Int) (x : Bytes) : ∀ l, (insertBack cmp x l).length = l.length + 1
  | [] => rfl
  | y :: ys => by
    unfold insertBack
    split
    · simp [insertBack_length cmp x ys]
    · rfl

theorem insertBack_foldl_length (cmp : Bytes → Bytes → Int) : ∀ (l acc : List Bytes), (l.foldl (fun a x => insertBack cmp x a) acc).length = acc.length + l.length
  | [], _ => rfl
  | x :: l, acc => by
    rw [List.foldl_cons, insertBack_foldl_length cmp l, insertBack_length]
    simp; omega

/-- **C111 is false** about `WithRelays`, which is to wait for all relays and to name those that have the event: since
`FetchMany` yields an event once, whatever number of relays have it (C32), at most two relays are named for an event
pointer, one of the first list and one of the fallback list. -/
theorem C111_at_most_two (s : Surroundings) (v : EventPointer) (withRelays skip : Bool) (o : Outcome) (e : Event) (rs : List Bytes)
    (hf : Faithful s) (hc : ∀ relays f, ((s.network relays f).map (·.1.id)).Nodup)
    (h : fetchSpecific s (.event v) withRelays skip = .val o) (ha : o.answer = some (e, rs)) : rs.length ≤ 2 := by
  have hone : ∀ relays, (s.network relays (plan s (.event v)).filter).length ≤ 1 := by
    intro relays
    have hn := hc relays (plan s (.event v)).filter
    have hid : ∀ x ∈ s.network relays (plan s (.event v)).filter, x.1.id = v.id := by
      intro x hx
      exact matches_pointsTo s (.event v) (by simp) x.1 (hf.2 relays _ x.1 x.2 hx)
    match hl : s.network relays (plan s (.event v)).filter with
    | [] => simp
    | [x] => simp
    | x :: y :: rest =>
      exfalso
      rw [hl] at hn hid
      simp only [List.map_cons, List.nodup_cons, List.mem_cons, not_or] at hn
      exact hn.1.1 ((hid x (by simp)).trans (hid y (by simp)).symm)
  unfold fetchSpecific at h
  simp only at h
  split at h
  · simp only [Out.val.injEq] at h
    subst h
    simp only [Option.some.injEq, Prod.mk.injEq] at ha
    rw [← ha.2]; simp
  · cases ho : authorRelaysOf s (plan s (.event v)).author with
    | panic => rw [ho] at h; cases h
    | val authorRelays =>
      rw [ho] at h
      simp only [Out.val_bind] at h
      split at h
      · simp only [Out.pure_eq, Out.val.injEq] at h
        subst h
        cases ha
      · simp only [Out.pure_eq, Out.val.injEq] at h
        subst h
        simp only [Option.some.injEq, Prod.mk.injEq] at ha
        rw [← ha.2]
        have h1 := (attempt_success withRelays (s.network (appendUnique (plan s (.event v)).relays authorRelays) (plan s (.event v)).filter) {}).1
        have h2 := hone (appendUnique (plan s (.event v)).relays authorRelays)
        have hlen : (if (attempt withRelays {} (s.network (appendUnique (plan s (.event v)).relays authorRelays) (plan s (.event v)).filter)).stop = true
            then attempt withRelays {} (s.network (appendUnique (plan s (.event v)).relays authorRelays) (plan s (.event v)).filter)
            else attempt false (attempt withRelays {} (s.network (appendUnique (plan s (.event v)).relays authorRelays) (plan s (.event v)).filter))
              (s.network (plan s (.event v)).fallback (plan s (.event v)).filter)).success.length ≤ 2 := by
          simp only [List.length_nil, Nat.zero_add] at h1
          split
          · omega
          · have h3 := (attempt_success false (s.network (plan s (.event v)).fallback (plan s (.event v)).filter)
              (attempt withRelays {} (s.network (appendUnique (plan s (.event v)).relays authorRelays) (plan s (.event v)).filter))).2.1 rfl
            omega
        unfold sortFunc
        rw [if_pos (by omega), List.length_reverse, insertBack_foldl_length]
        simpa using hlen

/-- Not vacuous: a network that has one event satisfies the hypotheses. -/
example : Faithful (around [] [(article (b! "a") 5, b! "wss://hint")]) ∧
    (∀ relays f, (((around [] [(article (b! "a") 5, b! "wss://hint")]).network relays f).map (·.1.id)).Nodup) ∧
    ∃ o, fetchSpecific (around [] [(article (b! "a") 5, b! "wss://hint")]) (.event { id := b! "a", relays := some [b! "wss://hint"] }) true false = .val o ∧
      o.answer = some (article (b! "a") 5, [b! "wss://hint"]) := by
  refine ⟨⟨?_, ?_⟩, ?_, ⟨_, rfl, by decide +kernel⟩⟩
  · intro f e h
    simp [around] at h
  · intro relays f e u h
    simp only [around, List.mem_filter, Bool.and_eq_true, decide_eq_true_eq] at h
    exact (C06_matches_iff f e).1 h.2.2
  · intro relays f
    simp only [around, List.filter_cons, List.filter_nil]
    split <;> simp

end GoNostr.Sdk
