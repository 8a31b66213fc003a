import Verif.Sdk.Store
import Verif.Misc.Pointers
/-!
# C75, C76 (batch loaders), C78 (lists and sets), C93 (which version of a list is returned)
-/

set_option autoImplicit false

namespace GoNostr.Sdk

/-! ## C75: `batchLoadReplaceableEvents` -/

/-- What the loop's `select` sees (replaceable_loader.go:128-140): an event from a relay, the end of the query, the cancelled context. -/
inductive Sel
  | event (e : Event)
  | closed
  | done

/-- One received event (replaceable_loader.go:134-137); the map from pubkeys to results. -/
def replStep (results : Bytes → Option Event) (e : Event) : Bytes → Option Event :=
  match results e.pubkey with
  | none => fun k => if k = e.pubkey then some e else results k
  | some v => if v.createdAt < e.createdAt then fun k => if k = e.pubkey then some e else results k else results

/-- replaceable_loader.go:127-141 -/
def replLoop (results : Bytes → Option Event) : List Sel → Bytes → Option Event
  | [] => results
  | .event e :: r => replLoop (replStep results e) r
  | .closed :: _ => results
  | .done :: _ => results

/-- The whole batch function, seen from its result map (replaceable_loader.go:69). -/
def batchReplaceable (sels : List Sel) : Bytes → Option Event := replLoop (fun _ => none) sels

/-- The events received before the loop ended. -/
def received : List Sel → List Event
  | .event e :: r => e :: received r
  | _ => []

/-- Spec: `v` is the newest among the events of `pk`, the first received one among equals. -/
def Newest (es : List Event) (pk : Bytes) (v : Event) : Prop :=
  ∃ pre post, es = pre ++ v :: post ∧ v.pubkey = pk ∧ (∀ e ∈ pre, e.pubkey = pk → e.createdAt < v.createdAt) ∧
    ∀ e ∈ post, e.pubkey = pk → e.createdAt ≤ v.createdAt

theorem replLoop_received (sels : List Sel) : ∀ results, replLoop results sels = (received sels).foldl replStep results := by
  induction sels with
  | nil => intro r; rfl
  | cons x xs ih =>
    intro r
    cases x with
    | event e => simp only [replLoop, received, List.foldl_cons]; exact ih _
    | closed => rfl
    | done => rfl

theorem foldl_append_one {α β : Type} (f : β → α → β) (l : List α) (a : α) (b : β) : (l ++ [a]).foldl f b = f (l.foldl f b) a := by
  rw [List.foldl_append]; rfl

theorem repl_fold (pk : Bytes) : ∀ (n : Nat) (es : List Event), es.length = n →
    (match es.foldl replStep (fun _ => none) pk with
    | none => ∀ e ∈ es, e.pubkey ≠ pk
    | some v => Newest es pk v)
  | 0, es, h => by
    cases es with
    | nil => simp
    | cons _ _ => simp at h
  | n + 1, es, h => by
    have hne : es ≠ [] := by rintro rfl; simp at h
    obtain ⟨init, x, rfl⟩ : ∃ init x, es = init ++ [x] := ⟨es.dropLast, es.getLast hne, (List.dropLast_append_getLast hne).symm⟩
    have ih := repl_fold pk n init (by simp at h; exact h)
    rw [foldl_append_one]
    generalize init.foldl replStep (fun _ => none) = r at ih
    have last : ∀ v, Newest init pk v → (x.pubkey = pk → x.createdAt ≤ v.createdAt) → Newest (init ++ [x]) pk v := by
      rintro v ⟨pre, post, rfl, h1, h2, h3⟩ hx
      refine ⟨pre, post ++ [x], by simp, h1, h2, ?_⟩
      intro e he hp
      rcases List.mem_append.1 he with he | he
      · exact h3 e he hp
      · simp only [List.mem_singleton] at he; subst he; exact hx hp
    have new : (∀ e ∈ init, e.pubkey = pk → e.createdAt < x.createdAt) → x.pubkey = pk → Newest (init ++ [x]) pk x :=
      fun hx hp => ⟨init, [], rfl, hp, hx, by simp⟩
    by_cases hp : x.pubkey = pk
    · subst hp
      unfold replStep
      cases hr : r x.pubkey with
      | none =>
        rw [hr] at ih
        simp only [if_true]
        exact new (fun e he hpe => absurd hpe (ih e he)) rfl
      | some v =>
        rw [hr] at ih
        simp only [] at ih
        by_cases ht : v.createdAt < x.createdAt
        · simp only [if_pos ht, if_true]
          apply new _ rfl
          obtain ⟨pre, post, rfl, h1, h2, h3⟩ := ih
          intro e he hpe
          rcases List.mem_append.1 he with he | he
          · have := h2 e he hpe; omega
          · rcases List.mem_cons.1 he with rfl | he
            · exact ht
            · have := h3 e he hpe; omega
        · simp only [if_neg ht, hr]
          exact last v ih (fun _ => by omega)
    · have e : replStep r x pk = r pk := by
        unfold replStep
        have : ¬ pk = x.pubkey := fun h => hp h.symm
        cases r x.pubkey with
        | none => simp [this]
        | some v =>
          by_cases ht : v.createdAt < x.createdAt
          · simp [this, ht]
          · simp [ht]
      rw [e]
      cases hr : r pk with
      | none =>
        rw [hr] at ih
        intro e' he'
        rcases List.mem_append.1 he' with he' | he'
        · exact ih e' he'
        · simp only [List.mem_singleton] at he'; subst he'; exact hp
      | some v =>
        rw [hr] at ih
        exact last v ih (fun h => absurd h hp)

theorem newest_unique {es : List Event} {pk : Bytes} {v w : Event} (hv : Newest es pk v) (hw : Newest es pk w) : v = w := by
  obtain ⟨p1, q1, rfl, a1, b1, c1⟩ := hv
  obtain ⟨p2, q2, he, a2, b2, c2⟩ := hw
  rw [List.append_eq_append_iff] at he
  rcases he with ⟨as, h1, h2⟩ | ⟨as, h1, h2⟩
  · cases as with
    | nil => simp only [List.nil_append, List.cons.injEq] at h2; exact h2.1
    | cons y ys =>
      simp only [List.cons_append, List.cons.injEq] at h2
      have h3 := b2 v (by rw [h1, h2.1]; simp) a1
      have h4 := c1 w (by rw [h2.2]; simp) a2
      omega
  · cases as with
    | nil => simp only [List.nil_append, List.cons.injEq] at h2; exact h2.1.symm
    | cons y ys =>
      simp only [List.cons_append, List.cons.injEq] at h2
      have h3 := b1 w (by rw [h1, h2.1]; simp) a2
      have h4 := c2 v (by rw [h2.2]; simp) a1
      omega

/-- **C75**. For every order of arrivals and every pubkey, the batch result is the newest of the events received for that pubkey (the first received among
equally new ones), and there is no result exactly when none was received. -/
theorem C75_newest_per_pubkey (sels : List Sel) (pk : Bytes) :
    (∀ v, batchReplaceable sels pk = some v ↔ Newest (received sels) pk v) ∧
    (batchReplaceable sels pk = none ↔ ∀ e ∈ received sels, e.pubkey ≠ pk) := by
  have h := repl_fold pk _ (received sels) rfl
  unfold batchReplaceable
  rw [replLoop_received]
  cases hr : (received sels).foldl replStep (fun _ => none) pk with
  | none =>
    rw [hr] at h
    refine ⟨fun v => ⟨fun h' => by simp at h', ?_⟩, by simpa using h⟩
    rintro ⟨pre, post, he, hp, -, -⟩
    exact absurd hp (h v (by rw [he]; simp))
  | some w =>
    rw [hr] at h
    refine ⟨fun v => ⟨fun h' => by cases h'; exact h, fun h' => by rw [newest_unique h h']⟩, ⟨fun h' => by simp at h', ?_⟩⟩
    intro h'
    obtain ⟨pre, post, he, hp, -, -⟩ := h
    exact absurd hp (h' w (by rw [he]; simp))

/-- Building the queries (replaceable_loader.go:90-112): the goroutine of one pubkey appends the pubkey to the filter of each of its relays; the filters are
kept in order of first use of the relay, together with their authors. -/
def addAuthor (pk : Bytes) (relay : Bytes) : List (Bytes × List Bytes) → List (Bytes × List Bytes)
  | [] => [(relay, [pk])]
  | (r, a) :: fs => if r = relay then (r, a ++ [pk]) :: fs else (r, a) :: addAuthor pk relay fs

/-- All goroutines, in the order in which they take the lock. -/
def buildFilters (relaysOf : Bytes → List Bytes) (pks : List Bytes) : List (Bytes × List Bytes) :=
  pks.foldl (fun fs pk => (relaysOf pk).foldl (fun fs r => addAuthor pk r fs) fs) []

theorem addAuthor_mem (pk relay : Bytes) : ∀ (fs : List (Bytes × List Bytes)) (r p : Bytes),
    (∃ a, (r, a) ∈ addAuthor pk relay fs ∧ p ∈ a) ↔ (∃ a, (r, a) ∈ fs ∧ p ∈ a) ∨ (r = relay ∧ p = pk)
  | [], r, p => by
    simp only [addAuthor, List.mem_singleton, Prod.mk.injEq, List.not_mem_nil, false_and, exists_false, false_or]
    constructor
    · rintro ⟨a, ⟨rfl, rfl⟩, h⟩; exact ⟨rfl, by simpa using h⟩
    · rintro ⟨rfl, rfl⟩; exact ⟨[p], ⟨rfl, rfl⟩, by simp⟩
  | (r0, a0) :: fs, r, p => by
    unfold addAuthor
    split
    · rename_i h
      subst h
      constructor
      · rintro ⟨a, h, hp⟩
        rcases List.mem_cons.1 h with h | h
        · cases h
          rcases List.mem_append.1 hp with hp | hp
          · exact Or.inl ⟨a0, List.mem_cons_self, hp⟩
          · exact Or.inr ⟨rfl, by simpa using hp⟩
        · exact Or.inl ⟨a, List.mem_cons_of_mem _ h, hp⟩
      · rintro (⟨a, h, hp⟩ | ⟨rfl, rfl⟩)
        · rcases List.mem_cons.1 h with h | h
          · cases h
            exact ⟨_, List.mem_cons_self, List.mem_append_left _ hp⟩
          · exact ⟨a, List.mem_cons_of_mem _ h, hp⟩
        · exact ⟨_, List.mem_cons_self, by simp⟩
    · have ih := addAuthor_mem pk relay fs r p
      constructor
      · rintro ⟨a, h, hp⟩
        rcases List.mem_cons.1 h with h | h
        · cases h
          exact Or.inl ⟨_, List.mem_cons_self, hp⟩
        · rcases ih.1 ⟨a, h, hp⟩ with ⟨a', h', hp'⟩ | h'
          · exact Or.inl ⟨a', List.mem_cons_of_mem _ h', hp'⟩
          · exact Or.inr h'
      · rintro (⟨a, h, hp⟩ | h)
        · rcases List.mem_cons.1 h with h | h
          · cases h
            exact ⟨_, List.mem_cons_self, hp⟩
          · obtain ⟨a', h', hp'⟩ := ih.2 (Or.inl ⟨a, h, hp⟩)
            exact ⟨a', List.mem_cons_of_mem _ h', hp'⟩
        · obtain ⟨a', h', hp'⟩ := ih.2 (Or.inr h)
          exact ⟨a', List.mem_cons_of_mem _ h', hp'⟩

theorem addAuthor_keys (pk relay : Bytes) : ∀ (fs : List (Bytes × List Bytes)),
    (addAuthor pk relay fs).map (·.1) = if relay ∈ fs.map (·.1) then fs.map (·.1) else fs.map (·.1) ++ [relay]
  | [] => rfl
  | (r0, a0) :: fs => by
    unfold addAuthor
    split
    · rename_i h; simp [h]
    · rename_i h
      have ih := addAuthor_keys pk relay fs
      have : ¬ relay = r0 := fun e => h e.symm
      simp only [List.map_cons, ih, List.mem_cons, this, false_or]
      split <;> simp

/-- **C75** (who is asked). In whatever order the goroutines run, every relay gets one filter, and its authors are exactly the pubkeys for which that relay was
chosen. -/
theorem C75_each_relay_asked (relaysOf : Bytes → List Bytes) (pks : List Bytes) :
    ((buildFilters relaysOf pks).map (·.1)).Nodup ∧
    ∀ r p, (∃ a, (r, a) ∈ buildFilters relaysOf pks ∧ p ∈ a) ↔ (p ∈ pks ∧ r ∈ relaysOf p) := by
  have inner : ∀ (pk : Bytes) (rs : List Bytes) (fs : List (Bytes × List Bytes)), (fs.map (·.1)).Nodup →
      ((rs.foldl (fun fs r => addAuthor pk r fs) fs).map (·.1)).Nodup ∧
      ∀ r p, (∃ a, (r, a) ∈ rs.foldl (fun fs r => addAuthor pk r fs) fs ∧ p ∈ a) ↔ (∃ a, (r, a) ∈ fs ∧ p ∈ a) ∨ (r ∈ rs ∧ p = pk) := by
    intro pk rs
    induction rs with
    | nil => intro fs h; exact ⟨h, by simp⟩
    | cons x xs ih =>
      intro fs h
      rw [List.foldl_cons]
      have hn : ((addAuthor pk x fs).map (·.1)).Nodup := by
        rw [addAuthor_keys]
        split
        · exact h
        · rename_i hx
          exact List.nodup_append.2 ⟨h, by simp, by
            intro a ha b hb
            simp only [List.mem_singleton] at hb
            subst hb
            rintro rfl
            exact hx ha⟩
      obtain ⟨h1, h2⟩ := ih _ hn
      refine ⟨h1, fun r p => ?_⟩
      rw [h2, addAuthor_mem]
      simp only [List.mem_cons]
      constructor
      · rintro ((h | h) | h)
        · exact Or.inl h
        · exact Or.inr ⟨Or.inl h.1, h.2⟩
        · exact Or.inr ⟨Or.inr h.1, h.2⟩
      · rintro (h | ⟨h | h, h'⟩)
        · exact Or.inl (Or.inl h)
        · exact Or.inl (Or.inr ⟨h, h'⟩)
        · exact Or.inr ⟨h, h'⟩
  have outer : ∀ (pks : List Bytes) (fs : List (Bytes × List Bytes)), (fs.map (·.1)).Nodup →
      ((pks.foldl (fun fs pk => (relaysOf pk).foldl (fun fs r => addAuthor pk r fs) fs) fs).map (·.1)).Nodup ∧
      ∀ r p, (∃ a, (r, a) ∈ pks.foldl (fun fs pk => (relaysOf pk).foldl (fun fs r => addAuthor pk r fs) fs) fs ∧ p ∈ a) ↔
        (∃ a, (r, a) ∈ fs ∧ p ∈ a) ∨ (p ∈ pks ∧ r ∈ relaysOf p) := by
    intro pks
    induction pks with
    | nil => intro fs h; exact ⟨h, by simp⟩
    | cons x xs ih =>
      intro fs h
      rw [List.foldl_cons]
      obtain ⟨a1, a2⟩ := inner x (relaysOf x) fs h
      obtain ⟨b1, b2⟩ := ih _ a1
      refine ⟨b1, fun r p => ?_⟩
      rw [b2, a2]
      simp only [List.mem_cons]
      constructor
      · rintro ((h | ⟨h, rfl⟩) | h)
        · exact Or.inl h
        · exact Or.inr ⟨Or.inl rfl, h⟩
        · exact Or.inr ⟨Or.inr h.1, h.2⟩
      · rintro (h | ⟨rfl | h, h'⟩)
        · exact Or.inl (Or.inl h)
        · exact Or.inl (Or.inr ⟨h', rfl⟩)
        · exact Or.inr ⟨h, h'⟩
  obtain ⟨h1, h2⟩ := outer pks [] (by simp)
  refine ⟨h1, fun r p => ?_⟩
  unfold buildFilters
  rw [h2]
  simp

/-- Events for the examples. -/
def ev (pk : Bytes) (ts : Int) (d : Bytes) (id : Bytes) : Event :=
  { id := id, pubkey := pk, createdAt := ts, kind := 30000, tags := [[b! "d", d]], content := [], sig := [] }

example : batchReplaceable [.event (ev (b! "p") 5 [] (b! "1")), .event (ev (b! "q") 9 [] (b! "2")), .event (ev (b! "p") 7 [] (b! "3")),
    .event (ev (b! "p") 7 [] (b! "4")), .closed, .event (ev (b! "p") 100 [] (b! "5"))] (b! "p") = some (ev (b! "p") 7 [] (b! "3")) := by decide +kernel

/-! ## C76: `batchLoadAddressableEvents` -/

/-- Looking for an event with the same `d` (addressable_loader.go:122-135): the new list. -/
def insertByD (e : Event) : List Event → List Event
  | [] => [e]
  | x :: xs => if Tags.getD x.tags = Tags.getD e.tags then (if x.createdAt < e.createdAt then e :: xs else x :: xs) else x :: insertByD e xs

/-- addressable_loader.go:107-140; a nil list is the empty one. -/
def addrStep (results : Bytes → List Event) (e : Event) : Bytes → List Event :=
  fun k => if k = e.pubkey then insertByD e (results e.pubkey) else results k

/-- The loop over what the pool returns (sdk/addressable_loader.go:107-144). -/
def addrLoop (results : Bytes → List Event) : List Sel → Bytes → List Event
  | [] => results
  | .event e :: r => addrLoop (addrStep results e) r
  | .closed :: _ => results
  | .done :: _ => results

/-- `batchLoadAddressableEvents`, the results (sdk/addressable_loader.go:43-145). -/
def batchAddressable (sels : List Sel) : Bytes → List Event := addrLoop (fun _ => []) sels

/-- Spec: newest among the events of `pk` with `d`-tag value `d`, the first received among equals. -/
def NewestD (es : List Event) (pk d : Bytes) (v : Event) : Prop :=
  ∃ pre post, es = pre ++ v :: post ∧ v.pubkey = pk ∧ Tags.getD v.tags = d ∧
    (∀ e ∈ pre, e.pubkey = pk → Tags.getD e.tags = d → e.createdAt < v.createdAt) ∧
    ∀ e ∈ post, e.pubkey = pk → Tags.getD e.tags = d → e.createdAt ≤ v.createdAt

/-- The state for one pubkey after some arrivals. -/
structure AddrOk (es : List Event) (pk : Bytes) (l : List Event) : Prop where
  nodup : (l.map (fun e => Tags.getD e.tags)).Nodup
  newest : ∀ v ∈ l, NewestD es pk (Tags.getD v.tags) v
  all : ∀ e ∈ es, e.pubkey = pk → ∃ v ∈ l, Tags.getD v.tags = Tags.getD e.tags

theorem insertByD_ds (e : Event) : ∀ (l : List Event), (insertByD e l).map (fun e => Tags.getD e.tags) =
    if Tags.getD e.tags ∈ l.map (fun e => Tags.getD e.tags) then l.map (fun e => Tags.getD e.tags)
    else l.map (fun e => Tags.getD e.tags) ++ [Tags.getD e.tags]
  | [] => rfl
  | x :: xs => by
    unfold insertByD
    split
    · rename_i h
      split <;> simp [h]
    · rename_i h
      have ih := insertByD_ds e xs
      have h' : ¬ Tags.getD e.tags = Tags.getD x.tags := fun a => h a.symm
      simp only [List.map_cons, ih, List.mem_cons, h', false_or]
      split <;> simp

theorem insertByD_mem (e : Event) : ∀ (l : List Event), (l.map (fun e => Tags.getD e.tags)).Nodup → ∀ v, v ∈ insertByD e l ↔
    (v = e ∧ ∀ x ∈ l, Tags.getD x.tags = Tags.getD e.tags → x.createdAt < e.createdAt) ∨
    (v ∈ l ∧ (Tags.getD v.tags = Tags.getD e.tags → e.createdAt ≤ v.createdAt))
  | [], _, v => by simp [insertByD]
  | x :: xs, hn, v => by
    simp only [List.map_cons, List.nodup_cons] at hn
    obtain ⟨hx, hn'⟩ := hn
    unfold insertByD
    by_cases hd : Tags.getD x.tags = Tags.getD e.tags
    · rw [if_pos hd]
      have others : ∀ y ∈ xs, Tags.getD y.tags ≠ Tags.getD e.tags := by
        intro y hy h
        apply hx
        rw [hd, ← h]
        exact List.mem_map_of_mem (f := fun e : Event => Tags.getD e.tags) hy
      by_cases ht : x.createdAt < e.createdAt
      · rw [if_pos ht]
        simp only [List.mem_cons]
        constructor
        · rintro (rfl | h)
          · refine Or.inl ⟨rfl, ?_⟩
            rintro y (rfl | hy) h
            · exact ht
            · exact absurd h (others y hy)
          · exact Or.inr ⟨Or.inr h, fun hh => absurd hh (others v h)⟩
        · rintro (⟨rfl, -⟩ | ⟨rfl | h, h2⟩)
          · exact Or.inl rfl
          · have := h2 hd; omega
          · exact Or.inr h
      · rw [if_neg ht]
        simp only [List.mem_cons]
        constructor
        · rintro (rfl | h)
          · exact Or.inr ⟨Or.inl rfl, fun _ => by omega⟩
          · exact Or.inr ⟨Or.inr h, fun hh => absurd hh (others v h)⟩
        · rintro (⟨rfl, h⟩ | ⟨h, -⟩)
          · exact absurd (h x (Or.inl rfl) hd) ht
          · exact h
    · rw [if_neg hd]
      have ih := insertByD_mem e xs hn' v
      simp only [List.mem_cons, ih]
      constructor
      · rintro (rfl | ⟨rfl, h⟩ | ⟨h, h2⟩)
        · exact Or.inr ⟨Or.inl rfl, fun hh => absurd hh hd⟩
        · refine Or.inl ⟨rfl, ?_⟩
          rintro y (rfl | hy) hh
          · exact absurd hh hd
          · exact h y hy hh
        · exact Or.inr ⟨Or.inr h, h2⟩
      · rintro (⟨rfl, h⟩ | ⟨rfl | h, h2⟩)
        · exact Or.inr (Or.inl ⟨rfl, fun y hy hh => h y (Or.inr hy) hh⟩)
        · exact Or.inl rfl
        · exact Or.inr (Or.inr ⟨h, h2⟩)

theorem newestD_max {es : List Event} {pk d : Bytes} {v : Event} (h : NewestD es pk d v) :
    ∀ e ∈ es, e.pubkey = pk → Tags.getD e.tags = d → e.createdAt ≤ v.createdAt := by
  obtain ⟨pre, post, rfl, h1, h2, h3, h4⟩ := h
  intro e he hp hd
  rcases List.mem_append.1 he with he | he
  · have := h3 e he hp hd; omega
  · rcases List.mem_cons.1 he with rfl | he
    · omega
    · exact h4 e he hp hd

theorem newestD_snoc {es : List Event} {pk d : Bytes} {v x : Event} (h : NewestD es pk d v)
    (hx : x.pubkey = pk → Tags.getD x.tags = d → x.createdAt ≤ v.createdAt) : NewestD (es ++ [x]) pk d v := by
  obtain ⟨pre, post, rfl, h1, h2, h3, h4⟩ := h
  refine ⟨pre, post ++ [x], by simp, h1, h2, h3, ?_⟩
  intro e he hp hd
  rcases List.mem_append.1 he with he | he
  · exact h4 e he hp hd
  · simp only [List.mem_singleton] at he; subst he; exact hx hp hd

theorem addrOk_fold (pk : Bytes) : ∀ (n : Nat) (es : List Event), es.length = n → AddrOk es pk (es.foldl addrStep (fun _ => []) pk)
  | 0, es, h => by
    cases es with
    | nil => exact ⟨by simp, by simp, by simp⟩
    | cons _ _ => simp at h
  | n + 1, es, h => by
    have hne : es ≠ [] := by rintro rfl; simp at h
    obtain ⟨init, x, rfl⟩ : ∃ init x, es = init ++ [x] := ⟨es.dropLast, es.getLast hne, (List.dropLast_append_getLast hne).symm⟩
    have ih := addrOk_fold pk n init (by simp at h; exact h)
    rw [foldl_append_one]
    generalize init.foldl addrStep (fun _ => []) = r at ih
    by_cases hp : pk = x.pubkey
    · subst hp
      have e : addrStep r x x.pubkey = insertByD x (r x.pubkey) := by simp [addrStep]
      rw [e]
      refine ⟨?_, ?_, ?_⟩
      · rw [insertByD_ds]
        split
        · exact ih.nodup
        · rename_i hx
          exact List.nodup_append.2 ⟨ih.nodup, by simp, by
            intro a ha b hb
            simp only [List.mem_singleton] at hb
            subst hb
            rintro rfl
            exact hx ha⟩
      · intro v hv
        rcases (insertByD_mem x _ ih.nodup v).1 hv with ⟨rfl, h1⟩ | ⟨h1, h2⟩
        · refine ⟨init, [], rfl, rfl, rfl, ?_, by simp⟩
          intro e he hpe hde
          obtain ⟨w, hw, hwd⟩ := ih.all e he hpe
          have h3 := h1 w hw (hwd.trans hde)
          have h4 := newestD_max (ih.newest w hw) e he hpe hwd.symm
          omega
        · exact newestD_snoc (ih.newest v h1) (fun _ hd => h2 hd.symm)
      · intro e he hpe
        have key : ∀ d, d ∈ (r x.pubkey).map (fun e => Tags.getD e.tags) ∨ d = Tags.getD x.tags →
            ∃ v ∈ insertByD x (r x.pubkey), Tags.getD v.tags = d := by
          intro d hd
          have : d ∈ (insertByD x (r x.pubkey)).map (fun e => Tags.getD e.tags) := by
            rw [insertByD_ds]
            split
            · rcases hd with hd | rfl
              · exact hd
              · assumption
            · rcases hd with hd | rfl
              · exact List.mem_append_left _ hd
              · simp
          obtain ⟨v, hv, hvd⟩ := List.mem_map.1 this
          exact ⟨v, hv, hvd⟩
        apply key
        rcases List.mem_append.1 he with he | he
        · left
          obtain ⟨v, hv, hvd⟩ := ih.all e he hpe
          rw [← hvd]
          exact List.mem_map_of_mem (f := fun e : Event => Tags.getD e.tags) hv
        · right
          simp only [List.mem_singleton] at he; rw [he]
    · have e : addrStep r x pk = r pk := by simp [addrStep, hp]
      rw [e]
      refine ⟨ih.nodup, fun v hv => newestD_snoc (ih.newest v hv) (fun h => absurd h.symm hp), ?_⟩
      intro e' he' hpe
      rcases List.mem_append.1 he' with he' | he'
      · exact ih.all e' he' hpe
      · simp only [List.mem_singleton] at he'; subst he'; exact absurd hpe.symm hp

theorem addrLoop_received (sels : List Sel) : ∀ results, addrLoop results sels = (received sels).foldl addrStep results := by
  induction sels with
  | nil => intro r; rfl
  | cons x xs ih =>
    intro r
    cases x with
    | event e => simp only [addrLoop, received, List.foldl_cons]; exact ih _
    | closed => rfl
    | done => rfl

/-- **C76**. For every order of arrivals and every pubkey: no two results share a `d` value, every result is the newest event received with its `d`
value, and every event received for the pubkey is represented. -/
theorem C76_newest_per_d (sels : List Sel) (pk : Bytes) :
    ((batchAddressable sels pk).map (fun e => Tags.getD e.tags)).Nodup ∧
    (∀ v ∈ batchAddressable sels pk, NewestD (received sels) pk (Tags.getD v.tags) v) ∧
    (∀ e ∈ received sels, e.pubkey = pk → ∃ v ∈ batchAddressable sels pk, Tags.getD v.tags = Tags.getD e.tags) := by
  have h := addrOk_fold pk _ (received sels) rfl
  unfold batchAddressable
  rw [addrLoop_received]
  exact ⟨h.nodup, h.newest, h.all⟩

example : batchAddressable [.event (ev (b! "p") 5 (b! "x") (b! "1")), .event (ev (b! "p") 9 (b! "y") (b! "2")), .event (ev (b! "p") 7 (b! "x") (b! "3")),
    .event (ev (b! "p") 2 (b! "x") (b! "4")), .done] (b! "p") = [ev (b! "p") 7 (b! "x") (b! "3"), ev (b! "p") 9 (b! "y") (b! "2")] := by decide +kernel

/-! ## C78 -/

/-- The loop of `parseItemsFromEventTags` (list.go:126-141) and of `parseSetsFromEvents` (set.go:116-135). -/
def parseItems {I : Type} (value : I → Bytes) (parse : Tag → Option I) : List I → Tags → List I
  | acc, [] => acc
  | acc, t :: ts => match parse t with
    | none => parseItems value parse acc ts
    | some i => if acc.any (fun x => value x == value i) then parseItems value parse acc ts else parseItems value parse (acc ++ [i]) ts

/-- Spec: `x` is the first of the items having its value. -/
def FirstItem {I : Type} (value : I → Bytes) (items : List I) (x : I) : Prop :=
  ∃ pre post, items = pre ++ x :: post ∧ ∀ y ∈ pre, value y ≠ value x

theorem parseItems_spec {I : Type} (value : I → Bytes) (parse : Tag → Option I) : ∀ (ts : Tags) (acc : List I),
    (acc.map value).Nodup → ((parseItems value parse acc ts).map value).Nodup ∧
    (∃ added, parseItems value parse acc ts = acc ++ added ∧ added.Sublist (ts.filterMap parse) ∧
      ∀ x, x ∈ added ↔ ∃ pre post, ts.filterMap parse = pre ++ x :: post ∧ (∀ y ∈ pre, value y ≠ value x) ∧ ∀ y ∈ acc, value y ≠ value x)
  | [], acc, h => ⟨h, [], by simp [parseItems], by simp, by simp⟩
  | t :: ts, acc, h => by
    unfold parseItems
    cases hp : parse t with
    | none =>
      simp only []
      rw [List.filterMap_cons_none hp]
      exact parseItems_spec value parse ts acc h
    | some i =>
      simp only []
      rw [List.filterMap_cons_some hp]
      by_cases hi : acc.any (fun x => value x == value i) = true
      · rw [if_pos hi]
        obtain ⟨h1, added, h2, h3, h4⟩ := parseItems_spec value parse ts acc h
        refine ⟨h1, added, h2, h3.cons _, ?_⟩
        obtain ⟨z, hz, hzi⟩ := List.any_eq_true.1 hi
        have hzi : value z = value i := by simpa using hzi
        intro x
        rw [h4]
        constructor
        · rintro ⟨pre, post, e, a, b⟩
          refine ⟨i :: pre, post, by rw [e]; rfl, ?_, b⟩
          intro y hy
          rcases List.mem_cons.1 hy with rfl | hy
          · rw [← hzi]; exact b z hz
          · exact a y hy
        · rintro ⟨pre, post, e, a, b⟩
          cases pre with
          | nil =>
            simp only [List.nil_append, List.cons.injEq] at e
            rw [← e.1] at b
            exact absurd hzi (b z hz)
          | cons p pre =>
            simp only [List.cons_append, List.cons.injEq] at e
            exact ⟨pre, post, e.2, fun y hy => a y (List.mem_cons_of_mem _ hy), b⟩
      · rw [if_neg hi]
        have hnot : ∀ y ∈ acc, value y ≠ value i := by
          intro y hy he
          apply hi
          rw [List.any_eq_true]
          exact ⟨y, hy, by simp [he]⟩
        have hn : ((acc ++ [i]).map value).Nodup := by
          rw [List.map_append]
          refine List.nodup_append.2 ⟨h, by simp, ?_⟩
          intro a ha b hb
          simp only [List.map_cons, List.map_nil, List.mem_singleton] at hb
          obtain ⟨y, hy, rfl⟩ := List.mem_map.1 ha
          rw [hb]; exact hnot y hy
        obtain ⟨h1, added, h2, h3, h4⟩ := parseItems_spec value parse ts (acc ++ [i]) hn
        refine ⟨h1, i :: added, by rw [h2]; simp, h3.cons_cons _, ?_⟩
        intro x
        rw [List.mem_cons, h4]
        constructor
        · rintro (rfl | ⟨pre, post, e, a, b⟩)
          · exact ⟨[], ts.filterMap parse, rfl, by simp, hnot⟩
          · refine ⟨i :: pre, post, by rw [e]; rfl, ?_, fun y hy => b y (List.mem_append_left _ hy)⟩
            intro y hy
            rcases List.mem_cons.1 hy with rfl | hy
            · exact b y (by simp)
            · exact a y hy
        · rintro ⟨pre, post, e, a, b⟩
          cases pre with
          | nil =>
            simp only [List.nil_append, List.cons.injEq] at e
            exact Or.inl e.1.symm
          | cons p pre =>
            simp only [List.cons_append, List.cons.injEq] at e
            obtain ⟨rfl, e⟩ := e
            refine Or.inr ⟨pre, post, e, fun y hy => a y (List.mem_cons_of_mem _ hy), ?_⟩
            intro y hy
            rcases List.mem_append.1 hy with hy | hy
            · exact b y hy
            · simp only [List.mem_singleton] at hy
              subst hy
              exact a y List.mem_cons_self

/-- `parseItemsFromEventTags` (list.go:126-141). -/
def parseList {I : Type} (value : I → Bytes) (parse : Tag → Option I) (evt : Event) : List I := parseItems value parse [] evt.tags

/-- **C78** (lists). For every event and every tag parser: the items are among the parseable tags in tag order, no two have the same value, and an item is
listed exactly if it is the first parseable one with its value. -/
theorem C78_first_occurrences {I : Type} (value : I → Bytes) (parse : Tag → Option I) (evt : Event) :
    ((parseList value parse evt).map value).Nodup ∧ (parseList value parse evt).Sublist (evt.tags.filterMap parse) ∧
    (∀ x, x ∈ parseList value parse evt ↔ FirstItem value (evt.tags.filterMap parse) x) := by
  obtain ⟨h1, added, h2, h3, h4⟩ := parseItems_spec value parse evt.tags [] (by simp)
  unfold parseList
  rw [List.nil_append] at h2
  refine ⟨h1, by rw [h2]; exact h3, ?_⟩
  intro x
  rw [h2, h4]
  unfold FirstItem
  simp

/-- `parseSetsFromEvents` (set.go:116-135): a map from `d` values to items. -/
def parseSets {I : Type} (value : I → Bytes) (parse : Tag → Option I) (events : List Event) : Bytes → Option (List I) :=
  events.foldl (fun m e => fun k => if k = Tags.getD e.tags then some (parseList value parse e) else m k) (fun _ => none)

/-- **C78** (sets). The set named `d` is the parsed list of the last event with that `d` value, and exists exactly if there is such an event. -/
theorem C78_sets {I : Type} (value : I → Bytes) (parse : Tag → Option I) (events : List Event) (d : Bytes) :
    (parseSets value parse events d = none ↔ ∀ e ∈ events, Tags.getD e.tags ≠ d) ∧
    (∀ pre e post, events = pre ++ e :: post → Tags.getD e.tags = d → (∀ x ∈ post, Tags.getD x.tags ≠ d) →
      parseSets value parse events d = some (parseList value parse e)) := by
  have gen : ∀ (events : List Event) (m : Bytes → Option (List I)), (∀ x ∈ events, Tags.getD x.tags ≠ d) →
      events.foldl (fun m e => fun k => if k = Tags.getD e.tags then some (parseList value parse e) else m k) m d = m d := by
    intro events
    induction events with
    | nil => intro m _; rfl
    | cons x xs ih =>
      intro m h
      rw [List.foldl_cons, ih _ (fun y hy => h y (List.mem_cons_of_mem _ hy))]
      have : ¬ d = Tags.getD x.tags := fun e => h x List.mem_cons_self e.symm
      simp [this]
  have second : ∀ pre e post, events = pre ++ e :: post → Tags.getD e.tags = d → (∀ x ∈ post, Tags.getD x.tags ≠ d) →
      parseSets value parse events d = some (parseList value parse e) := by
    intro pre e post he hd hp
    unfold parseSets
    rw [he, List.foldl_append, List.foldl_cons, gen post _ hp]
    simp [hd]
  refine ⟨⟨?_, fun h => gen events _ h⟩, second⟩
  intro hn e he hd
  have : ∀ (l : List Event), (∃ e ∈ l, Tags.getD e.tags = d) → ∃ pre e post, l = pre ++ e :: post ∧ Tags.getD e.tags = d ∧ ∀ x ∈ post, Tags.getD x.tags ≠ d := by
    intro l
    induction l with
    | nil => rintro ⟨e, he, _⟩; simp at he
    | cons x xs ih =>
      rintro ⟨e, he, hd⟩
      by_cases h : ∃ e ∈ xs, Tags.getD e.tags = d
      · obtain ⟨pre, e', post, h1, h2, h3⟩ := ih h
        exact ⟨x :: pre, e', post, by rw [h1]; rfl, h2, h3⟩
      · rcases List.mem_cons.1 he with rfl | he
        · exact ⟨[], e, xs, rfl, hd, fun y hy hyd => h ⟨y, hy, hyd⟩⟩
        · exact absurd ⟨e, he, hd⟩ h
  obtain ⟨pre, e', post, h1, h2, h3⟩ := this events ⟨e, he, hd⟩
  rw [second pre e' post h1 h2 h3] at hn
  cases hn

/-! ### The tag parsers -/

/-- What is not modelled: key and url parsing, url normalization, `strings.TrimSpace`. -/
structure LEnv where
  ptr : Ptr.Env
  normalize : Bytes → Bytes
  urlParses : Bytes → Bool
  trim : Bytes → Bytes

/-- sdk/lists_profile.go:12-16 -/
structure ProfileRef where
  pubkey : Bytes
  relay : Bytes
  petname : Bytes
  deriving DecidableEq, Repr

/-- `parseProfileRef` (lists_profile.go:47-71). -/
def parseProfileRef (env : LEnv) : Tag → Option ProfileRef
  | [] => none
  | [_] => none
  | k :: pk :: rest =>
    if k ≠ b! "p" then none
    else if ¬ isValidPublicKey env.ptr.parsePub pk then none
    else match rest with
      | [] => some ⟨pk, [], []⟩
      | [r] => some ⟨pk, if env.urlParses r then env.normalize r else [], []⟩
      | r :: n :: _ => some ⟨pk, if env.urlParses r then env.normalize r else [], env.trim n⟩

/-- sdk/lists_relay.go:10-14 -/
structure Relay where
  url : Bytes
  inbox : Bool
  outbox : Bool
  deriving DecidableEq, Repr

/-- `parseRelayFromKind10002` (lists_relay.go:54-78); `tag.Value()` is empty for fewer than two elements. -/
def parseRelay (env : LEnv) : Tag → Option Relay
  | [] => none
  | [_] => none
  | k :: u :: rest =>
    if u = [] ∨ k ≠ b! "r" then none
    else if ¬ env.ptr.validRelay u then none
    else match rest with
      | [] => some ⟨env.normalize u, true, true⟩
      | m :: _ => if m = b! "write" then some ⟨env.normalize u, false, true⟩
        else if m = b! "read" then some ⟨env.normalize u, true, false⟩
        else some ⟨env.normalize u, false, false⟩

/-- `parseRelayURL` (lists_relay.go:80-90). -/
def parseRelayURL (env : LEnv) : Tag → Option Bytes
  | k :: u :: _ => if u = [] ∨ k ≠ b! "relay" then none else if ¬ env.ptr.validRelay u then none else some (env.normalize u)
  | _ => none

/-- `parseTopicString` (lists_topics.go:32-37). -/
def parseTopic : Tag → Option Bytes
  | k :: u :: _ => if u = [] ∨ k ≠ b! "t" then none else some u
  | _ => none

/-- `parseEventRef` (lists_event.go:34-76): whatever it builds, every return statement says `false`. -/
def parseEventRef (_ : LEnv) : Tag → Option (Nip19.EventPointer ⊕ Nip19.EntityPointer)
  | [] => none
  | [_] => none
  | k :: _ :: _ => if k = b! "e" then none else if k = b! "a" then none else none

/-- **C78** (which tags count). Follow lists take exactly the `p` tags with a valid key, relay lists the `r` tags with a valid url, blocked and search relay lists
the `relay` tags with a valid url, topic lists the non-empty `t` tags. -/
theorem C78_accepted_tags (env : LEnv) (t : Tag) :
    ((parseProfileRef env t).isSome ↔ ∃ pk rest, t = b! "p" :: pk :: rest ∧ isValidPublicKey env.ptr.parsePub pk = true) ∧
    (∀ x, parseProfileRef env t = some x → ∃ k rest, t = k :: x.pubkey :: rest) ∧
    ((parseRelay env t).isSome ↔ ∃ u rest, t = b! "r" :: u :: rest ∧ u ≠ [] ∧ env.ptr.validRelay u = true) ∧
    ((parseRelayURL env t).isSome ↔ ∃ u rest, t = b! "relay" :: u :: rest ∧ u ≠ [] ∧ env.ptr.validRelay u = true) ∧
    (∀ x, parseTopic t = some x ↔ ∃ rest, t = b! "t" :: x :: rest ∧ x ≠ []) := by
  match t with
  | [] => simp [parseProfileRef, parseRelay, parseRelayURL, parseTopic]
  | [_] => simp [parseProfileRef, parseRelay, parseRelayURL, parseTopic]
  | k :: v :: rest =>
    refine ⟨?_, ?_, ?_, ?_, ?_⟩
    · simp only [parseProfileRef]
      by_cases h1 : k = b! "p"
      · by_cases h2 : isValidPublicKey env.ptr.parsePub v = true
        · rw [if_neg (by simpa using h1), if_neg (by simpa using h2)]
          refine ⟨fun _ => ⟨v, rest, by rw [h1], h2⟩, fun _ => ?_⟩
          match rest with
          | [] => rfl
          | [_] => rfl
          | _ :: _ :: _ => rfl
        · rw [if_neg (by simpa using h1), if_pos (by simpa using h2)]
          simp only [Option.isSome_none, Bool.false_eq_true, false_iff]
          rintro ⟨pk, r, e, hv⟩
          simp only [List.cons.injEq] at e
          rw [e.2.1] at h2
          exact h2 hv
      · rw [if_pos (by simpa using h1)]
        simp only [Option.isSome_none, Bool.false_eq_true, false_iff]
        rintro ⟨pk, r, e, hv⟩
        simp only [List.cons.injEq] at e
        exact h1 e.1
    · intro x hx
      simp only [parseProfileRef] at hx
      split at hx
      · cases hx
      · split at hx
        · cases hx
        · refine ⟨k, rest, ?_⟩
          match rest, hx with
          | [], hx => cases hx; rfl
          | [_], hx => cases hx; rfl
          | _ :: _ :: _, hx => cases hx; rfl
    · simp only [parseRelay]
      by_cases h1 : v = [] ∨ k ≠ b! "r"
      · rw [if_pos h1]
        simp only [Option.isSome_none, Bool.false_eq_true, false_iff]
        rintro ⟨u, r, e, hu, hv⟩
        simp only [List.cons.injEq] at e
        rcases h1 with h1 | h1
        · rw [← e.2.1] at hu; exact hu h1
        · exact h1 e.1
      · rw [if_neg h1]
        have hk : k = b! "r" := Classical.not_not.1 (fun a => h1 (Or.inr a))
        by_cases h2 : env.ptr.validRelay v = true
        · rw [if_neg (by simpa using h2)]
          refine ⟨fun _ => ⟨v, rest, by rw [hk], fun a => h1 (Or.inl a), h2⟩, fun _ => ?_⟩
          match rest with
          | [] => rfl
          | m :: _ => dsimp only; split <;> [rfl; (split <;> rfl)]
        · rw [if_pos (by simpa using h2)]
          simp only [Option.isSome_none, Bool.false_eq_true, false_iff]
          rintro ⟨u, r, e, hu, hv⟩
          simp only [List.cons.injEq] at e
          rw [e.2.1] at h2
          exact h2 hv
    · simp only [parseRelayURL]
      by_cases h1 : v = [] ∨ k ≠ b! "relay"
      · rw [if_pos h1]
        simp only [Option.isSome_none, Bool.false_eq_true, false_iff]
        rintro ⟨u, r, e, hu, hv⟩
        simp only [List.cons.injEq] at e
        rcases h1 with h1 | h1
        · rw [← e.2.1] at hu; exact hu h1
        · exact h1 e.1
      · rw [if_neg h1]
        have hk : k = b! "relay" := Classical.not_not.1 (fun a => h1 (Or.inr a))
        by_cases h2 : env.ptr.validRelay v = true
        · rw [if_neg (by simpa using h2)]
          exact ⟨fun _ => ⟨v, rest, by rw [hk], fun a => h1 (Or.inl a), h2⟩, fun _ => rfl⟩
        · rw [if_pos (by simpa using h2)]
          simp only [Option.isSome_none, Bool.false_eq_true, false_iff]
          rintro ⟨u, r, e, hu, hv⟩
          simp only [List.cons.injEq] at e
          rw [e.2.1] at h2
          exact h2 hv
    · intro x
      simp only [parseTopic]
      by_cases h1 : v = [] ∨ k ≠ b! "t"
      · rw [if_pos h1]
        simp only [reduceCtorEq, false_iff]
        rintro ⟨r, e, hu⟩
        simp only [List.cons.injEq] at e
        rcases h1 with h1 | h1
        · rw [← e.2.1] at hu; exact hu h1
        · exact h1 e.1
      · rw [if_neg h1]
        have hk : k = b! "t" := Classical.not_not.1 (fun a => h1 (Or.inr a))
        constructor
        · intro h; cases h; exact ⟨rest, by rw [hk], fun a => h1 (Or.inl a)⟩
        · rintro ⟨r, e, hu⟩
          simp only [List.cons.injEq] at e
          rw [e.2.1]

/-- **C78** (read and write markers). A relay list entry is for both directions without a marker, for one with `read` or `write`, and for none with anything else. -/
theorem C78_relay_markers (env : LEnv) (t : Tag) (x : Relay) (h : parseRelay env t = some x) :
    ∃ u rest, t = b! "r" :: u :: rest ∧ x.url = env.normalize u ∧ (x.inbox = true ↔ rest = [] ∨ ∃ r, rest = b! "read" :: r) ∧
      (x.outbox = true ↔ rest = [] ∨ ∃ r, rest = b! "write" :: r) := by
  match t, h with
  | [], h => simp [parseRelay] at h
  | [_], h => simp [parseRelay] at h
  | k :: u :: rest, h =>
    simp only [parseRelay] at h
    split at h
    · cases h
    · rename_i h1
      have hk : k = b! "r" := Classical.not_not.1 (fun a => h1 (Or.inr a))
      split at h
      · cases h
      · refine ⟨u, rest, by rw [hk], ?_⟩
        match rest, h with
        | [], h => cases h; simp
        | m :: r, h =>
          dsimp only at h
          split at h
          · rename_i hm
            cases h
            subst hm
            refine ⟨rfl, by simp, by simp⟩
          · rename_i hw
            split at h
            · rename_i hr
              cases h
              subst hr
              refine ⟨rfl, by simp, by simp⟩
            · rename_i hr
              cases h
              refine ⟨rfl, ?_, ?_⟩ <;> simp [hw, hr]

/-- **C78 refuted (bookmarks and pins).** The parser of event references never accepts a tag: bookmark and pin lists are always empty. -/
theorem C78_event_lists_always_empty (env : LEnv) (value : Nip19.EventPointer ⊕ Nip19.EntityPointer → Bytes) (evt : Event) :
    parseList value (parseEventRef env) evt = [] := by
  have h : ∀ t, parseEventRef env t = none := by
    intro t
    match t with
    | [] => rfl
    | [_] => rfl
    | k :: v :: r => simp [parseEventRef]
  unfold parseList
  generalize evt.tags = ts
  induction ts with
  | nil => rfl
  | cons t ts ih => simp only [parseItems, h]; exact ih

example : parseList id parseTopic ⟨[], [], 0, 10015, [[b! "t", b! "a"], [b! "p", b! "x"], [b! "t", b! "b", b! "z"], [b! "t"], [b! "t", b! "a"]], [], []⟩ =
    [b! "a", b! "b"] := by decide +kernel

/-! ## C93: which version of a list is returned -/

/-- Everything a fetch reads: the cached answer, the events of the local store (newest first), the time of the last network fetch, the answer of the network
loader (`none`: it failed), the clock. Lists are represented by the event they were parsed from. -/
structure Inputs where
  cached : Option (Option Event)
  stored : List Event
  lastFetch : Option Int
  network : Option Event
  now : Int

/-- `getLocalStoreRefreshDaysForKind` (list.go:143-152). -/
def refreshDays (kind : Int) : Int := if kind = 0 then 7 else if kind = 3 then 1 else 3

/-- Is the network asked although something is stored? (sdk/list.go:71) -/
def stale (kind : Int) (i : Inputs) : Bool :=
  match i.lastFetch with
  | none => true
  | some t => i.now - t > refreshDays kind * 24 * 60 * 60

/-- `fetchGenericList` (list.go:30-102), reduced to the event of the list it returns; the slice of the pubkey that picks the mutex may panic. -/
def fetchList (kind : Int) (pubkey : Bytes) (i : Inputs) : Out (Option Event) :=
  match goSlice pubkey 14 16 with
  | .panic => .panic
  | .val _ => match i.cached with
    | some v => .val v
    | none => match i.stored with
      | e :: _ => if stale kind i then
          (match i.network with
          | some n => if n.createdAt > e.createdAt then .val (some n) else .val (some e)
          | none => .val (some e))
        else .val (some e)
      | [] => match i.network with
        | some n => .val (some n)
        | none => .val none

/-- What a fetch of sets reads. -/
structure SetInputs where
  cached : Option (List Event)
  stored : List Event
  lastFetch : Option Int
  network : Option (List Event)
  now : Int

/-- `fetchGenericSets` (set.go:22-91): the pointer returned by the network fetch is used without a check (set.go:64). -/
def fetchSets (kind : Int) (pubkey : Bytes) (i : SetInputs) : Out (List Event) :=
  match goSlice pubkey 14 16 with
  | .panic => .panic
  | .val _ => match i.cached with
    | some v => .val v
    | none => match i.stored with
      | e :: es => if stale kind ⟨none, [], i.lastFetch, none, i.now⟩ then
          (match i.network with
          | some n => .val n
          | none => .panic)
        else .val (e :: es)
      | [] => match i.network with
        | some n => .val n
        | none => .val []

/-- Specification: how long, in seconds, a list is taken from the local store before relays are asked again: follow lists a day, profiles a week, others three days. -/
def freshFor (kind : Int) : Int := if kind = 3 then 86400 else if kind = 0 then 604800 else 259200

theorem refreshDays_eq (kind : Int) : refreshDays kind * 24 * 60 * 60 = freshFor kind := by
  unfold refreshDays freshFor
  by_cases h0 : kind = 0
  · subst h0; rfl
  · by_cases h3 : kind = 3
    · subst h3; rfl
    · rw [if_neg h0, if_neg h3, if_neg h3, if_neg h0]; rfl

/-- **C93** (lists). A list fetch that is not answered from the cache returns the stored version or the network's, whichever is newer among those it looks at, and
never nothing when something is stored or found; while the stored version is fresh it is the one. -/
theorem C93_list_newest_partial (kind : Int) (pubkey : Bytes) (i : Inputs) (hk : 16 ≤ pubkey.length) (hc : i.cached = none) :
    ∃ r, fetchList kind pubkey i = .val r ∧
      (∀ e es, i.stored = e :: es → ∃ v, r = some v ∧ e.createdAt ≤ v.createdAt ∧ (v = e ∨ i.network = some v)) ∧
      (∀ e es n, i.stored = e :: es → i.network = some n → (∀ t, i.lastFetch = some t → i.now - t > freshFor kind) →
        ∃ v, r = some v ∧ n.createdAt ≤ v.createdAt) ∧
      (i.stored = [] → r = i.network) ∧
      (∀ e es t, i.stored = e :: es → i.lastFetch = some t → i.now - t ≤ freshFor kind → r = some e) := by
  rw [← refreshDays_eq]
  have hs : goSlice pubkey 14 16 = .val ((pubkey.drop 14).take 2) := by
    unfold goSlice
    rw [if_pos (by omega)]
    rfl
  unfold fetchList
  rw [hs]
  simp only [hc]
  cases hst : i.stored with
  | nil =>
    cases hn : i.network with
    | none => exact ⟨none, rfl, by simp, by simp, by simp, by simp⟩
    | some n => exact ⟨some n, rfl, by simp, by simp, by simp, by simp⟩
  | cons e es =>
    dsimp only
    have hfresh : ∀ t, i.lastFetch = some t → i.now - t ≤ refreshDays kind * 24 * 60 * 60 → ¬ stale kind i = true := by
      intro t ht hle
      simp only [stale, ht, decide_eq_true_eq]
      omega
    by_cases hsl : stale kind i = true
    · rw [if_pos hsl]
      cases hn : i.network with
      | none =>
        refine ⟨some e, rfl, ?_, ?_, by simp, fun _ _ t _ ht hle => absurd hsl (hfresh t ht hle)⟩
        · intro e' es' he; cases he; exact ⟨e, rfl, by omega, Or.inl rfl⟩
        · simp
      | some n =>
        dsimp only
        by_cases ht : n.createdAt > e.createdAt
        · rw [if_pos ht]
          refine ⟨some n, rfl, ?_, ?_, by simp, fun _ _ t _ ht hle => absurd hsl (hfresh t ht hle)⟩
          · intro e' es' he; cases he; exact ⟨n, rfl, by omega, Or.inr rfl⟩
          · intro e' es' n' _ hn' _; cases hn'; exact ⟨n, rfl, by omega⟩
        · rw [if_neg ht]
          refine ⟨some e, rfl, ?_, ?_, by simp, fun _ _ t _ ht hle => absurd hsl (hfresh t ht hle)⟩
          · intro e' es' he; cases he; exact ⟨e, rfl, by omega, Or.inl rfl⟩
          · intro e' es' n' _ hn' _; cases hn'; exact ⟨e, rfl, by omega⟩
    · rw [if_neg hsl]
      refine ⟨some e, rfl, ?_, ?_, by simp, fun e' es' t he _ _ => by cases he; rfl⟩
      · intro e' es' he; cases he; exact ⟨e, rfl, by omega, Or.inl rfl⟩
      · intro e' es' n' _ _ h
        exfalso
        apply hsl
        unfold stale
        cases hl : i.lastFetch with
        | none => rfl
        | some t => simpa using h t hl

/-- **C93 refuted (sets).** When stored sets are due for a refresh and the network fetch fails, the call panics; when it succeeds the stored sets are
replaced, even by older or fewer ones. -/
theorem C93_sets_refresh (kind : Int) (pubkey : Bytes) (i : SetInputs) (hk : 16 ≤ pubkey.length) (hc : i.cached = none) (hl : i.lastFetch = none)
    (hs : i.stored ≠ []) :
    (i.network = none → fetchSets kind pubkey i = .panic) ∧ (∀ n, i.network = some n → fetchSets kind pubkey i = .val n) := by
  have hsl : goSlice pubkey 14 16 = .val ((pubkey.drop 14).take 2) := by
    unfold goSlice
    rw [if_pos (by omega)]
    rfl
  unfold fetchSets
  rw [hsl]
  simp only [hc]
  cases hst : i.stored with
  | nil => exact absurd hst hs
  | cons e es =>
    have : stale kind ⟨none, [], i.lastFetch, none, i.now⟩ = true := by simp [stale, hl]
    simp only [this, if_true]
    constructor
    · intro h; simp only [h]
    · intro n h; simp only [h]

/-- **C93 refuted (short keys).** A pubkey of fewer than 16 characters makes every list and set fetch panic. -/
theorem C93_short_pubkey_panics (kind : Int) (pubkey : Bytes) (h : pubkey.length < 16) (i : Inputs) (j : SetInputs) :
    fetchList kind pubkey i = .panic ∧ fetchSets kind pubkey j = .panic := by
  have hs : goSlice pubkey 14 16 = .panic := by
    unfold goSlice
    rw [if_neg (by omega)]
  simp [fetchList, fetchSets, hs]

example : fetchList 3 (List.replicate 64 97) ⟨none, [ev (b! "p") 5 [] (b! "1")], some 0, some (ev (b! "p") 9 [] (b! "2")), 86401⟩ =
    .val (some (ev (b! "p") 9 [] (b! "2"))) := by decide +kernel

end GoNostr.Sdk
