import Verif.Json.Sonic
/-!
# C126: what the `sonic` parser reads

The visitor of `Verif.Json.Sonic` reads exactly what its specification says.
-/

set_option autoImplicit false

namespace GoNostr.Json.Sonic

open GoNostr.Json

theorem event_member (v : V) (e : Event) (hp : v.pos = .eventObject) (he : v.curEvent = some e) (k : Bytes) (j : J) :
    (∀ e', eventMember e (k, j) = some e' → ∃ v', visit v (.key k :: tokens j) = .ok v' ∧ v'.env = v.env ∧ v'.pos = .eventObject ∧ v'.curEvent = some e') ∧
    (eventMember e (k, j) = none → Refused (visit v (.key k :: tokens j))) := by
  obtain ⟨env, pos, ce, ct, cf, cl, cn⟩ := v
  simp only at hp he
  subst hp he
  have keys : k = b! "id" ∨ k = b! "pubkey" ∨ k = b! "content" ∨ k = b! "sig" ∨ k = b! "created_at" ∨ k = b! "kind" ∨ k = b! "tags" ∨
      (k ≠ b! "id" ∧ k ≠ b! "pubkey" ∧ k ≠ b! "content" ∧ k ≠ b! "sig" ∧ k ≠ b! "created_at" ∧ k ≠ b! "kind" ∧ k ≠ b! "tags") := by
    by_cases h1 : k = b! "id"
    · exact .inl h1
    by_cases h2 : k = b! "pubkey"
    · exact .inr (.inl h2)
    by_cases h3 : k = b! "content"
    · exact .inr (.inr (.inl h3))
    by_cases h4 : k = b! "sig"
    · exact .inr (.inr (.inr (.inl h4)))
    by_cases h5 : k = b! "created_at"
    · exact .inr (.inr (.inr (.inr (.inl h5))))
    by_cases h6 : k = b! "kind"
    · exact .inr (.inr (.inr (.inr (.inr (.inl h6)))))
    by_cases h7 : k = b! "tags"
    · exact .inr (.inr (.inr (.inr (.inr (.inr (.inl h7))))))
    exact .inr (.inr (.inr (.inr (.inr (.inr (.inr ⟨h1, h2, h3, h4, h5, h6, h7⟩))))))
  rcases keys with rfl | rfl | rfl | rfl | rfl | rfl | rfl | ⟨n1, n2, n3, n4, n5, n6, n7⟩
  case inr.inr.inr.inr.inr.inr.inr =>
    refine ⟨fun e' h => ?_, fun _ => .inl ⟨⟨env, .eventObject, some e, ct, cf, cl, cn⟩, ?_⟩⟩
    · cases j <;> simp [eventMember, n1, n2, n3, n4, n5, n6, n7] at h
    · simp [visit, V.on, V.onKey, n1, n2, n3, n4, n5, n6, n7, R.bind]
  case inr.inr.inr.inr.inr.inr.inl =>
    have hk : visit (⟨env, .eventObject, some e, ct, cf, cl, cn⟩ : V) (.key (b! "tags") :: tokens j) = visit ⟨env, .tags, some e, ct, cf, cl, cn⟩ (tokens j) := rfl
    rw [hk]
    cases j with
    | int n => exact ⟨fun e' h => (by cases h), fun _ => .inr ⟨_, rfl, by simp [Stuck]⟩⟩
    | str s => exact ⟨fun e' h => (by cases h), fun _ => .inl ⟨_, rfl⟩⟩
    | float => exact ⟨fun e' h => (by cases h), fun _ => .inl ⟨_, rfl⟩⟩
    | null => exact ⟨fun e' h => (by cases h), fun _ => .inl ⟨_, rfl⟩⟩
    | bool b => exact ⟨fun e' h => (by cases h), fun _ => .inl ⟨_, rfl⟩⟩
    | obj ms => exact ⟨fun e' h => (by cases h), fun _ => .inl ⟨_, rfl⟩⟩
    | arr l =>
      have hb : (⟨env, .tags, some e, ct, cf, cl, cn⟩ : V).on .arrBegin = .ok ⟨env, .tagsList, some { e with tags := [] }, ct, cf, cl, cn⟩ := rfl
      have ht := tags_list l ⟨env, .tagsList, some { e with tags := [] }, ct, cf, cl, cn⟩ { e with tags := [] } rfl rfl
      simp only [tokens, visit, hb, R.bind]
      rw [visit_append]
      refine ⟨fun e' h => ?_, fun h => ?_⟩
      · simp only [eventMember, if_pos, Option.map_eq_some_iff] at h
        obtain ⟨ts, h1, rfl⟩ := h
        obtain ⟨v', h2, h3, h4, h5⟩ := ht.1 ts h1
        rw [h2]
        obtain ⟨env', pos', ce', ct', cf', cl', cn'⟩ := v'
        simp only at h3 h4 h5
        subst h3 h4 h5
        exact ⟨_, rfl, rfl, rfl, by simp⟩
      · simp only [eventMember, if_pos, Option.map_eq_none_iff] at h
        exact .inl (falls_zero (falls_close (ht.2 h)))
  all_goals
    by_cases hs : ∃ s, j = .str s
    · obtain ⟨s, rfl⟩ := hs
      first
      | exact ⟨fun e' h => ⟨_, rfl, rfl, rfl, h⟩, fun h => by cases h⟩
      | exact ⟨fun e' h => (by cases h), fun _ => .inl ⟨_, rfl⟩⟩
    · by_cases hn : ∃ n, j = .int n
      · obtain ⟨n, rfl⟩ := hn
        first
        | exact ⟨fun e' h => ⟨_, rfl, rfl, rfl, h⟩, fun h => by cases h⟩
        | exact ⟨fun e' h => (by cases h), fun _ => .inr ⟨_, rfl, by simp [Stuck]⟩⟩
      · refine ⟨fun e' h => ?_, fun _ => .inl ?_⟩
        · cases j with
          | str s => exact absurd ⟨s, rfl⟩ hs
          | int n => exact absurd ⟨n, rfl⟩ hn
          | arr l => cases h
          | _ => cases h
        · exact scalar_value _ (by simp [Inside]) rfl (by simp [Stuck]) j (fun s h => hs ⟨s, h⟩) (fun n h => hn ⟨n, h⟩)

theorem refused_key {r : R} (h : Refused r) (k : Bytes) (ts : List Tok) : ∃ v, r.bind (fun v => visit v (.key k :: ts)) = .err v false := by
  rcases h with ⟨v, h⟩ | ⟨v, h, hs⟩
  · exact ⟨v, by rw [h]; rfl⟩
  · exact ⟨v, by rw [h]; simp [R.bind, visit, stuck_key hs]⟩

theorem refused_end {r : R} (h : Refused r) (ts : List Tok) : ∃ v, r.bind (fun v => visit v (.objEnd :: ts)) = .err v false := by
  rcases h with ⟨v, h⟩ | ⟨v, h, hs⟩
  · exact ⟨v, by rw [h]; rfl⟩
  · exact ⟨v, by rw [h]; simp [R.bind, visit, stuck_end hs]⟩

theorem refused_members {r : R} (h : Refused r) (ms : List (Bytes × J)) : ∃ v, r.bind (fun v => visit v (tokensM ms ++ [.objEnd])) = .err v false := by
  cases ms with
  | nil => exact refused_end h []
  | cons m ms =>
    obtain ⟨k, j⟩ := m
    simp only [tokensM, List.cons_append]
    exact refused_key h k _

theorem visit_member (v : V) (k : Bytes) (j : J) (ms : List (Bytes × J)) (ts : List Tok) :
    visit v (tokensM ((k, j) :: ms) ++ ts) = (visit v (.key k :: tokens j)).bind (fun v => visit v (tokensM ms ++ ts)) := by
  rw [← visit_append]
  simp [tokensM]

theorem event_members : ∀ (ms : List (Bytes × J)) (v : V) (e : Event) (_ : v.pos = .eventObject) (_ : v.curEvent = some e),
    (∀ e', ms.foldlM eventMember e = some e' → ∃ v' : V, visit v (tokensM ms ++ [.objEnd]) = v'.on .objEnd ∧ v'.env = v.env ∧ v'.pos = .eventObject ∧ v'.curEvent = some e') ∧
    (ms.foldlM eventMember e = none → ∃ v', visit v (tokensM ms ++ [.objEnd]) = .err v' false)
  | [], v, e, hp, he => by
    refine ⟨fun e' h => ⟨v, ?_, rfl, hp, ?_⟩, fun h => by cases h⟩
    · simp only [tokensM, List.nil_append, visit]
      cases v.on .objEnd <;> rfl
    · rw [he]; simpa using h
  | (k, j) :: ms, v, e, hp, he => by
    obtain ⟨m1, m2⟩ := event_member v e hp he k j
    rw [visit_member, List.foldlM_cons]
    cases hm : eventMember e (k, j) with
    | none =>
      refine ⟨fun e' h => (by cases h), fun _ => ?_⟩
      exact refused_members (m2 hm) ms
    | some e1 =>
      obtain ⟨v', h1, h2, h3, h4⟩ := m1 e1 hm
      rw [h1]
      simp only [R.bind]
      have ih := event_members ms v' e1 h3 h4
      rw [h2] at ih
      exact ih

/-! ### Filters -/

theorem bool_refused (v : V) (hp : v.pos ≠ .ok) (b : Bool) : visit v (tokens (.bool b)) = .err v false := by
  obtain ⟨env, pos, ce, ct, cf, cl, cn⟩ := v
  cases pos <;> first | rfl | exact absurd rfl hp

/-- The value of a list of strings in a filter. -/
theorem list_value (v : V) (hi : Inside v) (hp : v.pos ∈ [Pos.ids, .authors, .aFilterTag]) (j : J) :
    (∀ l ss, j = .arr l → stringsOf l = some ss → visit v (tokens j) = (ss.foldl V.push v).on .arrEnd) ∧
    ((∀ l ss, j = .arr l → stringsOf l ≠ some ss) → Refused (visit v (tokens j))) := by
  have hp' : v.pos ∈ [Pos.ids, .authors, .aFilterTag, .anEventTag] := by
    simp only [List.mem_cons, List.not_mem_nil, or_false] at hp ⊢
    rcases hp with h | h | h <;> simp [h]
  have hst : Stuck v := by
    unfold Stuck
    simp only [List.mem_cons, List.not_mem_nil, or_false] at hp
    rcases hp with h | h | h <;> simp [h]
  have hl : v.pos.level = 1 := by
    simp only [List.mem_cons, List.not_mem_nil, or_false] at hp
    rcases hp with h | h | h <;> rw [h] <;> rfl
  cases j with
  | str s =>
    refine ⟨fun l ss h => (by cases h), fun _ => .inr ⟨v.push s, ?_, ?_⟩⟩
    · simp only [tokens, visit, (push_str v hi hp' s).1, R.bind]
    · unfold Stuck at hst ⊢
      rw [(push_str v hi hp' s).2.2.1]
      exact hst
  | int n =>
    refine ⟨fun l ss h => (by cases h), fun _ => .inr ⟨v, ?_, hst⟩⟩
    obtain ⟨env, pos, ce, ct, cf, cl, cn⟩ := v
    simp only [List.mem_cons, List.not_mem_nil, or_false] at hp
    rcases hp with rfl | rfl | rfl <;> rfl
  | float => exact ⟨fun l ss h => (by cases h), fun _ => .inl ⟨v, rfl⟩⟩
  | null => exact ⟨fun l ss h => (by cases h), fun _ => .inl ⟨v, rfl⟩⟩
  | bool b => exact ⟨fun l ss h => (by cases h), fun _ => .inl ⟨v, bool_refused v (by intro e; rw [e] at hp; simp at hp) b⟩⟩
  | obj ms => exact ⟨fun l ss h => (by cases h), fun _ => .inl (obj_refused v hi ms)⟩
  | arr m =>
    have hs := strings_list m v hi hp'
    have hb : v.on .arrBegin = .ok v := by
      rcases arrBegin_inside hi with ⟨-, hb⟩ | ⟨e, -⟩
      · exact hb
      · rw [e] at hp; simp at hp
    simp only [tokens, visit, hb, R.bind]
    rw [visit_append]
    refine ⟨fun l ss h h1 => ?_, fun h => ?_⟩
    · cases h
      rw [hs.1 ss h1]
      simp only [R.bind, visit]
      cases (ss.foldl V.push v).on .arrEnd <;> rfl
    · cases hm : stringsOf m with
      | some ss => exact absurd hm (h m ss rfl)
      | none =>
        have := hs.2 hm
        rw [hl] at this
        exact .inl (falls_zero (falls_close this))

theorem filter_member (v : V) (f : Filter) (hp : v.pos = .filterObject) (hf : v.curFilter = some f) (k : Bytes) (j : J) (hk : ¬ IsCountKey k) :
    (∀ f', filterMember f (k, j) = some f' → ∃ v', visit v (.key k :: tokens j) = .ok v' ∧ v'.env = v.env ∧ v'.pos = .filterObject ∧ v'.curFilter = some f') ∧
    (filterMember f (k, j) = none → Refused (visit v (.key k :: tokens j))) := by
  obtain ⟨env, pos, ce, ct, cf, cl, cn⟩ := v
  simp only at hp hf
  subst hp hf
  have keys : (k = b! "limit" ∨ k = b! "since" ∨ k = b! "until") ∨ k = b! "search" ∨ k = b! "ids" ∨ k = b! "authors" ∨ k = b! "kinds" ∨
      (k ≠ b! "limit" ∧ k ≠ b! "since" ∧ k ≠ b! "until" ∧ k ≠ b! "ids" ∧ k ≠ b! "authors" ∧ k ≠ b! "kinds" ∧ k ≠ b! "search") := by
    by_cases h1 : k = b! "limit"
    · exact .inl (.inl h1)
    by_cases h2 : k = b! "since"
    · exact .inl (.inr (.inl h2))
    by_cases h3 : k = b! "until"
    · exact .inl (.inr (.inr h3))
    by_cases h7 : k = b! "search"
    · exact .inr (.inl h7)
    by_cases h4 : k = b! "ids"
    · exact .inr (.inr (.inl h4))
    by_cases h5 : k = b! "authors"
    · exact .inr (.inr (.inr (.inl h5)))
    by_cases h6 : k = b! "kinds"
    · exact .inr (.inr (.inr (.inr (.inl h6))))
    exact .inr (.inr (.inr (.inr (.inr ⟨h1, h2, h3, h4, h5, h6, h7⟩))))
  rcases keys with hk1 | rfl | rfl | rfl | rfl | ⟨n1, n2, n3, n4, n5, n6, n7⟩
  · -- a number
    rcases hk1 with rfl | rfl | rfl
    all_goals
      by_cases hn : ∃ n, j = .int n
      · obtain ⟨n, rfl⟩ := hn
        exact ⟨fun f' h => ⟨_, rfl, rfl, rfl, h⟩, fun h => (by cases h)⟩
      · refine ⟨fun e' h => ?_, fun _ => .inl ?_⟩
        · cases j with
          | int n => exact absurd ⟨n, rfl⟩ hn
          | arr l => cases h
          | str l => cases h
          | _ => cases h
        · by_cases hs : ∃ s, j = .str s
          · obtain ⟨s, rfl⟩ := hs
            exact ⟨_, rfl⟩
          · exact scalar_value _ (by simp [Inside]) rfl (by simp [Stuck]) j (fun s h => hs ⟨s, h⟩) (fun n h => hn ⟨n, h⟩)
  · -- search
    by_cases hs : ∃ s, j = .str s
    · obtain ⟨s, rfl⟩ := hs
      exact ⟨fun f' h => ⟨_, rfl, rfl, rfl, h⟩, fun h => (by cases h)⟩
    · refine ⟨fun e' h => ?_, fun _ => ?_⟩
      · cases j with
        | str s => exact absurd ⟨s, rfl⟩ hs
        | arr l => cases h
        | int l => cases h
        | _ => cases h
      · by_cases hn : ∃ n, j = .int n
        · obtain ⟨n, rfl⟩ := hn
          exact .inr ⟨_, rfl, by simp [Stuck]⟩
        · exact .inl (scalar_value _ (by simp [Inside]) rfl (by simp [Stuck]) j (fun s h => hs ⟨s, h⟩) (fun n h => hn ⟨n, h⟩))
  · -- ids
    have hkey : visit (⟨env, .filterObject, ce, ct, some f, cl, cn⟩ : V) (.key (b! "ids") :: tokens j) = visit ⟨env, .ids, ce, ct, some { f with ids := some [] }, cl, cn⟩ (tokens j) := rfl
    rw [hkey]
    have hl := list_value ⟨env, .ids, ce, ct, some { f with ids := some [] }, cl, cn⟩ (by simp [Inside]) (by simp) j
    refine ⟨fun f' h => ?_, fun h => hl.2 ?_⟩
    · cases j with
      | arr l =>
        simp only [filterMember, if_pos, Option.map_eq_some_iff] at h
        obtain ⟨ss, h1, rfl⟩ := h
        rw [hl.1 l ss rfl h1, push_ids ss _ { f with ids := some [] } [] rfl rfl rfl]
        exact ⟨_, rfl, rfl, rfl, by simp⟩
      | str s => cases h
      | int s => cases h
      | _ => cases h
    · rintro l ss rfl h1
      simp [filterMember, h1] at h
  · -- authors
    have hkey : visit (⟨env, .filterObject, ce, ct, some f, cl, cn⟩ : V) (.key (b! "authors") :: tokens j) = visit ⟨env, .authors, ce, ct, some { f with authors := some [] }, cl, cn⟩ (tokens j) := rfl
    rw [hkey]
    have hl := list_value ⟨env, .authors, ce, ct, some { f with authors := some [] }, cl, cn⟩ (by simp [Inside]) (by simp) j
    refine ⟨fun f' h => ?_, fun h => hl.2 ?_⟩
    · cases j with
      | arr l =>
        have h' : (stringsOf l).map (fun x => { f with authors := some x }) = some f' := h
        rw [Option.map_eq_some_iff] at h'
        obtain ⟨ss, h1, rfl⟩ := h'
        rw [hl.1 l ss rfl h1, push_authors ss _ { f with authors := some [] } [] rfl rfl rfl]
        exact ⟨_, rfl, rfl, rfl, by simp⟩
      | str s => cases h
      | int s => cases h
      | _ => cases h
    · rintro l ss rfl h1
      have h' : (stringsOf l).map (fun x => { f with authors := some x }) = none := h
      rw [h1] at h'
      cases h'
  · -- kinds
    have hkey : visit (⟨env, .filterObject, ce, ct, some f, cl, cn⟩ : V) (.key (b! "kinds") :: tokens j) = visit ⟨env, .kinds, ce, ct, some { f with kinds := some [] }, cl, cn⟩ (tokens j) := rfl
    rw [hkey]
    cases j with
    | arr l =>
      have hb : (⟨env, .kinds, ce, ct, some { f with kinds := some [] }, cl, cn⟩ : V).on .arrBegin = .ok ⟨env, .kinds, ce, ct, some { f with kinds := some [] }, cl, cn⟩ := rfl
      have hl := ints_list l ⟨env, .kinds, ce, ct, some { f with kinds := some [] }, cl, cn⟩ { f with kinds := some [] } [] rfl rfl rfl
      simp only [tokens, visit, hb, R.bind]
      rw [visit_append]
      refine ⟨fun f' h => ?_, fun h => ?_⟩
      · have h' : (intsOf l).map (fun x => { f with kinds := some x }) = some f' := h
        rw [Option.map_eq_some_iff] at h'
        obtain ⟨ss, h1, rfl⟩ := h'
        rw [hl.1 ss h1]
        exact ⟨_, rfl, rfl, rfl, by simp⟩
      · have h' : (intsOf l).map (fun x => { f with kinds := some x }) = none := h
        rw [Option.map_eq_none_iff] at h'
        exact .inl (falls_zero (falls_close (hl.2 h')))
    | int n => exact ⟨fun f' h => (by cases h), fun _ => .inr ⟨_, rfl, by simp [Stuck]⟩⟩
    | str s => exact ⟨fun f' h => (by cases h), fun _ => .inl ⟨_, rfl⟩⟩
    | float => exact ⟨fun f' h => (by cases h), fun _ => .inl ⟨_, rfl⟩⟩
    | null => exact ⟨fun f' h => (by cases h), fun _ => .inl ⟨_, rfl⟩⟩
    | bool b => exact ⟨fun f' h => (by cases h), fun _ => .inl ⟨_, rfl⟩⟩
    | obj ms => exact ⟨fun f' h => (by cases h), fun _ => .inl ⟨_, rfl⟩⟩
  · -- tags, and members a filter does not have
    have hc : ¬ (k = b! "count" ∨ k = b! "hll") := hk
    by_cases ht : ∃ c name, k = 35 :: c :: name
    · obtain ⟨c, name, rfl⟩ := ht
      have hkey : visit (⟨env, .filterObject, ce, ct, some f, cl, cn⟩ : V) (.key (35 :: c :: name) :: tokens j) =
          visit ⟨env, .aFilterTag, ce, ct, some { f with tags := some (tagEntries f.tags) }, [], c :: name⟩ (tokens j) := rfl
      rw [hkey]
      have hl := list_value ⟨env, .aFilterTag, ce, ct, some { f with tags := some (tagEntries f.tags) }, [], c :: name⟩ (by simp [Inside]) (by simp) j
      have hm : ∀ l, filterMember f (35 :: c :: name, .arr l) =
          (stringsOf l).map (fun x => { f with tags := some (tagSet (tagEntries f.tags) (c :: name) x) }) := fun l => rfl
      refine ⟨fun f' h => ?_, fun h => hl.2 ?_⟩
      · cases j with
        | arr l =>
          rw [hm, Option.map_eq_some_iff] at h
          obtain ⟨ss, h1, rfl⟩ := h
          rw [hl.1 l ss rfl h1, push_filterTag ss _ rfl]
          exact ⟨_, rfl, rfl, rfl, by simp [tagEntries]⟩
        | str s => cases h
        | int s => cases h
        | _ => cases h
      · rintro l ss rfl h1
        rw [hm, h1] at h
        cases h
    · refine ⟨fun f' h => ?_, fun _ => .inl ⟨⟨env, .filterObject, ce, ct, some f, cl, cn⟩, ?_⟩⟩
      · cases j with
        | arr l =>
          simp only [filterMember, n4, n5, n6, if_false] at h
          split at h
          · exact absurd ⟨_, _, rfl⟩ ht
          · cases h
        | str s => simp [filterMember, n7] at h
        | int n => simp [filterMember, n1, n2, n3] at h
        | _ => cases h
      · simp only [visit, V.on, V.onKey, n1, n2, n3, n4, n5, n6, n7, hc, if_false]
        split
        · exact absurd ⟨_, _, rfl⟩ ht
        · rfl

/-! ### Objects of a REQ and of a COUNT -/

theorem crash_value (v : V) (hp : v.pos = .countObject) (hc : v.env.count = none) : ∀ j : J,
    (firstScalar j = true → visit v (tokens j) = .panic) ∧ (firstScalar j = false → ∃ v', visit v (tokens j) = .err v' false)
  | .str s => ⟨fun _ => by simp [tokens, visit, V.on, V.onStr, hp, hc, R.bind], fun h => by cases h⟩
  | .int n => ⟨fun _ => by simp [tokens, visit, V.on, V.onInt, hp, hc, R.bind], fun h => by cases h⟩
  | .float => ⟨fun h => (by cases h), fun _ => ⟨v, rfl⟩⟩
  | .null => ⟨fun h => (by cases h), fun _ => ⟨v, rfl⟩⟩
  | .bool b => ⟨fun h => (by cases h), fun _ => ⟨v, bool_refused v (by rw [hp]; simp) b⟩⟩
  | .obj ms => ⟨fun h => (by cases h), fun _ => ⟨v, by simp [tokens, visit, V.on, V.objBegin, hp, R.bind]⟩⟩
  | .arr [] => ⟨fun h => (by cases h), fun _ => ⟨v, by simp [tokens, tokensL, visit, V.on, V.arrBegin, V.arrEnd, hp, R.bind]⟩⟩
  | .arr (j :: l) => by
    have ih := crash_value v hp hc j
    have hb : v.on .arrBegin = .ok v := by simp [V.on, V.arrBegin, hp]
    simp only [tokens, tokensL, visit, hb, R.bind, List.append_assoc, firstScalar]
    rw [visit_append]
    refine ⟨fun h => by rw [ih.1 h]; rfl, fun h => ?_⟩
    obtain ⟨v', h'⟩ := ih.2 h
    exact ⟨v', by rw [h']; rfl⟩

theorem req_members : ∀ (ms : List (Bytes × J)) (v : V) (f : Filter) (_ : v.pos = .filterObject) (_ : v.curFilter = some f) (_ : v.env.count = none),
    (∀ f', reqObject f ms = .ok f' → ∃ v' : V, visit v (tokensM ms ++ [.objEnd]) = v'.on .objEnd ∧ v'.env = v.env ∧ v'.pos = .filterObject ∧ v'.curFilter = some f') ∧
    (reqObject f ms = .err () → ∃ v', visit v (tokensM ms ++ [.objEnd]) = .err v' false) ∧
    (reqObject f ms = .panic → visit v (tokensM ms ++ [.objEnd]) = .panic)
  | [], v, f, hp, hf, hc => by
    refine ⟨fun f' h => ⟨v, ?_, rfl, hp, ?_⟩, fun h => (by cases h), fun h => (by cases h)⟩
    · simp only [tokensM, List.nil_append, visit]
      cases v.on .objEnd <;> rfl
    · rw [hf]; simpa [reqObject] using h
  | (k, j) :: ms, v, f, hp, hf, hc => by
    rw [visit_member]
    by_cases hk : IsCountKey k
    · have hkey : visit v (.key k :: tokens j) = visit { v with pos := .countObject } (tokens j) := by
        have : v.on (.key k) = .ok { v with pos := .countObject } := by
          rcases hk with rfl | rfl <;> simp [V.on, V.onKey, hp]
        simp only [visit, this, R.bind]
      have cv := crash_value { v with pos := .countObject } rfl hc j
      rw [hkey]
      simp only [reqObject, if_pos hk]
      cases hj : firstScalar j with
      | true =>
        rw [cv.1 hj]
        exact ⟨fun f' h => (by cases h), fun h => (by cases h), fun _ => rfl⟩
      | false =>
        obtain ⟨v', h'⟩ := cv.2 hj
        rw [h']
        exact ⟨fun f' h => (by cases h), fun _ => ⟨v', rfl⟩, fun h => (by cases h)⟩
    · obtain ⟨m1, m2⟩ := filter_member v f hp hf k j hk
      simp only [reqObject, if_neg hk]
      cases hm : filterMember f (k, j) with
      | none =>
        refine ⟨fun f' h => (by cases h), fun _ => refused_members (m2 hm) ms, fun h => (by cases h)⟩
      | some f1 =>
        obtain ⟨v', h1, h2, h3, h4⟩ := m1 f1 hm
        rw [h1]
        simp only [R.bind]
        have ih := req_members ms v' f1 h3 h4 (by rw [h2]; exact hc)
        rw [h2] at ih
        exact ih

/-- In the answer to a COUNT. -/
def InAnswer (v : V) : Prop := v.pos = .countObject ∧ v.env.count ≠ none

mutual
theorem answer_value (v : V) (h : InAnswer v) : ∀ j : J, (∃ v', visit v (tokens j) = .err v' false) ∨ ∃ v', visit v (tokens j) = .ok v' ∧ InAnswer v'
  | .str s => by
    obtain ⟨hp, hc⟩ := h
    obtain ⟨⟨i, f, n, h⟩, hc⟩ := Option.ne_none_iff_exists'.1 hc
    right
    simp only [tokens, visit, V.on, V.onStr, hp, hc, R.bind]
    exact ⟨_, rfl, by simp [InAnswer]⟩
  | .int s => by
    obtain ⟨hp, hc⟩ := h
    obtain ⟨⟨i, f, n, h⟩, hc⟩ := Option.ne_none_iff_exists'.1 hc
    right
    simp only [tokens, visit, V.on, V.onInt, hp, hc, R.bind]
    exact ⟨_, rfl, by simp [InAnswer]⟩
  | .float => .inl ⟨v, rfl⟩
  | .null => .inl ⟨v, rfl⟩
  | .bool b => .inl ⟨v, bool_refused v (by rw [h.1]; simp) b⟩
  | .obj ms => .inl ⟨v, by simp [tokens, visit, V.on, V.objBegin, h.1, R.bind]⟩
  | .arr l => by
    left
    have hb : v.on .arrBegin = .ok v := by simp [V.on, V.arrBegin, h.1]
    simp only [tokens, visit, hb, R.bind]
    rw [visit_append]
    rcases answer_list v h l with ⟨v', h'⟩ | ⟨v', h', hi⟩
    · exact ⟨v', by rw [h']; rfl⟩
    · exact ⟨v', by rw [h']; simp [R.bind, visit, V.on, V.arrEnd, hi.1]⟩
theorem answer_list (v : V) (h : InAnswer v) : ∀ l : List J, (∃ v', visit v (tokensL l) = .err v' false) ∨ ∃ v', visit v (tokensL l) = .ok v' ∧ InAnswer v'
  | [] => .inr ⟨v, rfl, h⟩
  | j :: l => by
    simp only [tokensL]
    rw [visit_append]
    rcases answer_value v h j with ⟨v', h'⟩ | ⟨v', h', hi⟩
    · exact .inl ⟨v', by rw [h']; rfl⟩
    · rw [h']
      exact answer_list v' hi l
end

theorem answer_arr (v : V) (h : InAnswer v) (l : List J) : ∃ v', visit v (tokens (.arr l)) = .err v' false := by
  have hb : v.on .arrBegin = .ok v := by simp [V.on, V.arrBegin, h.1]
  simp only [tokens, visit, hb, R.bind]
  rw [visit_append]
  rcases answer_list v h l with ⟨v', h'⟩ | ⟨v', h', hi⟩
  · exact ⟨v', by rw [h']; rfl⟩
  · exact ⟨v', by rw [h']; simp [R.bind, visit, V.on, V.arrEnd, hi.1]⟩

theorem answer_members : ∀ (ms : List (Bytes × J)) (v : V) (i : Bytes) (f : Filter) (n : Option Int) (h : Option Bytes) (_ : v.pos = .countObject)
    (_ : v.env.count = some (i, f, n, h)),
    (∀ n' h', answer n h ms = some (n', h') → ∃ v', visit v (tokensM ms ++ [.objEnd]) = .ok v' ∧ v'.env = { v.env with count := some (i, f, n', h') } ∧ v'.pos = .count) ∧
    (answer n h ms = none → ∃ v', visit v (tokensM ms ++ [.objEnd]) = .err v' false)
  | [], v, i, f, n, h, hp, hc => by
    refine ⟨fun n' h' e => ?_, fun e => (by cases e)⟩
    simp only [answer, Option.some.injEq, Prod.mk.injEq] at e
    obtain ⟨rfl, rfl⟩ := e
    simp only [tokensM, List.nil_append, visit, V.on, V.objEnd, hp, R.bind]
    exact ⟨_, rfl, by simp [← hc], rfl⟩
  | (k, j) :: ms, v, i, f, n, h, hp, hc => by
    rw [visit_member]
    have hkey : visit v (.key k :: tokens j) = visit v (tokens j) := by simp [visit, V.on, V.onKey, hp, R.bind]
    rw [hkey]
    have hia : InAnswer v := ⟨hp, by rw [hc]; simp⟩
    have bad : (∃ v', visit v (tokens j) = .err v' false) → answer n h ((k, j) :: ms) = none →
        (∀ n' h', answer n h ((k, j) :: ms) = some (n', h') → ∃ v', (visit v (tokens j)).bind (fun v => visit v (tokensM ms ++ [.objEnd])) = .ok v' ∧
          v'.env = { v.env with count := some (i, f, n', h') } ∧ v'.pos = .count) ∧
        (answer n h ((k, j) :: ms) = none → ∃ v', (visit v (tokens j)).bind (fun v => visit v (tokensM ms ++ [.objEnd])) = .err v' false) := by
      rintro ⟨v', hv⟩ hn
      rw [hn]
      exact ⟨fun n' h' e => (by cases e), fun _ => ⟨v', by rw [hv]; rfl⟩⟩
    cases j with
    | int m =>
      have h1 : visit v (tokens (.int m)) = .ok { v with env := { v.env with count := some (i, f, some m, h) } } := by
        simp [tokens, visit, V.on, V.onInt, hp, hc, R.bind]
      rw [h1]
      simp only [R.bind, answer]
      exact answer_members ms { v with env := { v.env with count := some (i, f, some m, h) } } i f (some m) h hp rfl
    | str s =>
      have h1 : visit v (tokens (.str s)) = .ok { v with env := { v.env with count := some (i, f, n, some (hexDecPartial s)) } } := by
        simp [tokens, visit, V.on, V.onStr, hp, hc, R.bind]
      rw [h1]
      simp only [R.bind, answer]
      exact answer_members ms { v with env := { v.env with count := some (i, f, n, some (hexDecPartial s)) } } i f n (some (hexDecPartial s)) hp rfl
    | float => exact bad ⟨v, rfl⟩ rfl
    | null => exact bad ⟨v, rfl⟩ rfl
    | bool b => exact bad ⟨v, bool_refused v (by rw [hp]; simp) b⟩ rfl
    | obj l => exact bad ⟨v, by simp [tokens, visit, V.on, V.objBegin, hp, R.bind]⟩ rfl
    | arr l => exact bad (answer_arr v hia l) rfl

theorem count_members : ∀ (ms : List (Bytes × J)) (v : V) (i : Bytes) (f0 f : Filter) (n : Option Int) (h : Option Bytes) (_ : v.pos = .filterObject) (_ : v.curFilter = some f)
    (_ : v.env.req = none) (_ : v.env.count = some (i, f0, n, h)),
    (∀ f' n' h', countObject f0 n h f ms = some (f', n', h') → ∃ v', visit v (tokensM ms ++ [.objEnd]) = .ok v' ∧
      v'.env = { v.env with count := some (i, f', n', h') } ∧ v'.pos = .count) ∧
    (countObject f0 n h f ms = none → ∃ v', visit v (tokensM ms ++ [.objEnd]) = .err v' false)
  | [], v, i, f0, f, n, h, hp, hf, hr, hc => by
    refine ⟨fun f' n' h' e => ?_, fun e => (by cases e)⟩
    simp only [countObject, Option.some.injEq, Prod.mk.injEq] at e
    obtain ⟨rfl, rfl, rfl⟩ := e
    simp only [tokensM, List.nil_append, visit, V.on, V.objEnd, hp, hf, hr, hc, R.bind]
    exact ⟨_, rfl, by simp, rfl⟩
  | (k, j) :: ms, v, i, f0, f, n, h, hp, hf, hr, hc => by
    by_cases hk : IsCountKey k
    · have hkey : ∀ ts, visit v (.key k :: ts) = visit { v with pos := .countObject } (.key k :: ts) := by
        intro ts
        have h1 : v.on (.key k) = .ok { v with pos := .countObject } := by
          rcases hk with rfl | rfl <;> simp [V.on, V.onKey, hp]
        have h2 : ({ v with pos := .countObject } : V).on (.key k) = .ok { v with pos := .countObject } := rfl
        simp only [visit, h1, h2]
      have ha := answer_members ((k, j) :: ms) { v with pos := .countObject } i f0 n h rfl hc
      simp only [tokensM, List.cons_append] at ha ⊢
      rw [hkey]
      simp only [countObject, if_pos hk, Option.map_eq_some_iff, Option.map_eq_none_iff]
      refine ⟨?_, ha.2⟩
      rintro f' n' h' ⟨⟨n'', h''⟩, h1, h2⟩
      simp only [Prod.mk.injEq] at h2
      obtain ⟨rfl, rfl, rfl⟩ := h2
      exact ha.1 _ _ h1
    · obtain ⟨m1, m2⟩ := filter_member v f hp hf k j hk
      rw [visit_member]
      simp only [countObject, if_neg hk]
      cases hm : filterMember f (k, j) with
      | none => exact ⟨fun f' n' h' e => (by cases e), fun _ => refused_members (m2 hm) ms⟩
      | some f1 =>
        obtain ⟨v', h1, h2, h3, h4⟩ := m1 f1 hm
        rw [h1]
        simp only [R.bind]
        have ih := count_members ms v' i f0 f1 n h h3 h4 (by rw [h2]; exact hr) (by rw [h2]; exact hc)
        rw [h2] at ih
        exact ih

/-! ### Messages -/

/-- The envelope under construction, seen from the visitor's position. -/
def Rep (label : Bytes) (d : Option Env) (v : V) : Prop := match v.pos with
  | .event => ∃ s e, v.env.event = some (s, e) ∧ d = some (.event s e)
  | .auth => ∃ c e, v.env.event = none ∧ v.env.auth = some (c, e) ∧ d = some (.auth c e)
  | .req => ∃ s fs, v.env.count = none ∧ v.env.req = some (s, fs) ∧ d = some (.req s fs)
  | .count => ∃ s f n h, v.env.req = none ∧ v.env.count = some (s, f, n, h) ∧ d = some (.count s f n h)
  | .ok => ∃ i b r, v.env.ok = some (i, b, r) ∧ d = some (.ok i b r)
  | .closed => ∃ s r, v.env.closed = some (s, r) ∧ d = some (.closed s r)
  | .eose => label = b! "EOSE" ∧ d = v.env.eose.map .eose
  | .close => label = b! "CLOSE" ∧ d = v.env.close.map .close
  | .notice => label = b! "NOTICE" ∧ d = v.env.notice.map .notice
  | _ => False

/-- What `understand` says is what the visitor does. -/
def Follows (label : Bytes) (r : R) : Res Unit (Option Env) → Prop
  | .ok d => ∃ v, r = .ok v ∧ Rep label d v
  | .err _ => ∃ v, r = .err v false
  | .panic => r = .panic

theorem follows_str (label : Bytes) (d : Option Env) (v : V) (h : Rep label d v) (s : Bytes) : Follows label (visit v (tokens (.str s))) (understand label d (.str s)) := by
  obtain ⟨env, pos, ce, ct, cf, cl, cn⟩ := v
  cases pos <;> simp only [Rep] at h
  case event => obtain ⟨s', e, h1, rfl⟩ := h; simp [Follows, understand, tokens, visit, V.on, V.onStr, h1, R.bind, Rep]
  case auth => obtain ⟨s', e, h0, h1, rfl⟩ := h; simp [Follows, understand, tokens, visit, V.on, V.onStr, h1, R.bind, Rep, h0]
  case req => obtain ⟨s', e, h0, h1, rfl⟩ := h; simp [Follows, understand, tokens, visit, V.on, V.onStr, h1, R.bind, Rep, h0]
  case count => obtain ⟨s', e, n, hh, h0, h1, rfl⟩ := h; simp [Follows, understand, tokens, visit, V.on, V.onStr, h1, R.bind, Rep, h0]
  case ok =>
    obtain ⟨i, b, r, h1, rfl⟩ := h
    by_cases hi : i = [] <;> simp [Follows, understand, tokens, visit, V.on, V.onStr, h1, R.bind, Rep, hi]
  case closed =>
    obtain ⟨i, r, h1, rfl⟩ := h
    by_cases hi : i = [] <;> simp [Follows, understand, tokens, visit, V.on, V.onStr, h1, R.bind, Rep, hi]
  case eose =>
    obtain ⟨rfl, rfl⟩ := h
    cases he : env.eose <;> simp [Follows, understand, tokens, visit, V.on, V.onStr, R.bind, Rep]
  case close =>
    obtain ⟨rfl, rfl⟩ := h
    cases he : env.close <;> simp [Follows, understand, tokens, visit, V.on, V.onStr, R.bind, Rep]
  case notice =>
    obtain ⟨rfl, rfl⟩ := h
    cases he : env.notice <;> simp [Follows, understand, tokens, visit, V.on, V.onStr, R.bind, Rep]

theorem follows_bool (label : Bytes) (d : Option Env) (v : V) (h : Rep label d v) (b : Bool) : Follows label (visit v (tokens (.bool b))) (understand label d (.bool b)) := by
  obtain ⟨env, pos, ce, ct, cf, cl, cn⟩ := v
  cases pos <;> simp only [Rep] at h
  case event => obtain ⟨s', e, h1, rfl⟩ := h; exact ⟨_, rfl⟩
  case auth => obtain ⟨s', e, h0, h1, rfl⟩ := h; exact ⟨_, rfl⟩
  case req => obtain ⟨s', e, h0, h1, rfl⟩ := h; exact ⟨_, rfl⟩
  case count => obtain ⟨s', e, n, hh, h0, h1, rfl⟩ := h; exact ⟨_, rfl⟩
  case ok => obtain ⟨i, b', r, h1, rfl⟩ := h; simp [Follows, understand, tokens, visit, V.on, V.onBool, h1, R.bind, Rep]
  case closed => obtain ⟨i, r, h1, rfl⟩ := h; exact ⟨_, rfl⟩
  case eose => obtain ⟨rfl, rfl⟩ := h; cases he : env.eose <;> exact ⟨_, rfl⟩
  case close => obtain ⟨rfl, rfl⟩ := h; cases he : env.close <;> exact ⟨_, rfl⟩
  case notice => obtain ⟨rfl, rfl⟩ := h; cases he : env.notice <;> exact ⟨_, rfl⟩

theorem follows_obj (label : Bytes) (d : Option Env) (v : V) (h : Rep label d v) (ms : List (Bytes × J)) : Follows label (visit v (tokens (.obj ms))) (understand label d (.obj ms)) := by
  obtain ⟨env, pos, ce, ct, cf, cl, cn⟩ := v
  cases pos <;> simp only [Rep] at h
  case event =>
    obtain ⟨s', e, h1, rfl⟩ := h
    have hm := event_members ms ⟨env, .eventObject, some zeroEvent, ct, cf, cl, cn⟩ zeroEvent rfl rfl
    have hb : visit (⟨env, .event, ce, ct, cf, cl, cn⟩ : V) (tokens (.obj ms)) = visit ⟨env, .eventObject, some zeroEvent, ct, cf, cl, cn⟩ (tokensM ms ++ [.objEnd]) := by
      simp [tokens, visit, V.on, V.objBegin, R.bind]
    rw [hb]
    simp only [understand, eventObject]
    cases hf : ms.foldlM eventMember zeroEvent with
    | none => exact hm.2 hf
    | some e' =>
      obtain ⟨v', h2, h3, h4, h5⟩ := hm.1 e' hf
      rw [h2]
      obtain ⟨env', pos', ce', ct', cf', cl', cn'⟩ := v'
      simp only at h3 h4 h5
      subst h3 h4 h5
      simp [Follows, V.on, V.objEnd, h1, Rep]
  case auth =>
    obtain ⟨s', e, h0, h1, rfl⟩ := h
    have hm := event_members ms ⟨env, .eventObject, some zeroEvent, ct, cf, cl, cn⟩ zeroEvent rfl rfl
    have hb : visit (⟨env, .auth, ce, ct, cf, cl, cn⟩ : V) (tokens (.obj ms)) = visit ⟨env, .eventObject, some zeroEvent, ct, cf, cl, cn⟩ (tokensM ms ++ [.objEnd]) := by
      simp [tokens, visit, V.on, V.objBegin, R.bind]
    rw [hb]
    simp only [understand, eventObject]
    cases hf : ms.foldlM eventMember zeroEvent with
    | none => exact hm.2 hf
    | some e' =>
      obtain ⟨v', h2, h3, h4, h5⟩ := hm.1 e' hf
      rw [h2]
      obtain ⟨env', pos', ce', ct', cf', cl', cn'⟩ := v'
      simp only at h3 h4 h5
      subst h3 h4 h5
      simp [Follows, V.on, V.objEnd, h1, h0, Rep]
  case req =>
    obtain ⟨s', fs, h0, h1, rfl⟩ := h
    have hm := req_members ms ⟨env, .filterObject, ce, ct, some {}, cl, cn⟩ {} rfl rfl h0
    have hb : visit (⟨env, .req, ce, ct, cf, cl, cn⟩ : V) (tokens (.obj ms)) = visit ⟨env, .filterObject, ce, ct, some {}, cl, cn⟩ (tokensM ms ++ [.objEnd]) := by
      simp [tokens, visit, V.on, V.objBegin, R.bind]
    rw [hb]
    simp only [understand]
    cases hf : reqObject {} ms with
    | panic => exact hm.2.2 hf
    | err u => exact hm.2.1 hf
    | ok f =>
      obtain ⟨v', h2, h3, h4, h5⟩ := hm.1 f hf
      rw [h2]
      obtain ⟨env', pos', ce', ct', cf', cl', cn'⟩ := v'
      simp only at h3 h4 h5
      subst h3 h4 h5
      simp [Follows, V.on, V.objEnd, h1, h0, Rep]
  case count =>
    obtain ⟨s', f0, n, hh, h0, h1, rfl⟩ := h
    have hm := count_members ms ⟨env, .filterObject, ce, ct, some {}, cl, cn⟩ s' f0 {} n hh rfl rfl h0 h1
    have hb : visit (⟨env, .count, ce, ct, cf, cl, cn⟩ : V) (tokens (.obj ms)) = visit ⟨env, .filterObject, ce, ct, some {}, cl, cn⟩ (tokensM ms ++ [.objEnd]) := by
      simp [tokens, visit, V.on, V.objBegin, R.bind]
    rw [hb]
    simp only [understand]
    cases hf : countObject f0 n hh {} ms with
    | none => exact hm.2 hf
    | some a =>
      obtain ⟨f', n', h'⟩ := a
      obtain ⟨v', h2, h3, h4⟩ := hm.1 f' n' h' hf
      rw [h2]
      refine ⟨v', rfl, ?_⟩
      simp [Rep, h4, h3, h0]
  case ok => obtain ⟨i, b', r, h1, rfl⟩ := h; exact ⟨_, rfl⟩
  case closed => obtain ⟨i, r, h1, rfl⟩ := h; exact ⟨_, rfl⟩
  case eose => obtain ⟨rfl, rfl⟩ := h; cases he : env.eose <;> exact ⟨_, rfl⟩
  case close => obtain ⟨rfl, rfl⟩ := h; cases he : env.close <;> exact ⟨_, rfl⟩
  case notice => obtain ⟨rfl, rfl⟩ := h; cases he : env.notice <;> exact ⟨_, rfl⟩

theorem understandAll_one (label : Bytes) (d : Option Env) (i : Item) : understandAll label d [i] = understand label d i := by
  simp only [understandAll]
  cases understand label d i <;> rfl

theorem understandAll_append (label : Bytes) (a b : List Item) : ∀ d : Option Env, understandAll label d (a ++ b) =
    match understandAll label d a with
    | .ok d => understandAll label d b
    | .err e => .err e
    | .panic => .panic := by
  induction a with
  | nil => intro d; rfl
  | cons i a ih =>
    intro d
    simp only [List.cons_append, understandAll]
    cases understand label d i with
    | ok d' => exact ih d'
    | err e => rfl
    | panic => rfl

theorem rep_int {label : Bytes} {d : Option Env} {v : V} (h : Rep label d v) (n : Int) : v.on (.int n) = .ok v := by
  obtain ⟨env, pos, ce, ct, cf, cl, cn⟩ := v
  cases pos <;> simp only [Rep] at h <;> rfl

theorem rep_arrBegin {label : Bytes} {d : Option Env} {v : V} (h : Rep label d v) : v.on .arrBegin = .ok v := by
  obtain ⟨env, pos, ce, ct, cf, cl, cn⟩ := v
  cases pos <;> simp only [Rep] at h <;> rfl

/-- An envelope or a nil pointer to one. -/
def gotOf : Option Env → Got
  | some e => .env e
  | none => .nilPointer

/-- The end of an array sets the result. -/
theorem rep_arrEnd {label : Bytes} {d : Option Env} {v : V} (h : Rep label d v) :
    ∃ v', v.on .arrEnd = .ok v' ∧ Rep label d v' ∧ v'.env.got = gotOf d := by
  obtain ⟨env, pos, ce, ct, cf, cl, cn⟩ := v
  cases pos <;> simp only [Rep] at h
  case event => obtain ⟨s', e, h1, rfl⟩ := h; exact ⟨_, rfl, by simp [V.setMain, Rep, h1], by simp [V.setMain, Ptrs.got, gotOf, h1]⟩
  case auth => obtain ⟨s', e, h0, h1, rfl⟩ := h; exact ⟨_, rfl, by simp [V.setMain, Rep, h1, h0], by simp [V.setMain, Ptrs.got, gotOf, h1]⟩
  case req =>
    obtain ⟨s', e, h0, h1, rfl⟩ := h
    exact ⟨V.setMain ⟨env, .req, ce, ct, cf, cl, cn⟩ .req, by simp [V.on, V.arrEnd, h1], by simp [V.setMain, Rep, h1, h0], by simp [V.setMain, Ptrs.got, gotOf, h1]⟩
  case count => obtain ⟨s', e, n, hh, h0, h1, rfl⟩ := h; exact ⟨_, rfl, by simp [V.setMain, Rep, h1, h0], by simp [V.setMain, Ptrs.got, gotOf, h1]⟩
  case ok => obtain ⟨i, b', r, h1, rfl⟩ := h; exact ⟨_, rfl, by simp [V.setMain, Rep, h1], by simp [V.setMain, Ptrs.got, gotOf, h1]⟩
  case closed => obtain ⟨i, r, h1, rfl⟩ := h; exact ⟨_, rfl, by simp [V.setMain, Rep, h1], by simp [V.setMain, Ptrs.got, gotOf, h1]⟩
  case eose => obtain ⟨rfl, rfl⟩ := h; exact ⟨_, rfl, by simp [V.setMain, Rep], by cases he : env.eose <;> simp [V.setMain, Ptrs.got, gotOf, he]⟩
  case close => obtain ⟨rfl, rfl⟩ := h; exact ⟨_, rfl, by simp [V.setMain, Rep], by cases he : env.close <;> simp [V.setMain, Ptrs.got, gotOf, he]⟩
  case notice => obtain ⟨rfl, rfl⟩ := h; exact ⟨_, rfl, by simp [V.setMain, Rep], by cases he : env.notice <;> simp [V.setMain, Ptrs.got, gotOf, he]⟩

mutual
theorem follows_value (label : Bytes) (d : Option Env) (v : V) (h : Rep label d v) : ∀ j : J, Follows label (visit v (tokens j)) (understandAll label d (flat j))
  | .str s => by rw [flat, understandAll_one]; exact follows_str label d v h s
  | .int n => by
    rw [flat, understandAll_one]
    simp only [tokens, visit, rep_int h, R.bind]
    exact ⟨v, rfl, h⟩
  | .float => ⟨v, rfl⟩
  | .null => ⟨v, rfl⟩
  | .bool b => by rw [flat, understandAll_one]; exact follows_bool label d v h b
  | .obj ms => by rw [flat, understandAll_one]; exact follows_obj label d v h ms
  | .arr l => by
    rw [flat]
    have ih := follows_list label d v h l
    simp only [tokens, visit, rep_arrBegin h, R.bind]
    rw [visit_append]
    cases hu : understandAll label d (flatL l) with
    | ok d' =>
      rw [hu] at ih
      obtain ⟨v', h1, h2⟩ := ih
      obtain ⟨v'', h3, h4, -⟩ := rep_arrEnd h2
      rw [h1]
      exact ⟨v'', by simp [R.bind, visit, h3], h4⟩
    | err u =>
      rw [hu] at ih
      obtain ⟨v', h1⟩ := ih
      exact ⟨v', by rw [h1]; rfl⟩
    | panic =>
      rw [hu] at ih
      have ih' : visit v (tokensL l) = .panic := ih
      rw [ih']
      rfl
theorem follows_list (label : Bytes) (d : Option Env) (v : V) (h : Rep label d v) : ∀ l : List J, Follows label (visit v (tokensL l)) (understandAll label d (flatL l))
  | [] => ⟨v, rfl, h⟩
  | j :: l => by
    have ih := follows_value label d v h j
    simp only [tokensL, flatL]
    rw [visit_append, understandAll_append]
    cases hu : understandAll label d (flat j) with
    | ok d' =>
      rw [hu] at ih
      obtain ⟨v', h1, h2⟩ := ih
      rw [h1]
      exact follows_list label d' v' h2 l
    | err u =>
      rw [hu] at ih
      obtain ⟨v', h1⟩ := ih
      exact ⟨v', by rw [h1]; rfl⟩
    | panic =>
      rw [hu] at ih
      have ih' : visit v (tokens j) = .panic := ih
      rw [ih']
      rfl
end

theorem draft_rep (label : Bytes) (d : Option Env) (h : draft label = some d) : ∃ v, V.onStr {} label = .ok v ∧ Rep label d v := by
  unfold draft at h
  split at h
  · next e => subst e; cases h; exact ⟨_, rfl, by simp [Rep]⟩
  split at h
  · next e => subst e; cases h; exact ⟨_, rfl, by simp [Rep]⟩
  split at h
  · next e => subst e; cases h; exact ⟨_, rfl, by simp [Rep]⟩
  split at h
  · next e => subst e; cases h; exact ⟨_, rfl, by simp [Rep]⟩
  split at h
  · next e => subst e; cases h; exact ⟨_, rfl, by simp [Rep]⟩
  split at h
  · next e => subst e; cases h; exact ⟨_, rfl, by simp [Rep]⟩
  split at h
  · next e =>
    cases h
    rcases e with e | e | e <;> subst e <;> exact ⟨_, rfl, by simp [Rep]⟩
  · cases h

theorem draft_none (label : Bytes) (h : draft label = none) : V.onStr {} label = .err {} true := by
  unfold draft at h
  repeat' split at h
  all_goals first | (cases h; done) | skip
  rename_i h1 h2 h3 h4 h5 h6 h7
  have h8 : ¬ label = b! "EOSE" := fun e => h7 (.inl e)
  have h9 : ¬ label = b! "CLOSE" := fun e => h7 (.inr (.inl e))
  have h10 : ¬ label = b! "NOTICE" := fun e => h7 (.inr (.inr e))
  simp only [V.onStr, h1, h2, h3, h4, h5, h6, h8, h9, h10, if_false]

/-- **C126.** What the parser makes of a message that begins with a label, whatever follows: exactly what `understandAll` says, an envelope, a nil pointer, an error, or a crash. -/
theorem C126_reads (label : Bytes) (rest : List J) :
    (draft label = none → parse (.arr (.str label :: rest)) = .val (.nothing, .unknownLabel)) ∧
    ∀ d, draft label = some d → match understandAll label d (flatL rest) with
      | .ok (some e) => parse (.arr (.str label :: rest)) = .val (.env e, .none)
      | .ok none => parse (.arr (.str label :: rest)) = .val (.nilPointer, .none)
      | .err _ => ∃ g, parse (.arr (.str label :: rest)) = .val (g, .other)
      | .panic => parse (.arr (.str label :: rest)) = .panic := by
  have hv : visit {} (tokens (.arr (.str label :: rest))) = (V.onStr {} label).bind (fun v => (visit v (tokensL rest)).bind (fun v => visit v [.arrEnd])) := by
    simp only [tokens, tokensL, visit, R.bind, List.cons_append, List.nil_append, V.on]
    congr 1
    funext v
    rw [visit_append]
    simp only [visit, V.on]
    rfl
  constructor
  · intro h
    unfold parse
    rw [hv, draft_none label h]
    rfl
  · intro d hd
    obtain ⟨v, h1, h2⟩ := draft_rep label d hd
    have hf := follows_list label d v h2 rest
    rw [h1] at hv
    simp only [R.bind] at hv
    cases hu : understandAll label d (flatL rest) with
    | ok d' =>
      rw [hu] at hf
      obtain ⟨v', h3, h4⟩ := hf
      obtain ⟨v'', h5, -, h6⟩ := rep_arrEnd h4
      have hp : parse (.arr (.str label :: rest)) = .val (v''.env.got, .none) := by
        unfold parse
        rw [hv, h3]
        simp only [R.bind, visit, h5]
      cases d' with
      | none => simp only [hp, h6, gotOf]
      | some e => simp only [hp, h6, gotOf]
    | err u =>
      rw [hu] at hf
      obtain ⟨v', h3⟩ := hf
      refine ⟨v'.env.got, ?_⟩
      unfold parse
      rw [hv, h3]
      rfl
    | panic =>
      rw [hu] at hf
      have hf' : visit v (tokensL rest) = .panic := hf
      show parse _ = _
      unfold parse
      rw [hv, hf']

end GoNostr.Json.Sonic
