import Verif.Json.SonicRead
/-!
# C126: what follows from how the `sonic` build reads messages
-/

set_option autoImplicit false

namespace GoNostr.Json.Sonic

open GoNostr.Json

/-! ## When it crashes -/

/-- What the pointers are at each position. -/
def Safe (v : V) : Prop := match v.pos with
  | .envelope => True
  | .event => v.env.event ≠ none
  | .auth => v.env.auth ≠ none
  | .req => v.env.req ≠ none
  | .ok => v.env.ok ≠ none
  | .closed => v.env.closed ≠ none
  | .eose | .close | .notice => True
  | .countObject | .count => v.env.count ≠ none ∨ v.env.req ≠ none
  | .filterObject | .since | .limit | .«until» | .ids | .authors | .kinds | .search | .aFilterTag => v.curFilter ≠ none ∧ (v.env.req ≠ none ∨ v.env.count ≠ none)
  | .eventObject | .id | .createdAt | .kind | .content | .pubkey | .sig | .tags | .tagsList | .anEventTag => v.curEvent ≠ none ∧ (v.env.event ≠ none ∨ v.env.auth ≠ none)

/-- Reading an answer to a COUNT where there is none. -/
def Danger (v : V) : Prop := (v.pos = .countObject ∨ v.pos = .count) ∧ v.env.count = none

/-- What one token does to a safe state. -/
def Step (v : V) (t : Tok) (r : R) : Prop := match r with
  | .panic => Danger v
  | .err _ _ => True
  | .ok v' => Safe v' ∧ (v'.env.req ≠ none → v.env.req ≠ none ∨ t = .str (b! "REQ")) ∧ (Danger v' → Danger v ∨ t = .key (b! "count") ∨ t = .key (b! "hll"))

theorem safe_onEvent {v : V} (h : v.curEvent ≠ none ∧ (v.env.event ≠ none ∨ v.env.auth ≠ none)) (t : Tok) (p : Pos) (f : Event → Event)
    (hp : p = .tagsList ∨ p = .eventObject) : Step v t (v.onEvent p f) := by
  obtain ⟨e, he⟩ := Option.ne_none_iff_exists'.1 h.1
  rcases hp with rfl | rfl <;> simp only [V.onEvent, he, Step, Safe] <;> exact ⟨⟨by simp, h.2⟩, .inl, fun hc => by simp [Danger] at hc⟩

theorem safe_onFilter {v : V} (h : v.curFilter ≠ none ∧ (v.env.req ≠ none ∨ v.env.count ≠ none)) (t : Tok) (p : Pos) (f : Filter → Filter)
    (hp : p = .filterObject ∨ p = .ids ∨ p = .authors ∨ p = .kinds ∨ p = .aFilterTag) : Step v t (v.onFilter p f) := by
  obtain ⟨e, he⟩ := Option.ne_none_iff_exists'.1 h.1
  rcases hp with rfl | rfl | rfl | rfl | rfl <;> simp only [V.onFilter, he, Step, Safe] <;> exact ⟨⟨by simp, h.2⟩, .inl, fun hc => by simp [Danger] at hc⟩

theorem safe_arrBegin (v : V) (h : Safe v) : Step v .arrBegin v.arrBegin := by
  obtain ⟨env, pos, ce, ct, cf, cl, cn⟩ := v
  cases pos <;> simp only [Safe] at h <;> simp only [V.arrBegin]
  case tags => exact safe_onEvent (v := ⟨_, _, _, _, _, _, _⟩) h _ _ _ (by simp)
  all_goals simp [Step, Danger, Safe]; first | done | tauto

theorem safe_arrEnd (v : V) (h : Safe v) : Step v .arrEnd v.arrEnd := by
  obtain ⟨env, pos, ce, ct, cf, cl, cn⟩ := v
  cases pos <;> simp only [Safe] at h <;> simp only [V.arrEnd]
  case ids => exact safe_onFilter (v := ⟨_, _, _, _, _, _, _⟩) h _ _ _ (by simp)
  case authors => exact safe_onFilter (v := ⟨_, _, _, _, _, _, _⟩) h _ _ _ (by simp)
  case kinds => exact safe_onFilter (v := ⟨_, _, _, _, _, _, _⟩) h _ _ _ (by simp)
  case aFilterTag => exact safe_onFilter (v := ⟨_, _, _, _, _, _, _⟩) h _ _ _ (by simp)
  case anEventTag => exact safe_onEvent (v := ⟨_, _, _, _, _, _, _⟩) h _ _ _ (by simp)
  case tags => exact safe_onEvent (v := ⟨_, _, _, _, _, _, _⟩) h _ _ _ (by simp)
  case tagsList => exact safe_onEvent (v := ⟨_, _, _, _, _, _, _⟩) h _ _ _ (by simp)
  case req =>
    obtain ⟨r, hr⟩ := Option.ne_none_iff_exists'.1 h
    simp [hr, Step, Danger, Safe, V.setMain]
  all_goals simp [Step, Danger, Safe, V.setMain]; first | done | tauto

theorem safe_objBegin (v : V) (h : Safe v) : Step v .objBegin v.objBegin := by
  obtain ⟨env, pos, ce, ct, cf, cl, cn⟩ := v
  cases pos <;> simp only [Safe] at h <;> simp only [V.objBegin] <;> simp [Step, Danger, Safe] <;> tauto

theorem safe_objEnd (v : V) (h : Safe v) : Step v .objEnd v.objEnd := by
  obtain ⟨env, pos, ce, ct, cf, cl, cn⟩ := v
  cases pos <;> simp only [Safe] at h <;> simp only [V.objEnd]
  case eventObject =>
    obtain ⟨e, rfl⟩ := Option.ne_none_iff_exists'.1 h.1
    cases he : env.event with
    | some x => simp [Step, Danger, Safe]
    | none =>
      cases ha : env.auth with
      | some x => simp [Step, Danger, Safe]
      | none => simp [he, ha] at h
  case filterObject =>
    obtain ⟨e, rfl⟩ := Option.ne_none_iff_exists'.1 h.1
    cases he : env.req with
    | some x => simp [Step, Danger, Safe, he]
    | none =>
      cases ha : env.count with
      | some x => simp [Step, Danger, Safe, he]
      | none => simp [he, ha] at h
  case countObject => simpa [Step, Safe, Danger] using h
  all_goals trivial

theorem safe_key (v : V) (h : Safe v) (k : Bytes) : Step v (.key k) (v.onKey k) := by
  obtain ⟨env, pos, ce, ct, cf, cl, cn⟩ := v
  cases pos <;> simp only [Safe] at h <;> simp only [V.onKey]
  case eventObject =>
    repeat' (first | split | trivial)
    all_goals exact ⟨h, .inl, fun hc => by simp [Danger] at hc⟩
  case filterObject =>
    split
    · exact ⟨h, .inl, fun hc => by simp [Danger] at hc⟩
    split
    · exact ⟨h, .inl, fun hc => by simp [Danger] at hc⟩
    split
    · exact ⟨h, .inl, fun hc => by simp [Danger] at hc⟩
    split
    · exact safe_onFilter (v := ⟨_, _, _, _, _, _, _⟩) h _ _ _ (by simp)
    split
    · exact safe_onFilter (v := ⟨_, _, _, _, _, _, _⟩) h _ _ _ (by simp)
    split
    · exact safe_onFilter (v := ⟨_, _, _, _, _, _, _⟩) h _ _ _ (by simp)
    split
    · exact ⟨h, .inl, fun hc => by simp [Danger] at hc⟩
    split
    · next hk =>
      exact ⟨h.2.symm, .inl, fun _ => .inr (hk.imp (congrArg Tok.key) (congrArg Tok.key))⟩
    split
    · obtain ⟨f, hf⟩ := Option.ne_none_iff_exists'.1 h.1
      simp only [V.onFilter, hf, Step, Safe]
      exact ⟨⟨by simp, h.2⟩, .inl, fun hc => by simp [Danger] at hc⟩
    · trivial
  case countObject => exact ⟨h, .inl, .inl⟩
  all_goals trivial

theorem safe_str (v : V) (h : Safe v) (s : Bytes) : Step v (.str s) (v.onStr s) := by
  obtain ⟨env, pos, ce, ct, cf, cl, cn⟩ := v
  cases pos <;> simp only [Safe] at h <;> simp only [V.onStr]
  case envelope =>
    split
    · simp [Step, Safe, Danger]; tauto
    split
    · next e => subst e; simp [Step, Safe, Danger]
    repeat' (first | split | trivial)
    all_goals simp [Step, Safe, Danger]; try tauto
  case event => obtain ⟨x, hx⟩ := Option.ne_none_iff_exists'.1 h; simp [hx, Step, Safe, Danger]; try tauto
  case auth => obtain ⟨x, hx⟩ := Option.ne_none_iff_exists'.1 h; simp [hx, Step, Safe, Danger]; try tauto
  case req => obtain ⟨x, hx⟩ := Option.ne_none_iff_exists'.1 h; simp [hx, Step, Safe, Danger]; try tauto
  case ok => obtain ⟨x, hx⟩ := Option.ne_none_iff_exists'.1 h; simp [hx, Step, Safe, Danger]; try tauto
  case closed => obtain ⟨x, hx⟩ := Option.ne_none_iff_exists'.1 h; simp [hx, Step, Safe, Danger]; try tauto
  case count =>
    cases hx : env.count <;> simp [hx, Step, Safe, Danger]; try tauto
  case countObject =>
    cases hx : env.count <;> simp [hx, Step, Safe, Danger]; try tauto
  case aFilterTag => exact ⟨h, .inl, fun hc => by simp [Danger] at hc⟩
  case anEventTag => exact ⟨h, .inl, fun hc => by simp [Danger] at hc⟩
  case eose => simp [Step, Safe, Danger]; try tauto
  case close => simp [Step, Safe, Danger]; try tauto
  case notice => simp [Step, Safe, Danger]; try tauto
  case ids => exact safe_onFilter (v := ⟨_, _, _, _, _, _, _⟩) h _ _ _ (by simp)
  case authors => exact safe_onFilter (v := ⟨_, _, _, _, _, _, _⟩) h _ _ _ (by simp)
  case search => exact safe_onFilter (v := ⟨_, _, _, _, _, _, _⟩) h _ _ _ (by simp)
  case id => exact safe_onEvent (v := ⟨_, _, _, _, _, _, _⟩) h _ _ _ (by simp)
  case content => exact safe_onEvent (v := ⟨_, _, _, _, _, _, _⟩) h _ _ _ (by simp)
  case pubkey => exact safe_onEvent (v := ⟨_, _, _, _, _, _, _⟩) h _ _ _ (by simp)
  case sig => exact safe_onEvent (v := ⟨_, _, _, _, _, _, _⟩) h _ _ _ (by simp)
  all_goals trivial

theorem safe_int (v : V) (h : Safe v) (n : Int) : Step v (.int n) (v.onInt n) := by
  obtain ⟨env, pos, ce, ct, cf, cl, cn⟩ := v
  cases pos <;> simp only [Safe] at h <;> simp only [V.onInt]
  case countObject =>
    cases hx : env.count <;> simp [hx, Step, Safe, Danger]; try tauto
  case createdAt => exact safe_onEvent (v := ⟨_, _, _, _, _, _, _⟩) h _ _ _ (by simp)
  case kind => exact safe_onEvent (v := ⟨_, _, _, _, _, _, _⟩) h _ _ _ (by simp)
  case limit => exact safe_onFilter (v := ⟨_, _, _, _, _, _, _⟩) h _ _ _ (by simp)
  case since => exact safe_onFilter (v := ⟨_, _, _, _, _, _, _⟩) h _ _ _ (by simp)
  case «until» => exact safe_onFilter (v := ⟨_, _, _, _, _, _, _⟩) h _ _ _ (by simp)
  case kinds => exact safe_onFilter (v := ⟨_, _, _, _, _, _, _⟩) h _ _ _ (by simp)
  all_goals exact ⟨h, .inl, .inl⟩

theorem safe_on (v : V) (h : Safe v) (t : Tok) : Step v t (v.on t) := by
  cases t with
  | arrBegin => exact safe_arrBegin v h
  | arrEnd => exact safe_arrEnd v h
  | objBegin => exact safe_objBegin v h
  | objEnd => exact safe_objEnd v h
  | key k => exact safe_key v h k
  | str s => exact safe_str v h s
  | int n => exact safe_int v h n
  | float => trivial
  | null => trivial
  | bool b =>
    simp only [V.on, V.onBool]
    split
    · next hp =>
      cases ho : v.env.ok with
      | none => simp [Safe, hp, ho] at h
      | some x => simp [Step, Safe, hp, Danger]
    · trivial

theorem safe_visit : ∀ (ts : List Tok) (v : V), Safe v → visit v ts = .panic →
    (v.env.req ≠ none ∨ .str (b! "REQ") ∈ ts) ∧ (Danger v ∨ .key (b! "count") ∈ ts ∨ .key (b! "hll") ∈ ts)
  | [], v, _, h => by cases h
  | t :: ts, v, hs, h => by
    have st := safe_on v hs t
    simp only [visit] at h
    cases ho : v.on t with
    | err v' u => rw [ho] at h; cases h
    | panic =>
      rw [ho] at st
      have hd : Danger v := st
      refine ⟨.inl ?_, .inl hd⟩
      obtain ⟨hp, hc⟩ := hd
      unfold Safe at hs
      rcases hp with hp | hp <;> rw [hp] at hs <;> exact (hs.resolve_left (fun x => x hc))
    | ok v' =>
      rw [ho] at st h
      obtain ⟨s1, s2, s3⟩ := st
      obtain ⟨i1, i2⟩ := safe_visit ts v' s1 h
      constructor
      · rcases i1 with i | i
        · rcases s2 i with j | j
          · exact .inl j
          · exact .inr (by rw [j]; exact List.mem_cons_self)
        · exact .inr (List.mem_cons_of_mem _ i)
      · rcases i2 with i | i | i
        · rcases s3 i with j | j | j
          · exact .inl j
          · exact .inr (.inl (by rw [j]; exact List.mem_cons_self))
          · exact .inr (.inr (by rw [j]; exact List.mem_cons_self))
        · exact .inr (.inl (List.mem_cons_of_mem _ i))
        · exact .inr (.inr (List.mem_cons_of_mem _ i))

/-- **C126.** Whatever the value, labelled or not, the parser crashes only if a string `REQ` and a member `count` or `hll` occur in it. -/
theorem C126_crash_needs (j : J) (h : parse j = .panic) : .str (b! "REQ") ∈ tokens j ∧ (.key (b! "count") ∈ tokens j ∨ .key (b! "hll") ∈ tokens j) := by
  unfold parse at h
  cases hv : visit {} (tokens j) with
  | ok v => rw [hv] at h; cases h
  | err v u => rw [hv] at h; cases h
  | panic =>
    obtain ⟨h1, h2⟩ := safe_visit (tokens j) {} trivial hv
    exact ⟨h1.resolve_left (fun x => x rfl), h2.resolve_left (fun x => by simp [Danger] at x)⟩

/-- A REQ with a filter that has a member `count`: the parser crashes. -/
theorem C126_crash (sub k : Bytes) (n : Int) (hk : IsCountKey k) : parse (.arr [.str (b! "REQ"), .str sub, .obj [(k, .int n)]]) = .panic := by
  have h := (C126_reads (b! "REQ") [.str sub, .obj [(k, .int n)]]).2 _ rfl
  have hu : understandAll (b! "REQ") (some (.req [] [])) (flatL [.str sub, .obj [(k, .int n)]]) = .panic := by
    simp [flatL, flat, understandAll, understand, reqObject, hk, firstScalar]
  rw [hu] at h
  exact h

/-! ## The same as the default parser -/

/-- A value of an event's member as a JSON value. -/
def ofField : FieldVal → J
  | .str s => .str s
  | .int i => .int i
  | .tags t => .arr (t.map (fun x => .arr (x.map .str)))
  | .null => .null

theorem stringsOf_str (l : List Bytes) : stringsOf (l.map .str) = some l := by
  induction l with
  | nil => rfl
  | cons s l ih => simp [stringsOf, ih]

theorem intsOf_int (l : List Int) : intsOf (l.map .int) = some l := by
  induction l with
  | nil => rfl
  | cons s l ih => simp [intsOf, ih]

theorem tagsOf_tags (t : Tags) : tagsOf (t.map (fun x => .arr (x.map .str))) = some t := by
  induction t with
  | nil => rfl
  | cons s l ih => simp [tagsOf, ih, stringsOf_str]

theorem eventMember_ofField (e : Event) (k : Bytes) (v : FieldVal) (h : v ≠ .null) : eventMember e (k, ofField v) = member e (k, v) := by
  cases v with
  | null => exact absurd rfl h
  | str s => rfl
  | int i => rfl
  | tags t => simp [ofField, eventMember, member, tagsOf_tags]

/-- **C126.** An object without null members is the same event for both parsers, or refused by both (`member` is what the default parser reads, C21). -/
theorem C126_event_agrees (l : List (Bytes × FieldVal)) (h : ∀ m ∈ l, m.2 ≠ .null) : eventObject (l.map (fun m => (m.1, ofField m.2))) = l.foldlM member zeroEvent := by
  unfold eventObject
  generalize zeroEvent = e
  induction l generalizing e with
  | nil => rfl
  | cons m l ih =>
    simp only [List.map_cons, List.foldlM_cons]
    rw [eventMember_ofField e m.1 m.2 (h m (by simp))]
    cases member e (m.1, m.2) with
    | none => rfl
    | some e' => exact ih (fun m hm => h m (by simp [hm])) e'

/-- A null member, which the default parser passes over, is refused. -/
theorem C126_null_refused (ms : List (Bytes × J)) (k : Bytes) (h : (k, .null) ∈ ms) : eventObject ms = none := by
  unfold eventObject
  generalize zeroEvent = e
  induction ms generalizing e with
  | nil => cases h
  | cons m ms ih =>
    simp only [List.foldlM_cons]
    rcases List.mem_cons.1 h with rfl | h
    · rfl
    · cases eventMember e m with
      | none => rfl
      | some e' => exact ih h e'

/-- A value of a filter's member as a JSON value. -/
def ofFilterVal : FilterVal → J
  | .str s => .str s
  | .int i => .int i
  | .strs l => .arr (l.map .str)
  | .ints l => .arr (l.map .int)
  | .null => .null

/-- A member a filter has: `search` for a string, `since`, `until` or `limit` for a number, any list. -/
def Known : Bytes × FilterVal → Prop
  | (_, .null) => False
  | (k, .str _) => k = b! "search"
  | (k, .int _) => k = b! "since" ∨ k = b! "until" ∨ k = b! "limit"
  | _ => True

theorem filterMember_ofFilterVal (f : Filter) (m : Bytes × FilterVal) (f' : Filter) (hk : Known m) (hl : m.1 = b! "limit" → f.limitZero = false)
    (h : fmember (withTags f) m = some f') : ∃ g, filterMember f (m.1, ofFilterVal m.2) = some g ∧ withTags g = f' ∧ (m.1 ≠ b! "limit" → g.limitZero = f.limitZero) := by
  obtain ⟨k, v⟩ := m
  cases v with
  | null => cases hk
  | str s =>
    have hk : k = b! "search" := hk
    subst hk
    simp only [fmember, if_true, Option.some.injEq] at h
    subst h
    exact ⟨{ f with search := s }, by simp [filterMember, ofFilterVal], rfl, fun _ => rfl⟩
  | int n =>
    rcases (show k = b! "since" ∨ k = b! "until" ∨ k = b! "limit" from hk) with rfl | rfl | rfl
    · simp [fmember] at h; subst h; exact ⟨{ f with since := some n }, by simp [filterMember, ofFilterVal], rfl, fun _ => rfl⟩
    · simp [fmember] at h; subst h; exact ⟨{ f with «until» := some n }, by simp [filterMember, ofFilterVal], rfl, fun _ => rfl⟩
    · have hz := hl rfl
      simp [fmember, withTags] at h; subst h
      exact ⟨{ f with limit := n, limitZero := decide (n = 0) }, by simp [filterMember, ofFilterVal], by by_cases hn : n = 0 <;> simp [withTags, hn, hz], fun hne => absurd rfl hne⟩
  | strs l =>
    simp only [fmember] at h
    simp only [filterMember, ofFilterVal]
    by_cases h1 : k = b! "ids"
    · subst h1; simp only [if_true, Option.some.injEq] at h; subst h; exact ⟨{ f with ids := some l }, by simp [stringsOf_str], rfl, fun _ => rfl⟩
    by_cases h2 : k = b! "authors"
    · subst h2; simp at h; subst h; exact ⟨{ f with authors := some l }, by simp [stringsOf_str], rfl, fun _ => rfl⟩
    rw [if_neg h1, if_neg h2] at h
    split at h
    · next c name =>
      cases h
      exact ⟨{ f with tags := some (tagSet (tagEntries f.tags) (c :: name) l) }, by simp [stringsOf_str], by simp [withTags, tagEntries], fun _ => rfl⟩
    · cases h
  | ints l =>
    simp only [fmember] at h
    split at h
    · next e =>
      subst e; cases h
      exact ⟨{ f with kinds := some l }, by simp [filterMember, ofFilterVal, intsOf_int], rfl, fun _ => rfl⟩
    · cases h

/-- **C126.** What the default parser reads as a filter (`fmember`, C22) this one reads as the same filter, up to a nil map of tags, provided the members are those of a filter and `limit` occurs
once at most. -/
theorem C126_filter_agrees (l : List (Bytes × FilterVal)) (f : Filter) (hk : ∀ m ∈ l, Known m) (hl : (l.map (·.1)).count (b! "limit") ≤ 1)
    (h : l.foldlM fmember { tags := some [] } = some f) : ∃ g, (l.map (fun m => (m.1, ofFilterVal m.2))).foldlM filterMember {} = some g ∧ withTags g = f := by
  have gen : ∀ (l : List (Bytes × FilterVal)) (f0 f : Filter), (∀ m ∈ l, Known m) → (l.map (·.1)).count (b! "limit") ≤ 1 → (b! "limit" ∈ l.map (·.1) → f0.limitZero = false) →
      l.foldlM fmember (withTags f0) = some f → ∃ g, (l.map (fun m => (m.1, ofFilterVal m.2))).foldlM filterMember f0 = some g ∧ withTags g = f := by
    intro l
    induction l with
    | nil =>
      intro f0 f _ _ _ h
      simp only [List.foldlM_nil] at h
      cases h
      exact ⟨f0, rfl, rfl⟩
    | cons m l ih =>
      intro f0 f hk hc hz h
      simp only [List.foldlM_cons] at h
      cases hm : fmember (withTags f0) m with
      | none => rw [hm] at h; cases h
      | some f1 =>
        rw [hm] at h
        obtain ⟨g, h1, h2, h3⟩ := filterMember_ofFilterVal f0 m f1 (hk m (by simp)) (fun e => hz (by simp [e])) hm
        simp only [List.map_cons, List.foldlM_cons, h1]
        rw [← h2] at h
        refine ih g f (fun m hm => hk m (by simp [hm])) ?_ ?_ h
        · simp only [List.map_cons, List.count_cons] at hc
          omega
        · intro hmem
          have hne : m.1 ≠ b! "limit" := by
            intro e
            have hpos := List.count_pos_iff.2 hmem
            simp only [List.map_cons, List.count_cons, e, beq_self_eq_true, if_true] at hc
            omega
          rw [h3 hne]
          exact hz (by simp only [List.map_cons]; exact List.mem_cons_of_mem _ hmem)
  exact gen l {} f hk hl (fun _ => rfl) h

theorem reqObject_plain (ms : List (Bytes × J)) (hk : ∀ m ∈ ms, ¬ IsCountKey m.1) : ∀ f, reqObject f ms = match ms.foldlM filterMember f with
    | some g => .ok g
    | none => .err () := by
  induction ms with
  | nil => intro f; rfl
  | cons m ms ih =>
    intro f
    obtain ⟨k, j⟩ := m
    simp only [reqObject, if_neg (hk (k, j) (by simp)), List.foldlM_cons]
    cases filterMember f (k, j) with
    | none => rfl
    | some g => exact ih (fun m hm => hk m (by simp [hm])) g

theorem countObject_plain (f0 : Filter) (n : Option Int) (h : Option Bytes) (ms : List (Bytes × J)) (hk : ∀ m ∈ ms, ¬ IsCountKey m.1) :
    ∀ f, countObject f0 n h f ms = (ms.foldlM filterMember f).map (fun g => (g, n, h)) := by
  induction ms with
  | nil => intro f; rfl
  | cons m ms ih =>
    intro f
    obtain ⟨k, j⟩ := m
    simp only [countObject, if_neg (hk (k, j) (by simp)), List.foldlM_cons]
    cases filterMember f (k, j) with
    | none => rfl
    | some g => exact ih (fun m hm => hk m (by simp [hm])) g

/-- Known members are not those of an answer to a COUNT, if strings and numbers only. -/
def NoCount (ms : List (Bytes × J)) : Prop := ∀ m ∈ ms, ¬ IsCountKey m.1

/-- The messages of NIP-01, NIP-42 and NIP-45, and what they carry: objects as `eventMember` and `filterMember` read them, member by member. -/
inductive Carried : List J → Env → Prop
  | event {ms : List (Bytes × J)} {e : Event} (h : eventObject ms = some e) : Carried [.str (b! "EVENT"), .obj ms] (.event none e)
  | eventSub {s : Bytes} {ms : List (Bytes × J)} {e : Event} (h : eventObject ms = some e) : Carried [.str (b! "EVENT"), .str s, .obj ms] (.event (some s) e)
  | req {s : Bytes} {os : List (List (Bytes × J))} {fs : List Filter} (hk : ∀ ms ∈ os, NoCount ms) (h : List.Forall₂ (fun ms f => ms.foldlM filterMember {} = some f) os fs) :
      Carried (.str (b! "REQ") :: .str s :: os.map .obj) (.req s fs)
  | count {s : Bytes} {ms : List (Bytes × J)} {f : Filter} (hk : NoCount ms) (h : ms.foldlM filterMember {} = some f) :
      Carried [.str (b! "COUNT"), .str s, .obj ms] (.count s f none none)
  | answer {s : Bytes} {n : Int} : Carried [.str (b! "COUNT"), .str s, .obj [(b! "count", .int n)]] (.count s {} (some n) none)
  | answerHll {s x : Bytes} {n : Int} : Carried [.str (b! "COUNT"), .str s, .obj [(b! "count", .int n), (b! "hll", .str x)]] (.count s {} (some n) (some (hexDecPartial x)))
  | notice {s : Bytes} : Carried [.str (b! "NOTICE"), .str s] (.notice s)
  | eose {s : Bytes} : Carried [.str (b! "EOSE"), .str s] (.eose s)
  | close {s : Bytes} : Carried [.str (b! "CLOSE"), .str s] (.close s)
  | closed {s r : Bytes} (hs : s ≠ []) : Carried [.str (b! "CLOSED"), .str s, .str r] (.closed s r)
  | ok {i r : Bytes} {b : Bool} (hi : i ≠ []) : Carried [.str (b! "OK"), .str i, .bool b, .str r] (.ok i b r)
  | challenge {c : Bytes} : Carried [.str (b! "AUTH"), .str c] (.auth (some c) zeroEvent)
  | auth {ms : List (Bytes × J)} {e : Event} (h : eventObject ms = some e) : Carried [.str (b! "AUTH"), .obj ms] (.auth none e)

theorem understandAll_req (s : Bytes) (os : List (List (Bytes × J))) (fs : List Filter) (hk : ∀ ms ∈ os, NoCount ms)
    (h : List.Forall₂ (fun ms f => ms.foldlM filterMember {} = some f) os fs) :
    ∀ gs, understandAll (b! "REQ") (some (.req s gs)) (flatL (os.map .obj)) = .ok (some (.req s (gs ++ fs))) := by
  induction h with
  | nil => intro gs; simp [flatL, understandAll]
  | @cons ms f os fs h1 h2 ih =>
    intro gs
    have hr : reqObject {} ms = .ok f := by rw [reqObject_plain ms (hk ms (by simp)), h1]
    simp only [List.map_cons, flatL, flat, List.cons_append, List.nil_append, understandAll, understand, hr]
    rw [ih (fun m hm => hk m (by simp [hm]))]
    simp

theorem parses {label : Bytes} {rest : List J} {d : Option Env} {e : Env} (hd : draft label = some d) (hu : understandAll label d (flatL rest) = .ok (some e)) :
    parse (.arr (.str label :: rest)) = .val (.env e, .none) := by
  have h := (C126_reads label rest).2 d hd
  rw [hu] at h
  exact h

/-- **C126.** Every message of the protocol is read as what it carries, without an error. -/
theorem C126_messages {l : List J} {e : Env} (h : Carried l e) : parse (.arr l) = .val (.env e, .none) := by
  cases h with
  | event h => exact parses rfl (by simp [flatL, flat, understandAll, understand, h])
  | eventSub h => exact parses rfl (by simp [flatL, flat, understandAll, understand, h])
  | @req s os fs hk h =>
    refine parses (rest := .str s :: os.map .obj) rfl ?_
    simp only [flatL, flat, List.cons_append, List.nil_append, understandAll, understand]
    exact understandAll_req s os fs hk h []
  | count hk h => exact parses rfl (by simp [flatL, flat, understandAll, understand, countObject_plain _ _ _ _ hk, h])
  | answer => exact parses rfl (by simp [flatL, flat, understandAll, understand, countObject, IsCountKey, answer])
  | answerHll => exact parses rfl (by simp [flatL, flat, understandAll, understand, countObject, IsCountKey, answer])
  | notice => exact parses rfl rfl
  | eose => exact parses rfl rfl
  | close => exact parses rfl rfl
  | closed hs => exact parses rfl (by simp [flatL, flat, understandAll, understand, hs])
  | ok hi => exact parses rfl (by simp [flatL, flat, understandAll, understand, hi])
  | challenge => exact parses rfl rfl
  | auth h => exact parses rfl (by simp [flatL, flat, understandAll, understand, h])

/-! ## Where it differs -/

/-- A message of one of the three kinds that are a mere string, with no string after the label: a pointer that is nil and no error. The caller dereferences it (relay.go:261-298). -/
theorem C126_nil_pointer (label : Bytes) (rest : List J) :
    parse (.arr (.str label :: rest)) = .val (.nilPointer, .none) ↔
      (label = b! "EOSE" ∨ label = b! "CLOSE" ∨ label = b! "NOTICE") ∧ ∀ i ∈ flatL rest, i = .num := by
  have some_stays : ∀ (is : List Item) (e : Env) (d : Option Env), understandAll label (some e) is = .ok d → d ≠ none := by
    intro is
    induction is with
    | nil => intro e d h; simp only [understandAll, Res.ok.injEq] at h; subst h; simp
    | cons i is ih =>
      intro e d h
      simp only [understandAll] at h
      cases hu : understand label (some e) i with
      | err x => rw [hu] at h; cases h
      | panic => rw [hu] at h; cases h
      | ok d' =>
        rw [hu] at h
        cases d' with
        | some e' => exact ih e' d h
        | none =>
          exfalso
          cases i <;> cases e <;> simp only [understand] at hu <;> (repeat' split at hu) <;> simp_all
  have nones : ∀ is : List Item, understandAll label none is = .ok none ↔ ∀ i ∈ is, i = .num := by
    intro is
    induction is with
    | nil => simp [understandAll]
    | cons i is ih =>
      cases i with
      | num => simpa [understandAll, understand] using ih
      | bad => simp [understandAll, understand]
      | bool b => simp [understandAll, understand]
      | obj ms => simp [understandAll, understand]
      | str s =>
        simp only [understandAll, understand, List.forall_mem_cons, reduceCtorEq, false_and, iff_false]
        intro h
        exact some_stays is _ none h rfl
  obtain ⟨h1, h2⟩ := C126_reads label rest
  cases hd : draft label with
  | none =>
    rw [h1 hd]
    constructor
    · intro h; simp at h
    · rintro ⟨h, -⟩
      exfalso
      rcases h with rfl | rfl | rfl <;> exact absurd hd (by decide)
  | some d =>
    have h := h2 d hd
    have hn : d = none ↔ (label = b! "EOSE" ∨ label = b! "CLOSE" ∨ label = b! "NOTICE") := by
      constructor
      · intro e
        subst e
        unfold draft at hd
        repeat' split at hd
        all_goals first | (simp at hd; done) | assumption
      · rintro (rfl | rfl | rfl) <;> simpa [draft] using hd.symm
    rw [← hn, ← nones]
    cases d with
    | none =>
      cases hu : understandAll label none (flatL rest) with
      | panic => rw [hu] at h; simp only at h; rw [h]; simp
      | err x => rw [hu] at h; obtain ⟨g, h⟩ := h; rw [h]; simp
      | ok d' =>
        rw [hu] at h
        cases d' <;> simp only at h <;> rw [h] <;> simp
    | some e =>
      simp only [reduceCtorEq, false_and, iff_false]
      intro hp
      cases hu : understandAll label (some e) (flatL rest) with
      | panic => rw [hu] at h; simp only at h; rw [h] at hp; cases hp
      | err x => rw [hu] at h; obtain ⟨g, h⟩ := h; rw [h] at hp; simp at hp
      | ok d' =>
        rw [hu] at h
        cases d' with
        | none => exact some_stays _ _ _ hu rfl
        | some e' => simp only at h; rw [h] at hp; simp at hp

/-- An OK with an empty identifier takes the reason for the identifier, and a CLOSED likewise. -/
theorem C126_empty_id (b : Bool) (r : Bytes) :
    parse (.arr [.str (b! "OK"), .str [], .bool b, .str r]) = .val (.env (.ok r b []), .none) ∧
    parse (.arr [.str (b! "CLOSED"), .str [], .str r]) = .val (.env (.closed r []), .none) :=
  ⟨parses rfl (by simp [flatL, flat, understandAll, understand]), parses rfl (by simp [flatL, flat, understandAll, understand])⟩

/-- Other members of the answer to a COUNT overwrite the count, and a boolean, as in NIP-45's `"approximate": true`, makes the whole message refused. -/
theorem C126_count_members (s k : Bytes) (n m : Int) (b : Bool) :
    parse (.arr [.str (b! "COUNT"), .str s, .obj [(b! "count", .int n), (k, .int m)]]) = .val (.env (.count s {} (some m) none), .none) ∧
    ∃ g, parse (.arr [.str (b! "COUNT"), .str s, .obj [(b! "count", .int n), (k, .bool b)]]) = .val (g, .other) := by
  refine ⟨parses rfl (by simp [flatL, flat, understandAll, understand, countObject, IsCountKey, answer]), ?_⟩
  have h := (C126_reads (b! "COUNT") [.str s, .obj [(b! "count", .int n), (k, .bool b)]]).2 _ rfl
  have hu : understandAll (b! "COUNT") (some (.count [] {} none none)) (flatL [.str s, .obj [(b! "count", .int n), (k, .bool b)]]) = .err () := by
    simp [flatL, flat, understandAll, understand, countObject, IsCountKey, answer]
  rw [hu] at h
  exact h

/-- An error and an envelope: the event of a message that is refused. The reader of the connection looks at the error only when there is no envelope (relay.go:253-259). -/
theorem C126_refused_but_there (s : Bytes) (ms : List (Bytes × J)) (e : Event) (h : eventObject ms = some e) :
    parse (.arr [.str (b! "EVENT"), .str s, .arr [.obj ms], .null]) = .val (.env (.event (some s) e), .other) := by
  have hb := event_members ms ⟨{ event := some (some s, zeroEvent) }, .eventObject, some zeroEvent, [], none, [], []⟩ zeroEvent rfl rfl
  obtain ⟨v', h2, h3, h4, h5⟩ := hb.1 e h
  have hv : visit {} (tokens (.arr [.str (b! "EVENT"), .str s, .arr [.obj ms], .null])) =
      (visit ⟨{ event := some (some s, zeroEvent) }, .eventObject, some zeroEvent, [], none, [], []⟩ (tokensM ms ++ [.objEnd])).bind (fun v => visit v [.arrEnd, .null, .arrEnd]) := by
    rw [← visit_append]
    simp [tokens, tokensL, visit, V.on, V.arrBegin, V.onStr, V.objBegin, R.bind]
  unfold parse
  rw [hv, h2]
  obtain ⟨env', pos', ce', ct', cf', cl', cn'⟩ := v'
  simp only at h3 h4 h5
  subst h3 h4 h5
  simp [V.on, V.objEnd, R.bind, visit, V.arrEnd, V.setMain, Ptrs.got]

/-- A text that is no array is neither read nor refused, if it is a number or a label. -/
theorem C126_no_array (n : Int) : parse (.int n) = .val (.nothing, .none) ∧ parse (.str (b! "EVENT")) = .val (.nothing, .none) := ⟨rfl, rfl⟩

/-! ## Examples -/

example : parse (.arr [.str (b! "EVENT"), .str (b! "s"), .obj [(b! "kind", .int 1), (b! "tags", .arr [.arr [.str (b! "t"), .str (b! "x")]]), (b! "content", .str (b! "hi"))]]) =
    .val (.env (.event (some (b! "s")) { zeroEvent with kind := 1, tags := [[b! "t", b! "x"]], content := b! "hi" }), .none) := by rfl

example : Carried [.str (b! "REQ"), .str (b! "s"), .obj [(b! "kinds", .arr [.int 1]), (b! "#e", .arr [.str (b! "a")])], .obj []]
    (.req (b! "s") [{ kinds := some [1], tags := some [(b! "e", some [b! "a"])] }, {}]) :=
  .req (os := [[(b! "kinds", .arr [.int 1]), (b! "#e", .arr [.str (b! "a")])], []]) (by rintro ms h m hm; simp at h; rcases h with rfl | rfl <;> simp at hm; rcases hm with rfl | rfl <;> decide) (.cons rfl (.cons rfl .nil))

example : eventObject [(b! "foo", .str [])] = none := rfl

example : ∃ m ∈ [((b! "limit", .int 0) : Bytes × FilterVal), (b! "#e", .strs [])], Known m := ⟨_, List.mem_cons_self, .inr (.inr rfl)⟩

example : ([((b! "limit", .int 0) : Bytes × FilterVal), (b! "#e", .strs [])]).foldlM fmember { tags := some [] } = some { limitZero := true, tags := some [(b! "e", some [])] } := rfl

/-- A second `limit` is where the two parsers differ. -/
example : [((b! "limit", .int 0) : Bytes × FilterVal), (b! "limit", .int 1)].foldlM fmember {} = some { limit := 1, limitZero := true } ∧
    [((b! "limit", .int 0) : Bytes × J), (b! "limit", .int 1)].foldlM filterMember {} = some { limit := 1, limitZero := false } := ⟨rfl, rfl⟩

end GoNostr.Json.Sonic
