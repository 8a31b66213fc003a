import Verif.Event.Model
import Mathlib.Data.List.Sort
/-!
# C130: several stores as one

`MultiStore` (interface.go): publishing to all, querying all at once and querying as a stream.
-/

set_option autoImplicit false

namespace GoNostr.Multi

/-! ## QuerySync and Publish -/

/-- The comparison given to `slices.SortFunc` (interface.go:64-71). -/
def cmp (a b : Event) : Int := if b.createdAt > a.createdAt then 1 else if b.createdAt < a.createdAt then -1 else 0

/-- What `slices.SortFunc` promises (its documentation; the sort is not stable): the same elements in an order `cmp` does not object to. -/
def SortedBy (cmp : Event → Event → Int) (input output : List Event) : Prop :=
  output.Perm input ∧ output.Pairwise (fun a b => cmp a b ≤ 0)

/-- A store's answer: events and, maybe, an error. Events come with an error too. -/
structure Answer where
  events : List Event
  err : Option Bytes

/-- The loop of `QuerySync` (interface.go:56-63): all events appended, errors collected. -/
def collect : List Answer → List Event × List (Option Bytes)
  | [] => ([], [])
  | a :: rest => let r := collect rest; (a.events ++ r.1, a.err :: r.2)

/-- `errors.Join`: nil if all are nil, otherwise the texts of those that are not, in order. -/
def join (errs : List (Option Bytes)) : Option (List Bytes) :=
  match errs.filterMap id with
  | [] => none
  | l => some l

/-- `MultiStore.QuerySync` (interface.go:55-72), for any behaviour the sort may show. -/
def QuerySync (answers : List Answer) (events : List Event) (err : Option (List Bytes)) : Prop :=
  SortedBy cmp (collect answers).1 events ∧ err = join (collect answers).2

/-- A store as far as publishing goes: what it was given, and what it says to an event. -/
structure Store where
  given : List Event
  answer : Event → Option Bytes

/-- The loop of `MultiStore.Publish` (interface.go:22-28): each store in turn is given the event, whatever the others said. -/
def publishLoop (e : Event) : List Store → List Store × List (Option Bytes)
  | [] => ([], [])
  | s :: rest => let r := publishLoop e rest; ({ s with given := s.given ++ [e] } :: r.1, s.answer e :: r.2)

/-- `MultiStore.Publish` (interface.go:22-28): the stores afterwards and the error. -/
def publish (e : Event) (stores : List Store) : List Store × Option (List Bytes) := ((publishLoop e stores).1, join (publishLoop e stores).2)

theorem collect_events : ∀ answers : List Answer, (collect answers).1 = answers.flatMap Answer.events
  | [] => rfl
  | a :: rest => by simp [collect, collect_events rest]

theorem collect_errs : ∀ answers : List Answer, (collect answers).2 = answers.map Answer.err
  | [] => rfl
  | a :: rest => by simp [collect, collect_errs rest]

theorem cmp_le {a b : Event} : cmp a b ≤ 0 ↔ b.createdAt ≤ a.createdAt := by
  unfold cmp
  split
  · omega
  · split <;> omega

theorem join_none {errs : List (Option Bytes)} : join errs = none ↔ ∀ e ∈ errs, e = none := by
  unfold join
  split
  · rename_i h
    simp only [true_iff]
    intro e he
    cases e with
    | none => rfl
    | some x =>
      have : x ∈ errs.filterMap id := List.mem_filterMap.2 ⟨some x, he, rfl⟩
      rw [h] at this; cases this
  · rename_i l h
    simp only [reduceCtorEq, false_iff]
    intro hh
    cases hx : errs.filterMap id with
    | nil => exact h hx
    | cons x t =>
      have : x ∈ errs.filterMap id := by rw [hx]; simp
      obtain ⟨e, he, hex⟩ := List.mem_filterMap.1 this
      rw [hh e he] at hex; cases hex

/-- **C130 (queries).** The result holds exactly the events the stores returned, each as often as they did together, newest first; stores
that fail add what they did return; there is an error exactly if one of them failed. -/
theorem C130_query (answers : List Answer) (events : List Event) (err : Option (List Bytes)) (h : QuerySync answers events err) :
    (∀ e : Event, ∀ [DecidableEq Event], events.count e = (answers.map (fun a => a.events.count e)).sum) ∧
    (∀ i j : Nat, ∀ a b : Event, i < j → events[i]? = some a → events[j]? = some b → b.createdAt ≤ a.createdAt) ∧
    (err = none ↔ ∀ a ∈ answers, a.err = none) := by
  obtain ⟨⟨hp, hs⟩, he⟩ := h
  refine ⟨?_, ?_, ?_⟩
  · intro e _
    rw [hp.count_eq, collect_events, List.count_flatMap]
    rfl
  · intro i j a b hij ha hb
    obtain ⟨hi, rfl⟩ := List.getElem?_eq_some_iff.1 ha
    obtain ⟨hj, rfl⟩ := List.getElem?_eq_some_iff.1 hb
    exact cmp_le.1 (List.pairwise_iff_getElem.1 hs i j hi hj hij)
  · rw [he, join_none, collect_errs]
    simp

/-- `QuerySync` has a result: a sorted order exists. -/
theorem C130_query_exists (answers : List Answer) : ∃ events err, QuerySync answers events err := by
  refine ⟨(collect answers).1.insertionSort (fun a b => cmp a b ≤ 0), join (collect answers).2, ⟨List.perm_insertionSort _ _, ?_⟩, rfl⟩
  have : Std.Total (fun a b : Event => cmp a b ≤ 0) := ⟨fun a b => by simp only [cmp_le]; omega⟩
  have : IsTrans Event (fun a b : Event => cmp a b ≤ 0) := ⟨fun a b c h1 h2 => by simp only [cmp_le] at *; omega⟩
  exact List.pairwise_insertionSort _ _

/-- **C130 refuted (limit and repetitions).** Two stores that both have the event, asked for one: the result has it twice. -/
theorem C130_limit_and_duplicates (e : Event) : ∃ events err, QuerySync [⟨[e], none⟩, ⟨[e], none⟩] events err ∧ events = [e, e] ∧ events.length > 1 :=
  ⟨[e, e], none, ⟨⟨List.Perm.refl _, by simp [cmp_le]⟩, rfl⟩, rfl, by simp⟩

theorem publishLoop_eq (e : Event) : ∀ stores : List Store, publishLoop e stores =
    (stores.map (fun s => { s with given := s.given ++ [e] }), stores.map (fun s => s.answer e))
  | [] => rfl
  | s :: rest => by simp [publishLoop, publishLoop_eq e rest]

/-- **C130 (publishing).** Every store is given the event once, whatever the others answer, and there is an error exactly if one of them
refused; the error has every refusal. -/
theorem C130_publish (e : Event) (stores : List Store) : (publish e stores).1.length = stores.length ∧
    (∀ (i : Nat) (s : Store), stores[i]? = some s → ∃ s', (publish e stores).1[i]? = some s' ∧ s'.given = s.given ++ [e]) ∧
    ((publish e stores).2 = none ↔ ∀ s ∈ stores, s.answer e = none) ∧
    (∀ l, (publish e stores).2 = some l → ∀ r, r ∈ l ↔ ∃ s ∈ stores, s.answer e = some r) := by
  unfold publish
  rw [publishLoop_eq]
  refine ⟨by simp, ?_, ?_, ?_⟩
  · intro i s hs
    exact ⟨_, by rw [List.getElem?_map, hs]; rfl, rfl⟩
  · rw [join_none]; simp
  · intro l hl r
    unfold join at hl
    split at hl
    · cases hl
    · cases hl
      simp

example (e : Event) : (publish e [⟨[], fun _ => some [1]⟩, ⟨[e], fun _ => none⟩, ⟨[], fun _ => some [2]⟩]).2 = some [[1], [2]] := rfl

/-! ## QueryEvents -/

/-- A forwarding goroutine (interface.go:39-43) and the channel it reads: what the store will still send, whether the store has closed the
channel, the event in the goroutine's hands, whether it has returned. -/
structure Fwd where
  left : List Event
  closed : Bool
  held : Option Event
  gone : Bool

/-- The goroutines (one per store that answered without an error) and what the consumer received, with the number of the store.
`closed`: the channel handed to the consumer has been closed. -/
structure Stream where
  fwds : List Fwd
  got : List (Nat × Event)
  closed : Bool

/-- `MultiStore.QueryEvents` (interface.go:30-53): `none` if every store failed. A store's answer is the events it will send, or an error. -/
def queryEvents (stores : List (Option (List Event))) : Option Stream :=
  let fwds := stores.filterMap (fun s => s.map (fun es => { left := es, closed := false, held := none, gone := false : Fwd }))
  if fwds = [] then none else some { fwds := fwds, got := [], closed := false }

/-- The atomic actions of the machine; its step function says which lines each of them is. -/
inductive Lab
  | take (i : Nat)
  | give (i : Nat)
  | close (i : Nat)
  | quit (i : Nat)

/-- One action: a goroutine receives from its store; the consumer receives from a goroutine; a store closes its channel; a goroutine's loop
ends. There is no other code that touches the channel (interface.go:39-43). -/
def step (s : Stream) : Lab → Option Stream
  | .take i => match s.fwds[i]? with
    | some f => match f.held, f.left with
      | none, e :: rest => if f.gone then none else some { s with fwds := s.fwds.set i { f with held := some e, left := rest } }
      | _, _ => none
    | none => none
  | .give i => match s.fwds[i]? with
    | some f => match f.held with
      | some e => some { s with fwds := s.fwds.set i { f with held := none }, got := s.got ++ [(i, e)] }
      | none => none
    | none => none
  | .close i => match s.fwds[i]? with
    | some f => if f.left.isEmpty && !f.closed then some { s with fwds := s.fwds.set i { f with closed := true } } else none
    | none => none
  | .quit i => match s.fwds[i]? with
    | some f => if f.closed && f.held.isNone && !f.gone then some { s with fwds := s.fwds.set i { f with gone := true } } else none
    | none => none

/-- A schedule: the actions one after the other. -/
def run (s : Stream) : List Lab → Option Stream
  | [] => some s
  | l :: ls => match step s l with
    | none => none
    | some s' => run s' ls

theorem run_inv {P : Stream → Prop} (hs : ∀ s l s', P s → step s l = some s' → P s') :
    ∀ (ls : List Lab) (s s' : Stream), P s → run s ls = some s' → P s' := by
  intro ls
  induction ls with
  | nil => intro s s' hp h; simp only [run, Option.some.injEq] at h; exact h ▸ hp
  | cons l ls ih =>
    intro s s' hp h
    simp only [run] at h
    split at h
    · cases h
    · rename_i s1 h1
      exact ih s1 s' (hs s l s1 hp h1) h

/-- What the consumer got from store `i`, in order. -/
def from' (i : Nat) (got : List (Nat × Event)) : List Event := (got.filter (fun p => p.1 == i)).map Prod.snd

theorem from_append (i j : Nat) (got : List (Nat × Event)) (e : Event) :
    from' i (got ++ [(j, e)]) = if j = i then from' i got ++ [e] else from' i got := by
  unfold from'
  rw [List.filter_append, List.map_append]
  by_cases h : j = i
  · subst h; simp
  · simp [h]

/-- The answers of the stores that did not fail. -/
def good (stores : List (Option (List Event))) : List (List Event) := stores.filterMap id

/-- Accounting: what was received, held and still to come is what the store has. -/
structure Inv (src : List (List Event)) (s : Stream) : Prop where
  len : s.fwds.length = src.length
  acc : ∀ (i : Nat) (f : Fwd) (es : List Event), s.fwds[i]? = some f → src[i]? = some es → from' i s.got ++ f.held.toList ++ f.left = es
  idx : ∀ p ∈ s.got, p.1 < src.length
  opn : s.closed = false
  cl : ∀ (i : Nat) (f : Fwd), s.fwds[i]? = some f → f.closed = true → f.left = []
  gn : ∀ (i : Nat) (f : Fwd), s.fwds[i]? = some f → f.gone = true → f.closed = true ∧ f.held = none

theorem inv_step {src : List (List Event)} {s s' : Stream} {l : Lab} (hi : Inv src s) (h : step s l = some s') : Inv src s' := by
  obtain ⟨h1, h2, h3, h4, h5, h6⟩ := hi
  cases l with
  | take i =>
    simp only [step] at h
    split at h
    · rename_i f hf
      split at h
      · rename_i e rest e1 e2
        split at h
        · cases h
        · rename_i hg
          cases h
          have a2 := h2 i f
          refine ⟨by simp [h1], ?_, h3, h4, ?_, ?_⟩
          · intro j g es hj hes
            grind
          · grind
          · grind
      · cases h
    · cases h
  | give i =>
    simp only [step] at h
    split at h
    · rename_i f hf
      split at h
      · rename_i e e1
        cases h
        have hil : i < src.length := by rw [← h1]; exact (List.getElem?_eq_some_iff.1 hf).1
        refine ⟨by simp [h1], ?_, ?_, h4, ?_, ?_⟩
        · intro j g es hj hes
          simp only [from_append]
          have := h2 j
          grind
        · intro p hp
          rcases List.mem_append.1 hp with hp | hp
          · exact h3 p hp
          · simp only [List.mem_singleton] at hp; subst hp; exact hil
        · grind
        · grind
      · cases h
    · cases h
  | close i =>
    simp only [step] at h
    split at h
    · rename_i f hf
      split at h
      · rename_i hc
        cases h
        have hl : f.left = [] := by simp at hc; exact hc.1
        refine ⟨by simp [h1], ?_, h3, h4, ?_, ?_⟩
        · intro j g es hj hes
          have := h2 j
          grind
        · grind
        · grind
      · cases h
    · cases h
  | quit i =>
    simp only [step] at h
    split at h
    · rename_i f hf
      split at h
      · rename_i hc
        cases h
        have hn : f.held = none := by simp at hc; exact hc.1.2
        refine ⟨by simp [h1], ?_, h3, h4, ?_, ?_⟩
        · intro j g es hj hes
          have := h2 j
          grind
        · grind
        · grind
      · cases h
    · cases h

theorem filterMap_idx : ∀ stores : List (Option (List Event)),
    stores.filterMap (fun s => s.map (fun es => { left := es, closed := false, held := none, gone := false : Fwd })) =
    (good stores).map (fun es => { left := es, closed := false, held := none, gone := false : Fwd })
  | [] => rfl
  | none :: t => by simpa [good] using filterMap_idx t
  | some x :: t => by have := filterMap_idx t; simp [good] at this ⊢; exact this

theorem start_inv (stores : List (Option (List Event))) (s : Stream) (h : queryEvents stores = some s) : Inv (good stores) s := by
  simp only [queryEvents, filterMap_idx] at h
  split at h
  · cases h
  · cases h
    refine ⟨by simp, ?_, by simp, rfl, ?_, ?_⟩
    · intro i f es hf hes
      simp only [List.getElem?_map, hes, Option.map_some, Option.some.injEq] at hf
      subst hf
      simp [from']
    · intro i f hf hc
      simp only [List.getElem?_map] at hf
      cases hes : (good stores)[i]? with
      | none => rw [hes] at hf; cases hf
      | some es => rw [hes] at hf; cases hf; cases hc
    · intro i f hf hc
      simp only [List.getElem?_map] at hf
      cases hes : (good stores)[i]? with
      | none => rw [hes] at hf; cases hf
      | some es => rw [hes] at hf; cases hf; cases hc

/-- **C130 (errors).** The stream is refused exactly if every store fails. -/
theorem C130_stream_error (stores : List (Option (List Event))) : queryEvents stores = none ↔ ∀ s ∈ stores, s = none := by
  simp only [queryEvents, filterMap_idx]
  constructor
  · intro h s hs
    cases s with
    | none => rfl
    | some es =>
      split at h
      · rename_i hn
        have : es ∈ good stores := List.mem_filterMap.2 ⟨some es, hs, rfl⟩
        rw [List.map_eq_nil_iff] at hn
        rw [hn] at this; cases this
      · cases h
  · intro h
    have : good stores = [] := by
      rw [List.eq_nil_iff_forall_not_mem]
      intro es hes
      obtain ⟨s, hs, he⟩ := List.mem_filterMap.1 hes
      rw [h s hs] at he; cases he
    simp [this]

/-- **C130 (streams lose and invent nothing).** On every schedule the consumer has received, from each store that answered, a first part of
what that store sends, in its order; and when nothing is left to do, all of it. -/
theorem C130_stream (stores : List (Option (List Event))) (s0 s : Stream) (h0 : queryEvents stores = some s0) (ls : List Lab) (h : run s0 ls = some s) :
    (∀ p ∈ s.got, p.1 < (good stores).length) ∧
    (∀ (i : Nat) (es : List Event), (good stores)[i]? = some es → from' i s.got <+: es) ∧
    ((∀ l, step s l = none) → ∀ (i : Nat) (es : List Event), (good stores)[i]? = some es → from' i s.got = es) := by
  have hi := run_inv (fun _ _ _ hp hs => inv_step hp hs) ls _ _ (start_inv stores s0 h0) h
  have hget : ∀ (i : Nat) (es : List Event), (good stores)[i]? = some es → ∃ f, s.fwds[i]? = some f := by
    intro i es he
    have := (List.getElem?_eq_some_iff.1 he).1
    exact ⟨s.fwds[i]'(by rw [hi.len]; exact this), List.getElem?_eq_getElem _⟩
  refine ⟨hi.idx, ?_, ?_⟩
  · intro i es he
    obtain ⟨f, hf⟩ := hget i es he
    have := hi.acc i f es hf he
    exact ⟨f.held.toList ++ f.left, by rw [← this]; simp⟩
  · intro hq i es he
    obtain ⟨f, hf⟩ := hget i es he
    have hacc := hi.acc i f es hf he
    have hheld : f.held = none := by
      cases hx : f.held with
      | none => rfl
      | some e => have := hq (.give i); simp [step, hf, hx] at this
    have hleft : f.left = [] := by
      cases hx : f.left with
      | nil => rfl
      | cons e rest =>
        have hg : f.gone = false := by
          cases hy : f.gone with
          | false => rfl
          | true => have := hi.cl i f hf (hi.gn i f hf hy).1; rw [hx] at this; cases this
        have := hq (.take i)
        simp [step, hf, hheld, hx, hg] at this
    rw [← hacc, hheld, hleft]
    simp

/-- **C130 refuted (the stream never ends).** On no schedule is the channel given to the consumer ever closed: a loop over it never ends,
not even when every store has closed its own channel and everything was received. -/
theorem C130_stream_never_ends (stores : List (Option (List Event))) (s0 s : Stream) (h0 : queryEvents stores = some s0) (ls : List Lab)
    (h : run s0 ls = some s) : s.closed = false :=
  (run_inv (fun _ _ _ hp hs => inv_step hp hs) ls _ _ (start_inv stores s0 h0) h).opn

/-- **C130 refuted (abandoned streams).** A consumer that stops receiving leaves every goroutine that holds an event behind, for good: without
the consumer's `give`, a held event stays held and its goroutine never returns. -/
theorem C130_abandoned (s s' : Stream) (i : Nat) (f : Fwd) (e : Event) (hf : s.fwds[i]? = some f) (he : f.held = some e) (hg : f.gone = false)
    (ls : List Lab) (hl : ∀ j, Lab.give j ∉ ls) (h : run s ls = some s') : ∃ f', s'.fwds[i]? = some f' ∧ f'.held = some e ∧ f'.gone = false := by
  induction ls generalizing s f with
  | nil => simp only [run, Option.some.injEq] at h; subst h; exact ⟨f, hf, he, hg⟩
  | cons l ls ih =>
    simp only [run] at h
    split at h
    · cases h
    · rename_i s1 h1
      have : ∃ f', s1.fwds[i]? = some f' ∧ f'.held = some e ∧ f'.gone = false := by
        cases l with
        | give j => exact absurd List.mem_cons_self (hl j)
        | take j =>
          simp only [step] at h1
          grind
        | close j =>
          simp only [step] at h1
          grind
        | quit j =>
          simp only [step] at h1
          grind
      obtain ⟨f', g1, g2, g3⟩ := this
      exact ih s1 f' g1 g2 g3 (fun j hj => hl j (List.mem_cons_of_mem _ hj)) h

/-- Two stores, the second failing and the third having two events: both are received, in order, and every goroutine returns. -/
example (a b c : Event) : ∃ s0 s, queryEvents [some [a], none, some [b, c]] = some s0 ∧
    run s0 [.take 1, .take 0, .give 1, .take 1, .give 0, .close 0, .give 1, .close 1, .quit 1, .quit 0] = some s ∧
    s.got = [(1, b), (0, a), (1, c)] ∧ s.closed = false := ⟨_, _, rfl, rfl, rfl, rfl⟩

end GoNostr.Multi
