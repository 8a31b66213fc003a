import Verif.Sdk.Score
import Verif.Sdk.HintStores
/-!
# C175: the hints database in SQL ranks an author's relays as the one in memory (sdk/hints/sqlh/db.go)

The score the query computes, with real numbers for the database's (rounding errors are not modelled), and the clock of the database in whole seconds (`unixepoch()`; Postgres adds a fraction).
An error of the database is not modelled.
-/

set_option autoImplicit false

namespace GoNostr.SqlRank

open GoNostr.Hints GoNostr.HintStores

noncomputable section

/-- One summand of `scorePartialQuery` (sqlh/db.go:250-269, interop.go:14-16, 32-34): `CASE WHEN col IS NOT NULL THEN 10000000000 * points / power(max(1, (now + 86400) - col), 1.3) ELSE 0 END`. -/
def sqlPart (p now : Int) : Option Int → ℝ
  | some ts => 10000000000 * (p : ℝ) / ((max 1 (now + 86400 - ts) : Int) : ℝ) ^ (1.3 : ℝ)
  | none => 0

/-- `scorePartialQuery` (sqlh/db.go:246-272): the sum over `KeyBasePoints`. -/
def sqlScore (now : Int) (cols : Fin 4 → Option Int) : ℝ :=
  sqlPart (points 0) now (cols 0) + sqlPart (points 1) now (cols 1) + sqlPart (points 2) now (cols 2) + sqlPart (points 3) now (cols 3)

/-- What `WHERE pubkey = ? ORDER BY (score) DESC` may give (sqlh/db.go:150-158, 215-222). -/
def IsSqlSort (now : Int) (rows : List Row) (pk : Bytes) (sorted : List Row) : Prop :=
  sorted.Perm (rows.filter (fun r => r.pk = pk)) ∧ sorted.Pairwise (fun a b => sqlScore now b.cols ≤ sqlScore now a.cols)

/-- `TopN` (sqlh/db.go:163-171) on the rows in their order: `make([]string, 0, n)` panics for a negative `n`; then `LIMIT n`. -/
def sqlTopN (sorted : List Row) (n : Int) : Out (List Bytes) := if n < 0 then .panic else .val ((sorted.take n.toNat).map (·.relay))

/-- `hints.RelayScores` (sdk/hints/interface.go:5-9). -/
structure Detailed where
  relay : Bytes
  scores : Fin 4 → Int
  sum : Int

open Classical in
/-- *library* `Rows.Scan` of a `float64` into an `int64`: the number is written as by `strconv.FormatFloat(x, 'g', -1, 64)` and read by `strconv.ParseInt`. That works for integers of at most six digits; others have a point or
an exponent in their text. -/
def scanInt (x : ℝ) : Option Int := if x = ⌊x⌋ ∧ |⌊x⌋| < 1000000 then some ⌊x⌋ else none

/-- `GetDetailedScores` (sqlh/db.go:212-244) on the rows in their order: a null is left zero, and a row whose score does not fit `Sum` is skipped. -/
def sqlDetailed (now : Int) (sorted : List Row) (n : Int) : Out (List Detailed) :=
  if n < 0 then .panic
  else .val ((sorted.take n.toNat).filterMap (fun r => (scanInt (sqlScore now r.cols)).map (fun sum => ⟨r.relay, fun k => (r.cols k).getD 0, sum⟩)))

/-! ## Specification -/

/-- The saves of a kind for a key and a relay came in the order of their times, and none was of time zero or before (times are cut at the clock of the save). -/
structure InOrder (h : List Saved) : Prop where
  order : ∀ pk relay k, (h.filter (fun sv => sv.pk = pk ∧ sv.relay = relay ∧ sv.key = k)).Pairwise (fun a b => min a.ts a.now ≤ min b.ts b.now)
  positive : ∀ sv ∈ h, 0 < min sv.ts sv.now

/-- `b` speaks for a relay at least as well as `a`: everything that is good to know is as recent or more, and the last attempt is as old or older, or there was none. -/
structure SqlBetter (a b : Fin 4 → Option Int) : Prop where
  good : ∀ k, k ≠ attempt → ∀ t, a k = some t → ∃ t', b k = some t' ∧ t ≤ t'
  bad : ∀ t, b attempt = some t → ∃ t', a attempt = some t' ∧ t ≤ t'

/-! ## Proofs -/

theorem sqlPart_some (p now ts : Int) : sqlPart p now (some ts) = value p now ts := by
  unfold sqlPart value age
  have : max 1 (now + 86400 - ts) = max (now + 24 * 60 * 60 - ts) 1 := by omega
  simp only [this]
  rw [mul_comm]

theorem sqlPart_nonneg {p : Int} (hp : 0 ≤ p) (now : Int) (c : Option Int) : 0 ≤ sqlPart p now c := by
  cases c with
  | none => exact le_refl _
  | some t => rw [sqlPart_some]; exact value_nonneg hp _ _

theorem sqlPart_neg (p now : Int) (c : Option Int) : sqlPart (-p) now c = - sqlPart p now c := by
  cases c with
  | none => simp [sqlPart]
  | some t => rw [sqlPart_some, sqlPart_some, value_neg]

theorem sqlScore_eq (now : Int) (c : Fin 4 → Option Int) :
    sqlScore now c = - sqlPart 500 now (c attempt) + sqlPart 700 now (c fetched) + sqlPart 350 now (c inList) + sqlPart 20 now (c inHint) := by
  rw [← sqlPart_neg]
  rfl

theorem sqlPart_mono {p : Int} (hp : 0 ≤ p) {now : Int} {a b : Option Int} (h : ∀ t, a = some t → ∃ t', b = some t' ∧ t ≤ t') : sqlPart p now a ≤ sqlPart p now b := by
  cases a with
  | none => exact sqlPart_nonneg hp now b
  | some t =>
    obtain ⟨t', rfl, hle⟩ := h t rfl
    rw [sqlPart_some, sqlPart_some]
    exact value_mono hp hle

/-- **C175 (better evidence).** In SQL too, better evidence never ranks lower. -/
theorem C175_better (now : Int) (a b : Fin 4 → Option Int) (h : SqlBetter a b) : sqlScore now a ≤ sqlScore now b := by
  rw [sqlScore_eq, sqlScore_eq]
  have h0 := sqlPart_mono (p := 500) (by omega) (now := now) h.bad
  have h1 := sqlPart_mono (p := 700) (by omega) (now := now) (h.good fetched (by decide))
  have h2 := sqlPart_mono (p := 350) (by omega) (now := now) (h.good inList (by decide))
  have h3 := sqlPart_mono (p := 20) (by omega) (now := now) (h.good inHint (by decide))
  linarith

example : SqlBetter ![some 9, some 3, none, none] ![none, some 5, none, some 1] :=
  ⟨by intro k _ t; fin_cases k <;> (simp_all [attempt]; try omega), by simp [attempt]⟩

theorem trunc_close (x : ℝ) : |x - trunc x| < 1 := by
  unfold trunc
  rw [abs_lt]
  split
  · have := Int.floor_le x; have := Int.lt_floor_add_one x
    constructor <;> linarith
  · have := Int.le_ceil x; have := Int.ceil_lt_add_one x
    constructor <;> linarith

theorem part_close (p now : Int) {c : Option Int} (h : c ≠ some 0) : |sqlPart p now c - (part p now (c.getD 0) : ℝ)| < 1 := by
  cases c with
  | none => simp [sqlPart, part]
  | some t =>
    have ht : t ≠ 0 := fun e => h (by rw [e])
    rw [sqlPart_some, Option.getD_some, part, if_neg ht]
    exact trunc_close _

/-- **C175 (the same score).** For the same times the two databases' scores are less than four apart (the one in memory drops the fractions of its four summands), unless a column holds time zero. -/
theorem C175_close (now : Int) (cols : Fin 4 → Option Int) (h : ∀ k, cols k ≠ some 0) : |sqlScore now cols - (score now (fun k => (cols k).getD 0) : ℝ)| < 4 := by
  unfold sqlScore score
  push_cast
  have h0 := abs_lt.1 (part_close (points 0) now (h 0))
  have h1 := abs_lt.1 (part_close (points 1) now (h 1))
  have h2 := abs_lt.1 (part_close (points 2) now (h 2))
  have h3 := abs_lt.1 (part_close (points 3) now (h 3))
  rw [abs_lt]
  constructor <;> linarith [h0.1, h0.2, h1.1, h1.2, h2.1, h2.2, h3.1, h3.2]

theorem row_cols {h : List Saved} {rows : List Row} (hr : SqlReach h rows) {r : Row} (hm : r ∈ rows) : r.cols = lastSaved h r.pk r.relay :=
  funext fun k => (C121_sql_last hr r.pk r.relay).2.2 r hm rfl rfl k

/-- **C175 (what TopN returns).** After any history, whatever the database does with equal scores: `TopN(pk, n)` returns `min n count` different relays known for the key, the best ones, the best first;
the score is that of the times saved last. -/
theorem C175_topn {h : List Saved} {rows : List Row} (hr : SqlReach h rows) (now : Int) (pk : Bytes) {sorted : List Row} (hs : IsSqlSort now rows pk sorted) (n : Nat) :
    ∃ urls, sqlTopN sorted n = .val urls ∧ urls.Nodup ∧ (∀ u ∈ urls, Known h pk u) ∧ urls.length ≤ n ∧ (urls.length < n → ∀ u, Known h pk u → u ∈ urls) ∧
      urls.Pairwise (fun a b => sqlScore now (lastSaved h pk b) ≤ sqlScore now (lastSaved h pk a)) ∧
      (∀ u ∈ urls, ∀ v, Known h pk v → v ∉ urls → sqlScore now (lastSaved h pk v) ≤ sqlScore now (lastSaved h pk u)) := by
  obtain ⟨hperm, hsorted⟩ := hs
  have hmem : ∀ r, r ∈ sorted ↔ r ∈ rows ∧ r.pk = pk := fun r => by rw [hperm.mem_iff, List.mem_filter]; simp
  have hcols : ∀ r ∈ sorted, r.cols = lastSaved h pk r.relay := fun r hm => by
    have := (hmem r).1 hm
    rw [row_cols hr this.1, this.2]
  have hdist : sorted.Pairwise (fun a b => a.relay ≠ b.relay) := by
    have h1 : (rows.filter (fun r => r.pk = pk)).Pairwise (fun a b => a.relay ≠ b.relay) := by
      have h2 := (C121_sql_last hr pk []).2.1
      rw [List.pairwise_filter]
      refine h2.imp ?_
      intro a b hab ha hb he
      exact hab ⟨by simp_all, he⟩
    exact (List.Perm.pairwise_iff (fun {a b} h => Ne.symm h) hperm).2 h1
  have hknown : ∀ u, Known h pk u ↔ ∃ r ∈ sorted, r.relay = u := fun u => by
    rw [← (C121_sql_last hr pk u).1]
    constructor
    · rintro ⟨r, h1, h2, h3⟩; exact ⟨r, (hmem r).2 ⟨h1, h2⟩, h3⟩
    · rintro ⟨r, h1, h3⟩; exact ⟨r, ((hmem r).1 h1).1, ((hmem r).1 h1).2, h3⟩
  have hsub : (sorted.take n).Sublist sorted := List.take_sublist _ _
  refine ⟨(sorted.take n).map (·.relay), by simp [sqlTopN], ?_, ?_, ?_, ?_, ?_, ?_⟩
  · rw [List.Nodup, List.pairwise_map]
    exact hdist.sublist hsub
  · intro u hu
    obtain ⟨r, hr', rfl⟩ := List.mem_map.1 hu
    exact (hknown _).2 ⟨r, hsub.subset hr', rfl⟩
  · rw [List.length_map]; exact List.length_take_le _ _
  · intro hlt u hu
    obtain ⟨r, hr', rfl⟩ := (hknown u).1 hu
    rw [List.length_map, List.length_take] at hlt
    rw [List.take_of_length_le (by omega)]
    exact List.mem_map_of_mem hr'
  · rw [List.pairwise_map]
    refine (hsorted.sublist hsub).imp_of_mem ?_
    intro a b ha hb hab
    rwa [← hcols a (hsub.subset ha), ← hcols b (hsub.subset hb)]
  · intro u hu v hv hnv
    obtain ⟨a, ha, rfl⟩ := List.mem_map.1 hu
    obtain ⟨b, hb, rfl⟩ := (hknown v).1 hv
    rw [← hcols a (hsub.subset ha), ← hcols b hb]
    have hb' : b ∈ sorted.drop n := by
      rw [← List.take_append_drop n sorted, List.mem_append] at hb
      rcases hb with hb | hb
      · exact absurd (List.mem_map_of_mem hb) hnv
      · exact hb
    rw [← List.take_append_drop n sorted] at hsorted
    exact (List.pairwise_append.1 hsorted).2.2 a ha b hb'

/-- The times in memory are those in SQL if the saves came in order. -/
theorem times_agree {h : List Saved} {db : DB} {rows : List Row} (hr : Reach h db) (hq : SqlReach h rows) (ho : InOrder h) {pk u : Bytes} {tu : Fin 4 → Int} (hu : Stores db pk u tu) :
    tu = (fun k => (lastSaved h pk u k).getD 0) ∧ ∀ k, lastSaved h pk u k ≠ some 0 := by
  have hk : Known h pk u := (C73_newest_kept hr pk u).1.1 ⟨tu, hu⟩
  have hn := (C73_newest_kept hr pk u).2.2 tu hu
  obtain ⟨r, hrm, e1, e2⟩ := (C121_sql_last hq pk u).1.2 hk
  have hc := (C121_sql_last hq pk u).2.2 r hrm e1 e2
  have key : ∀ k, tu k = (lastSaved h pk u k).getD 0 ∧ lastSaved h pk u k ≠ some 0 := by
    intro k
    cases hl : lastSaved h pk u k with
    | none =>
      refine ⟨?_, by simp⟩
      rcases (hn k).2 with h0 | ⟨sv, hs, s1, s2, s3, s4⟩
      · exact h0
      · exfalso
        unfold lastSaved at hl
        rw [Option.map_eq_none_iff, List.getLast?_eq_none_iff] at hl
        have : sv ∈ h.filter (fun sv => sv.pk = pk ∧ sv.relay = u ∧ sv.key = k) := by rw [List.mem_filter]; simp [hs, s1, s2, s3]
        rw [hl] at this
        cases this
    | some v =>
      have hv := C121_sql_newest_partial hq (ho.order pk u k) ⟨r, hrm, e1, e2, (hc k).trans hl⟩
      have hpos : 0 < v := by
        unfold lastSaved at hl
        obtain ⟨x, hx, rfl⟩ := Option.map_eq_some_iff.1 hl
        exact ho.positive x (List.mem_of_mem_filter (List.mem_of_getLast? hx))
      refine ⟨?_, by simp; omega⟩
      rw [Option.getD_some]
      have le1 : v ≤ tu k := by
        rcases hv.2 with h0 | ⟨sv, hs, s1, s2, s3, s4⟩
        · omega
        · rw [s4]; exact (hn k).1 sv hs s1 s2 s3
      have le2 : tu k ≤ v := by
        rcases (hn k).2 with h0 | ⟨sv, hs, s1, s2, s3, s4⟩
        · omega
        · rw [s4]; exact hv.1 sv hs s1 s2 s3
      omega
  exact ⟨funext fun k => (key k).1, fun k => (key k).2⟩

/-- A strictly better relay comes first. -/
theorem sql_before {h : List Saved} {rows : List Row} (hr : SqlReach h rows) (now : Int) (pk : Bytes) {sorted : List Row} (hs : IsSqlSort now rows pk sorted) (n : Nat) {u v : Bytes}
    (ku : Known h pk u) (hlt : sqlScore now (lastSaved h pk v) < sqlScore now (lastSaved h pk u)) :
    ∃ urls, sqlTopN sorted n = .val urls ∧ Before urls u v ∧ (n = 1 → v ∉ urls) := by
  obtain ⟨urls, h1, h2, h3, h4, h5, h6, h7⟩ := C175_topn hr now pk hs n
  have hbefore : Before urls u v := by
    intro hmem
    have hum : u ∈ urls := by
      by_contra hc
      exact absurd (h7 v hmem u ku hc) (not_le.2 hlt)
    obtain ⟨i, hi⟩ := List.mem_iff_getElem?.1 hum
    obtain ⟨j, hj⟩ := List.mem_iff_getElem?.1 hmem
    refine ⟨i, j, ?_, hi, hj⟩
    rcases Nat.lt_trichotomy i j with hij | hij | hij
    · exact hij
    · subst hij
      obtain rfl : u = v := Option.some.inj (hi.symm.trans hj)
      exact absurd hlt (lt_irrefl _)
    · obtain ⟨hi', ei⟩ := List.getElem?_eq_some_iff.1 hi
      obtain ⟨hj', ej⟩ := List.getElem?_eq_some_iff.1 hj
      have := (List.pairwise_iff_getElem.1 h6) j i hj' hi' hij
      rw [ei, ej] at this
      exact absurd this (not_le.2 hlt)
  refine ⟨urls, h1, hbefore, ?_⟩
  intro h0 hmem
  obtain ⟨i, j, hij, hi, hj⟩ := hbefore hmem
  obtain ⟨hj', -⟩ := List.getElem?_eq_some_iff.1 hj
  omega

/-- **C175, what remains true.** After any history of saves that came in the order of their times, none of time zero: of two relays of an author whose scores are eight or more apart, both databases
rank the same one first. -/
theorem C175_agree_partial {h : List Saved} {db : DB} {rows : List Row} (hr : Reach h db) (hq : SqlReach h rows) (ho : InOrder h) (now : Int) (pk : Bytes)
    {sorted : List Entry} (hs : IsSortOf (score now) (db.byPk pk) sorted) {sorted' : List Row} (hs' : IsSqlSort now rows pk sorted') {n : Nat} (hn : 0 < n)
    (u v : Bytes) (tu tv : Fin 4 → Int) (hu : Stores db pk u tu) (hv : Stores db pk v tv) (hlt : score now tv + 8 ≤ score now tu) :
    (∃ urls, topN db.relays sorted n = .val urls ∧ Before urls u v ∧ (n = 1 → v ∉ urls)) ∧
    ∃ urls, sqlTopN sorted' n = .val urls ∧ Before urls u v ∧ (n = 1 → v ∉ urls) := by
  refine ⟨C172_topn hr now pk hs hn u v tu tv hu hv (by omega), ?_⟩
  obtain ⟨eu, zu⟩ := times_agree hr hq ho hu
  obtain ⟨ev, zv⟩ := times_agree hr hq ho hv
  have cu := abs_lt.1 (C175_close now _ zu)
  have cv := abs_lt.1 (C175_close now _ zv)
  rw [← eu] at cu
  rw [← ev] at cv
  refine sql_before hq now pk hs' n ((C73_newest_kept hr pk u).1.1 ⟨tu, hu⟩) ?_
  have : ((score now tv : ℝ)) + 8 ≤ score now tu := by exact_mod_cast hlt
  linarith [cu.1, cv.2]

/-- Every history leads somewhere. -/
theorem sqlReach_all (h : List Saved) : ∃ rows, SqlReach h rows := by
  induction h using List.reverseRecOn with
  | nil => exact ⟨_, .new⟩
  | append_singleton h sv ih =>
    obtain ⟨rows, hr⟩ := ih
    have : ∃ rows', sqlSave rows sv.pk sv.relay (sv.key.val : Int) sv.ts sv.now = .val rows' := by
      unfold sqlSave
      rw [keyIndex_fin]
      exact ⟨_, rfl⟩
    obtain ⟨rows', e⟩ := this
    exact ⟨rows', .save sv hr e⟩

/-- The hypotheses are met: a relay in the author's list is more than eight points above one that was only hinted at. -/
example : InOrder [⟨[1], b! "A", inList, 1700000000, 1700000000⟩, ⟨[1], b! "B", inHint, 1600000000, 1700000000⟩] ∧
    score 1700000000 (only inHint 1600000000) + 8 ≤ score 1700000000 (only inList 1700000000) := by
  refine ⟨⟨?_, by decide⟩, ?_⟩
  · intro pk relay k
    rw [List.pairwise_filter]
    simp only [List.pairwise_cons, List.mem_singleton, List.not_mem_nil, false_imp_iff, implies_true, List.Pairwise.nil, and_true]
    rintro a rfl h1 h2
    simp only [decide_eq_true_eq] at h1 h2
    obtain ⟨-, -, rfl⟩ := h1
    exact absurd h2.2.2 (by decide)
  · rw [score_list, score_hint]
    unfold part
    rw [if_neg (by omega), if_neg (by omega)]
    have ha : age 1700000000 1700000000 = 86400 := by decide
    have h2 := day_pow ha
    have h3 := pow_pos 1700000000 1700000000
    have h1 : value 20 1700000000 1600000000 ≤ value 20 1700000000 1700000000 := value_mono (by omega) (by omega)
    have h4 : value 20 1700000000 1700000000 + 8 ≤ value 350 1700000000 1700000000 := by
      unfold value
      rw [div_add' _ _ _ h3.ne', div_le_div_iff_of_pos_right h3]
      push_cast
      linarith
    have h5 : trunc (value 20 1700000000 1600000000 + 8) ≤ trunc (value 350 1700000000 1700000000) := trunc_mono (by linarith)
    have h6 : trunc (value 20 1700000000 1600000000 + 8) = trunc (value 20 1700000000 1600000000) + 8 := by
      have h0 := value_nonneg (p := 20) (by omega) 1700000000 1600000000
      unfold trunc
      rw [if_pos h0, if_pos (by linarith)]
      exact_mod_cast Int.floor_add_natCast (value 20 1700000000 1600000000) 8
    omega

/-- A new hint for `A`, a list nine days old with `B`, and then an old hint for `A`. -/
def backwards : List Saved := [⟨[1], b! "A", inHint, 1700000000, 1700000000⟩, ⟨[1], b! "B", inList, 1699000000, 1700000000⟩, ⟨[1], b! "A", inHint, 1600000000, 1700000000⟩]

/-- **C175 is false: going back in time.** After these saves the database in memory answers `TopN(pk, 1)` with `A`, and the one in SQL, which keeps the last save and not the newest, with `B`. -/
theorem C175_backwards {db : DB} {rows : List Row} (hr : Reach backwards db) (hq : SqlReach backwards rows)
    {sorted : List Entry} (hs : IsSortOf (score 1700000000) (db.byPk [1]) sorted) {sorted' : List Row} (hs' : IsSqlSort 1700000000 rows [1] sorted') :
    topN db.relays sorted 1 = .val [b! "A"] ∧ sqlTopN sorted' 1 = .val [b! "B"] := by
  have ku : Known backwards [1] (b! "A") := ⟨_, .head _, rfl, rfl⟩
  have kv : Known backwards [1] (b! "B") := ⟨_, .tail _ (.head _), rfl, rfl⟩
  have only2 : ∀ u, Known backwards [1] u → u = b! "A" ∨ u = b! "B" := by
    rintro u ⟨sv, hm, -, rfl⟩
    simp only [backwards, List.mem_cons, List.not_mem_nil, or_false] at hm
    rcases hm with rfl | rfl | rfl <;> simp
  have hne : b! "A" ≠ b! "B" := by decide
  have single : ∀ (urls : List Bytes) (w x : Bytes), urls.length ≤ 1 → (urls.length < 1 → ∀ u, Known backwards [1] u → u ∈ urls) → (∀ u ∈ urls, u = w ∨ u = x) → x ∉ urls → urls = [w] := by
    intro urls w x h1 h2 h3 h4
    match urls, h1 with
    | [], _ => exact absurd (h2 (by simp) _ ku) (by simp)
    | [y], _ =>
      rcases h3 y (by simp) with rfl | rfl
      · rfl
      · exact absurd (by simp) h4
    | _ :: _ :: _, h1 => simp at h1
  constructor
  · obtain ⟨tu, su⟩ := (C73_newest_kept hr [1] (b! "A")).1.2 ku
    obtain ⟨tv, sv⟩ := (C73_newest_kept hr [1] (b! "B")).1.2 kv
    have nu := (C73_newest_kept hr [1] (b! "A")).2.2 tu su
    have nv := (C73_newest_kept hr [1] (b! "B")).2.2 tv sv
    have ou : tu = only inHint 1700000000 := by
      funext k
      have l := (nu k).1 ⟨[1], b! "A", inHint, 1700000000, 1700000000⟩ (.head _) rfl rfl
      rcases (nu k).2 with h0 | ⟨x, hx, x1, x2, x3, x4⟩
      · by_cases hk : k = inHint
        · subst hk; have := l rfl; simp at this; omega
        · rw [h0, only_other hk]
      · simp only [backwards, List.mem_cons, List.not_mem_nil, or_false] at hx
        rcases hx with rfl | rfl | rfl
        · subst x3; rw [only_same, x4]; rfl
        · exact absurd x2 (by decide)
        · subst x3; have := l rfl; simp at this x4; omega
    have ov : tv = only inList 1699000000 := by
      funext k
      have l := (nv k).1 ⟨[1], b! "B", inList, 1699000000, 1700000000⟩ (.tail _ (.head _)) rfl rfl
      rcases (nv k).2 with h0 | ⟨x, hx, x1, x2, x3, x4⟩
      · by_cases hk : k = inList
        · subst hk; have := l rfl; simp at this; omega
        · rw [h0, only_other hk]
      · simp only [backwards, List.mem_cons, List.not_mem_nil, or_false] at hx
        rcases hx with rfl | rfl | rfl
        · exact absurd x2 (by decide)
        · subst x3; rw [only_same, x4]; rfl
        · exact absurd x2 (by decide)
    obtain ⟨urls, e1, -, e3⟩ := C172_topn hr 1700000000 [1] hs (n := 1) (by omega) _ _ tu tv su sv (by rw [ou, ov]; exact C172_old_list_loses 1700000000 1699000000 (by omega) (by omega))
    obtain ⟨urls', f1, f2, f3, f4, f5, -⟩ := C73_topn_partial hr (score 1700000000) [1] hs (n := 1) (by omega)
    have heq : urls = urls' := by rw [e1] at f1; exact Out.val.inj f1
    subst heq
    rw [show ((1 : Nat) : Int) = 1 from rfl] at e1
    rw [e1, single urls _ _ f4 f5 (fun u hu => only2 u (f3 u hu)) (e3 rfl)]
  · have cu : lastSaved backwards [1] (b! "A") = fun k => if k = inHint then some 1600000000 else none := by
      funext k
      fin_cases k <;> decide
    have cv : lastSaved backwards [1] (b! "B") = fun k => if k = inList then some 1699000000 else none := by
      funext k
      fin_cases k <;> decide
    have hlt : sqlScore 1700000000 (lastSaved backwards [1] (b! "A")) < sqlScore 1700000000 (lastSaved backwards [1] (b! "B")) := by
      rw [cu, cv, sqlScore_eq, sqlScore_eq]
      simp only [attempt, fetched, inList, inHint, Fin.reduceEq, if_true, if_false, sqlPart_some]
      simp only [sqlPart]
      have hm : value 20 1700000000 1600000000 ≤ value 20 1700000000 1699000000 := value_mono (by omega) (by omega)
      have hp := pow_pos 1700000000 1699000000
      have : value 20 1700000000 1699000000 < value 350 1700000000 1699000000 := by
        unfold value
        rw [div_lt_div_iff_of_pos_right hp]
        push_cast
        norm_num
      linarith
    obtain ⟨urls, e1, -, e3⟩ := sql_before hq 1700000000 [1] hs' 1 kv hlt
    obtain ⟨urls', f1, f2, f3, f4, f5, -⟩ := C175_topn hq 1700000000 [1] hs' 1
    have heq : urls = urls' := by rw [e1] at f1; exact Out.val.inj f1
    subst heq
    rw [show ((1 : Nat) : Int) = 1 from rfl] at e1
    rw [e1, single urls _ _ f4 f5 (fun u hu => (only2 u (f3 u hu)).symm) (e3 rfl)]

/-- Such databases and orders exist. -/
theorem sql_sort_exists (now : Int) (rows : List Row) (pk : Bytes) : ∃ sorted, IsSqlSort now rows pk sorted := by
  refine ⟨(rows.filter (fun r => r.pk = pk)).insertionSort (fun a b => sqlScore now b.cols ≤ sqlScore now a.cols), List.perm_insertionSort _ _, ?_⟩
  have : Std.Total (fun a b : Row => sqlScore now b.cols ≤ sqlScore now a.cols) := ⟨fun a b => le_total _ _⟩
  have : IsTrans Row (fun a b : Row => sqlScore now b.cols ≤ sqlScore now a.cols) := ⟨fun a b c h1 h2 => le_trans h2 h1⟩
  exact List.pairwise_insertionSort _ _

example : ∃ db rows sorted', Reach backwards db ∧ SqlReach backwards rows ∧ IsSqlSort 1700000000 rows [1] sorted' := by
  obtain ⟨db, h1⟩ := reach_all backwards
  obtain ⟨rows, h2⟩ := sqlReach_all backwards
  obtain ⟨sorted', h3⟩ := sql_sort_exists 1700000000 rows [1]
  exact ⟨db, rows, sorted', h1, h2, h3⟩

/-- **C175 is false: time zero and `n = 0`.** A time of zero counts in SQL and not in memory: a relay saved only with time zero scores above nothing, or (an attempt) below; and `TopN(pk, 0)` is
empty in SQL while it is everything in memory (`C73_topn_zero_returns_all`). -/
theorem C175_zero (now : Int) (k : Fin 4) :
    score now (only k 0) = 0 ∧ sqlScore now (fun i => if i = k then some 0 else none) ≠ 0 ∧ ∀ sorted, sqlTopN sorted 0 = .val [] := by
  have hz : ∀ p : Int, 0 < p → 0 < value p now 0 := fun p hp => by
    have := pow_pos now 0
    have : (0 : ℝ) < p := by exact_mod_cast hp
    unfold value
    positivity
  refine ⟨?_, ?_, fun sorted => by simp [sqlTopN]⟩
  · have : only k 0 = fun _ => 0 := by
      funext i
      by_cases hi : i = k
      · rw [hi, only_same]
      · rw [only_other hi]
    rw [this, score_eq]
    simp [part_zero]
  · rw [sqlScore_eq]
    have a0 := hz 500 (by omega)
    have a1 := hz 700 (by omega)
    have a2 := hz 350 (by omega)
    have a3 := hz 20 (by omega)
    fin_cases k <;> simp only [attempt, fetched, inList, inHint, Fin.reduceEq, Fin.zero_eta, Fin.mk_one, Fin.reduceFinMk, if_true, if_false, sqlPart_some] <;> simp only [sqlPart] <;> intro hc <;> linarith

/-- **C175 (details), what remains true.** What `GetDetailedScores` lists are relays `TopN` returns, in its order, with the times saved last (zero for none) and the score that ranks them. Missing: that it lists them all. -/
theorem C175_detailed_partial {h : List Saved} {rows : List Row} (hr : SqlReach h rows) (now : Int) (pk : Bytes) {sorted : List Row} (hs : IsSqlSort now rows pk sorted) (n : Nat) :
    ∃ ds urls, sqlDetailed now sorted n = .val ds ∧ sqlTopN sorted n = .val urls ∧ (ds.map (·.relay)).Sublist urls ∧
      ∀ d ∈ ds, (∀ k, d.scores k = (lastSaved h pk d.relay k).getD 0) ∧ (d.sum : ℝ) = sqlScore now (lastSaved h pk d.relay) := by
  refine ⟨_, _, by simp only [sqlDetailed, if_neg (show ¬ (n : Int) < 0 by omega)]; rfl, by simp only [sqlTopN, if_neg (show ¬ (n : Int) < 0 by omega)]; rfl, ?_, ?_⟩
  · generalize sorted.take (n : Int).toNat = l
    induction l with
    | nil => simp
    | cons r l ih =>
      rw [List.filterMap_cons]
      cases hx : scanInt (sqlScore now r.cols) with
      | none => exact ih.trans (List.sublist_cons_self _ _)
      | some x => exact ih.cons_cons _
  · intro d hd
    obtain ⟨r, hm, hx⟩ := List.mem_filterMap.1 hd
    obtain ⟨x, hx, rfl⟩ := Option.map_eq_some_iff.1 hx
    have h1 := (hs.1.mem_iff.1 ((List.take_sublist _ _).subset hm))
    rw [List.mem_filter] at h1
    have h2 := row_cols hr h1.1
    rw [show r.pk = pk by simpa using h1.2] at h2
    refine ⟨fun k => by rw [h2], ?_⟩
    rw [← h2]
    unfold scanInt at hx
    split at hx
    · rename_i hc
      cases hx
      exact hc.1.symm
    · cases hx

/-- **C175 is false: details.** Scores of a million and more, and scores with a fraction, cannot be read: a relay that entered the author's list just now, and about which nothing else was saved, is never reported by
`GetDetailedScores`, though it is one of the best (`TopN` returns it). -/
theorem C175_detailed_drops {h : List Saved} {rows : List Row} (hr : SqlReach h rows) (now : Int) (pk u : Bytes) (hu : lastSaved h pk u = fun k => if k = inList then some now else none)
    {sorted : List Row} (hs : IsSqlSort now rows pk sorted) (n : Nat) :
    ∃ ds, sqlDetailed now sorted n = .val ds ∧ u ∉ ds.map (·.relay) := by
  obtain ⟨ds, urls, h1, -, -, h4⟩ := C175_detailed_partial hr now pk hs n
  refine ⟨ds, h1, ?_⟩
  intro hm
  obtain ⟨d, hd, rfl⟩ := List.mem_map.1 hm
  have e1 := (h4 d hd).2
  have e2 : |d.sum| < 1000000 := by
    simp only [sqlDetailed, if_neg (show ¬ (n : Int) < 0 by omega)] at h1
    cases h1
    obtain ⟨r, -, hx⟩ := List.mem_filterMap.1 hd
    obtain ⟨x, hx, rfl⟩ := Option.map_eq_some_iff.1 hx
    unfold scanInt at hx
    split at hx
    · rename_i hc
      cases hx
      exact hc.2
    · cases hx
  rw [hu, sqlScore_eq] at e1
  simp only [attempt, fetched, inList, inHint, Fin.reduceEq, if_true, if_false, sqlPart_some] at e1
  simp only [sqlPart] at e1
  have ha : age now now = 86400 := by unfold age; omega
  have h2 := day_pow ha
  have h3 := pow_pos now now
  have h5 : (1000000 : ℝ) ≤ value 350 now now := by
    unfold value
    rw [le_div_iff₀ h3]
    push_cast
    linarith
  have h6 : (1000000 : ℝ) ≤ d.sum := by rw [e1]; linarith
  have h7 : (1000000 : Int) ≤ d.sum := by exact_mod_cast h6
  rw [abs_lt] at e2
  omega

/-- Such a relay, and `TopN` returns it. -/
example : lastSaved [⟨[1], b! "A", inList, 1700000000, 1700000000⟩] [1] (b! "A") = (fun k => if k = inList then some 1700000000 else none) ∧
    ∀ rows sorted, SqlReach [⟨[1], b! "A", inList, 1700000000, 1700000000⟩] rows → IsSqlSort 1700000000 rows [1] sorted → ∃ urls, sqlTopN sorted (1 : Nat) = .val urls ∧ b! "A" ∈ urls := by
  refine ⟨by funext k; fin_cases k <;> decide, ?_⟩
  intro rows sorted hr hs
  have k : Known [⟨[1], b! "A", inList, 1700000000, 1700000000⟩] [1] (b! "A") := ⟨_, .head _, rfl, rfl⟩
  obtain ⟨urls, h1, -, h3, h4, h5, -⟩ := C175_topn hr 1700000000 [1] hs 1
  refine ⟨urls, h1, ?_⟩
  match urls, h4 with
  | [], _ => exact h5 (by simp) _ k
  | [y], _ =>
    obtain ⟨sv, hm, -, e⟩ := h3 y (by simp)
    rw [List.mem_singleton] at hm
    subst hm
    simp [← e]
  | _ :: _ :: _, h => simp at h

end

end GoNostr.SqlRank
