import Verif.Sdk.HintStores
import Verif.Nips.Nip05
/-!
# C177: one spelling for the address of a mint (normalize.go: NormalizeHTTPURL)

`url.Parse` and `strings.TrimSpace` are parameters: what is proved of an address supposes that the parser reads it as it is written (`Reads`). The query, which the function takes apart and puts together
again, is modelled byte by byte: `url.ParseQuery`, `Values.Encode` and `url.QueryUnescape`.
-/

set_option autoImplicit false

namespace GoNostr.HttpUrl

open GoNostr.HintStores (lexLe lexLe_refl lexLe_trans lexLe_total)
open GoNostr.Nip05 (split)

/-! ## Queries -/

/-- *library* `url.QueryUnescape`: `%XX` is a byte, `+` a space; a `%` without two hexadecimal digits is an error. -/
def unesc : Bytes → Option Bytes
  | [] => some []
  | c :: a :: b :: r =>
    if c = 37 then
      match hexVal a, hexVal b with
      | some x, some y => (unesc r).map (((x <<< 4) ||| y) :: ·)
      | _, _ => none
    else (unesc (a :: b :: r)).map ((if c = 43 then 32 else c) :: ·)
  | c :: r => if c = 37 then none else (unesc r).map ((if c = 43 then 32 else c) :: ·)

/-- *library* `url.shouldEscape` for a query component, negated: letters, digits and `-_.~` stay as they are. -/
def keep (c : UInt8) : Bool := (65 ≤ c && c ≤ 90) || (97 ≤ c && c ≤ 122) || (48 ≤ c && c ≤ 57) || c == 45 || c == 95 || c == 46 || c == 126

/-- `"0123456789ABCDEF"[n]`, as in *library* `url.escape`. -/
def upHex (n : UInt8) : UInt8 := if n < 10 then 48 + n else 55 + n

/-- One byte of *library* `url.QueryEscape`. -/
def escB (c : UInt8) : Bytes := if c = 32 then [43] else if keep c then [c] else [37, upHex (c >>> 4), upHex (c &&& 15)]

/-- *library* `url.QueryEscape`. -/
def esc : Bytes → Bytes
  | [] => []
  | c :: s => escB c ++ esc s

/-- One part of *library* `url.parseQuery`: empty parts, parts with a semicolon and parts that cannot be decoded are skipped (`Query` ignores the error). -/
def piece (p : Bytes) : Option (Bytes × Bytes) :=
  if p = [] then none
  else if 59 ∈ p then none
  else match unesc (p.takeWhile (· ≠ 61)), unesc ((p.dropWhile (· ≠ 61)).drop 1) with
    | some k, some v => some (k, v)
    | _, _ => none

/-- *library* `u.Query()`: keys and values in the order of the text. (In Go a map from keys to lists of values: the order of the keys is lost there, and `Encode` sorts them.) -/
def pairs (q : Bytes) : List (Bytes × Bytes) := (split 38 q).filterMap piece

/-- Insertion before the first key that is not smaller. -/
def ins (x : Bytes × Bytes) : List (Bytes × Bytes) → List (Bytes × Bytes)
  | [] => [x]
  | y :: l => if lexLe x.1 y.1 then x :: y :: l else y :: ins x l

/-- *library* the order of `Values.Encode`: the keys sorted, the values of each key in their order. -/
def arrange : List (Bytes × Bytes) → List (Bytes × Bytes)
  | [] => []
  | x :: l => ins x (arrange l)

/-- `strings.Join(parts, "&")` -/
def joinAmp : List Bytes → Bytes
  | [] => []
  | [p] => p
  | p :: q :: l => p ++ 38 :: joinAmp (q :: l)

/-- *library* `Values.Encode`. -/
def encode (ps : List (Bytes × Bytes)) : Bytes := joinAmp ((arrange ps).map (fun x => esc x.1 ++ 61 :: esc x.2))

/-- normalize.go:97-99: `u.Query().Encode()`, unescaped again (an error would leave an empty query). -/
def requery (q : Bytes) : Bytes := (unesc (encode (pairs q))).getD []

/-! ## Addresses -/

/-- The parts of `url.URL` for an address with a host. User names, fragments and opaque addresses are not modelled; `path` is the escaped path. -/
structure Parts where
  scheme : Bytes
  host : Bytes
  path : Bytes
  query : Bytes
  deriving DecidableEq

/-- What is not modelled of net/url and strings. -/
structure Env where
  parse : Bytes → Option Parts
  trim : Bytes → Bytes

/-- *library* `u.String()` for an address with a host. -/
def render (p : Parts) : Bytes := p.scheme ++ b! "://" ++ p.host ++ p.path ++ (if p.query = [] then [] else 63 :: p.query)

/-- `strings.TrimSuffix` -/
def trimSuffix (s suf : Bytes) : Bytes := if suf.isSuffixOf s then s.take (s.length - suf.length) else s

/-- normalize.go:88-95: `":80"`, `":443"`, and `":0"` for any other scheme. -/
def portOf (scheme : Bytes) : Bytes := if scheme = b! "http" then b! ":80" else if scheme = b! "https" then b! ":443" else b! ":0"

/-- normalize.go:88-102 -/
def finish (u : Parts) : Bytes :=
  trimSuffix (render { u with host := trimSuffix u.host (portOf u.scheme), query := requery u.query }) (b! "/")

/-- `NormalizeHTTPURL` (normalize.go:65-105): the text and whether there was no error. (Lines 84-86 change a variable that is not read again.) -/
def normalizeHTTP (env : Env) (s : Bytes) : Bytes × Bool :=
  let s := env.trim s
  let s := if (b! "http").isPrefixOf s then s else b! "https://" ++ s
  match env.parse s with
  | none => (s, false)
  | some u =>
    if u.scheme = [] then
      match env.parse (b! "http://" ++ s) with
      | none => (s, false)
      | some u => (finish u, true)
    else (finish u, true)

/-! ## Specification -/

/-- The same keys and values, the keys in order, the values of each key in the order they had. -/
def Arranged (ps qs : List (Bytes × Bytes)) : Prop := (∀ k, qs.filter (fun x => x.1 = k) = ps.filter (fun x => x.1 = k)) ∧ qs.Pairwise (fun x y => lexLe x.1 y.1 = true)

/-- A query written from keys and values as they are. -/
def written (ps : List (Bytes × Bytes)) : Bytes := joinAmp (ps.map (fun x => x.1 ++ 61 :: x.2))

/-- The parser reads an address as it is written, and there is no space around it. -/
def Reads (env : Env) (u : Parts) : Prop := env.parse (render u) = some u ∧ env.trim (render u) = render u

/-- Http or https. -/
def Web (u : Parts) : Prop := u.scheme = b! "http" ∨ u.scheme = b! "https"

/-- No byte that means something in a query. -/
def PlainPair (x : Bytes × Bytes) : Prop := (∀ c ∈ x.1, c ≠ 37 ∧ c ≠ 38 ∧ c ≠ 43 ∧ c ≠ 59 ∧ c ≠ 61) ∧ (∀ c ∈ x.2, c ≠ 37 ∧ c ≠ 38 ∧ c ≠ 43 ∧ c ≠ 59)

/-! ## Escaping -/

theorem unesc_cons {c : UInt8} (h : c ≠ 37) (r : Bytes) : unesc (c :: r) = (unesc r).map ((if c = 43 then 32 else c) :: ·) := by
  match r with
  | [] => simp [unesc, h]
  | [a] => simp [unesc, h]
  | a :: b :: r => rw [unesc, if_neg h]

theorem upHex_hi (c : UInt8) : hexVal (upHex (c >>> 4)) = some (c >>> 4) := by revert c; decide +kernel

theorem upHex_lo (c : UInt8) : hexVal (upHex (c &&& 15)) = some (c &&& 15) := by revert c; decide +kernel

theorem keep_plain (c : UInt8) : keep c = true → c ≠ 37 ∧ c ≠ 43 := by revert c; decide +kernel

theorem unesc_escB (c : UInt8) (r : Bytes) : unesc (escB c ++ r) = (unesc r).map (c :: ·) := by
  unfold escB
  by_cases h : c = 32
  · subst h
    rw [if_pos rfl]
    simp only [List.cons_append, List.nil_append]
    rw [unesc_cons (by decide)]
    rfl
  · rw [if_neg h]
    by_cases hk : keep c = true
    · rw [if_pos hk]
      simp only [List.cons_append, List.nil_append]
      rw [unesc_cons (keep_plain c hk).1, if_neg (keep_plain c hk).2]
    · rw [if_neg hk]
      simp only [List.cons_append, List.nil_append]
      rw [unesc, if_pos rfl, upHex_hi, upHex_lo]
      simp only [nibbles]

theorem unesc_esc : ∀ (s r : Bytes), unesc (esc s ++ r) = (unesc r).map (s ++ ·)
  | [], r => by simp [esc]
  | c :: s, r => by
    rw [esc, List.append_assoc, unesc_escB, unesc_esc s r, Option.map_map]
    rfl

theorem unesc_pair (x : Bytes × Bytes) (r : Bytes) : unesc ((esc x.1 ++ 61 :: esc x.2) ++ r) = (unesc r).map ((x.1 ++ 61 :: x.2) ++ ·) := by
  rw [List.append_assoc, unesc_esc, List.cons_append, unesc_cons (by decide), unesc_esc, if_neg (by decide), Option.map_map, Option.map_map]
  congr 1
  funext y
  simp

theorem unesc_joined : ∀ ps : List (Bytes × Bytes), unesc (joinAmp (ps.map (fun x => esc x.1 ++ 61 :: esc x.2))) = some (written ps)
  | [] => rfl
  | [x] => by
    have := unesc_pair x []
    simpa [joinAmp, written, unesc] using this
  | x :: y :: l => by
    have ih := unesc_joined (y :: l)
    simp only [List.map_cons, joinAmp, written] at ih ⊢
    rw [unesc_pair, unesc_cons (by decide), ih]
    rfl

/-! ## Order -/

theorem ins_filter (x : Bytes × Bytes) (k : Bytes) : ∀ l, (ins x l).filter (fun x => x.1 = k) = (x :: l).filter (fun x => x.1 = k)
  | [] => rfl
  | y :: l => by
    rw [ins]
    split
    · rfl
    · rename_i h
      have ih := ins_filter x k l
      by_cases hx : x.1 = k
      · have hy : y.1 ≠ k := by
          intro e
          rw [hx, e] at h
          exact h (lexLe_refl k)
        rw [List.filter_cons_of_neg (by simpa using hy), ih]
        rw [List.filter_cons_of_pos (by simpa using hx), List.filter_cons_of_pos (by simpa using hx), List.filter_cons_of_neg (by simpa using hy)]
      · rw [List.filter_cons_of_neg (a := x) (by simpa using hx)] at ih ⊢
        by_cases hy : y.1 = k
        · rw [List.filter_cons_of_pos (by simpa using hy), List.filter_cons_of_pos (by simpa using hy), ih]
        · rw [List.filter_cons_of_neg (by simpa using hy), List.filter_cons_of_neg (by simpa using hy), ih]

theorem mem_ins {x z : Bytes × Bytes} : ∀ {l : List (Bytes × Bytes)}, z ∈ ins x l → z = x ∨ z ∈ l
  | [], h => by simpa [ins] using h
  | y :: l, h => by
    rw [ins] at h
    split at h
    · simpa using h
    · rcases List.mem_cons.1 h with rfl | h
      · simp
      · rcases mem_ins h with h | h
        · exact .inl h
        · exact .inr (List.mem_cons_of_mem _ h)

theorem ins_sorted (x : Bytes × Bytes) : ∀ {l : List (Bytes × Bytes)}, l.Pairwise (fun x y => lexLe x.1 y.1 = true) → (ins x l).Pairwise (fun x y => lexLe x.1 y.1 = true)
  | [], _ => by simp [ins]
  | y :: l, h => by
    rw [ins]
    obtain ⟨h1, h2⟩ := List.pairwise_cons.1 h
    split
    · rename_i hxy
      refine List.pairwise_cons.2 ⟨?_, h⟩
      intro z hz
      rcases List.mem_cons.1 hz with rfl | hz
      · exact hxy
      · exact lexLe_trans hxy (h1 z hz)
    · rename_i hxy
      refine List.pairwise_cons.2 ⟨?_, ins_sorted x h2⟩
      intro z hz
      rcases mem_ins hz with rfl | hz
      · rcases lexLe_total z.1 y.1 with h | h
        · exact absurd h hxy
        · exact h
      · exact h1 z hz

theorem arranged : ∀ ps, Arranged ps (arrange ps)
  | [] => ⟨fun _ => rfl, List.Pairwise.nil⟩
  | x :: l => by
    obtain ⟨h1, h2⟩ := arranged l
    refine ⟨fun k => ?_, ins_sorted x h2⟩
    rw [arrange, ins_filter, List.filter_cons, List.filter_cons, h1]

theorem lexLe_antisymm : ∀ {a b : Bytes}, lexLe a b = true → lexLe b a = true → a = b
  | [], [], _, _ => rfl
  | [], _ :: _, _, h => by simp [lexLe] at h
  | _ :: _, [], h, _ => by simp [lexLe] at h
  | a :: as, b :: bs, h, h' => by
    rw [HintStores.lexLe_cons] at h h'
    rcases h with h | ⟨rfl, h⟩
    · rcases h' with h' | ⟨rfl, _⟩
      · exact absurd (HintStores.u8_trans h h') (HintStores.u8_irrefl _)
      · exact absurd h (HintStores.u8_irrefl _)
    · rcases h' with h' | ⟨_, h'⟩
      · exact absurd h' (HintStores.u8_irrefl _)
      · rw [lexLe_antisymm h h']

/-- There is one arrangement. -/
theorem arranged_unique : ∀ {a b : List (Bytes × Bytes)}, (∀ k, a.filter (fun x => x.1 = k) = b.filter (fun x => x.1 = k)) → a.Pairwise (fun x y => lexLe x.1 y.1 = true) →
    b.Pairwise (fun x y => lexLe x.1 y.1 = true) → a = b
  | [], [], _, _, _ => rfl
  | [], y :: b, h, _, _ => by
    have := h y.1
    rw [List.filter_cons_of_pos (by simp)] at this
    cases this
  | x :: a, [], h, _, _ => by
    have := h x.1
    rw [List.filter_cons_of_pos (by simp)] at this
    cases this
  | x :: a, y :: b, h, ha, hb => by
    obtain ⟨ha1, ha2⟩ := List.pairwise_cons.1 ha
    obtain ⟨hb1, hb2⟩ := List.pairwise_cons.1 hb
    have hxm : x ∈ y :: b := by
      have : x ∈ (x :: a).filter (fun z => z.1 = x.1) := by simp
      rw [h] at this
      exact (List.mem_filter.1 this).1
    have hym : y ∈ x :: a := by
      have : y ∈ (y :: b).filter (fun z => z.1 = y.1) := by simp
      rw [← h] at this
      exact (List.mem_filter.1 this).1
    have hk : x.1 = y.1 := by
      apply lexLe_antisymm
      · rcases List.mem_cons.1 hym with rfl | hm
        · exact lexLe_refl _
        · exact ha1 _ hm
      · rcases List.mem_cons.1 hxm with rfl | hm
        · exact lexLe_refl _
        · exact hb1 _ hm
    have hxy : x = y := by
      have := h x.1
      rw [List.filter_cons_of_pos (by simp), List.filter_cons_of_pos (by simp [hk])] at this
      exact (List.cons.inj this).1
    subst hxy
    congr 1
    refine arranged_unique (fun k => ?_) ha2 hb2
    have := h k
    rw [List.filter_cons, List.filter_cons] at this
    split at this
    · exact (List.cons.inj this).2
    · exact this

theorem requery_eq (q : Bytes) : requery q = written (arrange (pairs q)) := by
  unfold requery encode
  rw [unesc_joined]
  rfl

/-- **C177: the query.** The new query is the keys and values of the old one, decoded, the keys in order and the values of each key in the order they had, written as they are, without escapes. -/
theorem C177_query (q : Bytes) : ∃ ps, Arranged (pairs q) ps ∧ requery q = written ps := ⟨_, arranged _, requery_eq q⟩

/-- **C177: the order of the keys does not matter.** Two queries that give each key the same values in the same order become the same text. -/
theorem C177_order (q q' : Bytes) (h : ∀ k, (pairs q).filter (fun x => x.1 = k) = (pairs q').filter (fun x => x.1 = k)) : requery q = requery q' := by
  rw [requery_eq, requery_eq]
  congr 1
  exact arranged_unique (fun k => by rw [(arranged _).1, (arranged _).1, h]) (arranged _).2 (arranged _).2

example : requery (b! "b=1&a=x%20y&b=0&c") = b! "a=x y&b=1&b=0&c=" ∧ requery (b! "a=x+y&c&b=1&b=0") = b! "a=x y&b=1&b=0&c=" := by decide +kernel

/-! ## Reading back a written query -/

theorem split_ne (c : UInt8) : ∀ s : Bytes, split c s ≠ []
  | [] => by simp [split]
  | d :: s => by
    rw [split]
    split
    · simp
    · split <;> simp

theorem split_append {c : UInt8} : ∀ {p : Bytes} (_ : c ∉ p) (r : Bytes), split c (p ++ c :: r) = p :: split c r
  | [], _, r => by simp [split]
  | d :: p, h, r => by
    have hd : d ≠ c := fun e => h (by simp [e])
    have ih := split_append (p := p) (fun hm => h (List.mem_cons_of_mem _ hm)) r
    rw [List.cons_append, split, if_neg hd, ih]

theorem split_none {c : UInt8} : ∀ {p : Bytes} (_ : c ∉ p), split c p = [p]
  | [], _ => rfl
  | d :: p, h => by
    have hd : d ≠ c := fun e => h (by simp [e])
    rw [split, if_neg hd, split_none (p := p) (fun hm => h (List.mem_cons_of_mem _ hm))]

theorem split_joined : ∀ {l : List Bytes}, l ≠ [] → (∀ p ∈ l, (38 : UInt8) ∉ p) → split 38 (joinAmp l) = l
  | [], h, _ => absurd rfl h
  | [p], _, h => split_none (h p (by simp))
  | p :: q :: l, _, h => by
    rw [joinAmp, split_append (h p (by simp)), split_joined (by simp) (fun x hx => h x (List.mem_cons_of_mem _ hx))]

theorem unesc_plain : ∀ {s : Bytes}, (∀ c ∈ s, c ≠ 37 ∧ c ≠ 43) → unesc s = some s
  | [], _ => rfl
  | c :: s, h => by
    obtain ⟨h1, h2⟩ := h c (by simp)
    rw [unesc_cons h1, unesc_plain (fun d hd => h d (List.mem_cons_of_mem _ hd)), if_neg h2]
    rfl

theorem piece_plain {x : Bytes × Bytes} (h : PlainPair x) : piece (x.1 ++ 61 :: x.2) = some x := by
  obtain ⟨k, v⟩ := x
  obtain ⟨hk, hv⟩ := h
  simp only at hk hv ⊢
  have h1 : (k ++ 61 :: v).takeWhile (· ≠ 61) = k := by
    rw [List.takeWhile_append_of_pos (by intro c hc; simpa using (hk c hc).2.2.2.2)]
    simp
  have h2 : (k ++ 61 :: v).dropWhile (· ≠ 61) = 61 :: v := by
    rw [List.dropWhile_append_of_pos (by intro c hc; simpa using (hk c hc).2.2.2.2)]
    simp
  have h3 : (59 : UInt8) ∉ k ++ 61 :: v := by
    simp only [List.mem_append, List.mem_cons, not_or]
    exact ⟨fun hm => (hk _ hm).2.2.2.1 rfl, by decide, fun hm => (hv _ hm).2.2.2 rfl⟩
  unfold piece
  rw [if_neg (by simp), if_neg h3, h1, h2]
  simp only [List.drop_succ_cons, List.drop_zero]
  rw [unesc_plain (fun c hc => ⟨(hk c hc).1, (hk c hc).2.2.1⟩), unesc_plain (fun c hc => ⟨(hv c hc).1, (hv c hc).2.2.1⟩)]

theorem pairs_written {ps : List (Bytes × Bytes)} (h : ∀ x ∈ ps, PlainPair x) : pairs (written ps) = ps := by
  unfold pairs written
  cases hp : ps with
  | nil => rfl
  | cons x l =>
    rw [← hp]
    rw [split_joined (by simp [hp])]
    · rw [List.filterMap_map]
      have : ∀ (l : List (Bytes × Bytes)), (∀ x ∈ l, PlainPair x) → l.filterMap (piece ∘ fun x => x.1 ++ 61 :: x.2) = l := by
        intro l
        induction l with
        | nil => simp
        | cons x l ih =>
          intro h
          rw [List.filterMap_cons_some (b := x) (by simpa using piece_plain (h x (by simp))), ih (fun y hy => h y (List.mem_cons_of_mem _ hy))]
      exact this ps h
    · intro p hm
      obtain ⟨x, hx, rfl⟩ := List.mem_map.1 hm
      obtain ⟨hk, hv⟩ := h x hx
      simp only [List.mem_append, List.mem_cons, not_or]
      exact ⟨fun hm => (hk _ hm).2.1 rfl, by decide, fun hm => (hv _ hm).2.1 rfl⟩

theorem mem_arrange {x : Bytes × Bytes} {ps : List (Bytes × Bytes)} (h : x ∈ arrange ps) : x ∈ ps := by
  have : x ∈ (arrange ps).filter (fun z => z.1 = x.1) := by simpa using h
  rw [(arranged ps).1] at this
  exact (List.mem_filter.1 this).1

/-- **C177: a query is settled after one time** (partial). If no key and value, decoded, has a byte that means something in a query, the new query has the same keys and values for each key, and
normalizing it again changes nothing. Missing: other keys and values, for which both fail (`C177_other_parameters`, `C177_eaten`). -/
theorem C177_query_settled_partial (q : Bytes) (h : ∀ x ∈ pairs q, PlainPair x) :
    (∀ k, (pairs (requery q)).filter (fun x => x.1 = k) = (pairs q).filter (fun x => x.1 = k)) ∧ requery (requery q) = requery q := by
  have h1 : pairs (requery q) = arrange (pairs q) := by
    rw [requery_eq]
    exact pairs_written (fun x hx => h x (mem_arrange hx))
  refine ⟨fun k => by rw [h1, (arranged _).1], ?_⟩
  exact C177_order _ _ (fun k => by rw [h1, (arranged _).1])

example : (∀ x ∈ pairs (b! "b=1&a=x%20y=z"), PlainPair x) ∧ pairs (b! "b=1&a=x%20y=z") = [(b! "b", b! "1"), (b! "a", b! "x y=z")] ∧ requery (b! "b=1&a=x%20y=z") = b! "a=x y=z&b=1" := by
  unfold PlainPair
  decide +kernel

/-- **C177 is false: parameters.** A value with an escaped `&` becomes two parameters: the address is turned into that of something else, and the addresses of two different things become one. -/
theorem C177_other_parameters : pairs (b! "to=a%26admin%3Dyes") = [(b! "to", b! "a&admin=yes")] ∧
    pairs (requery (b! "to=a%26admin%3Dyes")) = [(b! "to", b! "a"), (b! "admin", b! "yes")] ∧
    pairs (b! "a=1%26b=2") ≠ pairs (b! "a=1&b=2") ∧ requery (b! "a=1%26b=2") = requery (b! "a=1&b=2") := by decide +kernel

/-- **C177 is false: normalizing again.** Each time one layer of escapes is taken off, until what is left cannot be decoded and the parameter is dropped. -/
theorem C177_eaten : requery (b! "k=%2525") = b! "k=%25" ∧ requery (b! "k=%25") = b! "k=%" ∧ requery (b! "k=%") = [] := by decide +kernel

/-! ## Addresses -/

theorem trimSuffix_append (s suf : Bytes) : trimSuffix (s ++ suf) suf = s := by
  unfold trimSuffix
  rw [if_pos (List.isSuffixOf_iff_suffix.2 ⟨s, rfl⟩)]
  simp

theorem trimSuffix_none {s suf : Bytes} (h : ¬ suf <:+ s) : trimSuffix s suf = s := by
  unfold trimSuffix
  rw [if_neg (fun h' => h (List.isSuffixOf_iff_suffix.1 h'))]

theorem suffix_append {a b suf : Bytes} (hb : suf.length ≤ b.length) : suf <:+ a ++ b ↔ suf <:+ b := by
  constructor
  · intro h
    exact List.suffix_of_suffix_length_le h (List.suffix_append a b) hb
  · intro h
    exact h.trans (List.suffix_append a b)

theorem trimSuffix_tail {a b suf : Bytes} (hb : suf.length ≤ b.length) : trimSuffix (a ++ b) suf = a ++ trimSuffix b suf := by
  by_cases h : suf <:+ b
  · obtain ⟨c, rfl⟩ := h
    rw [← List.append_assoc, trimSuffix_append, trimSuffix_append]
  · rw [trimSuffix_none h, trimSuffix_none (fun h' => h ((suffix_append hb).1 h'))]

theorem http_prefix {u : Parts} (h : Web u) : (b! "http").isPrefixOf (render u) = true := by
  rw [List.isPrefixOf_iff_prefix]
  rcases h with h | h
  · exact ⟨b! "://" ++ u.host ++ u.path ++ (if u.query = [] then [] else 63 :: u.query), by rw [render, h]; simp only [List.append_assoc]⟩
  · exact ⟨b! "s://" ++ u.host ++ u.path ++ (if u.query = [] then [] else 63 :: u.query), by rw [render, h]; simp only [List.append_assoc]; rfl⟩

theorem normalize_read {env : Env} {u : Parts} (hw : Web u) (hr : Reads env u) : normalizeHTTP env (render u) = (finish u, true) := by
  unfold normalizeHTTP
  simp only [hr.2, http_prefix hw, if_true, hr.1]
  rw [if_neg]
  rcases hw with h | h <;> rw [h] <;> decide

/-- Specification: the default port of the scheme taken off the host, the query in its new form; one slash taken off the end of the text, which is the end of the query if there is one, otherwise
the end of the path. -/
def settled (u : Parts) : Parts :=
  { scheme := u.scheme
    host := trimSuffix u.host (if u.scheme = b! "http" then b! ":80" else b! ":443")
    path := if requery u.query = [] then trimSuffix u.path (b! "/") else u.path
    query := trimSuffix (requery u.query) (b! "/") }

theorem ends_slash {c : UInt8} {s : Bytes} (h : c ∉ s) : ¬ [c] <:+ s := by
  rintro ⟨t, rfl⟩
  exact h (by simp)

theorem mem_trimSuffix {c : UInt8} {s suf : Bytes} (h : c ∈ trimSuffix s suf) : c ∈ s := by
  unfold trimSuffix at h
  split at h
  · exact List.mem_of_mem_take h
  · exact h

/-- **C177: what normalizing does.** For every http or https address with a host that the parser reads as it is written: no error, and the address with the default port of its scheme gone, the
parameters in order and one slash gone from the end. A lone `/` as the whole new query cannot occur. -/
theorem C177_form (env : Env) (u : Parts) (hw : Web u) (hr : Reads env u) (hs : (47 : UInt8) ∉ u.host) (hh : (settled u).host ≠ []) :
    normalizeHTTP env (render u) = (render (settled u), true) := by
  rw [normalize_read hw hr]
  congr 1
  unfold finish
  have hp : portOf u.scheme = (if u.scheme = b! "http" then b! ":80" else b! ":443") := by
    unfold portOf
    rcases hw with h | h
    · rw [if_pos h, if_pos h]
    · rw [if_pos h]
  rw [hp]
  set host := trimSuffix u.host (if u.scheme = b! "http" then b! ":80" else b! ":443") with hhost
  have hhs : (47 : UInt8) ∉ host := fun hm => hs (mem_trimSuffix hm)
  by_cases hq : requery u.query = []
  · have he : trimSuffix ([] : Bytes) (b! "/") = [] := by decide
    simp only [render, settled, hq, if_true, he, List.append_nil]
    cases hpath : u.path with
    | nil =>
      have hne : host ≠ [] := hh
      have hl : (b! "/").length ≤ host.length := by
        cases hc : host with
        | nil => exact absurd hc hne
        | cons a l => simp
      rw [he, List.append_nil, trimSuffix_tail hl, trimSuffix_none (ends_slash hhs)]
    | cons a l =>
      rw [trimSuffix_tail (by simp)]
  · have hq2 : 2 ≤ (requery u.query).length ∨ (requery u.query).length = 1 := by
      cases hc : requery u.query with
      | nil => exact absurd hc hq
      | cons a l => cases l <;> simp
    simp only [render, settled, if_neg hq]
    have hl : (b! "/").length ≤ (requery u.query).length := by simp; omega
    have e1 : trimSuffix (63 :: requery u.query) (b! "/") = 63 :: trimSuffix (requery u.query) (b! "/") :=
      trimSuffix_tail (a := [63]) hl
    have hne : trimSuffix (requery u.query) (b! "/") ≠ [] := by
      intro h0
      have hsl : requery u.query = b! "/" := by
        by_cases hsuf : (b! "/") <:+ requery u.query
        · obtain ⟨t, ht⟩ := hsuf
          rw [← ht, trimSuffix_append] at h0
          rw [← ht, h0]
          rfl
        · rw [trimSuffix_none hsuf] at h0
          exact absurd h0 hq
      have hm : (61 : UInt8) ∈ requery u.query := by
        rw [requery_eq] at hq ⊢
        unfold written at hq ⊢
        cases harr : arrange (pairs u.query) with
        | nil => rw [harr] at hq; exact absurd rfl hq
        | cons x l => cases l <;> simp [joinAmp]
      rw [hsl] at hm
      revert hm
      decide
    rw [trimSuffix_tail (by simp), e1, if_neg hne]

/-- **C177: spellings of one address.** With and without `https://` (for names that do not begin with `http`), with and without the default port, with and without one slash at the end of the path, with
spaces around it, with the parameters in another order: one result. -/
theorem C177_same (env : Env) (u v : Parts) (hu : Web u) (hv : Web v) (hru : Reads env u) (hrv : Reads env v) (hs : (47 : UInt8) ∉ u.host) (hs' : (47 : UInt8) ∉ v.host)
    (hh : u.host ≠ []) (hp : ¬ (if u.scheme = b! "http" then b! ":80" else b! ":443") <:+ u.host) (hsch : v.scheme = u.scheme)
    (hhost : v.host = u.host ∨ v.host = u.host ++ (if u.scheme = b! "http" then b! ":80" else b! ":443"))
    (hpath : v.path = u.path ∨ (requery u.query = [] ∧ ¬ (b! "/") <:+ u.path ∧ v.path = u.path ++ b! "/"))
    (hq : ∀ k, (pairs v.query).filter (fun x => x.1 = k) = (pairs u.query).filter (fun x => x.1 = k)) :
    normalizeHTTP env (render v) = normalizeHTTP env (render u) ∧
    (∀ s, env.trim s = render u → normalizeHTTP env s = normalizeHTTP env (render u)) ∧
    (∀ s, b! "https://" ++ env.trim s = render u → ¬ (b! "http") <+: env.trim s → normalizeHTTP env s = normalizeHTTP env (render u)) := by
  refine ⟨?_, ?_, ?_⟩
  · have e1 : (settled u).host = u.host := trimSuffix_none hp
    have e2 : (settled v).host = u.host := by
      simp only [settled, hsch]
      rcases hhost with h | h <;> rw [h]
      · exact trimSuffix_none hp
      · exact trimSuffix_append _ _
    have e3 : requery v.query = requery u.query := C177_order _ _ hq
    have e4 : settled v = settled u := by
      have h1 : (settled v).path = (settled u).path := by
        simp only [settled, e3]
        rcases hpath with h | ⟨h1, h2, h3⟩
        · rw [h]
        · rw [if_pos h1, if_pos h1, h3, trimSuffix_append, trimSuffix_none h2]
      have h2 : (settled v).query = (settled u).query := by simp only [settled, e3]
      have h3 : (settled v).scheme = (settled u).scheme := hsch
      cases hx : settled v
      cases hy : settled u
      simp_all
    rw [C177_form env v hv hrv hs' (by rw [e2]; exact hh), C177_form env u hu hru hs (by rw [e1]; exact hh), e4]
  · intro s h
    unfold normalizeHTTP
    simp only [h, hru.2]
  · intro s h hn
    have hf : (b! "http").isPrefixOf (env.trim s) = false := by
      rw [Bool.eq_false_iff]
      exact fun h' => hn (List.isPrefixOf_iff_prefix.1 h')
    have e : normalizeHTTP env s = (finish u, true) := by
      unfold normalizeHTTP
      simp only [hf, Bool.false_eq_true, if_false, h, hru.1]
      rw [if_neg]
      rcases hu with h | h <;> rw [h] <;> decide
    rw [e, normalize_read hu hru]

/-- **C177: normalizing again changes nothing** (partial): for an address whose host has the default port at most once, whose path (if there are no parameters) ends with at most one slash and whose
parameters have no byte that means something in a query and no slash at the end. Missing: the others, for which it fails (`C177_two_slashes`, `C177_eaten`). -/
theorem C177_settled_partial (env : Env) (u : Parts) (hw : Web u) (hr : Reads env u) (hr' : Reads env (settled u)) (hs : (47 : UInt8) ∉ u.host) (hh : (settled u).host ≠ [])
    (hp : ¬ (if u.scheme = b! "http" then b! ":80" else b! ":443") <:+ (settled u).host)
    (hpath : requery u.query = [] → ¬ (b! "/") <:+ (settled u).path) (hq : ∀ x ∈ pairs u.query, PlainPair x) (hend : ¬ (b! "/") <:+ requery u.query) :
    normalizeHTTP env (normalizeHTTP env (render u)).1 = normalizeHTTP env (render u) := by
  have e0 : (settled u).query = requery u.query := trimSuffix_none hend
  have e1 : requery (settled u).query = requery u.query := by rw [e0]; exact (C177_query_settled_partial u.query hq).2
  have hs2 : (47 : UInt8) ∉ (settled u).host := fun hm => hs (mem_trimSuffix hm)
  have e : settled (settled u) = settled u := by
    have h1 : (settled (settled u)).host = (settled u).host := by
      show trimSuffix (settled u).host _ = _
      exact trimSuffix_none hp
    have h2 : (settled (settled u)).query = (settled u).query := by
      show trimSuffix (requery (settled u).query) _ = _
      rw [e1]
      rfl
    have h3 : (settled (settled u)).path = (settled u).path := by
      show (if requery (settled u).query = [] then trimSuffix (settled u).path (b! "/") else (settled u).path) = _
      rw [e1]
      split
      · rename_i h
        exact trimSuffix_none (hpath h)
      · rfl
    have h4 : (settled (settled u)).scheme = (settled u).scheme := rfl
    cases hx : settled (settled u)
    cases hy : settled u
    simp_all
  rw [C177_form env u hw hr hs hh]
  simp only
  rw [C177_form env (settled u) hw hr' hs2 (by rw [e]; exact hh), e]

/-- **C177 (errors).** An error is reported exactly when the address, without the space around it and with `https://` in front if it does not begin with `http`, cannot be read, or is read without a scheme and cannot be read
with `http://` in front either; what is returned then is that text, not normalized. -/
theorem C177_unreadable (env : Env) (s : Bytes) :
    let text := if (b! "http") <+: env.trim s then env.trim s else b! "https://" ++ env.trim s
    ((normalizeHTTP env s).2 = false ↔ env.parse text = none ∨ (∃ u, env.parse text = some u ∧ u.scheme = [] ∧ env.parse (b! "http://" ++ text) = none)) ∧
    ((normalizeHTTP env s).2 = false → (normalizeHTTP env s).1 = text) := by
  intro text
  have ht : text = if (b! "http").isPrefixOf (env.trim s) then env.trim s else b! "https://" ++ env.trim s := by
    simp only [text, List.isPrefixOf_iff_prefix]
  unfold normalizeHTTP
  simp only
  rw [← ht]
  clear_value text
  cases h1 : env.parse text with
  | none => simp
  | some u =>
    by_cases h2 : u.scheme = []
    · cases h3 : env.parse (b! "http://" ++ text) with
      | none => simp [h2]
      | some v => simp [h2]
    · simp [h2]

example : normalizeHTTP ⟨fun _ => none, id⟩ (b! "mint.example:x") = (b! "https://mint.example:x", false) := by decide +kernel

/-- A parser that knows a few addresses. -/
def few (l : List Parts) : Env := ⟨fun s => l.find? (fun u => render u = s), id⟩

/-- The address of a mint with a port, a slash and parameters, and how it ends up. -/
example : let u : Parts := ⟨b! "https", b! "mint.example:443", b! "/Bitcoin/", b! "b=2&a=1"⟩
    let env := few [u, settled u]
    Reads env u ∧ Reads env (settled u) ∧ (∀ x ∈ pairs u.query, PlainPair x) ∧ ¬ (b! "/") <:+ requery u.query ∧
    normalizeHTTP env (render u) = (b! "https://mint.example/Bitcoin/?a=1&b=2", true) := by
  unfold Reads PlainPair
  decide +kernel

/-- Two spellings. -/
example : let u : Parts := ⟨b! "https", b! "mint.example", b! "/Bitcoin", []⟩
    let v : Parts := ⟨b! "https", b! "mint.example:443", b! "/Bitcoin/", []⟩
    let env := few [u, v]
    Reads env u ∧ Reads env v ∧ normalizeHTTP env (render v) = (b! "https://mint.example/Bitcoin", true) ∧ normalizeHTTP env (b! "mint.example/Bitcoin") = (b! "https://mint.example/Bitcoin", true) := by
  unfold Reads
  decide +kernel

/-- **C177 is false: slashes.** Only one slash goes each time: an address that ends with two has three spellings, none of which normalizing calls the same as another; and with parameters it is the
last value that loses its slash, while the path keeps its own. -/
theorem C177_two_slashes (env : Env) (h1 : Reads env ⟨b! "https", b! "m.com", b! "//", []⟩) (h2 : Reads env ⟨b! "https", b! "m.com", b! "/", []⟩)
    (h3 : Reads env ⟨b! "https", b! "m.com", b! "/x/", b! "next=/a/"⟩) :
    normalizeHTTP env (b! "https://m.com//") = (b! "https://m.com/", true) ∧ normalizeHTTP env (b! "https://m.com/") = (b! "https://m.com", true) ∧
    normalizeHTTP env (b! "https://m.com/x/?next=/a/") = (b! "https://m.com/x/?next=/a", true) := by
  refine ⟨?_, ?_, ?_⟩
  · exact (normalize_read (u := ⟨b! "https", b! "m.com", b! "//", []⟩) (.inr rfl) h1).trans (by decide +kernel)
  · exact (normalize_read (u := ⟨b! "https", b! "m.com", b! "/", []⟩) (.inr rfl) h2).trans (by decide +kernel)
  · exact (normalize_read (u := ⟨b! "https", b! "m.com", b! "/x/", b! "next=/a/"⟩) (.inr rfl) h3).trans (by decide +kernel)

example : let l : List Parts := [⟨b! "https", b! "m.com", b! "//", []⟩, ⟨b! "https", b! "m.com", b! "/", []⟩, ⟨b! "https", b! "m.com", b! "/x/", b! "next=/a/"⟩]
    ∀ u ∈ l, Reads (few l) u := by
  unfold Reads
  decide +kernel

/-- **C177 is false: names that begin with `http`.** Without a scheme an address gets `https://`, but if its name begins with `http` it gets `http://`: the connection to that host is not encrypted. -/
theorem C177_downgrade (env : Env) (rest : Bytes) (u : Parts) (ht : env.trim (b! "http" ++ rest) = b! "http" ++ rest) (hp : ∃ p, env.parse (b! "http" ++ rest) = some p ∧ p.scheme = [])
    (hr : render u = b! "http://" ++ (b! "http" ++ rest)) (hru : Reads env u) (hw : u.scheme = b! "http") :
    normalizeHTTP env (b! "http" ++ rest) = (finish u, true) ∧ (b! "http:") <+: finish u := by
  obtain ⟨p, hp1, hp2⟩ := hp
  have hpre : (b! "http").isPrefixOf (b! "http" ++ rest) = true := List.isPrefixOf_iff_prefix.2 ⟨rest, rfl⟩
  constructor
  · unfold normalizeHTTP
    simp only [ht, hpre, if_true, hp1, hp2]
    rw [← hr, hru.1]
  · unfold finish render
    simp only [hw]
    rw [List.append_assoc, List.append_assoc, List.append_assoc, ← List.append_assoc (b! "http")]
    generalize trimSuffix u.host _ ++ (u.path ++ _) = t
    rcases List.eq_nil_or_concat t with rfl | ⟨t', c, rfl⟩
    · decide
    · rw [List.concat_eq_append, trimSuffix_tail (by simp)]
      exact ⟨b! "//" ++ trimSuffix (t' ++ [c]) (b! "/"), by simp⟩

example : let u : Parts := ⟨b! "http", b! "httpbin.org", [], []⟩
    let bare : Parts := ⟨[], [], b! "httpbin.org", []⟩
    let env : Env := ⟨fun s => if s = b! "httpbin.org" then some bare else if s = render u then some u else none, id⟩
    Reads env u ∧ normalizeHTTP env (b! "httpbin.org") = (b! "http://httpbin.org", true) := by
  unfold Reads
  decide +kernel

end GoNostr.HttpUrl
