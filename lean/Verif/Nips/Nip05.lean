import Verif.Helpers.Theorems
/-!
# nip05/nip05.go: names for keys

The regular expression is written out by hand as a function (`parse`) and, as a specification, as the language it denotes. The
web server is a parameter.
-/

set_option autoImplicit false

namespace GoNostr.Nip05

/-- `\w`. -/
def isWord (c : UInt8) : Bool := (48 ≤ c && c ≤ 57) || (65 ≤ c && c ≤ 90) || (97 ≤ c && c ≤ 122) || c == 95

/-- `[\w.+-]`. -/
def nameChar (c : UInt8) : Bool := isWord c || c == 46 || c == 43 || c == 45

/-- `[\w_-]`. -/
def labelChar (c : UInt8) : Bool := isWord c || c == 45

/-- The parts between separators (`strings.Split` with a one-byte separator). -/
def split (sep : UInt8) : Bytes → List Bytes
  | [] => [[]]
  | c :: s => if c = sep then [] :: split sep s else
    match split sep s with
    | [] => [[c]]
    | p :: ps => (c :: p) :: ps

/-- `[\w_-]+(\.[\w_-]+)+` -/
def domainOk (d : Bytes) : Bool := decide (2 ≤ (split 46 d).length) && (split 46 d).all (fun l => l ≠ [] && l.all labelChar)

/-- `ParseIdentifier` (nip05.go:26-35) with the expression of nip05.go:14: the name and the domain. -/
def parseIdentifier (s : Bytes) : Option (Bytes × Bytes) :=
  match split 64 s with
  | [d] => if domainOk d then some (b! "_", d) else none
  | [n, d] => if n ≠ [] && n.all nameChar && domainOk d then some (n, d) else none
  | _ => none

/-- `IsValidIdentifier` (nip05.go:22-24). -/
def isValidIdentifier (s : Bytes) : Bool := (parseIdentifier s).isSome

/-- The url `Fetch` asks for (nip05.go:66-72), or none if the identifier is not valid. -/
def fetchURL (s : Bytes) : Option Bytes := (parseIdentifier s).map (fun r => b! "https://" ++ r.2 ++ b! "/.well-known/nostr.json?name=" ++ r.1)

/-- `IdentifierToURL` (nip05.go:99-105). -/
def identifierToURL (s : Bytes) : Bytes :=
  match split 64 s with
  | [] => []
  | [d] => b! "https://" ++ d ++ b! "/.well-known/nostr.json?name=_"
  | n :: d :: _ => b! "https://" ++ d ++ b! "/.well-known/nostr.json?name=" ++ n

/-- `NormalizeIdentifier` (nip05.go:91-97). -/
def normalizeIdentifier (s : Bytes) : Bytes := if (b! "_@").isPrefixOf s then s.drop 2 else s

/-- `WellKnownResponse` (nip05.go:16-20), the two maps that are read. -/
structure WellKnown where
  names : Bytes → Option Bytes
  relays : Bytes → Option (List Bytes)

/-- `ProfilePointer`, as nip05 fills it (pointers.go:19-22). -/
structure Pointer where
  publicKey : Bytes
  relays : Option (List Bytes)
  deriving DecidableEq

/-- `QueryIdentifier` (nip05.go:37-57); `server url` is what the web server answers, `none` for any failure of the request or of its decoding. -/
def queryIdentifier (parsePub : Bytes → Bool) (server : Bytes → Option WellKnown) (s : Bytes) : Option Pointer :=
  match parseIdentifier s, fetchURL s with
  | some (name, _), some url => match server url with
    | none => none
    | some r => match r.names name with
      | none => none
      | some pk => if isValidPublicKey parsePub pk then some ⟨pk, r.relays pk⟩ else none
  | _, _ => none

/-! ## Specification -/

/-- The language of `[\w_-]+(\.[\w_-]+)+`. -/
def IsDomain (d : Bytes) : Prop := ∃ (l : Bytes) (ls : List Bytes), ls ≠ [] ∧ d = l ++ (ls.map (fun x => 46 :: x)).flatten ∧
  ∀ x ∈ l :: ls, x ≠ [] ∧ ∀ c ∈ x, labelChar c = true

/-- The language of `[\w.+-]+`. -/
def IsName (n : Bytes) : Prop := n ≠ [] ∧ ∀ c ∈ n, nameChar c = true

/-- What an application decoding a form query reads for a value that has no percent signs: plus signs are spaces. -/
def formDecode (v : Bytes) : Bytes := v.map (fun c => if c = 43 then 32 else c)

/-! ## C117 -/

theorem split_ne_nil (sep : UInt8) : ∀ s, split sep s ≠ []
  | [] => by simp [split]
  | c :: s => by
    simp only [split]
    split
    · simp
    · split <;> simp

theorem split_none (sep : UInt8) : ∀ {s : Bytes}, sep ∉ s → split sep s = [s]
  | [], _ => rfl
  | c :: s, h => by
    simp only [List.mem_cons, not_or] at h
    simp only [split, split_none sep h.2]
    rw [if_neg (fun e => h.1 e.symm)]

theorem split_append (sep : UInt8) : ∀ (a b : Bytes), sep ∉ a → split sep (a ++ sep :: b) = a :: split sep b
  | [], b, _ => by simp [split]
  | c :: a, b, h => by
    simp only [List.mem_cons, not_or] at h
    simp only [List.cons_append, split, split_append sep a b h.2]
    rw [if_neg (fun e => h.1 e.symm)]

/-- Splitting and joining again. -/
theorem split_join (sep : UInt8) : ∀ (s : Bytes), ∃ l ls, split sep s = l :: ls ∧ s = l ++ (ls.map (fun x => sep :: x)).flatten ∧ ∀ x ∈ l :: ls, sep ∉ x
  | [] => ⟨[], [], rfl, rfl, by simp⟩
  | c :: s => by
    obtain ⟨l, ls, h1, h2, h3⟩ := split_join sep s
    by_cases hc : c = sep
    · refine ⟨[], l :: ls, by simp [split, hc, h1], by simp [hc, ← h2], ?_⟩
      intro x hx
      rcases List.mem_cons.1 hx with rfl | hx
      · simp
      · exact h3 x hx
    · refine ⟨c :: l, ls, by simp [split, hc, h1], by rw [List.cons_append, ← h2], ?_⟩
      intro x hx
      rcases List.mem_cons.1 hx with rfl | hx
      · simp only [List.mem_cons, not_or]
        exact ⟨fun e => hc e.symm, h3 l (by simp)⟩
      · exact h3 x (by simp [hx])

/-- The parts of a joined list. -/
theorem split_of_join (sep : UInt8) : ∀ (ls : List Bytes) (l : Bytes), (∀ x ∈ l :: ls, sep ∉ x) → split sep (l ++ (ls.map (fun x => sep :: x)).flatten) = l :: ls
  | [], l, h => by simpa using split_none sep (h l (by simp))
  | x :: ls, l, h => by
    have ih := split_of_join sep ls x (fun y hy => h y (List.mem_cons_of_mem _ hy))
    simp only [List.map_cons, List.flatten_cons, List.cons_append]
    rw [split_append sep l _ (h l (by simp)), ih]

theorem label_no_dot {x : Bytes} (h : ∀ c ∈ x, labelChar c = true) : (46 : UInt8) ∉ x ∧ (64 : UInt8) ∉ x := by
  constructor
  · intro hm; have := h _ hm; revert this; decide
  · intro hm; have := h _ hm; revert this; decide

theorem name_no_at {x : Bytes} (h : ∀ c ∈ x, nameChar c = true) : (64 : UInt8) ∉ x := by
  intro hm; have := h _ hm; revert this; decide

theorem domainOk_iff (d : Bytes) : domainOk d = true ↔ IsDomain d := by
  unfold domainOk IsDomain
  constructor
  · intro h
    simp only [Bool.and_eq_true, decide_eq_true_eq, List.all_eq_true] at h
    obtain ⟨l, ls, h1, h2, h3⟩ := split_join 46 d
    rw [h1] at h
    refine ⟨l, ls, ?_, h2, ?_⟩
    · intro hn; rw [hn] at h; simp at h
    · intro x hx
      have := h.2 x hx
      exact ⟨this.1, this.2⟩
  · rintro ⟨l, ls, h1, h2, h3⟩
    have hs : split 46 d = l :: ls := by
      rw [h2]; exact split_of_join 46 ls l (fun x hx => (label_no_dot (h3 x hx).2).1)
    rw [hs]
    simp only [Bool.and_eq_true, decide_eq_true_eq, List.all_eq_true, List.length_cons]
    refine ⟨?_, fun x hx => ⟨(h3 x hx).1, (h3 x hx).2⟩⟩
    have := List.length_pos_iff.2 h1
    omega

theorem domain_no_at {d : Bytes} (h : IsDomain d) : (64 : UInt8) ∉ d := by
  obtain ⟨l, ls, _, h2, h3⟩ := h
  rw [h2]
  simp only [List.mem_append, List.mem_flatten, List.mem_map, not_or, not_exists, not_and]
  refine ⟨(label_no_dot (h3 l (by simp)).2).2, ?_⟩
  rintro x ⟨y, hy, rfl⟩ hm
  rcases List.mem_cons.1 hm with hm | hm
  · cases hm
  · exact (label_no_dot (h3 y (by simp [hy])).2).2 hm

/-- **C117: the grammar.** An identifier is accepted exactly if it is a domain, or a name, `@` and a domain; what is returned is the name (`_` if there is none) and
the domain, and there is only one way to read it. -/
theorem C117_grammar (s n d : Bytes) : parseIdentifier s = some (n, d) ↔
    (IsDomain d ∧ s = d ∧ n = b! "_") ∨ (IsName n ∧ IsDomain d ∧ s = n ++ 64 :: d) := by
  constructor
  · intro h
    unfold parseIdentifier at h
    obtain ⟨l, ls, h1, h2, h3⟩ := split_join 64 s
    rw [h1] at h
    match ls with
    | [] =>
      simp only at h
      split at h
      · rename_i hd
        simp only [Option.some.injEq, Prod.mk.injEq] at h
        obtain ⟨rfl, rfl⟩ := h
        exact Or.inl ⟨(domainOk_iff _).1 hd, by simpa using h2, rfl⟩
      · cases h
    | [x] =>
      simp only at h
      split at h
      · rename_i hd
        simp only [Option.some.injEq, Prod.mk.injEq] at h
        obtain ⟨rfl, rfl⟩ := h
        simp only [Bool.and_eq_true, List.all_eq_true, decide_eq_true_eq] at hd
        exact Or.inr ⟨⟨hd.1.1, hd.1.2⟩, (domainOk_iff _).1 hd.2, by simpa using h2⟩
      · cases h
    | _ :: _ :: _ => simp at h
  · rintro (⟨hd, rfl, rfl⟩ | ⟨hn, hd, rfl⟩)
    · unfold parseIdentifier
      rw [split_none 64 (domain_no_at hd)]
      simp only [(domainOk_iff s).2 hd, if_true]
    · unfold parseIdentifier
      rw [split_append 64 n d (name_no_at hn.2), split_none 64 (domain_no_at hd)]
      have hc : (decide (n ≠ []) && n.all nameChar && domainOk d) = true := by
        simp only [Bool.and_eq_true, List.all_eq_true, decide_eq_true_eq]
        exact ⟨⟨hn.1, hn.2⟩, (domainOk_iff d).2 hd⟩
      simp only [hc, if_true]

/-- **C117: the same url.** For every valid identifier `IdentifierToURL` names the url that a lookup asks for. -/
theorem C117_url (s : Bytes) (h : isValidIdentifier s = true) : fetchURL s = some (identifierToURL s) := by
  unfold isValidIdentifier at h
  obtain ⟨⟨n, d⟩, hp⟩ := Option.isSome_iff_exists.1 h
  unfold fetchURL identifierToURL
  rw [hp]
  rcases (C117_grammar s n d).1 hp with ⟨hd, rfl, rfl⟩ | ⟨hn, hd, rfl⟩
  · rw [split_none 64 (domain_no_at hd)]
    simp
  · rw [split_append 64 n d (name_no_at hn.2), split_none 64 (domain_no_at hd)]
    simp

/-- **C117: normalization.** The normalized form of a valid identifier is valid and stands for the same name and domain; two valid identifiers that stand for the
same name and domain have the same normalized form; normalizing again changes nothing. -/
theorem C117_normalize (s : Bytes) (h : isValidIdentifier s = true) :
    parseIdentifier (normalizeIdentifier s) = parseIdentifier s ∧ normalizeIdentifier (normalizeIdentifier s) = normalizeIdentifier s ∧
    ∀ s', parseIdentifier s' = parseIdentifier s → normalizeIdentifier s' = normalizeIdentifier s := by
  have form : ∀ s n d, parseIdentifier s = some (n, d) → normalizeIdentifier s = if n = b! "_" then d else n ++ 64 :: d := by
    intro s n d hp
    rcases (C117_grammar s n d).1 hp with ⟨hd, rfl, rfl⟩ | ⟨hn, hd, rfl⟩
    · rw [if_pos rfl]
      unfold normalizeIdentifier
      rw [if_neg]
      intro hpre
      rw [List.isPrefixOf_iff_prefix] at hpre
      obtain ⟨t, ht⟩ := hpre
      exact domain_no_at hd (by rw [← ht]; simp)
    · by_cases hu : n = b! "_"
      · rw [if_pos hu, hu]
        rfl
      · rw [if_neg hu]
        unfold normalizeIdentifier
        rw [if_neg]
        intro hpre
        rw [List.isPrefixOf_iff_prefix] at hpre
        obtain ⟨t, ht⟩ := hpre
        have hat := name_no_at hn.2
        match n, hn.1, hu, hat, ht with
        | [x], _, hu, _, ht => simp at ht; exact hu (by rw [← ht.1])
        | x :: y :: n, _, _, hat, ht => simp at ht; exact hat (by simp [ht.2.1])
  obtain ⟨⟨n, d⟩, hp⟩ := Option.isSome_iff_exists.1 h
  have hd : IsDomain d := by
    rcases (C117_grammar s n d).1 hp with h | h
    · exact h.1
    · exact h.2.1
  have hpn : parseIdentifier (normalizeIdentifier s) = some (n, d) := by
    rw [form s n d hp]
    by_cases hu : n = b! "_"
    · rw [if_pos hu, C117_grammar]
      exact Or.inl ⟨hd, rfl, hu⟩
    · rw [if_neg hu, C117_grammar]
      right
      rcases (C117_grammar s n d).1 hp with h | h
      · exact absurd h.2.2 hu
      · exact ⟨h.1, hd, rfl⟩
  refine ⟨by rw [hpn, hp], by rw [form _ n d hpn, form s n d hp], fun s' hs' => ?_⟩
  rw [hp] at hs'
  rw [form s n d hp, form s' n d hs']

/-- **C117: lookups.** A lookup returns a key exactly if the server's answer for that url lists a valid key under that name, and then that key with the relays listed
for it. -/
theorem C117_lookup (parsePub : Bytes → Bool) (server : Bytes → Option WellKnown) (s : Bytes) (p : Pointer) :
    queryIdentifier parsePub server s = some p ↔ ∃ n d r, parseIdentifier s = some (n, d) ∧
      server (b! "https://" ++ d ++ b! "/.well-known/nostr.json?name=" ++ n) = some r ∧ r.names n = some p.publicKey ∧
      isValidPublicKey parsePub p.publicKey = true ∧ p.relays = r.relays p.publicKey := by
  unfold queryIdentifier fetchURL
  constructor
  · intro h
    split at h
    · rename_i name dom url hp hu
      rw [hp] at hu
      simp only [Option.map_some, Option.some.injEq] at hu
      split at h
      · cases h
      · rename_i r hr
        split at h
        · cases h
        · rename_i pk hpk
          split at h
          · rename_i hv
            simp only [Option.some.injEq] at h
            subst h
            exact ⟨name, dom, r, hp, by rw [hu]; exact hr, hpk, hv, rfl⟩
          · cases h
    · cases h
  · rintro ⟨n, d, r, hp, hr, hn, hv, hrel⟩
    simp only [hp, Option.map_some, hr, hn, hv, if_true]
    cases p
    simp_all

/-- **C117, part of the full claim that fails.** The name goes into the query unescaped: a server that decodes the query reads it as it is exactly if it has no plus
sign, which the grammar allows. -/
theorem C117_plus (s n d : Bytes) (_ : parseIdentifier s = some (n, d)) : formDecode n = n ↔ (43 : UInt8) ∉ n := by
  unfold formDecode
  constructor
  · intro h hm
    have h2 : ∀ (l : Bytes), l.map (fun c => if c = 43 then (32 : UInt8) else c) = l → (43 : UInt8) ∉ l := by
      intro l
      induction l with
      | nil => simp
      | cons c l ih =>
        intro h hm
        simp only [List.map_cons, List.cons.injEq] at h
        rcases List.mem_cons.1 hm with rfl | hm
        · simp at h
        · exact ih h.2 hm
    exact h2 n h hm
  · intro h
    have : ∀ c ∈ n, (if c = 43 then (32 : UInt8) else c) = c := by
      intro c hc
      exact if_neg (fun e => h (by rw [← e]; exact hc))
    exact (List.map_congr_left this).trans (List.map_id _)

example : parseIdentifier (b! "a+b@example.com") = some (b! "a+b", b! "example.com") ∧ formDecode (b! "a+b") = b! "a b" := by decide +kernel

/-- Not vacuous: what is accepted and what is not. -/
example : parseIdentifier (b! "bob@example.com") = some (b! "bob", b! "example.com") ∧ parseIdentifier (b! "example.com") = some (b! "_", b! "example.com") ∧
    parseIdentifier (b! "bob@localhost") = none ∧ parseIdentifier (b! "@example.com") = none ∧ parseIdentifier (b! "a@b@example.com") = none ∧
    parseIdentifier (b! "bob@example..com") = none ∧ parseIdentifier (b! "bob@127.0.0.1") = some (b! "bob", b! "127.0.0.1") ∧
    normalizeIdentifier (b! "_@example.com") = b! "example.com" := by decide +kernel

end GoNostr.Nip05
