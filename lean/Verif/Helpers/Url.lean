import Verif.Helpers.Model
/-!
# normalize.go: NormalizeURL

The url parser (fasturl), `strings.TrimSpace` and `strings.ToLower` are parameters.
-/

set_option autoImplicit false

namespace GoNostr.Url

/-- The parts of `fasturl.URL` that are used; user names, passwords and fragments are dropped. -/
structure Parts where
  protocol : Bytes
  host : Bytes
  port : Bytes
  path : Bytes
  query : Bytes
  deriving DecidableEq

/-- What is not modelled of net/url. -/
structure Env where
  parse : Bytes → Option Parts
  trim : Bytes → Bytes
  lower : Bytes → Bytes

/-- `strings.TrimRight(s, "/")`. -/
def trimSlashes (s : Bytes) : Bytes := (s.reverse.dropWhile (· == 47)).reverse

/-- normalize.go:24-27 -/
def swapped (p : Parts) : Parts := if p.port = [] ∧ p.protocol.length > 5 then { p with protocol := [], host := p.protocol, port := p.host } else p

/-- normalize.go:29-39 -/
def scheme (p : Parts) : Bytes :=
  if p.protocol = [] then (if p.host = b! "localhost" ∨ p.host = b! "127.0.0.1" then b! "ws" else b! "wss")
  else if p.protocol = b! "https" then b! "wss"
  else if p.protocol = b! "http" then b! "ws"
  else p.protocol

/-- normalize.go:24-42 -/
def canon (env : Env) (p : Parts) : Parts :=
  let q := swapped p
  { q with protocol := scheme q, host := env.lower q.host, path := trimSlashes q.path }

/-- normalize.go:44-61 -/
def render (p : Parts) : Bytes :=
  p.protocol ++ b! "://" ++ p.host ++ (if p.port = [] then [] else 58 :: p.port) ++ p.path ++ (if p.query = [] then [] else 63 :: p.query)

/-- `NormalizeURL` (normalize.go:13-62). -/
def normalizeURL (env : Env) (u : Bytes) : Bytes :=
  if u = [] then []
  else match env.parse (env.trim u) with
    | none => []
    | some p => render (canon env p)

/-! ## C116 -/

theorem trimSlashes_idem (s : Bytes) : trimSlashes (trimSlashes s) = trimSlashes s := by
  have h : ∀ (l : Bytes), (l.dropWhile (· == 47)).dropWhile (· == 47) = l.dropWhile (· == 47) := by
    intro l
    induction l with
    | nil => rfl
    | cons c l ih =>
      by_cases hc : c = 47
      · simpa [hc] using ih
      · simp [hc]
  unfold trimSlashes
  rw [List.reverse_reverse, h]

theorem scheme_cases (p : Parts) : scheme p = b! "ws" ∨ scheme p = b! "wss" ∨ (scheme p = p.protocol ∧ p.protocol ≠ [] ∧ p.protocol ≠ b! "https" ∧ p.protocol ≠ b! "http") := by
  unfold scheme
  split
  · split
    · exact Or.inl rfl
    · exact Or.inr (Or.inl rfl)
  · split
    · exact Or.inr (Or.inl rfl)
    · split
      · exact Or.inl rfl
      · rename_i h1 h2 h3; exact Or.inr (Or.inr ⟨rfl, h1, h2, h3⟩)

/-- A canonical url is canonical. -/
theorem canon_idem (env : Env) (hl : ∀ s, env.lower (env.lower s) = env.lower s) (p : Parts) : canon env (canon env p) = canon env p := by
  have hsw : ∀ q : Parts, (swapped q).port ≠ [] ∨ (swapped q).protocol.length ≤ 5 := by
    intro q
    unfold swapped
    split
    · right; simp
    · rename_i h
      by_cases hp : q.port = []
      · right
        have : ¬ q.protocol.length > 5 := fun h' => h ⟨hp, h'⟩
        omega
      · exact Or.inl hp
  have hns : swapped (canon env p) = canon env p := by
    unfold swapped
    rw [if_neg]
    rintro ⟨h1, h2⟩
    have h1' : (swapped p).port = [] := h1
    have h2' : (scheme (swapped p)).length > 5 := h2
    rcases hsw p with h | h
    · exact h h1'
    · rcases scheme_cases (swapped p) with hs | hs | ⟨hs, _⟩
      · rw [hs] at h2'; revert h2'; decide
      · rw [hs] at h2'; revert h2'; decide
      · rw [hs] at h2'; omega
  have hsc : scheme (canon env p) = (canon env p).protocol := by
    have hp : (canon env p).protocol = scheme (swapped p) := rfl
    rcases scheme_cases (swapped p) with hs | hs | ⟨hs, h1, h2, h3⟩
    · have : (canon env p).protocol = b! "ws" := hp.trans hs
      unfold scheme; rw [this]; simp
    · have : (canon env p).protocol = b! "wss" := hp.trans hs
      unfold scheme; rw [this]; simp
    · have : (canon env p).protocol = (swapped p).protocol := hp.trans hs
      unfold scheme
      rw [this, if_neg h1, if_neg h2, if_neg h3]
  show ({ swapped (canon env p) with protocol := scheme (swapped (canon env p)), host := env.lower (swapped (canon env p)).host, path := trimSlashes (swapped (canon env p)).path } : Parts) = _
  rw [hns, hsc]
  have hh : env.lower (canon env p).host = (canon env p).host := hl _
  have hpa : trimSlashes (canon env p).path = (canon env p).path := trimSlashes_idem _
  rw [hh, hpa]

/-- **C116 (partial): idempotent.** Normalizing again changes nothing, for every url whose normalized text the url parser reads back as the parts it was made of.
Missing: that it does, which depends on the parser. -/
theorem C116_idempotent_partial (env : Env) (hl : ∀ s, env.lower (env.lower s) = env.lower s) (u : Bytes)
    (hp : ∀ p, env.parse (env.trim u) = some p → env.parse (env.trim (render (canon env p))) = some (canon env p)) :
    normalizeURL env (normalizeURL env u) = normalizeURL env u := by
  unfold normalizeURL
  by_cases hu : u = []
  · simp [hu]
  rw [if_neg hu]
  cases h : env.parse (env.trim u) with
  | none => simp
  | some p =>
    simp only
    have hne : render (canon env p) ≠ [] := by
      unfold render
      intro h'
      simp only [List.append_eq_nil_iff] at h'
      exact absurd h'.1.1.1.1.2 (by decide)
    rw [if_neg hne, hp p h]
    simp only
    rw [canon_idem env hl p]

/-- Spec: the same address, spelled differently: the scheme may be the http one, the host may be in other letters, the path may end with slashes. -/
structure SameAddress (env : Env) (p q : Parts) : Prop where
  scheme : p.protocol = q.protocol ∨ (p.protocol = b! "https" ∧ q.protocol = b! "wss") ∨ (p.protocol = b! "http" ∧ q.protocol = b! "ws")
  host : env.lower p.host = env.lower q.host
  port : p.port = q.port
  path : trimSlashes p.path = trimSlashes q.path
  query : p.query = q.query

/-- **C116 (partial): one text per relay.** Different spellings of the same address, with a scheme of at most five letters, have the same normalized text. -/
theorem C116_same_relay_partial (env : Env) (u v : Bytes) (p q : Parts) (hu : u ≠ []) (hv : v ≠ []) (hp : env.parse (env.trim u) = some p) (hq : env.parse (env.trim v) = some q)
    (h : SameAddress env p q) (hs : p.protocol ≠ []) (hlen : p.protocol.length ≤ 5) : normalizeURL env u = normalizeURL env v := by
  have hpr : scheme p = scheme q := by
    rcases h.scheme with h1 | ⟨h1, h2⟩ | ⟨h1, h2⟩
    · unfold scheme
      rw [← h1, if_neg hs, if_neg hs]
    · unfold scheme; rw [h1, h2]; simp
    · unfold scheme; rw [h1, h2]; simp
  have hql : q.protocol.length ≤ 5 := by
    rcases h.scheme with h1 | ⟨h1, h2⟩ | ⟨h1, h2⟩
    · rw [← h1]; exact hlen
    · rw [h2]; decide
    · rw [h2]; decide
  have s1 : swapped p = p := by unfold swapped; rw [if_neg (by omega)]
  have s2 : swapped q = q := by unfold swapped; rw [if_neg (by omega)]
  unfold normalizeURL
  rw [if_neg hu, if_neg hv, hp, hq]
  simp only
  congr 1
  unfold canon
  rw [s1, s2]
  simp only [hpr, h.host, h.port, h.path, h.query]

/-- **C116: what comes out.** Unless the text cannot be parsed (or is empty), the result starts with a scheme that is not empty and not an http one, and `://`. -/
theorem C116_scheme (env : Env) (u : Bytes) (h : normalizeURL env u ≠ []) : ∃ s rest, normalizeURL env u = s ++ b! "://" ++ rest ∧ s ≠ [] ∧ s ≠ b! "http" ∧ s ≠ b! "https" := by
  unfold normalizeURL at h ⊢
  by_cases hu : u = []
  · simp [hu] at h
  rw [if_neg hu] at h ⊢
  cases hp : env.parse (env.trim u) with
  | none => rw [hp] at h; simp at h
  | some p =>
    simp only
    refine ⟨scheme (swapped p), _, by unfold render; simp only [List.append_assoc]; rfl, ?_⟩
    rcases scheme_cases (swapped p) with hs | hs | ⟨hs, h1, h2, h3⟩
    · rw [hs]; decide
    · rw [hs]; decide
    · rw [hs]; exact ⟨h1, h3, h2⟩

/-- The full C116 is false: the host is compared before it is put in small letters, so without a scheme `LOCALHOST` becomes a wss address, `localhost` a ws one … -/
theorem C116_localhost_in_capitals (env : Env) (u h : Bytes) (hu : u ≠ []) (hp : env.parse (env.trim u) = some ⟨[], h, [], [], []⟩) (hl : env.lower h = b! "localhost") :
    normalizeURL env u = if h = b! "localhost" ∨ h = b! "127.0.0.1" then b! "ws://localhost" else b! "wss://localhost" := by
  unfold normalizeURL
  rw [if_neg hu, hp]
  simp only [canon, swapped, scheme, render]
  by_cases hh : h = b! "localhost" ∨ h = b! "127.0.0.1"
  · rw [if_pos hh]; simp [hh, trimSlashes, hl]
  · rw [if_neg hh]; simp [hh, trimSlashes, hl]

/-- … the scheme is not put in small letters, so `WSS://x` and `wss://x` are two relays … -/
theorem C116_scheme_in_capitals (env : Env) (u h : Bytes) (hu : u ≠ []) (hp : env.parse (env.trim u) = some ⟨b! "WSS", h, [], [], []⟩) :
    normalizeURL env u = b! "WSS://" ++ env.lower h := by
  unfold normalizeURL
  rw [if_neg hu, hp]
  simp [canon, swapped, scheme, render, trimSlashes]

/-- … and a scheme of more than five letters is taken for the host. -/
theorem C116_long_scheme (env : Env) (u s h path : Bytes) (hu : u ≠ []) (hh : h ≠ []) (hs : s.length > 5) (hl : s ≠ b! "localhost" ∧ s ≠ b! "127.0.0.1")
    (hp : env.parse (env.trim u) = some ⟨s, h, [], path, []⟩) : normalizeURL env u = b! "wss://" ++ env.lower s ++ 58 :: h ++ trimSlashes path := by
  unfold normalizeURL
  rw [if_neg hu, hp]
  simp [canon, swapped, scheme, render, hs, hl, hh]

/-- A small url parser for examples: `scheme://host/path`. -/
def exParse (u : Bytes) : Option Parts :=
  let (s, r) := if (b! "http://").isPrefixOf u then (b! "http", u.drop 7) else if (b! "https://").isPrefixOf u then (b! "https", u.drop 8)
    else if (b! "ws://").isPrefixOf u then (b! "ws", u.drop 5) else if (b! "wss://").isPrefixOf u then (b! "wss", u.drop 6)
    else if (b! "WSS://").isPrefixOf u then (b! "WSS", u.drop 6) else if (b! "gopher://").isPrefixOf u then (b! "gopher", u.drop 9) else ([], u)
  some ⟨s, r.takeWhile (· != 47), [], r.dropWhile (· != 47), []⟩

/-- A value of the examples. -/
def exEnv : Env := ⟨exParse, id, List.map (fun c => if 65 ≤ c ∧ c ≤ 90 then c + 32 else c)⟩

/-- Not vacuous: the parser above reads back these texts, and the cases above occur. -/
example : ∀ u ∈ [b! "https://X.com/a//", b! "x.com", b! "localhost", b! "ws://a/b", b! "LOCALHOST"], ∀ p, exEnv.parse (exEnv.trim u) = some p →
    exEnv.parse (exEnv.trim (render (canon exEnv p))) = some (canon exEnv p) := by
  intro u hu p hp
  simp only [List.mem_cons, List.not_mem_nil, or_false] at hu
  rcases hu with rfl | rfl | rfl | rfl | rfl <;> (injection hp with hp; subst hp; decide +kernel)

example : normalizeURL exEnv (b! "https://X.com/a//") = b! "wss://x.com/a" ∧ normalizeURL exEnv (b! "wss://x.com/a") = b! "wss://x.com/a" ∧
    normalizeURL exEnv (b! "localhost") = b! "ws://localhost" ∧ normalizeURL exEnv (b! "LOCALHOST") = b! "wss://localhost" ∧
    normalizeURL exEnv (b! "gopher://x.com/a") = b! "wss://gopher:x.com/a" ∧ normalizeURL exEnv (b! "WSS://x.com") = b! "WSS://x.com" := by decide +kernel

end GoNostr.Url
