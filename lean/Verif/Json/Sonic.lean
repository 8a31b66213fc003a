import Verif.Json.Envelopes
import Verif.Helpers.Model
/-!
# C126: the message parser of the `sonic` build

`envelopes_sonic.go`: a visitor that is told about the tokens of a JSON text one by one. The JSON library is trusted to report the tokens of the text in order; a text is represented
by its value. Numbers that are whole and fit in an `int64` are reported as such, all others as floats. Texts that are not JSON stop with an error after the tokens of some beginning and are not
modelled. Slices are values here; their memory is the subject of `Verif.Json.SonicMemory`.
-/

set_option autoImplicit false

namespace GoNostr.Json.Sonic

open GoNostr.Json

/-- A JSON value. -/
inductive J where
  | str (s : Bytes)
  | int (n : Int)
  | float
  | bool (b : Bool)
  | null
  | arr (l : List J)
  | obj (l : List (Bytes × J))

/-- What the library reports: the methods of `ast.Visitor`. -/
inductive Tok where
  | arrBegin | arrEnd | objBegin | objEnd
  | key (k : Bytes)
  | str (s : Bytes)
  | int (n : Int)
  | float
  | bool (b : Bool)
  | null
  deriving DecidableEq

mutual
/-- `ast.Preorder` on a value. -/
def tokens : J → List Tok
  | .str s => [.str s]
  | .int n => [.int n]
  | .float => [.float]
  | .bool b => [.bool b]
  | .null => [.null]
  | .arr l => .arrBegin :: (tokensL l ++ [.arrEnd])
  | .obj l => .objBegin :: (tokensM l ++ [.objEnd])
/-- The same for the elements of an array. -/
def tokensL : List J → List Tok
  | [] => []
  | j :: l => tokens j ++ tokensL l
/-- The same for the members of an object. -/
def tokensM : List (Bytes × J) → List Tok
  | [] => []
  | (k, j) :: l => .key k :: (tokens j ++ tokensM l)
end

/-- `sonicVisitorPosition` (envelopes_sonic.go:14-52) -/
inductive Pos where
  | envelope
  | event | req | ok | eose | count | auth | close | closed | notice
  | filterObject | eventObject | countObject
  | since | limit | «until» | ids | authors | kinds | search | aFilterTag
  | id | createdAt | kind | content | pubkey | sig | tags | tagsList | anEventTag
  deriving DecidableEq

/-- `mainEnvelope`: a nil interface (`none`), or a pointer. For the three envelopes that are strings every assignment makes a new variable, so the value is kept here. -/
inductive Main where
  | event | req | ok | count | auth | closed
  | eose (p : Option Bytes)
  | close (p : Option Bytes)
  | notice (p : Option Bytes)
  deriving DecidableEq

/-- The envelope pointers of the visitor (envelopes_sonic.go:119-139), `none` for nil. -/
structure Ptrs where
  event : Option (Option Bytes × Event) := none
  req : Option (Bytes × List Filter) := none
  ok : Option (Bytes × Bool × Bytes) := none
  eose : Option Bytes := none
  count : Option (Bytes × Filter × Option Int × Option Bytes) := none
  auth : Option (Option Bytes × Event) := none
  close : Option Bytes := none
  closed : Option (Bytes × Bytes) := none
  notice : Option Bytes := none
  main : Option Main := none

/-- `sonicVisitor` (envelopes_sonic.go:118-140) -/
structure V where
  env : Ptrs := {}
  pos : Pos := .envelope
  curEvent : Option Event := none
  curTag : List Bytes := []
  curFilter : Option Filter := none
  curList : List Bytes := []
  curName : Bytes := []

/-- What a method does: it goes on, returns an error (`UnknownLabel` or another), or dereferences a nil pointer. -/
inductive R where
  | ok (v : V)
  | err (v : V) (unknown : Bool)
  | panic

/-- Sequencing of callbacks: the first error ends the parsing. -/
def R.bind : R → (V → R) → R
  | .ok v, f => f v
  | .err v u, _ => .err v u
  | .panic, _ => .panic

/-- Through the pointer `currentEvent`. -/
def V.onEvent (v : V) (pos : Pos) (f : Event → Event) : R := match v.curEvent with
  | none => .panic
  | some e => .ok { v with curEvent := some (f e), pos := pos }

/-- Through the pointer `currentFilter`. -/
def V.onFilter (v : V) (pos : Pos) (f : Filter → Filter) : R := match v.curFilter with
  | none => .panic
  | some e => .ok { v with curFilter := some (f e), pos := pos }

/-- A Go `append` to a slice that may be nil. -/
def app {α : Type} (l : Option (List α)) (x : α) : Option (List α) := some (l.getD [] ++ [x])

/-- `OnArrayBegin` (envelopes_sonic.go:142-157) -/
def V.arrBegin (v : V) : R := match v.pos with
  | .tags => v.onEvent .tagsList (fun e => { e with tags := [] })
  | .tagsList => .ok { v with pos := .anEventTag, curTag := [] }
  | _ => .ok v

/-- `sv.mainEnvelope = …` (envelopes_sonic.go:159-212). -/
def V.setMain (v : V) (m : Main) : V := { v with env := { v.env with main := some m } }

/-- `OnArrayEnd` (envelopes_sonic.go:159-212) -/
def V.arrEnd (v : V) : R := match v.pos with
  | .event => .ok (v.setMain .event)
  | .req => match v.env.req with
    | none => .panic
    | some _ => .ok (v.setMain .req)
  | .ok => .ok (v.setMain .ok)
  | .eose => .ok (v.setMain (.eose v.env.eose))
  | .count => .ok (v.setMain .count)
  | .auth => .ok (v.setMain .auth)
  | .close => .ok (v.setMain (.close v.env.close))
  | .closed => .ok (v.setMain .closed)
  | .notice => .ok (v.setMain (.notice v.env.notice))
  | .ids => v.onFilter .filterObject id
  | .authors => v.onFilter .filterObject id
  | .kinds => v.onFilter .filterObject id
  | .aFilterTag => v.onFilter .filterObject (fun f => { f with tags := some (tagSet (tagEntries f.tags) v.curName v.curList) })
  | .anEventTag => v.onEvent .tagsList (fun e => { e with tags := e.tags ++ [v.curTag] })
  | .tags => v.onEvent .eventObject id
  | .tagsList => v.onEvent .eventObject id
  | _ => .err v false

/-- `OnObjectBegin` (envelopes_sonic.go:214-236) -/
def V.objBegin (v : V) : R := match v.pos with
  | .event => .ok { v with pos := .eventObject, curEvent := some zeroEvent }
  | .auth => .ok { v with pos := .eventObject, curEvent := some zeroEvent }
  | .req => .ok { v with pos := .filterObject, curFilter := some {} }
  | .count => .ok { v with pos := .filterObject, curFilter := some {} }
  | _ => .err v false

/-- `OnObjectKey` (envelopes_sonic.go:238-302) -/
def V.onKey (v : V) (key : Bytes) : R := match v.pos with
  | .eventObject =>
    if key = b! "id" then .ok { v with pos := .id }
    else if key = b! "sig" then .ok { v with pos := .sig }
    else if key = b! "pubkey" then .ok { v with pos := .pubkey }
    else if key = b! "content" then .ok { v with pos := .content }
    else if key = b! "created_at" then .ok { v with pos := .createdAt }
    else if key = b! "kind" then .ok { v with pos := .kind }
    else if key = b! "tags" then .ok { v with pos := .tags }
    else .err v false
  | .filterObject =>
    if key = b! "limit" then .ok { v with pos := .limit }
    else if key = b! "since" then .ok { v with pos := .since }
    else if key = b! "until" then .ok { v with pos := .«until» }
    else if key = b! "ids" then v.onFilter .ids (fun f => { f with ids := some [] })
    else if key = b! "authors" then v.onFilter .authors (fun f => { f with authors := some [] })
    else if key = b! "kinds" then v.onFilter .kinds (fun f => { f with kinds := some [] })
    else if key = b! "search" then .ok { v with pos := .search }
    else if key = b! "count" ∨ key = b! "hll" then .ok { v with pos := .countObject }
    else match key with
      | 35 :: c :: name => { v with curList := [], curName := c :: name }.onFilter .aFilterTag (fun f => { f with tags := some (tagEntries f.tags) })
      | _ => .err v false
  | .countObject => .ok v
  | _ => .err v false

/-- `OnObjectEnd` (envelopes_sonic.go:304-333) -/
def V.objEnd (v : V) : R := match v.pos with
  | .eventObject => match v.curEvent with
    | none => .panic
    | some e => match v.env.event with
      | some (s, _) => .ok { v with env := { v.env with event := some (s, e) }, pos := .event, curEvent := none }
      | none => match v.env.auth with
        | none => .panic
        | some (c, _) => .ok { v with env := { v.env with auth := some (c, e) }, pos := .auth, curEvent := none }
  | .filterObject => match v.curFilter with
    | none => .panic
    | some f => match v.env.req with
      | some (s, fs) => .ok { v with env := { v.env with req := some (s, fs ++ [f]) }, pos := .req, curFilter := none }
      | none => match v.env.count with
        | none => .panic
        | some (s, _, n, h) => .ok { v with env := { v.env with count := some (s, f, n, h) }, pos := .count, curFilter := none }
  | .countObject => .ok { v with pos := .count }
  | _ => .err v false

/-- `OnString` (envelopes_sonic.go:335-432) -/
def V.onStr (v : V) (s : Bytes) : R := match v.pos with
  | .envelope =>
    if s = b! "EVENT" then .ok { v with env := { v.env with event := some (none, zeroEvent) }, pos := .event }
    else if s = b! "REQ" then .ok { v with env := { v.env with req := some ([], []) }, pos := .req }
    else if s = b! "OK" then .ok { v with env := { v.env with ok := some ([], false, []) }, pos := .ok }
    else if s = b! "EOSE" then .ok { v with pos := .eose }
    else if s = b! "COUNT" then .ok { v with env := { v.env with count := some ([], {}, none, none) }, pos := .count }
    else if s = b! "AUTH" then .ok { v with env := { v.env with auth := some (none, zeroEvent) }, pos := .auth }
    else if s = b! "CLOSE" then .ok { v with pos := .close }
    else if s = b! "CLOSED" then .ok { v with env := { v.env with closed := some ([], []) }, pos := .closed }
    else if s = b! "NOTICE" then .ok { v with pos := .notice }
    else .err v true
  | .event => match v.env.event with
    | none => .panic
    | some (_, e) => .ok { v with env := { v.env with event := some (some s, e) } }
  | .req => match v.env.req with
    | none => .panic
    | some (_, fs) => .ok { v with env := { v.env with req := some (s, fs) } }
  | .ok => match v.env.ok with
    | none => .panic
    | some (i, b, r) => .ok { v with env := { v.env with ok := some (if i = [] then (s, b, r) else (i, b, s)) } }
  | .eose => .ok { v with env := { v.env with eose := some s } }
  | .count => match v.env.count with
    | none => .panic
    | some (_, f, n, h) => .ok { v with env := { v.env with count := some (s, f, n, h) } }
  | .auth => match v.env.auth with
    | none => .panic
    | some (_, e) => .ok { v with env := { v.env with auth := some (some s, e) } }
  | .close => .ok { v with env := { v.env with close := some s } }
  | .closed => match v.env.closed with
    | none => .panic
    | some (i, r) => .ok { v with env := { v.env with closed := some (if i = [] then (s, r) else (i, s)) } }
  | .notice => .ok { v with env := { v.env with notice := some s } }
  | .ids => v.onFilter .ids (fun f => { f with ids := app f.ids s })
  | .authors => v.onFilter .authors (fun f => { f with authors := app f.authors s })
  | .search => v.onFilter .filterObject (fun f => { f with search := s })
  | .aFilterTag => .ok { v with curList := v.curList ++ [s] }
  | .id => v.onEvent .eventObject (fun e => { e with id := s })
  | .content => v.onEvent .eventObject (fun e => { e with content := s })
  | .pubkey => v.onEvent .eventObject (fun e => { e with pubkey := s })
  | .sig => v.onEvent .eventObject (fun e => { e with sig := s })
  | .anEventTag => .ok { v with curTag := v.curTag ++ [s] }
  | .countObject => match v.env.count with
    | none => .panic
    | some (i, f, n, _) => .ok { v with env := { v.env with count := some (i, f, n, some (hexDecPartial s)) } }
  | _ => .err v false

/-- `OnInt64` (envelopes_sonic.go:434-465): where no number belongs it is ignored. -/
def V.onInt (v : V) (n : Int) : R := match v.pos with
  | .createdAt => v.onEvent .eventObject (fun e => { e with createdAt := n })
  | .kind => v.onEvent .eventObject (fun e => { e with kind := n })
  | .limit => v.onFilter .filterObject (fun f => { f with limit := n, limitZero := decide (n = 0) })
  | .since => v.onFilter .filterObject (fun f => { f with since := some n })
  | .«until» => v.onFilter .filterObject (fun f => { f with «until» := some n })
  | .kinds => v.onFilter .kinds (fun f => { f with kinds := app f.kinds n })
  | .countObject => match v.env.count with
    | none => .panic
    | some (i, f, _, h) => .ok { v with env := { v.env with count := some (i, f, some n, h) } }
  | _ => .ok v

/-- `OnBool` (envelopes_sonic.go:467-476) -/
def V.onBool (v : V) (b : Bool) : R := match v.pos with
  | .ok => match v.env.ok with
    | none => .panic
    | some (i, _, r) => .ok { v with env := { v.env with ok := some (i, b, r) } }
  | _ => .err v false

/-- One token. `OnNull` and `OnFloat64` always refuse (envelopes_sonic.go:478-484). -/
def V.on (v : V) : Tok → R
  | .arrBegin => v.arrBegin
  | .arrEnd => v.arrEnd
  | .objBegin => v.objBegin
  | .objEnd => v.objEnd
  | .key k => v.onKey k
  | .str s => v.onStr s
  | .int n => v.onInt n
  | .bool b => v.onBool b
  | .float => .err v false
  | .null => .err v false

/-- The traversal stops at the first error. -/
def visit (v : V) : List Tok → R
  | [] => .ok v
  | t :: ts => (v.on t).bind (fun v => visit v ts)

/-- An `Envelope`: a nil interface, a pointer that is nil, or an envelope. -/
inductive Got where
  | nothing
  | nilPointer
  | env (e : Env)
  deriving DecidableEq

/-- What `mainEnvelope` points to in the end. -/
def Ptrs.got (p : Ptrs) : Got := match p.main with
  | none => .nothing
  | some .event => match p.event with
    | some (s, e) => .env (.event s e)
    | none => .nilPointer
  | some .req => match p.req with
    | some (s, fs) => .env (.req s fs)
    | none => .nilPointer
  | some .ok => match p.ok with
    | some (i, b, r) => .env (.ok i b r)
    | none => .nilPointer
  | some .count => match p.count with
    | some (s, f, n, h) => .env (.count s f n h)
    | none => .nilPointer
  | some .auth => match p.auth with
    | some (c, e) => .env (.auth c e)
    | none => .nilPointer
  | some .closed => match p.closed with
    | some (s, r) => .env (.closed s r)
    | none => .nilPointer
  | some (.eose q) => match q with
    | some s => .env (.eose s)
    | none => .nilPointer
  | some (.close q) => match q with
    | some s => .env (.close s)
    | none => .nilPointer
  | some (.notice q) => match q with
    | some s => .env (.notice s)
    | none => .nilPointer

/-- The second result. -/
inductive Err where
  | none | unknownLabel | other
  deriving DecidableEq

/-- `ParseMessage` (envelopes_sonic.go:557-564). -/
def parse (j : J) : Out (Got × Err) := match visit {} (tokens j) with
  | .ok v => .val (v.env.got, .none)
  | .err v u => .val (v.env.got, if u then .unknownLabel else .other)
  | .panic => .panic

/-! ## Specification: what the parser reads -/

/-- A list of strings; numbers in it are skipped. -/
def stringsOf : List J → Option (List Bytes)
  | [] => some []
  | .str s :: l => (stringsOf l).map (s :: ·)
  | .int _ :: l => stringsOf l
  | _ => none

/-- A list of numbers. -/
def intsOf : List J → Option (List Int)
  | [] => some []
  | .int n :: l => (intsOf l).map (n :: ·)
  | _ => none

/-- A list of lists of strings; numbers are skipped. -/
def tagsOf : List J → Option (List (List Bytes))
  | [] => some []
  | .arr t :: l => match stringsOf t, tagsOf l with
    | some t, some l => some (t :: l)
    | _, _ => none
  | .int _ :: l => tagsOf l
  | _ => none

/-- What a member says about an event; `none`: refused. -/
def eventMember (e : Event) : Bytes × J → Option Event
  | (key, .str s) =>
    if key = b! "id" then some { e with id := s }
    else if key = b! "pubkey" then some { e with pubkey := s }
    else if key = b! "content" then some { e with content := s }
    else if key = b! "sig" then some { e with sig := s }
    else none
  | (key, .int n) =>
    if key = b! "created_at" then some { e with createdAt := n }
    else if key = b! "kind" then some { e with kind := n }
    else none
  | (key, .arr l) => if key = b! "tags" then (tagsOf l).map (fun t => { e with tags := t }) else none
  | _ => none

/-- Auxiliary definition of the specification and the proofs; models no code. -/
def eventObject (ms : List (Bytes × J)) : Option Event := ms.foldlM eventMember zeroEvent

/-- What a member says about a filter; `none`: refused. -/
def filterMember (f : Filter) : Bytes × J → Option Filter
  | (key, .str s) => if key = b! "search" then some { f with search := s } else none
  | (key, .int n) =>
    if key = b! "since" then some { f with since := some n }
    else if key = b! "until" then some { f with «until» := some n }
    else if key = b! "limit" then some { f with limit := n, limitZero := decide (n = 0) }
    else none
  | (key, .arr l) =>
    if key = b! "ids" then (stringsOf l).map (fun x => { f with ids := some x })
    else if key = b! "authors" then (stringsOf l).map (fun x => { f with authors := some x })
    else if key = b! "kinds" then (intsOf l).map (fun x => { f with kinds := some x })
    else match key with
      | 35 :: c :: name => (stringsOf l).map (fun x => { f with tags := some (tagSet (tagEntries f.tags) (c :: name) x) })
      | _ => none
  | _ => none

/-- The members of the answer to a COUNT. -/
def IsCountKey (key : Bytes) : Prop := key = b! "count" ∨ key = b! "hll"

instance (key : Bytes) : Decidable (IsCountKey key) := inferInstanceAs (Decidable (_ ∨ _))

/-- The value begins with a string or a number, perhaps inside arrays. -/
def firstScalar : J → Bool
  | .str _ => true
  | .int _ => true
  | .arr (j :: _) => firstScalar j
  | _ => false

/-- An object in a REQ. -/
def reqObject (f : Filter) : List (Bytes × J) → Res Unit Filter
  | [] => .ok f
  | (key, j) :: ms =>
    if IsCountKey key then (if firstScalar j then .panic else .err ())
    else match filterMember f (key, j) with
      | none => .err ()
      | some f => reqObject f ms

/-- The rest of the answer to a COUNT: any number is the count, any string the registers. -/
def answer (n : Option Int) (h : Option Bytes) : List (Bytes × J) → Option (Option Int × Option Bytes)
  | [] => some (n, h)
  | (_, .int n') :: ms => answer (some n') h ms
  | (_, .str s) :: ms => answer n (some (hexDecPartial s)) ms
  | _ => none

/-- An object in a COUNT: a filter, or, from a member `count` or `hll` on, an answer. -/
def countObject (f0 : Filter) (n : Option Int) (h : Option Bytes) (f : Filter) : List (Bytes × J) → Option (Filter × Option Int × Option Bytes)
  | [] => some (f, n, h)
  | (key, j) :: ms =>
    if IsCountKey key then (answer n h ((key, j) :: ms)).map (fun a => (f0, a.1, a.2))
    else match filterMember f (key, j) with
      | none => none
      | some f => countObject f0 n h f ms

/-- An element of a message. Arrays inside the message do not count as elements; their elements do. -/
inductive Item where
  | str (s : Bytes)
  | num
  | bool (b : Bool)
  | obj (l : List (Bytes × J))
  | bad

mutual
/-- Auxiliary definition of the specification and the proofs; models no code. -/
def flat : J → List Item
  | .str s => [.str s]
  | .int _ => [.num]
  | .float => [.bad]
  | .bool b => [.bool b]
  | .null => [.bad]
  | .arr l => flatL l
  | .obj l => [.obj l]
/-- Auxiliary definition of the specification and the proofs; models no code. -/
def flatL : List J → List Item
  | [] => []
  | j :: l => flat j ++ flatL l
end

/-- The envelope a label begins; `some none` for the three that are a mere string. -/
def draft (label : Bytes) : Option (Option Env) :=
  if label = b! "EVENT" then some (some (.event none zeroEvent))
  else if label = b! "REQ" then some (some (.req [] []))
  else if label = b! "OK" then some (some (.ok [] false []))
  else if label = b! "COUNT" then some (some (.count [] {} none none))
  else if label = b! "AUTH" then some (some (.auth none zeroEvent))
  else if label = b! "CLOSED" then some (some (.closed [] []))
  else if label = b! "EOSE" ∨ label = b! "CLOSE" ∨ label = b! "NOTICE" then some none
  else none

/-- What the next element adds. -/
def understand (label : Bytes) (d : Option Env) : Item → Res Unit (Option Env)
  | .num => .ok d
  | .bad => .err ()
  | .bool b => match d with
    | some (.ok i _ r) => .ok (some (.ok i b r))
    | _ => .err ()
  | .str s => match d with
    | some (.event _ e) => .ok (some (.event (some s) e))
    | some (.req _ fs) => .ok (some (.req s fs))
    | some (.ok i b r) => .ok (some (if i = [] then .ok s b r else .ok i b s))
    | some (.count _ f n h) => .ok (some (.count s f n h))
    | some (.auth _ e) => .ok (some (.auth (some s) e))
    | some (.closed i r) => .ok (some (if i = [] then .closed s r else .closed i s))
    | _ => .ok (some (if label = b! "EOSE" then .eose s else if label = b! "CLOSE" then .close s else .notice s))
  | .obj ms => match d with
    | some (.event s _) => match eventObject ms with
      | some e => .ok (some (.event s e))
      | none => .err ()
    | some (.auth c _) => match eventObject ms with
      | some e => .ok (some (.auth c e))
      | none => .err ()
    | some (.req s fs) => match reqObject {} ms with
      | .ok f => .ok (some (.req s (fs ++ [f])))
      | .err _ => .err ()
      | .panic => .panic
    | some (.count s f n h) => match countObject f n h {} ms with
      | some (f, n, h) => .ok (some (.count s f n h))
      | none => .err ()
    | _ => .err ()

/-- Auxiliary definition of the specification and the proofs; models no code. -/
def understandAll (label : Bytes) (d : Option Env) : List Item → Res Unit (Option Env)
  | [] => .ok d
  | i :: is => match understand label d i with
    | .ok d => understandAll label d is
    | .err e => .err e
    | .panic => .panic

/-! ## Lemmas: inside an object -/

theorem visit_append (v : V) (a b : List Tok) : visit v (a ++ b) = (visit v a).bind (fun v => visit v b) := by
  induction a generalizing v with
  | nil => rfl
  | cons t a ih =>
    simp only [List.cons_append, visit]
    cases v.on t with
    | ok v' => simp only [R.bind]; exact ih v'
    | err v' u => rfl
    | panic => rfl

/-- How many closing brackets the visitor expects. -/
def Pos.level : Pos → Nat
  | .anEventTag => 2
  | .tagsList | .ids | .authors | .kinds | .aFilterTag => 1
  | _ => 0

/-- Inside an object that is not the answer to a COUNT. -/
def Inside (v : V) : Prop := match v.pos with
  | .eventObject | .id | .sig | .pubkey | .content | .createdAt | .kind | .tagsList | .anEventTag => v.curEvent ≠ none
  | .filterObject | .limit | .since | .«until» | .search | .ids | .authors | .kinds | .aFilterTag => v.curFilter ≠ none
  | _ => False

/-- An error, or no more than `n` open brackets. -/
def Down (env : Ptrs) (n : Nat) (r : R) : Prop :=
  (∃ v, r = .err v false) ∨ ∃ v, r = .ok v ∧ Inside v ∧ v.env = env ∧ v.pos.level ≤ n

theorem down_scalar (v : V) (h : Inside v) (t : Tok) (ht : ∀ k, t ≠ .key k) (h1 : t ≠ .arrBegin) (h2 : t ≠ .arrEnd) (h3 : t ≠ .objEnd) :
    Down v.env v.pos.level (v.on t) := by
  obtain ⟨env, pos, ce, ct, cf, cl, cn⟩ := v
  cases t <;> first | contradiction | skip
  case key k => exact absurd rfl (ht k)
  all_goals
    cases pos <;> simp only [Inside] at h <;>
    first
    | (exact .inl ⟨_, rfl⟩)
    | (right
       cases ce <;> cases cf <;> first | contradiction | exact ⟨_, rfl, by simp [Inside], rfl, by simp [Pos.level]⟩)

theorem down_arrEnd (v : V) (h : Inside v) (n : Nat) (hn : v.pos.level ≤ n) :
    (∃ v', v.on .arrEnd = .err v' false) ∨ (0 < n ∧ Down v.env (n - 1) (v.on .arrEnd)) := by
  obtain ⟨env, pos, ce, ct, cf, cl, cn⟩ := v
  cases pos <;> simp only [Inside] at h <;>
    first
    | (exact .inl ⟨_, rfl⟩)
    | (right
       simp only [Pos.level] at hn
       refine ⟨by omega, .inr ?_⟩
       cases ce <;> cases cf <;> first | contradiction | exact ⟨_, rfl, by simp [Inside], rfl, by simp [Pos.level]; try omega⟩)

theorem down_mono {env : Ptrs} {n m : Nat} {r : R} (h : Down env n r) (hnm : n ≤ m) : Down env m r := by
  rcases h with h | ⟨v, h1, h2, h3, h4⟩
  · exact .inl h
  · exact .inr ⟨v, h1, h2, h3, by omega⟩

theorem down_bind {env : Ptrs} {n m : Nat} {r : R} {f : V → R} (h : Down env n r) (hf : ∀ v, Inside v → v.env = env → v.pos.level ≤ n → Down env m (f v)) :
    Down env m (r.bind f) := by
  rcases h with ⟨v, h⟩ | ⟨v, h1, h2, h3, h4⟩
  · rw [h]; exact .inl ⟨v, rfl⟩
  · rw [h1]; exact hf v h2 h3 h4

/-- The array brackets do not match what the visitor expects: whatever follows, the array ends in an error or one level down. -/
def Falls (env : Ptrs) (n : Nat) (r : R) : Prop := (∃ v, r = .err v false) ∨ (0 < n ∧ Down env (n - 1) r)

theorem falls_end {env : Ptrs} {n : Nat} {r : R} (h : Down env n r) : Falls env n (r.bind (fun v => visit v [.arrEnd])) := by
  rcases h with ⟨v, h⟩ | ⟨v, h1, h2, h3, h4⟩
  · rw [h]; exact .inl ⟨v, rfl⟩
  · rw [h1]
    simp only [R.bind, visit]
    rcases down_arrEnd v h2 n h4 with ⟨v', h⟩ | ⟨hn, h⟩
    · rw [h]; exact .inl ⟨v', rfl⟩
    · rw [h3] at h
      refine .inr ⟨hn, ?_⟩
      rcases h with ⟨v', h⟩ | ⟨v', h1, h2, h3, h4⟩
      · rw [h]; exact .inl ⟨v', rfl⟩
      · rw [h1]; exact .inr ⟨v', rfl, h2, h3, h4⟩

theorem arrBegin_inside {v : V} (h : Inside v) :
    (v.pos ≠ .tagsList ∧ v.on .arrBegin = .ok v) ∨ (v.pos = .tagsList ∧ v.on .arrBegin = .ok { v with pos := .anEventTag, curTag := [] }) := by
  obtain ⟨env, pos, ce, ct, cf, cl, cn⟩ := v
  cases pos <;> simp only [Inside] at h <;> first
    | exact .inl ⟨by simp, rfl⟩
    | exact .inr ⟨rfl, rfl⟩

mutual
/-- Whatever the value, the visitor refuses it or ends with no more open brackets than before. -/
theorem down_value (v : V) (h : Inside v) : ∀ j : J, Down v.env v.pos.level (visit v (tokens j))
  | .str s => by
    have := down_scalar v h (.str s) (by simp) (by simp) (by simp) (by simp)
    simp only [tokens, visit]
    exact down_bind this (fun v' h1 h2 h3 => .inr ⟨v', rfl, h1, h2, h3⟩)
  | .int n => by
    have := down_scalar v h (.int n) (by simp) (by simp) (by simp) (by simp)
    simp only [tokens, visit]
    exact down_bind this (fun v' h1 h2 h3 => .inr ⟨v', rfl, h1, h2, h3⟩)
  | .float => .inl ⟨v, rfl⟩
  | .null => .inl ⟨v, rfl⟩
  | .bool b => by
    have := down_scalar v h (.bool b) (by simp) (by simp) (by simp) (by simp)
    simp only [tokens, visit]
    exact down_bind this (fun v' h1 h2 h3 => .inr ⟨v', rfl, h1, h2, h3⟩)
  | .obj l => by
    simp only [tokens, visit]
    have : ∃ v', v.on .objBegin = .err v' false := by
      obtain ⟨env, pos, ce, ct, cf, cl, cn⟩ := v
      cases pos <;> simp only [Inside] at h <;> exact ⟨_, rfl⟩
    obtain ⟨v', hv⟩ := this
    rw [hv]
    exact .inl ⟨v', rfl⟩
  | .arr l => by
    simp only [tokens, visit]
    rcases arrBegin_inside h with ⟨hp, hb⟩ | ⟨hp, hb⟩
    · rw [hb]
      simp only [R.bind]
      rw [visit_append]
      rcases falls_end (down_list v h l) with h | ⟨_, h⟩
      · exact .inl h
      · exact down_mono h (by omega)
    · rw [hb]
      simp only [R.bind]
      rw [visit_append]
      have hi : Inside { v with pos := Pos.anEventTag, curTag := [] } := by
        simp only [Inside, hp] at h ⊢
        exact h
      rcases falls_end (down_list _ hi l) with h | ⟨_, h⟩
      · exact .inl h
      · rw [hp]; exact h
theorem down_list (v : V) (h : Inside v) : ∀ l : List J, Down v.env v.pos.level (visit v (tokensL l))
  | [] => .inr ⟨v, rfl, h, rfl, Nat.le_refl _⟩
  | j :: l => by
    simp only [tokensL]
    rw [visit_append]
    refine down_bind (down_value v h j) (fun v' h1 h2 h3 => ?_)
    have := down_list v' h1 l
    rw [h2] at this
    exact down_mono this h3
end

theorem arr_falls (v : V) (h : Inside v) (hp : v.pos ≠ .tagsList) (l : List J) : Falls v.env v.pos.level (visit v (tokens (.arr l))) := by
  simp only [tokens, visit]
  rcases arrBegin_inside h with ⟨-, hb⟩ | ⟨hp', -⟩
  · rw [hb]
    simp only [R.bind]
    rw [visit_append]
    exact falls_end (down_list v h l)
  · exact absurd hp' hp

theorem obj_refused (v : V) (h : Inside v) (l : List (Bytes × J)) : ∃ v', visit v (tokens (.obj l)) = .err v' false := by
  simp only [tokens, visit]
  have : ∃ v', v.on .objBegin = .err v' false := by
    obtain ⟨env, pos, ce, ct, cf, cl, cn⟩ := v
    cases pos <;> simp only [Inside] at h <;> exact ⟨_, rfl⟩
  obtain ⟨v', hv⟩ := this
  rw [hv]
  exact ⟨v', rfl⟩

theorem falls_list {v : V} {n : Nat} {r : R} (hf : Falls v.env n r) (l : List J) : Falls v.env n (r.bind (fun v => visit v (tokensL l))) := by
  rcases hf with ⟨w, h⟩ | ⟨hn, h⟩
  · rw [h]; exact .inl ⟨w, rfl⟩
  · refine .inr ⟨hn, down_bind h (fun w h1 h2 h3 => ?_)⟩
    have := down_list w h1 l
    rw [h2] at this
    exact down_mono this h3

/-- After the end of the surrounding array. -/
theorem falls_close {env : Ptrs} {n : Nat} {r : R} (hf : Falls env (n + 1) r) : Falls env n (r.bind (fun v => visit v [.arrEnd])) := by
  rcases hf with ⟨w, h⟩ | ⟨_, h⟩
  · rw [h]; exact .inl ⟨w, rfl⟩
  · exact falls_end h

theorem falls_zero {env : Ptrs} {r : R} (hf : Falls env 0 r) : ∃ v, r = .err v false := by
  rcases hf with h | ⟨h, _⟩
  · exact h
  · omega

/-! ### Lists of strings -/

/-- What a string does in a list of strings. -/
def V.push (v : V) (s : Bytes) : V := match v.pos with
  | .ids => { v with curFilter := v.curFilter.map (fun f => { f with ids := app f.ids s }) }
  | .authors => { v with curFilter := v.curFilter.map (fun f => { f with authors := app f.authors s }) }
  | .aFilterTag => { v with curList := v.curList ++ [s] }
  | .anEventTag => { v with curTag := v.curTag ++ [s] }
  | _ => v

theorem push_str (v : V) (h : Inside v) (hp : v.pos ∈ [Pos.ids, .authors, .aFilterTag, .anEventTag]) (s : Bytes) :
    v.on (.str s) = .ok (v.push s) ∧ Inside (v.push s) ∧ (v.push s).pos = v.pos ∧ (v.push s).env = v.env := by
  obtain ⟨env, pos, ce, ct, cf, cl, cn⟩ := v
  simp only [List.mem_cons, List.not_mem_nil, or_false] at hp
  rcases hp with rfl | rfl | rfl | rfl <;> simp only [Inside] at h <;> cases ce <;> cases cf <;>
    first | contradiction | exact ⟨rfl, by simp [Inside, V.push], rfl, rfl⟩

theorem strings_list : ∀ (l : List J) (v : V) (_ : Inside v) (_ : v.pos ∈ [Pos.ids, .authors, .aFilterTag, .anEventTag]),
    (∀ ss, stringsOf l = some ss → visit v (tokensL l) = .ok (ss.foldl V.push v)) ∧
    (stringsOf l = none → Falls v.env v.pos.level (visit v (tokensL l)))
  | [], v, h, hp => ⟨fun ss hs => by simp only [stringsOf, Option.some.injEq] at hs; subst hs; rfl, fun hs => by cases hs⟩
  | j :: l, v, h, hp => by
    have bad : stringsOf (j :: l) = none ∨ (∃ s, j = .str s) ∨ (∃ n, j = .int n) := by
      cases j <;> simp [stringsOf]
    rcases bad with hbad | ⟨s, rfl⟩ | ⟨n, rfl⟩
    · refine ⟨fun ss hs => (by rw [hbad] at hs; cases hs), fun _ => ?_⟩
      by_cases hj : (∃ s, j = .str s) ∨ (∃ n, j = .int n)
      · rcases hj with ⟨s, rfl⟩ | ⟨n, rfl⟩
        · obtain ⟨h1, h2, h3, h4⟩ := push_str v h hp s
          have ih := strings_list l (v.push s) h2 (by rw [h3]; exact hp)
          simp only [tokensL, tokens, List.cons_append, List.nil_append, visit, h1, R.bind]
          rw [h3, h4] at ih
          simp only [stringsOf, Option.map_eq_none_iff] at hbad
          exact ih.2 hbad
        · have h1 : v.on (.int n) = .ok v := by
            obtain ⟨env, pos, ce, ct, cf, cl, cn⟩ := v
            simp only [List.mem_cons, List.not_mem_nil, or_false] at hp
            rcases hp with rfl | rfl | rfl | rfl <;> rfl
          have ih := strings_list l v h hp
          simp only [tokensL, tokens, List.cons_append, List.nil_append, visit, h1, R.bind]
          simp only [stringsOf] at hbad
          exact ih.2 hbad
      · simp only [tokensL]
        rw [visit_append]
        apply falls_list (v := v)
        cases j with
        | str s => exact absurd (.inl ⟨s, rfl⟩) hj
        | int n => exact absurd (.inr ⟨n, rfl⟩) hj
        | float => exact .inl ⟨v, rfl⟩
        | null => exact .inl ⟨v, rfl⟩
        | bool b =>
          left
          obtain ⟨env, pos, ce, ct, cf, cl, cn⟩ := v
          simp only [List.mem_cons, List.not_mem_nil, or_false] at hp
          rcases hp with rfl | rfl | rfl | rfl <;> exact ⟨_, rfl⟩
        | obj ms => exact .inl (obj_refused v h ms)
        | arr m => exact arr_falls v h (by intro e; rw [e] at hp; simp at hp) m
    · obtain ⟨h1, h2, h3, h4⟩ := push_str v h hp s
      have ih := strings_list l (v.push s) h2 (by rw [h3]; exact hp)
      simp only [tokensL, tokens, List.cons_append, List.nil_append, visit, h1, R.bind]
      rw [h3, h4] at ih
      simp only [stringsOf, Option.map_eq_none_iff, Option.map_eq_some_iff]
      refine ⟨?_, ih.2⟩
      rintro ss ⟨ss', h5, rfl⟩
      exact ih.1 ss' h5
    · have h1 : v.on (.int n) = .ok v := by
        obtain ⟨env, pos, ce, ct, cf, cl, cn⟩ := v
        simp only [List.mem_cons, List.not_mem_nil, or_false] at hp
        rcases hp with rfl | rfl | rfl | rfl <;> rfl
      have ih := strings_list l v h hp
      simp only [tokensL, tokens, List.cons_append, List.nil_append, visit, h1, R.bind, stringsOf]
      exact ih

theorem push_tag (ss : List Bytes) : ∀ (v : V), v.pos = .anEventTag → ss.foldl V.push v = { v with curTag := v.curTag ++ ss } := by
  induction ss with
  | nil => intro v _; simp
  | cons s ss ih =>
    intro v hp
    rw [List.foldl_cons]
    have : v.push s = { v with curTag := v.curTag ++ [s] } := by unfold V.push; rw [hp]
    rw [this, ih]
    · simp
    · exact hp

theorem push_filterTag (ss : List Bytes) : ∀ (v : V), v.pos = .aFilterTag → ss.foldl V.push v = { v with curList := v.curList ++ ss } := by
  induction ss with
  | nil => intro v _; simp
  | cons s ss ih =>
    intro v hp
    rw [List.foldl_cons]
    have : v.push s = { v with curList := v.curList ++ [s] } := by unfold V.push; rw [hp]
    rw [this, ih]
    · simp
    · exact hp

theorem push_ids (ss : List Bytes) : ∀ (v : V) (f : Filter) (l : List Bytes), v.pos = .ids → v.curFilter = some f → f.ids = some l →
    ss.foldl V.push v = { v with curFilter := some { f with ids := some (l ++ ss) } } := by
  induction ss with
  | nil => intro v f l _ h1 h2; simp [← h2, ← h1]
  | cons s ss ih =>
    intro v f l hp h1 h2
    rw [List.foldl_cons]
    have : v.push s = { v with curFilter := some { f with ids := some (l ++ [s]) } } := by unfold V.push; rw [hp]; simp [h1, app, h2]
    rw [this, ih _ { f with ids := some (l ++ [s]) } (l ++ [s])]
    · simp
    · exact hp
    · rfl
    · rfl

theorem push_authors (ss : List Bytes) : ∀ (v : V) (f : Filter) (l : List Bytes), v.pos = .authors → v.curFilter = some f → f.authors = some l →
    ss.foldl V.push v = { v with curFilter := some { f with authors := some (l ++ ss) } } := by
  induction ss with
  | nil => intro v f l _ h1 h2; simp [← h2, ← h1]
  | cons s ss ih =>
    intro v f l hp h1 h2
    rw [List.foldl_cons]
    have : v.push s = { v with curFilter := some { f with authors := some (l ++ [s]) } } := by unfold V.push; rw [hp]; simp [h1, app, h2]
    rw [this, ih _ { f with authors := some (l ++ [s]) } (l ++ [s])]
    · simp
    · exact hp
    · rfl
    · rfl

theorem ints_list : ∀ (l : List J) (v : V) (f : Filter) (ks : List Int) (_ : v.pos = .kinds) (_ : v.curFilter = some f) (_ : f.kinds = some ks),
    (∀ ns, intsOf l = some ns → visit v (tokensL l) = .ok { v with curFilter := some { f with kinds := some (ks ++ ns) } }) ∧
    (intsOf l = none → Falls v.env 1 (visit v (tokensL l)))
  | [], v, f, ks, hp, hf, hk => by
    refine ⟨fun ns hs => ?_, fun hs => by cases hs⟩
    simp only [intsOf, Option.some.injEq] at hs
    subst hs
    simp [tokensL, visit, ← hk, ← hf]
  | j :: l, v, f, ks, hp, hf, hk => by
    have hi : Inside v := by unfold Inside; rw [hp]; simp [hf]
    cases j with
    | int n =>
      have h1 : v.on (.int n) = .ok { v with curFilter := some { f with kinds := some (ks ++ [n]) } } := by
        simp [V.on, V.onInt, hp, V.onFilter, hf, app, hk]
      have ih := ints_list l { v with curFilter := some { f with kinds := some (ks ++ [n]) } } { f with kinds := some (ks ++ [n]) } (ks ++ [n]) hp rfl rfl
      simp only [tokensL, tokens, List.cons_append, List.nil_append, visit, h1, R.bind, intsOf, Option.map_eq_none_iff, Option.map_eq_some_iff]
      refine ⟨?_, ih.2⟩
      rintro ns ⟨ns', h2, rfl⟩
      rw [ih.1 ns' h2]
      simp
    | str s =>
      refine ⟨fun ns hs => (by cases hs), fun _ => .inl ⟨v, ?_⟩⟩
      simp [tokensL, tokens, visit, V.on, V.onStr, hp, R.bind]
    | float => exact ⟨fun ns hs => (by cases hs), fun _ => .inl ⟨v, rfl⟩⟩
    | null => exact ⟨fun ns hs => (by cases hs), fun _ => .inl ⟨v, rfl⟩⟩
    | bool b =>
      refine ⟨fun ns hs => (by cases hs), fun _ => .inl ⟨v, ?_⟩⟩
      simp [tokensL, tokens, visit, V.on, V.onBool, hp, R.bind]
    | obj ms =>
      refine ⟨fun ns hs => (by cases hs), fun _ => ?_⟩
      simp only [tokensL]
      rw [visit_append]
      exact falls_list (v := v) (.inl (obj_refused v hi ms)) l
    | arr m =>
      refine ⟨fun ns hs => (by cases hs), fun _ => ?_⟩
      simp only [tokensL]
      rw [visit_append]
      have := arr_falls v hi (by rw [hp]; simp) m
      rw [hp] at this
      exact falls_list (v := v) this l

theorem tags_list : ∀ (l : List J) (v : V) (e : Event) (_ : v.pos = .tagsList) (_ : v.curEvent = some e),
    (∀ ts, tagsOf l = some ts → ∃ v', visit v (tokensL l) = .ok v' ∧ v'.env = v.env ∧ v'.pos = .tagsList ∧ v'.curEvent = some { e with tags := e.tags ++ ts }) ∧
    (tagsOf l = none → Falls v.env 1 (visit v (tokensL l)))
  | [], v, e, hp, he => by
    refine ⟨fun ns hs => ?_, fun hs => by cases hs⟩
    simp only [tagsOf, Option.some.injEq] at hs
    subst hs
    exact ⟨v, rfl, rfl, hp, by simp [he]⟩
  | j :: l, v, e, hp, he => by
    have hi : Inside v := by unfold Inside; rw [hp]; simp [he]
    cases j with
    | int n =>
      have h1 : v.on (.int n) = .ok v := by simp [V.on, V.onInt, hp]
      simp only [tokensL, tokens, List.cons_append, List.nil_append, visit, h1, R.bind, tagsOf]
      exact tags_list l v e hp he
    | str s =>
      refine ⟨fun ns hs => (by cases hs), fun _ => .inl ⟨v, ?_⟩⟩
      simp [tokensL, tokens, visit, V.on, V.onStr, hp, R.bind]
    | float => exact ⟨fun ns hs => (by cases hs), fun _ => .inl ⟨v, rfl⟩⟩
    | null => exact ⟨fun ns hs => (by cases hs), fun _ => .inl ⟨v, rfl⟩⟩
    | bool b =>
      refine ⟨fun ns hs => (by cases hs), fun _ => .inl ⟨v, ?_⟩⟩
      simp [tokensL, tokens, visit, V.on, V.onBool, hp, R.bind]
    | obj ms =>
      refine ⟨fun ns hs => (by cases hs), fun _ => ?_⟩
      simp only [tokensL]
      rw [visit_append]
      exact falls_list (v := v) (.inl (obj_refused v hi ms)) l
    | arr t =>
      have hb : v.on .arrBegin = .ok { v with pos := .anEventTag, curTag := [] } := by simp [V.on, V.arrBegin, hp]
      have hi' : Inside { v with pos := .anEventTag, curTag := [] } := by simp [Inside, he]
      have hs := strings_list t { v with pos := .anEventTag, curTag := [] } hi' (by simp)
      simp only [tokensL, tokens, List.cons_append, visit, hb, R.bind]
      rw [visit_append, visit_append]
      cases ht : stringsOf t with
      | none =>
        refine ⟨fun ts h => (by simp [tagsOf, ht] at h), fun _ => ?_⟩
        have h1 := falls_close (n := 1) (hs.2 ht)
        have h2 := falls_list (v := { v with pos := .anEventTag, curTag := [] }) h1 l
        exact h2
      | some ss =>
        rw [hs.1 ss ht, push_tag _ _ rfl]
        simp only [R.bind, visit]
        have hend : ({ v with pos := Pos.anEventTag, curTag := [] ++ ss } : V).on .arrEnd =
            .ok { v with pos := .tagsList, curTag := ss, curEvent := some { e with tags := e.tags ++ [ss] } } := by
          simp [V.on, V.arrEnd, V.onEvent, he]
        rw [hend]
        have ih := tags_list l { v with pos := .tagsList, curTag := ss, curEvent := some { e with tags := e.tags ++ [ss] } } { e with tags := e.tags ++ [ss] } rfl rfl
        refine ⟨fun ts h => ?_, fun h => ?_⟩
        · simp only [tagsOf, ht] at h
          cases hl : tagsOf l with
          | none => rw [hl] at h; cases h
          | some ts' =>
            rw [hl] at h
            simp only [Option.some.injEq] at h
            subst h
            obtain ⟨v', h1, h2, h3, h4⟩ := ih.1 ts' hl
            exact ⟨v', h1, h2, h3, by rw [h4]; simp⟩
        · simp only [tagsOf, ht] at h
          cases hl : tagsOf l with
          | none => exact ih.2 hl
          | some ts' => rw [hl] at h; cases h

/-! ### Members -/

/-- Not where a key or the end of the object may come. -/
def Stuck (v : V) : Prop := v.pos ∈ [Pos.id, .sig, .pubkey, .content, .createdAt, .kind, .tags, .limit, .since, .«until», .search, .ids, .authors, .kinds, .aFilterTag]

theorem stuck_key {v : V} (h : Stuck v) (k : Bytes) : v.on (.key k) = .err v false := by
  obtain ⟨env, pos, ce, ct, cf, cl, cn⟩ := v
  unfold Stuck at h
  simp only [List.mem_cons, List.not_mem_nil, or_false] at h
  rcases h with rfl | rfl | rfl | rfl | rfl | rfl | rfl | rfl | rfl | rfl | rfl | rfl | rfl | rfl | rfl <;> rfl

theorem stuck_end {v : V} (h : Stuck v) : v.on .objEnd = .err v false := by
  obtain ⟨env, pos, ce, ct, cf, cl, cn⟩ := v
  unfold Stuck at h
  simp only [List.mem_cons, List.not_mem_nil, or_false] at h
  rcases h with rfl | rfl | rfl | rfl | rfl | rfl | rfl | rfl | rfl | rfl | rfl | rfl | rfl | rfl | rfl <;> rfl

/-- Refused, at once or at the next token. -/
def Refused (r : R) : Prop := (∃ v, r = .err v false) ∨ ∃ v, r = .ok v ∧ Stuck v

/-- From a position that waits for one string or one number of the event. -/
theorem scalar_value (v : V) (hi : Inside v) (hl : v.pos.level = 0) (hs : Stuck v) (j : J) (hstr : ∀ s, j ≠ .str s) (hint : ∀ n, j ≠ .int n) : ∃ v', visit v (tokens j) = .err v' false := by
  cases j with
  | str s => exact absurd rfl (hstr s)
  | int n => exact absurd rfl (hint n)
  | float => exact ⟨v, rfl⟩
  | null => exact ⟨v, rfl⟩
  | bool b =>
    refine ⟨v, ?_⟩
    have : v.pos ≠ .ok := by intro e; unfold Stuck at hs; rw [e] at hs; simp at hs
    simp only [tokens, visit, V.on, V.onBool]
    rfl
  | obj ms => exact obj_refused v hi ms
  | arr m =>
    have h := arr_falls v hi (by intro e; rw [e] at hl; cases hl) m
    rw [hl] at h
    exact falls_zero h

end GoNostr.Json.Sonic
