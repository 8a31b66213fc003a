import Verif.Sdk.Keys
import Mathlib.Data.List.Nodup
/-!
# C179: a system has what it was configured with (sdk/system.go)

`NewSystem` with its modifiers, the rotations of relays it sets up as the loaders use them, and `Close`. The databases are handles: what they do is in C71, C106, C37, C73, C175. That `Close` of the pool ends
its subscriptions is in the models of the pool.
-/

set_option autoImplicit false

namespace GoNostr.SdkSystem

open GoNostr.Sdk (next nexts)
open GoNostr.SdkKeys (fill fill_spec)

/-! ## Model -/

/-- A database or a cache: one `NewSystem` makes itself, or one that was handed to it. -/
inductive Obj
  | builtin
  | given (n : Nat)
  deriving DecidableEq, Repr

/-- The fields of `System` that can be configured (sdk/system.go:29-58); `none` is nil. `closed`: the key-value stores on which `Close` was called, in order. -/
structure Sys where
  kv : Option Obj
  hints : Option Obj
  store : Option Obj
  metadataCache : Option Obj
  relayListCache : Option Obj
  followListCache : Option Obj
  relayList : List Bytes
  follow : List Bytes
  metadata : List Bytes
  fallback : List Bytes
  justId : List Bytes
  userSearch : List Bytes
  noteSearch : List Bytes
  closed : List Obj
  deriving DecidableEq, Repr

/-- The modifiers (sdk/system.go:162-253). -/
inductive Mod
  | hints (o : Option Obj)
  | relayList (l : List Bytes)
  | metadata (l : List Bytes)
  | follow (l : List Bytes)
  | fallback (l : List Bytes)
  | justId (l : List Bytes)
  | userSearch (l : List Bytes)
  | noteSearch (l : List Bytes)
  | store (o : Option Obj)
  | relayListCache (o : Option Obj)
  | followListCache (o : Option Obj)
  | metadataCache (o : Option Obj)
  | kv (o : Option Obj)
  deriving DecidableEq, Repr

/-- What the modifiers do (sdk/system.go:162-253); only `WithKVStore` closes what it replaces (246-253). -/
def apply (s : Sys) : Mod → Sys
  | .hints o => { s with hints := o }
  | .relayList l => { s with relayList := l }
  | .metadata l => { s with metadata := l }
  | .follow l => { s with follow := l }
  | .fallback l => { s with fallback := l }
  | .justId l => { s with justId := l }
  | .userSearch l => { s with userSearch := l }
  | .noteSearch l => { s with noteSearch := l }
  | .store o => { s with store := o }
  | .relayListCache o => { s with relayListCache := o }
  | .followListCache o => { s with followListCache := o }
  | .metadataCache o => { s with metadataCache := o }
  | .kv o => { s with kv := o, closed := s.closed ++ s.kv.toList }

/-- The three relays for lists (sdk/system.go:93-95). -/
def profileRelays : List Bytes := [b! "wss://purplepag.es", b! "wss://user.kindpag.es", b! "wss://relay.nos.social"]

/-- The system before the modifiers (sdk/system.go:90-126). -/
def initial : Sys where
  kv := some .builtin
  hints := some .builtin
  store := none
  metadataCache := none
  relayListCache := none
  followListCache := none
  relayList := profileRelays
  follow := profileRelays
  metadata := profileRelays
  fallback := [b! "wss://offchain.pub", b! "wss://no.str.cr", b! "wss://relay.damus.io", b! "wss://nostr.mom", b! "wss://nos.lol", b! "wss://relay.mostr.pub", b! "wss://nostr.land"]
  justId := [b! "wss://cache2.primal.net/v1", b! "wss://relay.nostr.band"]
  userSearch := [b! "wss://search.nos.today", b! "wss://nostr.wine", b! "wss://relay.nostr.band"]
  noteSearch := [b! "wss://nostr.wine", b! "wss://relay.nostr.band", b! "wss://search.nos.today"]
  closed := []

/-- `NewSystem` (sdk/system.go:89-149): the modifiers in order, then the defaults for what is still nil. -/
def newSystem (mods : List Mod) : Sys :=
  let s := mods.foldl apply initial
  { s with metadataCache := s.metadataCache.or (some .builtin), relayListCache := s.relayListCache.or (some .builtin), store := s.store.or (some .builtin) }

/-- What can be released. -/
inductive Res
  | kv (o : Obj)
  | pool
  | store (o : Obj)
  | hints (o : Obj)
  deriving DecidableEq, Repr

/-- `System.Close` (sdk/system.go:152-159): what it closes. -/
def close (s : Sys) : List Res := s.kv.toList.map Res.kv ++ [.pool]

/-- The rotation asked for a kind (sdk/replaceable_loader.go:170-179). -/
def streamFor (s : Sys) (kind : Int) : List Bytes :=
  if kind = 0 then s.metadata else if kind = 3 then s.follow else if kind = 10002 then s.relayList else s.fallback

/-- sdk/replaceable_loader.go:167-186: the relays asked for events of a kind, given the user's own and where the rotation stands. -/
def relaysFor (s : Sys) (serial : Int) (own : List Bytes) (kind : Int) : Out (List Bytes) :=
  match nexts (streamFor s kind) serial (3 - own.length) with
  | .val us => .val (fill own us)
  | .panic => .panic

/-! ## Specification -/

/-- The value of the last modifier that sets something, or else the default. -/
def lastSet {α : Type} (sets : Mod → Option α) (mods : List Mod) (default : α) : α := (mods.filterMap sets).getLast?.getD default

/-- The key-value stores given, in order. -/
def kvGiven (mods : List Mod) : List (Option Obj) := mods.filterMap (fun m => match m with | .kv o => some o | _ => none)

/-- The relays a modifier gives for a kind: those for profiles (kind 0), follow lists (3), relay lists (10002) and everything else. -/
def givenFor (kind : Int) (m : Mod) : Option (List Bytes) := match m with
  | .metadata x => if kind = 0 then some x else none
  | .follow x => if kind = 3 then some x else none
  | .relayList x => if kind = 10002 then some x else none
  | .fallback x => if kind = 0 ∨ kind = 3 ∨ kind = 10002 then none else some x
  | _ => none

/-! ## Theorems -/

theorem fold_lastSet {α : Type} (proj : Sys → α) (sets : Mod → Option α) (h : ∀ s m, proj (apply s m) = (sets m).getD (proj s)) :
    ∀ (mods : List Mod) (s : Sys), proj (mods.foldl apply s) = lastSet sets mods (proj s)
  | [], _ => rfl
  | m :: rest, s => by
    rw [List.foldl_cons, fold_lastSet proj sets h rest, h]
    unfold lastSet
    rw [List.filterMap_cons]
    cases hm : sets m with
    | none => rfl
    | some a =>
      simp only [Option.getD_some, List.getLast?_cons]

/-- **C179: the last word counts.** Whatever modifiers are given, in whatever order and however often, every database, cache and list of relays of the system is the one of the last modifier that sets it;
without any it is the documented default; a nil store, metadata cache or relay list cache becomes one in memory, and the follow list cache is left nil for the first use to make (sdk/lists_profile.go:21-23). -/
theorem C179_configured (mods : List Mod) :
    (newSystem mods).kv = lastSet (fun m => match m with | .kv o => some o | _ => none) mods (some .builtin) ∧
    (newSystem mods).hints = lastSet (fun m => match m with | .hints o => some o | _ => none) mods (some .builtin) ∧
    (newSystem mods).store = some ((lastSet (fun m => match m with | .store o => some o | _ => none) mods none).getD .builtin) ∧
    (newSystem mods).metadataCache = some ((lastSet (fun m => match m with | .metadataCache o => some o | _ => none) mods none).getD .builtin) ∧
    (newSystem mods).relayListCache = some ((lastSet (fun m => match m with | .relayListCache o => some o | _ => none) mods none).getD .builtin) ∧
    (newSystem mods).followListCache = lastSet (fun m => match m with | .followListCache o => some o | _ => none) mods none ∧
    (newSystem mods).relayList = lastSet (fun m => match m with | .relayList l => some l | _ => none) mods [b! "wss://purplepag.es", b! "wss://user.kindpag.es", b! "wss://relay.nos.social"] ∧
    (newSystem mods).follow = lastSet (fun m => match m with | .follow l => some l | _ => none) mods [b! "wss://purplepag.es", b! "wss://user.kindpag.es", b! "wss://relay.nos.social"] ∧
    (newSystem mods).metadata = lastSet (fun m => match m with | .metadata l => some l | _ => none) mods [b! "wss://purplepag.es", b! "wss://user.kindpag.es", b! "wss://relay.nos.social"] ∧
    (newSystem mods).fallback = lastSet (fun m => match m with | .fallback l => some l | _ => none) mods
      [b! "wss://offchain.pub", b! "wss://no.str.cr", b! "wss://relay.damus.io", b! "wss://nostr.mom", b! "wss://nos.lol", b! "wss://relay.mostr.pub", b! "wss://nostr.land"] ∧
    (newSystem mods).justId = lastSet (fun m => match m with | .justId l => some l | _ => none) mods [b! "wss://cache2.primal.net/v1", b! "wss://relay.nostr.band"] ∧
    (newSystem mods).userSearch = lastSet (fun m => match m with | .userSearch l => some l | _ => none) mods [b! "wss://search.nos.today", b! "wss://nostr.wine", b! "wss://relay.nostr.band"] ∧
    (newSystem mods).noteSearch = lastSet (fun m => match m with | .noteSearch l => some l | _ => none) mods [b! "wss://nostr.wine", b! "wss://relay.nostr.band", b! "wss://search.nos.today"] := by
  have orSome : ∀ o : Option Obj, o.or (some .builtin) = some (o.getD .builtin) := by intro o; cases o <;> rfl
  refine ⟨?_, ?_, ?_, ?_, ?_, ?_, ?_, ?_, ?_, ?_, ?_, ?_, ?_⟩
  · exact fold_lastSet Sys.kv _ (by intro s m; cases m <;> rfl) mods initial
  · exact fold_lastSet Sys.hints _ (by intro s m; cases m <;> rfl) mods initial
  · exact (orSome _).trans (by rw [fold_lastSet Sys.store (fun m => match m with | .store o => some o | _ => none) (by intro s m; cases m <;> rfl) mods initial]; rfl)
  · exact (orSome _).trans (by rw [fold_lastSet Sys.metadataCache (fun m => match m with | .metadataCache o => some o | _ => none) (by intro s m; cases m <;> rfl) mods initial]; rfl)
  · exact (orSome _).trans (by rw [fold_lastSet Sys.relayListCache (fun m => match m with | .relayListCache o => some o | _ => none) (by intro s m; cases m <;> rfl) mods initial]; rfl)
  · exact fold_lastSet Sys.followListCache _ (by intro s m; cases m <;> rfl) mods initial
  · exact fold_lastSet Sys.relayList _ (by intro s m; cases m <;> rfl) mods initial
  · exact fold_lastSet Sys.follow _ (by intro s m; cases m <;> rfl) mods initial
  · exact fold_lastSet Sys.metadata _ (by intro s m; cases m <;> rfl) mods initial
  · exact fold_lastSet Sys.fallback _ (by intro s m; cases m <;> rfl) mods initial
  · exact fold_lastSet Sys.justId _ (by intro s m; cases m <;> rfl) mods initial
  · exact fold_lastSet Sys.userSearch _ (by intro s m; cases m <;> rfl) mods initial
  · exact fold_lastSet Sys.noteSearch _ (by intro s m; cases m <;> rfl) mods initial

example : (newSystem [.metadata [b! "wss://a"], .store (some (.given 1)), .metadata [b! "wss://b"], .metadataCache none]).metadata = [b! "wss://b"] ∧
    (newSystem [.metadata [b! "wss://a"], .store (some (.given 1)), .metadata [b! "wss://b"], .metadataCache none]).store = some (.given 1) := by decide +kernel

theorem closed_fold : ∀ (mods : List Mod) (s : Sys), (mods.foldl apply s).closed ++ (mods.foldl apply s).kv.toList = s.closed ++ s.kv.toList ++ (kvGiven mods).filterMap id
  | [], s => by simp [kvGiven]
  | m :: rest, s => by
    rw [List.foldl_cons, closed_fold rest]
    cases m <;> simp [apply, kvGiven, List.filterMap_cons]
    rename_i o
    cases o <;> simp

/-- **C179: every key-value store is closed once.** After `Close` the key-value stores that were closed are exactly the one the system made and those it was given, each as often as it was given, in that order; the
last one by `Close`, the others when they were replaced. -/
theorem C179_kv_closed (mods : List Mod) : ((newSystem mods).closed.map Res.kv ++ close (newSystem mods)) = (Obj.builtin :: (kvGiven mods).filterMap id).map Res.kv ++ [.pool] := by
  have h := closed_fold mods initial
  show (mods.foldl apply initial).closed.map Res.kv ++ ((mods.foldl apply initial).kv.toList.map Res.kv ++ [.pool]) = _
  rw [← List.append_assoc, ← List.map_append, h]
  simp [initial]

/-- **C179: the store in use is open** (partial). Unless one store is given twice, the key-value store of the new system has not been closed. Missing: see `C179_twice`. -/
theorem C179_in_use_open_partial (mods : List Mod) (hn : (Obj.builtin :: (kvGiven mods).filterMap id).Nodup) (o : Obj) (ho : (newSystem mods).kv = some o) : o ∉ (newSystem mods).closed := by
  have h := closed_fold mods initial
  have h2 : (mods.foldl apply initial).kv = some o := ho
  rw [h2] at h
  have h3 : (mods.foldl apply initial).closed ++ [o] = Obj.builtin :: (kvGiven mods).filterMap id := by simpa [initial] using h
  rw [← h3, List.nodup_append] at hn
  exact fun hm => hn.2.2 o hm o (by simp) rfl

example : (Obj.builtin :: (kvGiven [.kv (some (.given 1)), .hints none, .kv (some (.given 2))]).filterMap id).Nodup ∧
    (newSystem [.kv (some (.given 1)), .hints none, .kv (some (.given 2))]).kv = some (.given 2) ∧ (newSystem [.kv (some (.given 1)), .hints none, .kv (some (.given 2))]).closed = [.builtin, .given 1] := by
  decide +kernel

/-- **C179 is false: the same store twice.** A store that is given again is closed and kept in use. -/
theorem C179_twice (mods : List Mod) (o : Obj) : (newSystem (mods ++ [.kv (some o), .kv (some o)])).kv = some o ∧ o ∈ (newSystem (mods ++ [.kv (some o), .kv (some o)])).closed := by
  constructor
  · simp [newSystem, apply]
  · simp [newSystem, apply]

/-- **C179 is false: `Close` does not release everything.** Whatever event store and database of hints the system has, its `Close` closes neither. -/
theorem C179_close_leaks (mods : List Mod) (o : Obj) : Res.store o ∉ close (newSystem mods) ∧ Res.hints o ∉ close (newSystem mods) ∧ Res.pool ∈ close (newSystem mods) ∧
    ∀ k, Res.kv k ∈ close (newSystem mods) ↔ (newSystem mods).kv = some k := by
  simp [close]

/-- **C179: the relays configured are the relays asked** (partial). For profiles, follow lists, relay lists and everything else, the relays asked beyond the user's own are of the list last given for that
kind, never of another list; if it has three different relays, none of them the user's, three are asked. Missing: the counter's overflow (C80) and empty lists, see `C179_empty`. -/
theorem C179_relays_partial (mods : List Mod) (kind : Int) (serial : Nat) (own l : List Bytes) (hs : serial + 3 < 2 ^ 63) (hl : l ≠ [])
    (hset : l = lastSet (givenFor kind) mods (if kind = 0 ∨ kind = 3 ∨ kind = 10002 then [b! "wss://purplepag.es", b! "wss://user.kindpag.es", b! "wss://relay.nos.social"] else
      [b! "wss://offchain.pub", b! "wss://no.str.cr", b! "wss://relay.damus.io", b! "wss://nostr.mom", b! "wss://nos.lol", b! "wss://relay.mostr.pub", b! "wss://nostr.land"])) :
    ∃ new, relaysFor (newSystem mods) serial own kind = .val (own ++ new) ∧ (∀ u ∈ new, u ∈ l ∧ u ∉ own) ∧ new.Nodup ∧ new.length ≤ 3 - own.length ∧
      (3 ≤ l.length → l.Nodup → (∀ u ∈ l, u ∉ own) → new.length = 3 - own.length) := by
  have hst : streamFor (newSystem mods) kind = l := by
    rw [hset]
    obtain ⟨-, -, -, -, -, -, h1, h2, h3, h4, -⟩ := C179_configured mods
    unfold streamFor
    by_cases k0 : kind = 0
    · subst k0
      rw [if_pos rfl, h3, if_pos (by simp)]
      unfold lastSet
      congr 3
      funext m
      cases m <;> rfl
    · rw [if_neg k0]
      by_cases k3 : kind = 3
      · subst k3
        rw [if_pos rfl, h2, if_pos (by simp)]
        unfold lastSet
        congr 3
        funext m
        cases m <;> rfl
      · rw [if_neg k3]
        by_cases k1 : kind = 10002
        · subst k1
          rw [if_pos rfl, h1, if_pos (by simp)]
          unfold lastSet
          congr 3
          funext m
          cases m <;> rfl
        · rw [if_neg k1, h4, if_neg (by simp [k0, k3, k1])]
          unfold lastSet
          congr 3
          funext m
          cases m <;> simp [givenFor, k0, k3, k1]
  have hv := Sdk.nexts_val l hl (3 - own.length) serial (by omega)
  obtain ⟨new, e1, e2, e3, e4, -, e6⟩ := fill_spec ((List.range (3 - own.length)).map (fun i => l[(serial + 1 + i) % l.length]'(Nat.mod_lt _ (List.length_pos_iff.2 hl)))) own
  refine ⟨new, ?_, ?_, e2, by simpa using e4, ?_⟩
  · unfold relaysFor
    rw [hst, hv]
    simp only [e1]
  · intro u hu
    obtain ⟨h1, h2⟩ := e3 u hu
    refine ⟨?_, h2⟩
    simp only [List.mem_map] at h1
    obtain ⟨i, -, rfl⟩ := h1
    exact List.getElem_mem _
  · intro h3 hn hd
    rw [e6 ?_ ?_]
    · simp
    · unfold List.Nodup
      rw [List.pairwise_map]
      refine List.Pairwise.imp_of_mem ?_ (List.nodup_range (n := 3 - own.length))
      intro a b ha hb hab he
      rw [List.mem_range] at ha hb
      have hmod := hn.getElem_inj_iff.1 he
      have d1 : (serial + 1 + a) % l.length = (serial + 1 + b) % l.length := hmod
      rcases Nat.lt_or_ge a b with h | h
      · have := Nat.sub_mod_eq_zero_of_mod_eq d1.symm
        have e : serial + 1 + b - (serial + 1 + a) = b - a := by omega
        rw [e, Nat.mod_eq_of_lt (by omega)] at this
        omega
      · have := Nat.sub_mod_eq_zero_of_mod_eq d1
        have e : serial + 1 + a - (serial + 1 + b) = a - b := by omega
        rw [e, Nat.mod_eq_of_lt (by omega)] at this
        omega
    · intro d hd'
      simp only [List.mem_map] at hd'
      obtain ⟨i, -, rfl⟩ := hd'
      exact hd _ (List.getElem_mem _)

example : relaysFor (newSystem [.metadata [b! "wss://a", b! "wss://b", b! "wss://c"], .fallback [b! "wss://f"]]) 7 [b! "wss://own"] 0 = .val [b! "wss://own", b! "wss://c", b! "wss://a"] ∧
    relaysFor (newSystem [.metadata [b! "wss://a", b! "wss://b", b! "wss://c"], .fallback [b! "wss://f"]]) 7 [] 10000 = .val [b! "wss://f"] := by decide +kernel

/-- **C179 is false: no relays.** A program that wants no extra relays and gives an empty list panics when a user with fewer than three own relays is looked for. -/
theorem C179_empty (mods : List Mod) (serial : Int) (own : List Bytes) (ho : own.length < 3) : relaysFor (newSystem (mods ++ [.metadata []])) serial own 0 = .panic := by
  have h : streamFor (newSystem (mods ++ [.metadata []])) 0 = [] := by simp [streamFor, newSystem, apply]
  unfold relaysFor
  rw [h]
  obtain ⟨n, hn⟩ : ∃ n, 3 - own.length = n + 1 := ⟨2 - own.length, by omega⟩
  rw [hn]
  rfl

end GoNostr.SdkSystem
