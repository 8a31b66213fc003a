import Verif.Sdk.Store
import Verif.Nip19.Theorems
/-!
# sdk/metadata.go: profiles, fetched again and again

A machine over calls. The JSON parser is a parameter (it yields the fields it could read, and whether the content was
valid); the local event store keeps one kind 0 event per user, by a rule that is a parameter too; the network loader's
answers are part of the history.
-/

set_option autoImplicit false

namespace GoNostr.Sdk

/-- `ProfileMetadata` (metadata.go:16-32) without the NIP-05 state; `α` is what the JSON parser yields. -/
structure Profile (α : Type) where
  pubkey : Bytes
  event : Option Event
  fields : α

/-- The parameters: the JSON parser (with what it read before an error), the empty fields, how the local store replaces a
user's kind 0 event. -/
structure ProfileEnv (α : Type) where
  parse : Bytes → α × Bool
  blank : α
  put : Option Event → Event → Event

/-- The in-memory cache (by slot, see C81), the local store, the times of the last network fetch. -/
structure ProfileState (α : Type) where
  cache : Nat → Option (Profile α)
  store : Bytes → Option Event
  last : Bytes → Option Int

/-- What a call is given by its surroundings: the clock, the loader's answer, and whether the cache takes up the two
writes it may be given (ristretto may refuse). -/
structure Given where
  now : Int
  network : Option Event
  taken1 : Bool
  taken2 : Bool

/-- `MetadataCache.SetWithTTL` (sdk/metadata.go:137, 151, 170): the cache may drop it. -/
def setCache {α : Type} (s : ProfileState α) (taken : Bool) (pk : Bytes) (p : Profile α) : ProfileState α :=
  if taken then { s with cache := fun h => if h = shortUint64 pk then some p else s.cache h } else s

/-- `StoreRelay.Publish` of a kind 0 event. -/
def publish {α : Type} (env : ProfileEnv α) (s : ProfileState α) (e : Event) : ProfileState α :=
  { s with store := fun k => if k = e.pubkey then some (env.put (s.store k) e) else s.store k }

/-- Recording the time of the last attempt (sdk/metadata.go:133, 147). -/
def setLast {α : Type} (s : ProfileState α) (pk : Bytes) (now : Int) : ProfileState α :=
  { s with last := fun k => if k = pk then some now else s.last k }

/-- `ParseMetadata` (metadata.go:176-190): for another kind nothing is parsed. The second part is `err == nil`. -/
def parseMetadata {α : Type} (env : ProfileEnv α) (e : Event) : Profile α × Bool :=
  if e.kind ≠ 0 then (⟨e.pubkey, some e, env.blank⟩, false)
  else (⟨e.pubkey, some e, (env.parse e.content).1⟩, (env.parse e.content).2)

/-- `tryFetchMetadataFromNetwork` (metadata.go:156-172). -/
def tryNetwork {α : Type} (env : ProfileEnv α) (s : ProfileState α) (pk : Bytes) (g : Given) : ProfileState α × Option (Profile α) :=
  match g.network with
  | none => (s, none)
  | some e =>
    match parseMetadata env e with
    | (_, false) => (s, none)
    | (p, true) =>
      let p := { p with pubkey := pk, event := some e }
      (setCache (publish env s e) g.taken1 pk p, some p)

/-- metadata.go:125, on the stored four bytes. -/
def profileStale (last : Option Int) (now : Int) : Bool :=
  match last with
  | none => true
  | some t => decide (now - t % 4294967296 > 7 * 24 * 60 * 60)

/-- metadata.go:127-129. -/
def preferNewer {α : Type} (localEv : Event) (p : Profile α) : Option (Profile α) → Profile α
  | none => p
  | some n => match n.event with
    | some ne => if ne.createdAt > localEv.createdAt then n else p
    | none => p

/-- `FetchProfileMetadata` (metadata.go:108-154). Keys longer than 64 characters, for which `makeLastFetchKey` panics, are left out. -/
def fetchProfile {α : Type} (env : ProfileEnv α) (s : ProfileState α) (pk : Bytes) (g : Given) : ProfileState α × Profile α :=
  match s.cache (shortUint64 pk) with
  | some v => (s, v)
  | none =>
    match s.store pk with
    | some e =>
      let p : Profile α := { (parseMetadata env e).1 with pubkey := pk, event := some e }
      if profileStale (s.last pk) g.now then
        let r := tryNetwork env s pk g
        let p' := preferNewer e p r.2
        (setCache (setLast r.1 pk g.now) g.taken2 pk p', p')
      else (setCache s g.taken2 pk p, p)
    | none =>
      match tryNetwork env s pk g with
      | (s', some n) => (setCache (setLast s' pk g.now) g.taken2 pk n, n)
      | (s', none) => (setCache s' g.taken2 pk ⟨pk, none, env.blank⟩, ⟨pk, none, env.blank⟩)

/-- What may happen: a profile is fetched, a kind 0 event reaches the local store some other way, a cache entry expires. -/
inductive ProfileOp
  | fetch (pk : Bytes) (g : Given)
  | saved (e : Event)
  | expired (h : Nat)

/-- One operation and what a fetch returned. -/
def profileStep {α : Type} (env : ProfileEnv α) (s : ProfileState α) : ProfileOp → ProfileState α × Option (Bytes × Profile α)
  | .fetch pk g => let r := fetchProfile env s pk g
    (r.1, some (pk, r.2))
  | .saved e => (publish env s e, none)
  | .expired h => ({ s with cache := fun k => if k = h then none else s.cache k }, none)

/-- A schedule: the actions one after the other. -/
def profileRun {α : Type} (env : ProfileEnv α) (s : ProfileState α) : List ProfileOp → ProfileState α × List (Bytes × Profile α)
  | [] => (s, [])
  | o :: os =>
    let r := profileStep env s o
    let q := profileRun env r.1 os
    (q.1, r.2.toList ++ q.2)

/-- A fresh system. -/
def ProfileState.fresh {α : Type} : ProfileState α := ⟨fun _ => none, fun _ => none, fun _ => none⟩

/-! ## C114 -/

/-- Spec: the store keeps one of the two events it has to choose from, never the older one. -/
def ProfileEnv.Keeps {α : Type} (env : ProfileEnv α) : Prop := ∀ o e,
  (env.put o e = e ∨ o = some (env.put o e)) ∧ e.createdAt ≤ (env.put o e).createdAt ∧ ∀ x, o = some x → x.createdAt ≤ (env.put o e).createdAt

/-- Spec: only kind 0 events are saved, and the loader answers with kind 0 events of the user asked for (C75). -/
def ProfileOp.Fine : ProfileOp → Prop
  | .fetch pk g => (∀ e, g.network = some e → e.kind = 0 ∧ e.pubkey = pk) ∧ (g.taken1 = true → g.taken2 = true)
  | .saved e => e.kind = 0
  | .expired _ => True

/-- The users a history asks about. -/
def asked : List ProfileOp → List Bytes
  | [] => []
  | .fetch pk _ :: os => pk :: asked os
  | _ :: os => asked os

/-- Spec: no two of the users share their last four bytes. -/
def Apart (l : List Bytes) : Prop := ∀ a ∈ l, ∀ b ∈ l, shortUint64 a = shortUint64 b → a = b

/-- Spec: a profile says what it should about a user. -/
def Profile.About {α : Type} (env : ProfileEnv α) (p : Profile α) (pk : Bytes) : Prop :=
  p.pubkey = pk ∧ (∀ e, p.event = some e → e.kind = 0 ∧ e.pubkey = pk ∧ p.fields = (env.parse e.content).1) ∧ (p.event = none → p.fields = env.blank)

/-- What holds between operations, for the users in `l`. -/
structure ProfileInv {α : Type} (env : ProfileEnv α) (l : List Bytes) (s : ProfileState α) : Prop where
  stored : ∀ k e, s.store k = some e → e.kind = 0 ∧ e.pubkey = k
  cached : ∀ pk ∈ l, ∀ p, s.cache (shortUint64 pk) = some p → p.About env pk ∧
    ∀ e, p.event = some e → ∃ w, s.store pk = some w ∧ e.createdAt ≤ w.createdAt

theorem publish_store {α : Type} {env : ProfileEnv α} (hk : env.Keeps) (s : ProfileState α) (e : Event) :
    (∀ k w, s.store k = some w → ∃ w', (publish env s e).store k = some w' ∧ w.createdAt ≤ w'.createdAt) ∧
    (∃ w, (publish env s e).store e.pubkey = some w ∧ e.createdAt ≤ w.createdAt) := by
  constructor
  · intro k w hw
    simp only [publish]
    by_cases h : k = e.pubkey
    · rw [if_pos h]
      exact ⟨_, rfl, (hk _ _).2.2 w hw⟩
    · rw [if_neg h]
      exact ⟨w, hw, Int.le_refl _⟩
  · simp only [publish, if_true]
    exact ⟨_, rfl, (hk _ _).2.1⟩

theorem publish_inv {α : Type} {env : ProfileEnv α} (hk : env.Keeps) {l : List Bytes} {s : ProfileState α} (h : ProfileInv env l s) {e : Event}
    (he : e.kind = 0) : ProfileInv env l (publish env s e) := by
  refine ⟨?_, ?_⟩
  · intro k w hw
    simp only [publish] at hw
    by_cases hke : k = e.pubkey
    · rw [if_pos hke] at hw
      injection hw with hw
      rcases (hk (s.store k) e).1 with h1 | h1
      · rw [hw] at h1; rw [h1]; exact ⟨he, hke.symm⟩
      · rw [hw] at h1; exact h.stored k w h1
    · rw [if_neg hke] at hw
      exact h.stored k w hw
  · intro pk hpk p hp
    obtain ⟨h1, h2⟩ := h.cached pk hpk p hp
    refine ⟨h1, fun x hx => ?_⟩
    obtain ⟨w, hw, hle⟩ := h2 x hx
    obtain ⟨w', hw', hle'⟩ := (publish_store hk s e).1 pk w hw
    exact ⟨w', hw', by omega⟩

theorem setCache_inv {α : Type} {env : ProfileEnv α} {l : List Bytes} (ha : Apart l) {s : ProfileState α} (h : ProfileInv env l s) {pk : Bytes} (hpk : pk ∈ l)
    {p : Profile α} (hp : p.About env pk) (hle : ∀ e, p.event = some e → ∃ w, s.store pk = some w ∧ e.createdAt ≤ w.createdAt) (b : Bool) :
    ProfileInv env l (setCache s b pk p) := by
  unfold setCache
  split
  · refine ⟨h.stored, ?_⟩
    intro q hq r hr
    simp only at hr
    by_cases hs : shortUint64 q = shortUint64 pk
    · rw [if_pos hs] at hr
      injection hr with hr
      have := ha q hq pk hpk hs
      subst this
      subst hr
      exact ⟨hp, hle⟩
    · rw [if_neg hs] at hr
      exact h.cached q hq r hr
  · exact h

theorem setLast_inv {α : Type} {env : ProfileEnv α} {l : List Bytes} {s : ProfileState α} (h : ProfileInv env l s) (pk : Bytes) (now : Int) :
    ProfileInv env l (setLast s pk now) := ⟨h.stored, h.cached⟩

/-- What a network fetch does. -/
theorem tryNetwork_spec {α : Type} {env : ProfileEnv α} (hk : env.Keeps) {l : List Bytes} (ha : Apart l) {s : ProfileState α} (h : ProfileInv env l s)
    {pk : Bytes} (hpk : pk ∈ l) (g : Given) (hg : ∀ e, g.network = some e → e.kind = 0 ∧ e.pubkey = pk) :
    ProfileInv env l (tryNetwork env s pk g).1 ∧
    (∀ k w, s.store k = some w → ∃ w', (tryNetwork env s pk g).1.store k = some w' ∧ w.createdAt ≤ w'.createdAt) ∧
    (∀ n, (tryNetwork env s pk g).2 = some n → n.About env pk ∧ ∃ e, n.event = some e ∧ g.network = some e ∧
      ∃ w, (tryNetwork env s pk g).1.store pk = some w ∧ e.createdAt ≤ w.createdAt) ∧
    (∀ e, g.network = some e → (env.parse e.content).2 = true → ∃ n, (tryNetwork env s pk g).2 = some n ∧ n.event = some e) := by
  unfold tryNetwork
  cases hn : g.network with
  | none => exact ⟨h, fun k w hw => ⟨w, hw, Int.le_refl _⟩, by simp, by simp⟩
  | some e =>
    obtain ⟨he0, hepk⟩ := hg e hn
    have hpm : parseMetadata env e = (⟨e.pubkey, some e, (env.parse e.content).1⟩, (env.parse e.content).2) := by
      unfold parseMetadata; rw [if_neg (by simp [he0])]
    cases hv : (env.parse e.content).2 with
    | false =>
      simp only [hpm, hv]
      exact ⟨h, fun k w hw => ⟨w, hw, Int.le_refl _⟩, by simp, fun x hx => by simp only [Option.some.injEq] at hx; subst hx; simp [hv]⟩
    | true =>
      simp only [hpm, hv]
      have hab : Profile.About env (⟨pk, some e, (env.parse e.content).1⟩ : Profile α) pk := by
        refine ⟨rfl, ?_, by simp⟩
        intro x hx
        simp only [Option.some.injEq] at hx
        subst hx
        exact ⟨he0, hepk, rfl⟩
      have hst : ∃ w, (publish env s e).store pk = some w ∧ e.createdAt ≤ w.createdAt := by
        have := (publish_store hk s e).2
        rwa [hepk] at this
      have hsame : ∀ (t : ProfileState α) b q, (setCache t b pk q).store = t.store := by
        intro t b q; unfold setCache; split <;> rfl
      refine ⟨setCache_inv ha (publish_inv hk h he0) hpk hab ?_ _, ?_, ?_, ?_⟩
      · intro x hx
        simp only [Option.some.injEq] at hx
        subst hx
        exact hst
      · intro k w hw
        rw [hsame]
        exact (publish_store hk s e).1 k w hw
      · intro n hn'
        simp only [Option.some.injEq] at hn'
        subst hn'
        refine ⟨hab, e, rfl, rfl, ?_⟩
        rw [hsame]
        exact hst
      · intro x hx _
        simp only [Option.some.injEq] at hx
        subst hx
        exact ⟨_, rfl, rfl⟩

/-- Everything about one fetch. -/
theorem fetchProfile_spec {α : Type} {env : ProfileEnv α} (hk : env.Keeps) {l : List Bytes} (ha : Apart l) {s : ProfileState α} (h : ProfileInv env l s)
    {pk : Bytes} (hpk : pk ∈ l) (g : Given) (hg : ∀ e, g.network = some e → e.kind = 0 ∧ e.pubkey = pk) :
    ProfileInv env l (fetchProfile env s pk g).1 ∧ (fetchProfile env s pk g).2.About env pk ∧
    (∀ k w, s.store k = some w → ∃ w', (fetchProfile env s pk g).1.store k = some w' ∧ w.createdAt ≤ w'.createdAt) ∧
    (∀ e, (fetchProfile env s pk g).2.event = some e → ∃ w, (fetchProfile env s pk g).1.store pk = some w ∧ e.createdAt ≤ w.createdAt) ∧
    (s.cache (shortUint64 pk) = none → (∀ w, s.store pk = some w → ∃ e, (fetchProfile env s pk g).2.event = some e ∧ w.createdAt ≤ e.createdAt) ∧
      (s.store pk = none ∨ profileStale (s.last pk) g.now = true → ∀ n, g.network = some n → (env.parse n.content).2 = true →
        ∃ e, (fetchProfile env s pk g).2.event = some e ∧ n.createdAt ≤ e.createdAt)) := by
  have hsame : ∀ (t : ProfileState α) b q, (setCache t b pk q).store = t.store := by
    intro t b q; unfold setCache; split <;> rfl
  unfold fetchProfile
  cases hc : s.cache (shortUint64 pk) with
  | some v =>
    obtain ⟨h1, h2⟩ := h.cached pk hpk v hc
    exact ⟨h, h1, fun k w hw => ⟨w, hw, Int.le_refl _⟩, h2, fun h => by cases h⟩
  | none =>
    obtain ⟨t1, t2, t3, t4⟩ := tryNetwork_spec hk ha h hpk g hg
    cases hst : s.store pk with
    | some e =>
      obtain ⟨he0, hepk⟩ := h.stored pk e hst
      have hpm : (parseMetadata env e).1 = ⟨e.pubkey, some e, (env.parse e.content).1⟩ := by
        unfold parseMetadata; rw [if_neg (by simp [he0])]
      have hab : Profile.About env (⟨pk, some e, (env.parse e.content).1⟩ : Profile α) pk := by
        refine ⟨rfl, ?_, by simp⟩
        intro x hx
        simp only [Option.some.injEq] at hx
        subst hx
        exact ⟨he0, hepk, rfl⟩
      simp only [hpm]
      by_cases hs : profileStale (s.last pk) g.now = true
      · simp only [if_pos hs]
        have hpref : ((preferNewer e ⟨pk, some e, (env.parse e.content).1⟩ (tryNetwork env s pk g).2 : Profile α).About env pk) ∧
            (∀ x, (preferNewer e (⟨pk, some e, (env.parse e.content).1⟩ : Profile α) (tryNetwork env s pk g).2).event = some x →
              ∃ w, (tryNetwork env s pk g).1.store pk = some w ∧ x.createdAt ≤ w.createdAt) ∧
            (∃ x, (preferNewer e (⟨pk, some e, (env.parse e.content).1⟩ : Profile α) (tryNetwork env s pk g).2).event = some x ∧ e.createdAt ≤ x.createdAt ∧
              ∀ n, g.network = some n → (env.parse n.content).2 = true → n.createdAt ≤ x.createdAt) := by
          cases hr : (tryNetwork env s pk g).2 with
          | none =>
            refine ⟨hab, ?_, e, rfl, Int.le_refl _, ?_⟩
            · intro x hx
              simp only [preferNewer, Option.some.injEq] at hx
              subst hx
              exact t2 pk e hst
            · intro n hn hv
              obtain ⟨m, hm, _⟩ := t4 n hn hv
              rw [hr] at hm; cases hm
          | some n =>
            obtain ⟨n1, ne, n2, n3, n4⟩ := t3 n hr
            simp only [preferNewer, n2]
            by_cases hgt : ne.createdAt > e.createdAt
            · rw [if_pos hgt]
              refine ⟨n1, ?_, ne, n2, by omega, ?_⟩
              · intro x hx; rw [n2] at hx; injection hx with hx; subst hx; exact n4
              · intro m hm _; rw [n3] at hm; injection hm with hm; subst hm; exact Int.le_refl _
            · rw [if_neg hgt]
              refine ⟨hab, ?_, e, rfl, Int.le_refl _, ?_⟩
              · intro x hx
                simp only [Option.some.injEq] at hx
                subst hx
                exact t2 pk e hst
              · intro m hm _; rw [n3] at hm; injection hm with hm; subst hm; omega
        obtain ⟨p1, p2, p3⟩ := hpref
        refine ⟨setCache_inv ha (setLast_inv t1 pk g.now) hpk p1 p2 _, p1, ?_, ?_, ?_⟩
        · intro k w hw; rw [hsame]; exact t2 k w hw
        · intro x hx; rw [hsame]; exact p2 x hx
        · obtain ⟨x, x1, x2, x3⟩ := p3
          intro _
          refine ⟨fun w hw => ?_, fun _ n hn hv => ⟨x, x1, x3 n hn hv⟩⟩
          injection hw with hw
          subst hw
          exact ⟨x, x1, x2⟩
      · simp only [if_neg hs]
        have hle : ∀ x, (⟨pk, some e, (env.parse e.content).1⟩ : Profile α).event = some x → ∃ w, s.store pk = some w ∧ x.createdAt ≤ w.createdAt := by
          intro x hx
          simp only [Option.some.injEq] at hx
          subst hx
          exact ⟨e, hst, Int.le_refl _⟩
        refine ⟨setCache_inv ha h hpk hab hle _, hab, ?_, ?_, ?_⟩
        · intro k w hw; rw [hsame]; exact ⟨w, hw, Int.le_refl _⟩
        · intro x hx; rw [hsame]; exact hle x hx
        · intro _
          refine ⟨fun w hw => ?_, fun ho => ?_⟩
          · injection hw with hw
            subst hw
            exact ⟨e, rfl, Int.le_refl _⟩
          · rcases ho with ho | ho
            · cases ho
            · exact absurd ho hs
    | none =>
      cases hr : tryNetwork env s pk g with
      | mk s' r =>
        rw [hr] at t1 t2 t3 t4
        cases r with
        | some n =>
          obtain ⟨n1, ne, n2, n3, n4⟩ := t3 n rfl
          have hle : ∀ x, n.event = some x → ∃ w, s'.store pk = some w ∧ x.createdAt ≤ w.createdAt := by
            intro x hx; rw [n2] at hx; injection hx with hx; subst hx; exact n4
          simp only
          refine ⟨setCache_inv ha (setLast_inv t1 pk g.now) hpk n1 hle _, n1, ?_, ?_, ?_⟩
          · intro k w hw; rw [hsame]; exact t2 k w hw
          · intro x hx; rw [hsame]; exact hle x hx
          · intro _
            refine ⟨(fun w hw => by cases hw), fun _ m hm _ => ?_⟩
            rw [n3] at hm; injection hm with hm; subst hm
            exact ⟨ne, n2, Int.le_refl _⟩
        | none =>
          have hab : Profile.About env (⟨pk, none, env.blank⟩ : Profile α) pk := ⟨rfl, by simp, fun _ => rfl⟩
          simp only
          refine ⟨setCache_inv ha t1 hpk hab (by simp) _, hab, ?_, by simp, ?_⟩
          · intro k w hw; rw [hsame]; exact t2 k w hw
          · intro _
            refine ⟨(fun w hw => by cases hw), fun _ m hm hv => ?_⟩
            obtain ⟨q, hq, _⟩ := t4 m hm hv
            cases hq

theorem step_inv {α : Type} {env : ProfileEnv α} (hk : env.Keeps) {l : List Bytes} (ha : Apart l) {s : ProfileState α} (h : ProfileInv env l s) (o : ProfileOp)
    (hf : o.Fine) (hl : ∀ pk ∈ asked [o], pk ∈ l) : ProfileInv env l (profileStep env s o).1 ∧
    (∀ k w, s.store k = some w → ∃ w', (profileStep env s o).1.store k = some w' ∧ w.createdAt ≤ w'.createdAt) ∧
    (∀ r, (profileStep env s o).2 = some r → r.1 ∈ l ∧ r.2.About env r.1 ∧
      ∀ e, r.2.event = some e → ∃ w, (profileStep env s o).1.store r.1 = some w ∧ e.createdAt ≤ w.createdAt) := by
  cases o with
  | fetch pk g =>
    have hpk : pk ∈ l := hl pk (by simp [asked])
    obtain ⟨h1, h2, h3, h4, _⟩ := fetchProfile_spec hk ha h hpk g hf.1
    refine ⟨h1, h3, ?_⟩
    intro r hr
    simp only [profileStep, Option.some.injEq] at hr
    subst hr
    exact ⟨hpk, h2, h4⟩
  | saved e =>
    exact ⟨publish_inv hk h hf, (publish_store hk s e).1, by simp [profileStep]⟩
  | expired x =>
    refine ⟨⟨h.stored, ?_⟩, fun k w hw => ⟨w, hw, Int.le_refl _⟩, by simp [profileStep]⟩
    intro pk hpk p hp
    simp only [profileStep] at hp
    split at hp
    · cases hp
    · exact h.cached pk hpk p hp

theorem asked_cons (o : ProfileOp) (os : List ProfileOp) : ∀ pk, (pk ∈ asked [o] ∨ pk ∈ asked os) → pk ∈ asked (o :: os) := by
  intro pk h
  cases o <;> simp_all [asked]

/-- **C114 (partial): whose profile.** Over any history of fetches, saves and cache expiry, as long as the users asked about
differ in their last four bytes, every profile returned is for the user asked for: the key is set, the event (if there is
one) is a kind 0 event of that user and the fields are those its content has. -/
theorem C114_right_user_partial {α : Type} (env : ProfileEnv α) (hk : env.Keeps) (ops : List ProfileOp) (hf : ∀ o ∈ ops, o.Fine) (ha : Apart (asked ops)) :
    ∀ r ∈ (profileRun env .fresh ops).2, r.2.About env r.1 := by
  have key : ∀ (l : List Bytes) (_ : Apart l) (ops : List ProfileOp) (_ : ∀ o ∈ ops, o.Fine) (_ : ∀ pk ∈ asked ops, pk ∈ l) (s : ProfileState α)
      (_ : ProfileInv env l s), ∀ r ∈ (profileRun env s ops).2, r.2.About env r.1 := by
    intro l ha ops
    induction ops with
    | nil => intro _ _ s _ r hr; simp [profileRun] at hr
    | cons o os ih =>
      intro hf hl s h r hr
      obtain ⟨h1, _, h3⟩ := step_inv hk ha h o (hf o (by simp)) (fun pk hpk => hl pk (asked_cons o os pk (Or.inl hpk)))
      simp only [profileRun, List.mem_append, Option.mem_toList] at hr
      rcases hr with hr | hr
      · exact (h3 r hr).2.1
      · exact ih (fun x hx => hf x (by simp [hx])) (fun pk hpk => hl pk (asked_cons o os pk (Or.inr hpk))) _ h1 r hr
  exact key _ ha ops hf (fun _ h => h) _ ⟨by simp [ProfileState.fresh], by simp [ProfileState.fresh]⟩

/-- The cache never holds anything older than what was returned last: bound kept along a history. -/
def AtLeast {α : Type} (s : ProfileState α) (pk : Bytes) (t : Int) : Prop :=
  (∃ w, s.store pk = some w ∧ t ≤ w.createdAt) ∧ ∀ p, s.cache (shortUint64 pk) = some p → ∃ e, p.event = some e ∧ t ≤ e.createdAt

/-- After a fetch the cache is empty or holds what was returned, if the second write is taken whenever the first is. -/
theorem fetch_cache {α : Type} (env : ProfileEnv α) (s : ProfileState α) (pk : Bytes) (g : Given) (hg : g.taken1 = true → g.taken2 = true) :
    (∀ p, (fetchProfile env s pk g).1.cache (shortUint64 pk) = some p → p = (fetchProfile env s pk g).2) ∧
    (∀ h, h ≠ shortUint64 pk → (fetchProfile env s pk g).1.cache h = s.cache h) := by
  have hset : ∀ (t : ProfileState α) b q h, (setCache t b pk q).cache h = if b = true ∧ h = shortUint64 pk then some q else t.cache h := by
    intro t b q h; unfold setCache; cases b <;> simp
  have hnet : ∀ h, (tryNetwork env s pk g).1.cache h = s.cache h ∨ (g.taken1 = true ∧ h = shortUint64 pk) := by
    intro h
    unfold tryNetwork
    cases g.network with
    | none => exact Or.inl rfl
    | some e =>
      simp only
      split
      · exact Or.inl rfl
      · simp only [hset]
        by_cases hc : g.taken1 = true ∧ h = shortUint64 pk
        · exact Or.inr hc
        · left; rw [if_neg hc]; rfl
  unfold fetchProfile
  cases hc : s.cache (shortUint64 pk) with
  | some v => exact ⟨fun p hp => by rw [hc] at hp; injection hp with hp; exact hp.symm, fun _ _ => rfl⟩
  | none =>
    have fin : ∀ (t : ProfileState α) (q : Profile α), (∀ h, t.cache h = s.cache h ∨ (g.taken1 = true ∧ h = shortUint64 pk)) →
        (∀ p, (setCache t g.taken2 pk q).cache (shortUint64 pk) = some p → p = q) ∧
        (∀ h, h ≠ shortUint64 pk → (setCache t g.taken2 pk q).cache h = s.cache h) := by
      intro t q ht
      refine ⟨fun p hp => ?_, fun h hh => ?_⟩
      · rw [hset] at hp
        split at hp
        · injection hp with hp; exact hp.symm
        · rename_i hn
          rcases ht (shortUint64 pk) with h1 | h1
          · rw [h1, hc] at hp; cases hp
          · exact absurd ⟨hg h1.1, rfl⟩ hn
      · rw [hset, if_neg (fun h' => hh h'.2)]
        rcases ht h with h1 | h1
        · exact h1
        · exact absurd h1.2 hh
    cases hst : s.store pk with
    | some e =>
      simp only
      split
      · exact fin _ _ hnet
      · exact fin _ _ (fun _ => Or.inl rfl)
    | none =>
      cases hr : tryNetwork env s pk g with
      | mk s' r =>
        rw [hr] at hnet
        cases r with
        | some n => exact fin _ _ hnet
        | none => exact fin _ _ hnet

theorem atLeast_step {α : Type} {env : ProfileEnv α} (hk : env.Keeps) {l : List Bytes} (ha : Apart l) {s : ProfileState α} (h : ProfileInv env l s) (o : ProfileOp)
    (hf : o.Fine) (hl : ∀ pk ∈ asked [o], pk ∈ l) {pk : Bytes} (hpk : pk ∈ l) {t : Int} (ht : AtLeast s pk t) :
    AtLeast (profileStep env s o).1 pk t ∧ ∀ r, (profileStep env s o).2 = some r → r.1 = pk → ∃ e, r.2.event = some e ∧ t ≤ e.createdAt := by
  obtain ⟨⟨w, hw, hle⟩, hc⟩ := ht
  obtain ⟨_, hmono, _⟩ := step_inv hk ha h o hf hl
  have hstore : ∃ w, (profileStep env s o).1.store pk = some w ∧ t ≤ w.createdAt := by
    obtain ⟨w', hw', hle'⟩ := hmono pk w hw
    exact ⟨w', hw', by omega⟩
  cases o with
  | fetch q g =>
    obtain ⟨c1, c2⟩ := fetch_cache env s q g hf.2
    have hres : q = pk → ∃ e, (fetchProfile env s q g).2.event = some e ∧ t ≤ e.createdAt := by
      intro hq
      subst hq
      cases hc' : s.cache (shortUint64 q) with
      | some v =>
        have hv : (fetchProfile env s q g).2 = v := by unfold fetchProfile; rw [hc']
        rw [hv]
        exact hc v hc'
      | none =>
        obtain ⟨_, _, _, _, h5⟩ := fetchProfile_spec hk ha h hpk g hf.1
        obtain ⟨e, he, hle2⟩ := (h5 hc').1 w hw
        exact ⟨e, he, by omega⟩
    refine ⟨⟨hstore, ?_⟩, ?_⟩
    · intro p hp
      change (fetchProfile env s q g).1.cache _ = _ at hp
      by_cases hq : shortUint64 pk = shortUint64 q
      · have := ha q (hl q (by simp [asked])) pk hpk hq.symm
        rw [hq] at hp
        rw [c1 p hp]
        exact hres this
      · rw [c2 _ hq] at hp
        exact hc p hp
    · intro r hr hrpk
      simp only [profileStep, Option.some.injEq] at hr
      subst hr
      exact hres hrpk
  | saved e => exact ⟨⟨hstore, hc⟩, by simp [profileStep]⟩
  | expired x =>
    refine ⟨⟨hstore, ?_⟩, by simp [profileStep]⟩
    intro p hp
    simp only [profileStep] at hp
    split at hp
    · cases hp
    · exact hc p hp

/-- **C114 (partial): never older.** Over any such history, once a fetch returned a version of a user's profile, no later fetch
returns an older one (or none). -/
theorem C114_never_older_partial {α : Type} (env : ProfileEnv α) (hk : env.Keeps) (ops : List ProfileOp) (hf : ∀ o ∈ ops, o.Fine) (ha : Apart (asked ops)) :
    (profileRun env .fresh ops).2.Pairwise (fun a b => a.1 = b.1 → ∀ e, a.2.event = some e → ∃ e', b.2.event = some e' ∧ e.createdAt ≤ e'.createdAt) := by
  have later : ∀ (l : List Bytes) (_ : Apart l) (pk : Bytes) (_ : pk ∈ l) (t : Int) (ops : List ProfileOp) (_ : ∀ o ∈ ops, o.Fine) (_ : ∀ pk ∈ asked ops, pk ∈ l)
      (s : ProfileState α) (_ : ProfileInv env l s) (_ : AtLeast s pk t), ∀ r ∈ (profileRun env s ops).2, r.1 = pk → ∃ e, r.2.event = some e ∧ t ≤ e.createdAt := by
    intro l ha pk hpk t ops
    induction ops with
    | nil => intro _ _ s _ _ r hr; simp [profileRun] at hr
    | cons o os ih =>
      intro hf hl s h ht r hr hrpk
      have hl1 : ∀ q ∈ asked [o], q ∈ l := fun q hq => hl q (asked_cons o os q (Or.inl hq))
      obtain ⟨a1, a2⟩ := atLeast_step hk ha h o (hf o (by simp)) hl1 hpk ht
      simp only [profileRun, List.mem_append, Option.mem_toList] at hr
      rcases hr with hr | hr
      · exact a2 r hr hrpk
      · exact ih (fun x hx => hf x (by simp [hx])) (fun q hq => hl q (asked_cons o os q (Or.inr hq))) _ (step_inv hk ha h o (hf o (by simp)) hl1).1 a1 r hr hrpk
  have key : ∀ (l : List Bytes) (_ : Apart l) (ops : List ProfileOp) (_ : ∀ o ∈ ops, o.Fine) (_ : ∀ pk ∈ asked ops, pk ∈ l) (s : ProfileState α)
      (_ : ProfileInv env l s), (profileRun env s ops).2.Pairwise
        (fun a b => a.1 = b.1 → ∀ e, a.2.event = some e → ∃ e', b.2.event = some e' ∧ e.createdAt ≤ e'.createdAt) := by
    intro l ha ops
    induction ops with
    | nil => intro _ _ s _; simp [profileRun]
    | cons o os ih =>
      intro hf hl s h
      have hl1 : ∀ q ∈ asked [o], q ∈ l := fun q hq => hl q (asked_cons o os q (Or.inl hq))
      have hl2 : ∀ q ∈ asked os, q ∈ l := fun q hq => hl q (asked_cons o os q (Or.inr hq))
      have hf2 : ∀ x ∈ os, x.Fine := fun x hx => hf x (by simp [hx])
      obtain ⟨h1, h2, h3⟩ := step_inv hk ha h o (hf o (by simp)) hl1
      have rest := ih hf2 hl2 _ h1
      simp only [profileRun]
      cases hr : (profileStep env s o).2 with
      | none => simpa using rest
      | some r =>
        simp only [Option.toList_some, List.singleton_append, List.pairwise_cons]
        refine ⟨?_, rest⟩
        intro b hb hab e he
        obtain ⟨r1, _, r3⟩ := h3 r hr
        refine later l ha r.1 r1 e.createdAt os hf2 hl2 _ h1 ⟨r3 e he, ?_⟩ b hb hab.symm
        intro p hp
        cases o with
        | fetch q g =>
          simp only [profileStep, Option.some.injEq] at hr
          subst hr
          have hp' := (fetch_cache env s q g (hf (.fetch q g) (by simp)).2).1 p hp
          rw [hp']
          exact ⟨e, he, Int.le_refl _⟩
        | saved x => simp [profileStep] at hr
        | expired x => simp [profileStep] at hr
  exact key _ ha ops hf (fun _ h => h) _ ⟨by simp [ProfileState.fresh], by simp [ProfileState.fresh]⟩

/-- **C114 (partial): the newest of what it looks at.** A fetch that the cache does not answer returns a version at least as new as
the local one, and, if nothing is stored or the network was not asked for more than a week, as what the network has. -/
theorem C114_newest_partial {α : Type} (env : ProfileEnv α) (hk : env.Keeps) (ops : List ProfileOp) (hf : ∀ o ∈ ops, o.Fine) (pk : Bytes) (g : Given)
    (hg : ProfileOp.Fine (.fetch pk g)) (ha : Apart (pk :: asked ops)) (s : ProfileState α) (hs : s = (profileRun env .fresh ops).1)
    (hc : s.cache (shortUint64 pk) = none) :
    (∀ w, s.store pk = some w → ∃ e, (fetchProfile env s pk g).2.event = some e ∧ w.createdAt ≤ e.createdAt) ∧
    ((s.store pk = none ∨ ∀ t, s.last pk = some t → 604800 < g.now - t % 4294967296) → ∀ n, g.network = some n → (env.parse n.content).2 = true →
      ∃ e, (fetchProfile env s pk g).2.event = some e ∧ n.createdAt ≤ e.createdAt) := by
  have key : ∀ (l : List Bytes) (_ : Apart l) (ops : List ProfileOp) (_ : ∀ o ∈ ops, o.Fine) (_ : ∀ pk ∈ asked ops, pk ∈ l) (s : ProfileState α)
      (_ : ProfileInv env l s), ProfileInv env l (profileRun env s ops).1 := by
    intro l ha ops
    induction ops with
    | nil => intro _ _ s h; exact h
    | cons o os ih =>
      intro hf hl s h
      have h1 := (step_inv hk ha h o (hf o (by simp)) (fun pk hpk => hl pk (asked_cons o os pk (Or.inl hpk)))).1
      exact ih (fun x hx => hf x (by simp [hx])) (fun pk hpk => hl pk (asked_cons o os pk (Or.inr hpk))) _ h1
  have hi := key _ ha ops hf (fun _ h => by simp [h]) .fresh ⟨by simp [ProfileState.fresh], by simp [ProfileState.fresh]⟩
  rw [← hs] at hi
  obtain ⟨h1, h2⟩ := (fetchProfile_spec hk ha hi (by simp) g hg.1).2.2.2.2 hc
  refine ⟨h1, fun hx => h2 (hx.imp_right fun ht => ?_)⟩
  unfold profileStale
  cases hl : s.last pk with
  | none => rfl
  | some t =>
    have := ht t hl
    simp only [decide_eq_true_eq]
    omega

/-- **C114: no more often than once a week.** A fetch whose user has an event in the local store, and for whom the network was asked within the last
seven days, gives the local version and does not depend on the network; nothing but the cache changes. -/
theorem C114_not_before_a_week {α : Type} (env : ProfileEnv α) (s : ProfileState α) (pk : Bytes) (g : Given) (w : Event) (t : Int)
    (hc : s.cache (shortUint64 pk) = none) (hw : s.store pk = some w) (ht : s.last pk = some t) (hn : g.now - t % 4294967296 ≤ 604800) (net : Option Event) :
    fetchProfile env s pk { g with network := net } = fetchProfile env s pk g ∧
    (fetchProfile env s pk g).2.event = some w ∧ (fetchProfile env s pk g).1.store = s.store ∧ (fetchProfile env s pk g).1.last = s.last := by
  have hs : profileStale (s.last pk) g.now = false := by
    rw [ht]
    simp only [profileStale, decide_eq_false_iff_not]
    omega
  unfold fetchProfile
  simp only [hc, hw, hs, Bool.false_eq_true, if_false, true_and]
  unfold setCache
  split <;> exact ⟨rfl, rfl⟩


/-- A parser for examples: `!` is not valid JSON. -/
def exEnv : ProfileEnv Bytes := ⟨fun c => (c, decide (c ≠ b! "!")), [], fun o e => match o with
  | none => e
  | some x => if x.createdAt < e.createdAt then e else x⟩

theorem exEnv_keeps : exEnv.Keeps := by
  intro o e
  cases o with
  | none => simp [exEnv]
  | some x =>
    simp only [exEnv]
    split
    · refine ⟨Or.inl rfl, Int.le_refl _, fun y hy => ?_⟩
      injection hy with hy; subst hy; omega
    · refine ⟨Or.inr rfl, by omega, fun y hy => ?_⟩
      injection hy with hy; subst hy; omega

/-- A value of the examples. -/
def alicePk : Bytes := hexEnc (List.replicate 28 1 ++ [9, 9, 9, 9])
/-- A value of the examples. -/
def twinPk : Bytes := hexEnc (List.replicate 28 2 ++ [9, 9, 9, 9])
/-- A value of the examples. -/
def bobPk : Bytes := hexEnc (List.replicate 32 3)
/-- A value of the examples. -/
def meta0 (pk : Bytes) (ts : Int) (content : Bytes) : Event := ⟨b! "i", pk, ts, 0, [], content, []⟩

/-- What was returned, for checking closed histories. -/
def seen (ops : List ProfileOp) : List (Bytes × Bytes × Option Int) := (profileRun exEnv .fresh ops).2.map (fun r => (r.1, r.2.pubkey, r.2.event.map (·.createdAt)))

/-- The full C114 is false: a user sharing the last four bytes of their key with another gets the other's profile, with the other's key. -/
theorem C114_other_users_profile : seen [.fetch alicePk ⟨1000, some (meta0 alicePk 10 (b! "alice")), true, true⟩,
    .fetch twinPk ⟨1001, some (meta0 twinPk 20 (b! "twin")), true, true⟩] = [(alicePk, alicePk, some 10), (twinPk, alicePk, some 10)] := by decide +kernel

/-- … and a newer version that reached the local store is not returned while the cache has the old one; a newer version whose content is not valid JSON is
never returned if it comes from the network, but is (with the fields left empty or half read) if it comes from the local store. -/
theorem C114_stale : seen [.fetch bobPk ⟨1000, some (meta0 bobPk 10 (b! "a")), true, true⟩, .saved (meta0 bobPk 20 (b! "b")), .fetch bobPk ⟨1001, none, true, true⟩] =
      [(bobPk, bobPk, some 10), (bobPk, bobPk, some 10)] ∧
    seen [.fetch bobPk ⟨1000, some (meta0 bobPk 10 (b! "a")), false, false⟩, .fetch bobPk ⟨700000, some (meta0 bobPk 30 (b! "!")), false, false⟩,
      .saved (meta0 bobPk 30 (b! "!")), .fetch bobPk ⟨700001, none, false, false⟩] = [(bobPk, bobPk, some 10), (bobPk, bobPk, some 10), (bobPk, bobPk, some 30)] := by
  decide +kernel

/-- … and if the cache takes up the network's older version but refuses the stored newer one that is written right after, the next fetch returns the older. -/
theorem C114_refused_write_goes_back : seen [.saved (meta0 bobPk 20 (b! "new")), .fetch bobPk ⟨1000, some (meta0 bobPk 10 (b! "old")), true, false⟩,
    .fetch bobPk ⟨1001, none, true, true⟩] = [(bobPk, bobPk, some 20), (bobPk, bobPk, some 10)] := by decide +kernel

/-- Not vacuous: a history with two users apart, saves, expiry and refreshes. -/
def exHistory : List ProfileOp := [.fetch alicePk ⟨1000, some (meta0 alicePk 10 (b! "a")), true, true⟩, .fetch bobPk ⟨1000, none, true, true⟩,
  .saved (meta0 bobPk 5 (b! "b")), .expired (shortUint64 bobPk), .fetch bobPk ⟨1001, some (meta0 bobPk 7 (b! "b2")), true, true⟩, .expired (shortUint64 alicePk),
  .fetch alicePk ⟨1000000, some (meta0 alicePk 8 (b! "old")), true, true⟩]

example : seen exHistory = [(alicePk, alicePk, some 10), (bobPk, bobPk, none), (bobPk, bobPk, some 7), (alicePk, alicePk, some 10)] := by decide +kernel

example : Apart (asked exHistory) ∧ ∀ o ∈ exHistory, o.Fine := by
  constructor
  · unfold Apart; decide +kernel
  · intro o ho
    simp only [exHistory, List.mem_cons, List.not_mem_nil, or_false] at ho
    rcases ho with rfl | rfl | rfl | rfl | rfl | rfl | rfl <;> simp [ProfileOp.Fine, meta0]

/-! ### The short name -/

/-- `NpubShort` (metadata.go:42-45); the ellipsis is three bytes. -/
def npubShort (pk : Bytes) : Out Bytes := do
  let npub := Nip19.orEmpty (Nip19.encodePublicKey pk)
  let a ← goSlice npub 0 7
  let b ← goSliceFrom npub 58
  return a ++ [0xe2, 0x80, 0xa6] ++ b

/-- `ShortName` (metadata.go:56-64). -/
def shortName (name displayName pk : Bytes) : Out Bytes :=
  if name ≠ [] then .val name else if displayName ≠ [] then .val displayName else npubShort pk

/-- **C114: names.** A profile without names whose key is not hex has no short name: asking for it panics. -/
theorem C114_short_name_panics (pk : Bytes) (h : hexDec pk = none) : shortName [] [] pk = .panic := by
  have : Nip19.encodePublicKey pk = .err () := by
    unfold Nip19.encodePublicKey Nip19.encodeHex
    rw [h]
  simp [shortName, npubShort, this, Nip19.orEmpty, goSlice]

/-- An npub has 63 characters and starts with `npub1`. -/
theorem npub_shape (pk : Bytes) (h : Nip19.IsHex32 pk) : ∃ d, Nip19.encodePublicKey pk = .ok (b! "npub1" ++ d) ∧ d.length = 58 := by
  obtain ⟨b, b1, b2, _⟩ := h.dec
  have hd : ∀ x ∈ Nip19.nats b, x < 256 := by
    intro x hx
    obtain ⟨c, _, rfl⟩ := List.mem_map.1 hx
    exact c.toNat_lt
  obtain ⟨g, g1, g2, g3⟩ := Nip19.C51_regroup_roundtrip (Nip19.nats b) hd
  have glen : g.length = 52 := by
    obtain ⟨xs, rest, h1, h2, h3⟩ := Nip19.groups_exists 5 (by norm_num) _ (((Nip19.nats b).map (Nip19.bitsOf 8)).flatten) (le_refl _)
    have hl := Nip19.flatten_bits_length 5 xs
    have hl8 := Nip19.flatten_bits_length 8 (Nip19.nats b)
    have hg : Nip19.groups 5 (((Nip19.nats b).map (Nip19.bitsOf 8)).flatten).length (((Nip19.nats b).map (Nip19.bitsOf 8)).flatten) = (xs, rest) := by
      conv => lhs; rw [h1]
      refine Nip19.groups_eq 5 (by norm_num) xs rest _ h2 h3 ?_
      rw [List.length_append, hl]; omega
    have hn : (Nip19.nats b).length = 32 := by simp [Nip19.nats, b2]
    rw [h1, List.length_append, hl, hn] at hl8
    have hr : rest ≠ [] := by
      intro hr; rw [hr] at hl8; simp only [List.length_nil] at hl8; omega
    unfold Nip19.convertBits at g1
    simp only [hg, if_neg hr, if_true, Res.ok.injEq] at g1
    rw [← g1, List.length_append, List.length_singleton]
    have := List.length_pos_iff.2 hr
    omega
  obtain ⟨d, d1, _, d3, _⟩ := Nip19.toChars_spec g g2
  obtain ⟨c, c1, _, c3, _⟩ := Nip19.toChars_spec (Nip19.checksum ((b! "npub").map Nip19.lowerByte) g) (Nip19.checksum_lt _ _)
  refine ⟨d ++ c, ?_, by rw [List.length_append, d3, glen, c3, Nip19.checksum_length]⟩
  unfold Nip19.encodePublicKey Nip19.encodeHex
  rw [b1]
  simp only [Nip19.encodeData, g1, Res.ok_bind, Nip19.bechEncode, d1, c1, Res.ok.injEq]
  rw [List.append_assoc]
  rfl

/-- **C114: names.** For a proper key the short name is `npub1`, two more characters, an ellipsis and the last five. -/
theorem C114_short_name (pk : Bytes) (h : Nip19.IsHex32 pk) : ∃ x y mid, x.length = 2 ∧ y.length = 5 ∧
    Nip19.encodePublicKey pk = .ok (b! "npub1" ++ x ++ mid ++ y) ∧ shortName [] [] pk = .val (b! "npub1" ++ x ++ [0xe2, 0x80, 0xa6] ++ y) := by
  obtain ⟨d, d1, d2⟩ := npub_shape pk h
  refine ⟨d.take 2, d.drop 53, (d.drop 2).take 51, by simp [d2], by simp [d2], ?_, ?_⟩
  · rw [d1]
    congr 1
    simp only [List.append_assoc]
    congr 1
    have h1 : (d.drop 2).take 51 ++ d.drop 53 = d.drop 2 := by
      have := List.take_append_drop 51 (d.drop 2)
      rwa [List.drop_drop] at this
    rw [h1, List.take_append_drop]
  · have hlen : (b! "npub1" ++ d).length = 63 := by rw [List.length_append, d2]; rfl
    simp only [shortName, npubShort, d1, Nip19.orEmpty]
    rw [if_neg (by simp), if_neg (by simp)]
    unfold goSliceFrom goSlice
    rw [if_pos (by rw [hlen]; omega)]
    simp only [Out.val_bind]
    rw [if_pos (by rw [hlen]; omega)]
    simp only [Out.val_bind, Out.pure_eq, Out.val.injEq]
    rw [hlen]
    have e1 : List.take (Int.toNat (7 - 0)) (List.drop (Int.toNat 0) (b! "npub1" ++ d)) = b! "npub1" ++ d.take 2 := by
      simp only [Int.toNat_zero, List.drop_zero]
      exact List.take_append (l₁ := b! "npub1") (l₂ := d) (i := 7)
    have e2 : List.drop (Int.toNat 58) (b! "npub1" ++ d) = d.drop 53 := by
      exact List.drop_append (l₁ := b! "npub1") (l₂ := d) (i := 58)
    rw [e1]
    have e3 : List.take 5 (List.drop 53 d) = List.drop 53 d := List.take_of_length_le (by simp [d2])
    rw [e2, show (((63 : Nat) : Int) - 58).toNat = 5 from rfl, e3]

example : Nip19.IsHex32 Nip19.sampleHex := by decide +kernel
example : hexDec (b! "alice") = none := by decide +kernel

end GoNostr.Sdk
