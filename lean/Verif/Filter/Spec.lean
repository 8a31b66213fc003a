import Verif.Filter.Model
/-!
# Specification of filters: NIP-01 matching, conforming stores

Written from NIP-01, using only the data types of the model.
-/

set_option autoImplicit false

namespace GoNostr.Spec

/-- NIP-01: the event satisfies every condition of the filter except the time window.
A condition is present when its list is not nil; then the event's value must be listed.  A tag condition `(name, vals)`
asks for some tag `[name, v, …]` with `v` listed. -/
def MatchesButTime (f : Filter) (e : Event) : Prop :=
  (∀ ids, f.ids = some ids → e.id ∈ ids) ∧
  (∀ kinds, f.kinds = some kinds → e.kind ∈ kinds) ∧
  (∀ authors, f.authors = some authors → e.pubkey ∈ authors) ∧
  (∀ m, f.tags = some m → ∀ name vals, (name, some vals) ∈ m →
    ∃ tag ∈ e.tags, ∃ v rest, tag = name :: v :: rest ∧ v ∈ vals)

/-- The time window `since ≤ created_at ≤ until`. -/
def InWindow (f : Filter) (e : Event) : Prop :=
  (∀ s, f.since = some s → s ≤ e.createdAt) ∧ (∀ u, f.until = some u → e.createdAt ≤ u)

/-- NIP-01 matching. -/
def Matches (f : Filter) (e : Event) : Prop := MatchesButTime f e ∧ InWindow f e

/-- NIP-01 kind ranges. -/
def Regular (k : Int) : Prop := (1 ≤ k ∧ k < 10000) ∧ k ≠ 3
/-- NIP-01: replaceable kinds. -/
def Replaceable (k : Int) : Prop := k = 0 ∨ k = 3 ∨ (10000 ≤ k ∧ k < 20000)
/-- NIP-01: ephemeral kinds. -/
def Ephemeral (k : Int) : Prop := 20000 ≤ k ∧ k < 30000
/-- NIP-01: addressable kinds. -/
def Addressable (k : Int) : Prop := 30000 ≤ k ∧ k < 40000

/-- What a conforming relay may hold: no id twice; at most one event per author and replaceable kind; at most one per
author, addressable kind and `d` value (the value of the first `d` tag). -/
structure Conforming (store : List Event) : Prop where
  ids : (store.map (·.id)).Nodup
  replaceable : ∀ a ∈ store, ∀ b ∈ store, Replaceable a.kind → a.pubkey = b.pubkey → a.kind = b.kind → a = b
  addressable : ∀ a ∈ store, ∀ b ∈ store, Addressable a.kind → a.pubkey = b.pubkey → a.kind = b.kind →
    Tags.getD a.tags = Tags.getD b.tags → a = b

/-- The event has at most one `d` tag with a value. -/
def SingleD (e : Event) : Prop :=
  ∀ t₁ ∈ e.tags, ∀ t₂ ∈ e.tags, ∀ v₁ r₁ v₂ r₂, t₁ = b! "d" :: v₁ :: r₁ → t₂ = b! "d" :: v₂ :: r₂ → v₁ = v₂

end GoNostr.Spec
