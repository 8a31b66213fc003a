import Verif.Sdk.Profile
/-! C114: what a relay's answer must be to count -/

set_option autoImplicit false

namespace GoNostr.Sdk.ProfileKind

/-- C114: `ParseMetadata` succeeds exactly for kind 0 events whose content is valid; it names the event's author either way. -/
theorem C114_parses_iff {α : Type} (env : ProfileEnv α) (e : Event) :
    ((parseMetadata env e).2 = true ↔ e.kind = 0 ∧ (env.parse e.content).2 = true) ∧ (parseMetadata env e).1.pubkey = e.pubkey ∧ (parseMetadata env e).1.event = some e := by
  unfold parseMetadata
  by_cases h : e.kind = 0 <;> simp [h]

/-- C114: an answer from the network of another kind, or whose content is not valid, is as good as no answer: the profile returned, the cache, the local store and the time of the last fetch are the same. -/
theorem C114_bad_answer_ignored {α : Type} (env : ProfileEnv α) (s : ProfileState α) (pk : Bytes) (g : Given) (e : Event) (h : e.kind ≠ 0 ∨ (env.parse e.content).2 = false) :
    fetchProfile env s pk { g with network := some e } = fetchProfile env s pk { g with network := none } := by
  have hp : (parseMetadata env e).2 = false := by
    cases hb : (parseMetadata env e).2 with
    | false => rfl
    | true =>
      obtain ⟨h1, h2⟩ := (C114_parses_iff env e).1.1 hb
      rcases h with h | h
      · exact absurd h1 h
      · rw [h] at h2; cases h2
  have ht : tryNetwork env s pk { g with network := some e } = tryNetwork env s pk { g with network := none } := by
    unfold tryNetwork
    simp only
    split
    · rfl
    · rename_i p hh; rw [hh] at hp; cases hp
  unfold fetchProfile
  rw [ht]

/-- Non-vacuity: a note answers; an answer of the right kind makes a difference. -/
example : (fetchProfile (α := Unit) ⟨fun _ => ((), true), (), fun _ e => e⟩ .fresh (b! "p") ⟨5, some { meta0 (b! "p") 3 (b! "x") with kind := 1 }, true, true⟩).2.event = none ∧
    (fetchProfile (α := Unit) ⟨fun _ => ((), true), (), fun _ e => e⟩ .fresh (b! "p") ⟨5, some (meta0 (b! "p") 3 (b! "x")), true, true⟩).2.event ≠ none := by decide +kernel

end GoNostr.Sdk.ProfileKind
