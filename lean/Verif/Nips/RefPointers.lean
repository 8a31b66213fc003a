import Verif.Nips.Mentions
import Verif.Nip19.Theorems
/-! C138: the pointers of references, for the codes the library writes -/

set_option autoImplicit false

namespace GoNostr.Mentions.RefPointers
open Nip19 (IsHex32 Value encodePublicKey encodePrivateKey encodeNote encodeProfile encodeEvent encodeEntity)

/-- C138: the code of a key, of a profile, of a note, of an event or of an address is referred to as such: a profile with that key (if it is a point of the curve; nothing otherwise), an event with that id, an address with that key, kind and identifier. A secret key is never pointed to. -/
theorem C138_codes (env : Ptr.Env) (tags : Tags) (h : Bytes) (hh : IsHex32 h) (relays : List Bytes) (hr : ∀ v ∈ relays, v.length ≤ 255) :
    (∃ c, encodePublicKey h = .ok c ∧ ∃ r, pointerOf env tags c = .val (if isValidPublicKey env.parsePub h then some (.profile ⟨h, r⟩) else none)) ∧
    (∃ c, encodeProfile h relays = .ok c ∧ ∃ r, pointerOf env tags c = .val (if isValidPublicKey env.parsePub h then some (.profile ⟨h, r⟩) else none)) ∧
    (∃ c, encodePrivateKey h = .ok c ∧ pointerOf env tags c = .val none) ∧
    (∃ c, encodeNote h = .ok c ∧ pointerOf env tags c = .val (some (.event ⟨h, none, [], 0⟩))) ∧
    (∀ author, IsHex32 author → ∃ c, encodeEvent h relays author = .ok c ∧ ∃ r, pointerOf env tags c = .val (some (.event ⟨h, r, author, 0⟩))) ∧
    (∀ identifier kind, 0 < kind → kind < 2 ^ 32 → identifier ≠ [] → identifier.length ≤ 255 →
      ∃ c, encodeEntity h kind identifier relays = .ok c ∧ ∃ r, pointerOf env tags c = .val (some (.entity ⟨h, kind, identifier, r⟩))) := by
  obtain ⟨⟨c1, e1, d1⟩, ⟨c2, e2, d2⟩, ⟨c3, e3, d3⟩⟩ := Nip19.C52_keys_roundtrip h hh
  obtain ⟨c4, e4, d4⟩ := Nip19.C53_nprofile_roundtrip h relays hh hr
  refine ⟨⟨c1, e1, ?_⟩, ⟨c4, e4, ?_⟩, ⟨c2, e2, ?_⟩, ⟨c3, e3, ?_⟩, ?_, ?_⟩
  · refine ⟨some (hint tags (b! "p") h), ?_⟩
    unfold pointerOf
    rw [d1]
    simp only [if_true]
  · refine ⟨more (Nip19.relaysOf relays) (hint tags (b! "p") h), ?_⟩
    unfold pointerOf
    rw [d4]
  · unfold pointerOf
    rw [d2]
    simp only
    rw [if_neg (by decide +kernel), if_neg (by decide +kernel)]
  · unfold pointerOf
    rw [d3]
    simp only
    rw [if_neg (by decide +kernel), if_pos trivial]
  · intro author ha
    obtain ⟨c5, e5, d5⟩ := Nip19.C53_nevent_roundtrip h author relays hh (Or.inl ha) hr
    refine ⟨c5, e5, more (Nip19.relaysOf relays) (hint tags (b! "e") h), ?_⟩
    have hne : author ≠ [] := by intro h0; have := ha.1; rw [h0] at this; simp at this
    have : hintAuthor env tags h author = author := by
      unfold hintAuthor
      split
      · rw [if_neg (fun hc => hne hc.1)]
      · rfl
    unfold pointerOf
    rw [d5]
    simp only [this]
  · intro identifier kind hk0 hk1 hi0 hi
    obtain ⟨c6, e6, d6⟩ := Nip19.C53_naddr_roundtrip_partial h identifier kind relays hh hk0 hk1 hi0 hi hr
    refine ⟨c6, e6, more (Nip19.relaysOf relays) (hint tags (b! "a") (Ptr.entityReference ⟨h, kind, identifier, Nip19.relaysOf relays⟩)), ?_⟩
    unfold pointerOf
    rw [d6]

/-- Non-vacuity. -/
example : IsHex32 (b! "3bf0c63fcb93463407af97a5e5ee64fa883d107ef9e558472c4eb9aaaefa033c") ∧ isValidPublicKey (fun b => b.length == 32) (b! "3bf0c63fcb93463407af97a5e5ee64fa883d107ef9e558472c4eb9aaaefa033c") = true := by decide +kernel

end GoNostr.Mentions.RefPointers
