import Verif.Curve.Agreement
import Verif.Nips.Nip17
/-!
# C166: private messages as a whole

C120 (private messages of NIP-17) with the keys, the agreement on secrets and the signatures of secp256k1 in the place of its assumptions, and throw-away keys as `GeneratePrivateKey` makes them.
-/

set_option autoImplicit false

namespace GoNostr.Curve

open KeyMaking (beVal generate)
open Dm (Agrees Signs Sendable Draw prepareMessage unwrap rumorOf)

attribute [local irreducible] fieldP groupN toBE ser scalarOf

noncomputable section

/-- A private key as it should be: a number from 1 to the order less 1, as 64 digits in lower case. -/
def IsPrivateKey (sk : Bytes) : Prop := ∃ k, 1 ≤ k ∧ k < groupN ∧ sk = hexEnc (toBE 32 k)

/-- What `GeneratePrivateKey` makes is a private key, whatever the random bytes. -/
theorem generated_key (r : Bytes) : IsPrivateKey (generate (some r)) := by
  obtain ⟨kb, hl, he, hv⟩ := KeyMaking.generate_spec r
  have ho : KeyMaking.order = groupN := by decide +kernel
  have hm : beVal r % (KeyMaking.order - 1) < KeyMaking.order - 1 := Nat.mod_lt _ (by decide +kernel)
  refine ⟨beVal kb, by omega, by omega, ?_⟩
  rw [he, ← hl, toBE_beVal]

theorem agrees (extract : Bytes → Bytes → Bytes) (L : Lib) {sk1 sk2 : Bytes} (h1 : IsPrivateKey sk1) (h2 : IsPrivateKey sk2) :
    Agrees (bip340 L) (generateConversationKey extract) sk1 sk2 := by
  obtain ⟨a, a1, a2, ea⟩ := h1
  obtain ⟨b, b1, b2, eb⟩ := h2
  rw [ea, eb]
  unfold Agrees
  exact C162_same_conversation_key extract L a b ⟨a1, a2⟩ ⟨b1, b2⟩

theorem agrees_key {S : Schnorr} {agree : Keyer.Agree} {sk1 sk2 p2 : Bytes} (h : Agrees S agree sk1 sk2) (hp : getPublicKey S sk2 = some p2) : ∃ ck, agree p2 sk1 = some ck := by
  obtain ⟨_, q, ck, _, h2, h3, _⟩ := h
  rw [hp] at h2
  cases h2
  exact ⟨ck, h3⟩

theorem signs (L : Lib) (hL : ∀ sk h, L.nonce sk h % groupN ≠ 0) {sk : Bytes} (h : IsPrivateKey sk) : Signs (bip340 L) sk := by
  obtain ⟨k, h1, h2, ek⟩ := h
  refine ⟨⟨toBE 32 k, by rw [ek]; exact hexDec_hexEnc _, ser_length _, fun h hh => ?_⟩⟩
  have hs := (C165_always_signs L (toBE 32 k) h hh (hL _ _)).2 (by rw [scalarOf_toBE h2]; omega)
  obtain ⟨sg, hsg⟩ := Option.isSome_iff_exists.1 hs
  refine ⟨sg, hsg, ?_⟩
  have hp := ((C165_library_contract L).signs _ _ _ hsg).2.1
  have : parseSig sg = true := hp
  unfold parseSig at this
  rw [decide_eq_true_eq] at this
  exact this.1

theorem public_utf8 (L : Lib) {sk pk : Bytes} (h : getPublicKey (bip340 L) sk = some pk) : Json.Utf8 pk := by
  rw [pub_eq] at h
  obtain ⟨b, _, rfl⟩ := Option.map_eq_some_iff.1 h
  exact Dm.hex_utf8 _

/-- **C166.** Private messages: between any two parties with private keys, after anything their keyers did before, a message that fits (its rumor has at most 40960 bytes of JSON) is prepared, and both
the recipient and the sender unwrap their copies to exactly that message. The throw-away keys are those of `GeneratePrivateKey` for any random bytes. -/
theorem C166_message_arrives (P : Nip44.Prims) (extract : Bytes → Bytes → Bytes) (H : Hash32) (L : Lib) (hL : ∀ sk h, L.nonce sk h % groupN ≠ 0) (skA pkA skB pkB : Bytes)
    (kA : IsPrivateKey skA) (kB : IsPrivateKey skB) (hpA : getPublicKey (bip340 L) skA = some pkA) (hpB : getPublicKey (bip340 L) skB = some pkB)
    (histA histB : List Keyer.Call) (content : Bytes) (tags : Tags) (now : Int) (modify : Event → Event) (hm : ∀ e, (modify e).content = e.content)
    (r1 r2 : Bytes) (d1 d2 : Draw) (hd1 : d1.nonceKey = generate (some r1)) (hd2 : d2.nonceKey = generate (some r2))
    (hrnd : d1.rnd.length = 32 ∧ d1.rndOuter.length = 32 ∧ d2.rnd.length = 32 ∧ d2.rndOuter.length = 32) (ht : Json.InInt64 d1.sealTime ∧ Json.InInt64 d2.sealTime)
    (hc : Json.Utf8 content) (htags : ∀ t ∈ tags, ∀ s ∈ t, Json.Utf8 s) (hnow : Json.InInt64 now)
    (hfit : (Json.encodeEvent (rumorOf H pkA pkB content tags now)).length ≤ 40960) :
    ∃ toUs toThem, prepareMessage P (generateConversationKey extract) H (bip340 L) ((Keyer.newKeySigner skA).after P (generateConversationKey extract) histA) pkA pkB content tags now modify d1 d2 =
        some (toUs, toThem) ∧
      (unwrap P (generateConversationKey extract) H (bip340 L) ((Keyer.newKeySigner skB).after P (generateConversationKey extract) histB) toThem).1 = .ok (rumorOf H pkA pkB content tags now) ∧
      (unwrap P (generateConversationKey extract) H (bip340 L) ((Keyer.newKeySigner skA).after P (generateConversationKey extract) histB) toUs).1 = .ok (rumorOf H pkA pkB content tags now) := by
  have k1 : IsPrivateKey d1.nonceKey := by rw [hd1]; exact generated_key r1
  have k2 : IsPrivateKey d2.nonceKey := by rw [hd2]; exact generated_key r2
  have g : ∀ {x y : Bytes}, IsPrivateKey x → IsPrivateKey y → Agrees (bip340 L) (generateConversationKey extract) x y := fun hx hy => agrees extract L hx hy
  have hsome := (Dm.C120_prepared_iff_partial P (generateConversationKey extract) H (bip340 L) skA pkA pkB (signs L hL kA) (agrees_key (g kA kA) hpA) (agrees_key (g kA kB) hpB) histA content tags now
    modify d1 d2 (signs L hL k1) (signs L hL k2) (agrees_key (g k1 kA) hpA) (agrees_key (g k2 kB) hpB) ht.1 ht.2 ⟨hrnd.1, hrnd.2.1⟩ ⟨hrnd.2.2.1, hrnd.2.2.2⟩).2 hfit
  obtain ⟨⟨toUs, toThem⟩, hprep⟩ := Option.isSome_iff_exists.1 hsome
  refine ⟨toUs, toThem, hprep, ?_⟩
  exact Dm.C120_both_read P (generateConversationKey extract) H (bip340 L) (C165_library_contract L) skA pkA skB pkB hpA hpB (g kA kB) (g kA kA) histA histB content tags now modify hm d1 d2
    (g k1 kA) (g k2 kB) ⟨public_utf8 L hpB, hc, htags, hnow, ht.1, hrnd.1, hrnd.2.1⟩ ⟨public_utf8 L hpB, hc, htags, hnow, ht.2, hrnd.2.2.1, hrnd.2.2.2⟩ toUs toThem hprep

/-- **C166.** And a message whose rumor has more bytes is not prepared at all. -/
theorem C166_too_long (P : Nip44.Prims) (extract : Bytes → Bytes → Bytes) (H : Hash32) (L : Lib) (hL : ∀ sk h, L.nonce sk h % groupN ≠ 0) (skA pkA skB pkB : Bytes)
    (kA : IsPrivateKey skA) (kB : IsPrivateKey skB) (hpA : getPublicKey (bip340 L) skA = some pkA) (hpB : getPublicKey (bip340 L) skB = some pkB)
    (hist : List Keyer.Call) (content : Bytes) (tags : Tags) (now : Int) (modify : Event → Event) (r1 r2 : Bytes) (d1 d2 : Draw) (hd1 : d1.nonceKey = generate (some r1)) (hd2 : d2.nonceKey = generate (some r2))
    (hrnd : d1.rnd.length = 32 ∧ d1.rndOuter.length = 32 ∧ d2.rnd.length = 32 ∧ d2.rndOuter.length = 32) (ht : Json.InInt64 d1.sealTime ∧ Json.InInt64 d2.sealTime)
    (hlong : 40960 < (Json.encodeEvent (rumorOf H pkA pkB content tags now)).length) :
    prepareMessage P (generateConversationKey extract) H (bip340 L) ((Keyer.newKeySigner skA).after P (generateConversationKey extract) hist) pkA pkB content tags now modify d1 d2 = none := by
  have k1 : IsPrivateKey d1.nonceKey := by rw [hd1]; exact generated_key r1
  have k2 : IsPrivateKey d2.nonceKey := by rw [hd2]; exact generated_key r2
  have g : ∀ {x y : Bytes}, IsPrivateKey x → IsPrivateKey y → Agrees (bip340 L) (generateConversationKey extract) x y := fun hx hy => agrees extract L hx hy
  have hiff := Dm.C120_prepared_iff_partial P (generateConversationKey extract) H (bip340 L) skA pkA pkB (signs L hL kA) (agrees_key (g kA kA) hpA) (agrees_key (g kA kB) hpB) hist content tags now
    modify d1 d2 (signs L hL k1) (signs L hL k2) (agrees_key (g k1 kA) hpA) (agrees_key (g k2 kB) hpB) ht.1 ht.2 ⟨hrnd.1, hrnd.2.1⟩ ⟨hrnd.2.2.1, hrnd.2.2.2⟩
  rw [← Option.not_isSome_iff_eq_none, hiff]
  omega

/-- Non-vacuity: keys made by `GeneratePrivateKey`, a throw-away key for each copy, and a short message. -/
example (H : Hash32) (L : Lib) (rA rB r1 r2 : Bytes) : ∃ skA pkA skB pkB, IsPrivateKey skA ∧ IsPrivateKey skB ∧ getPublicKey (bip340 L) skA = some pkA ∧ getPublicKey (bip340 L) skB = some pkB ∧
    ∃ d1 d2 : Draw, d1.nonceKey = generate (some r1) ∧ d2.nonceKey = generate (some r2) ∧ d1.rnd.length = 32 ∧ d1.rndOuter.length = 32 ∧ d2.rnd.length = 32 ∧ d2.rndOuter.length = 32 ∧
      Json.InInt64 d1.sealTime ∧ Json.InInt64 d2.sealTime := by
  obtain ⟨pkA, hA, _⟩ := C164_generated_valid L rA
  obtain ⟨pkB, hB, _⟩ := C164_generated_valid L rB
  exact ⟨_, pkA, _, pkB, generated_key rA, generated_key rB, hA, hB, ⟨List.replicate 32 1, List.replicate 32 2, _, 1, 2⟩, ⟨List.replicate 32 3, List.replicate 32 4, _, 5, 6⟩, rfl, rfl,
    rfl, rfl, rfl, rfl, (by decide : Json.InInt64 1), (by decide : Json.InInt64 5)⟩

end

end GoNostr.Curve
