import Verif.Json.Preparse
import Verif.Misc.Auth
import Verif.Nips.Keyer
import Mathlib.Tactic.IntervalCases
/-!
# nip17: private messages, end to end

`PrepareMessage` and `ListenForMessages` over the modelled gift wraps (nip59), keyers, nip44 and JSON, with key agreement, hashes and signatures as parameters; `PublishMessage` over
relays that answer in any way.
-/

set_option autoImplicit false

namespace GoNostr.Dm

open Nip44 (Prims)
open Keyer (Agree KeySigner)
open Gift (WrapEnv giftWrap giftUnwrap)

/-- `Event.String` (event.go:22-25) and `easyjson.Unmarshal`. -/
def codec : Gift.Json := ⟨Json.encodeEvent, Json.decodeEvent⟩

/-- What one gift wrap draws (nip59.go:31, 38, 44, 52): the nonces of the two encryptions, the throw-away key, the two times. -/
structure Draw where
  rnd : Bytes
  rndOuter : Bytes
  nonceKey : Bytes
  sealTime : Int
  wrapTime : Int

/-- The value of a call that does not panic, nothing if it returned an error. -/
def okOf {α : Type} : Res Unit α → Option α
  | .ok a => some a
  | _ => none

/-- nip17.go:115-116, 126-127 with nip59.go:38-47: the functions given to `GiftWrap` and what it does with the throw-away key. `nip44.Encrypt` does not panic (`C56_encrypt_errors`). -/
def wrapEnv (P : Prims) (agree : Agree) (H : Hash32) (S : Schnorr) (ks : KeySigner) (recipient : Bytes) (modify : Event → Event) (d : Draw) : WrapEnv where
  encrypt := fun s => okOf (ks.encrypt P agree d.rnd s recipient).1
  sign := fun e => match signEvent H S e ks.sk with
    | (e', true) => some e'
    | (_, false) => none
  modify := modify
  nonceKey := d.nonceKey
  outer := fun s => match agree recipient d.nonceKey with
    | none => none
    | some ck => okOf (Nip44.encrypt P ck none d.rndOuter s)
  sealTime := d.sealTime
  wrapTime := d.wrapTime

/-- nip17.go:103-110 -/
def rumorOf (H : Hash32) (ourKey recipient content : Bytes) (tags : Tags) (now : Int) : Event :=
  let r : Event := ⟨[], ourKey, now, 14, tags ++ [[b! "p", recipient]], content, []⟩
  { r with id := getID H r }

/-- `PrepareMessage` (nip17.go:90-135) with a plain key signer whose public key is `ourKey`: the wrap for ourselves and the wrap for the recipient. `none` is an error. -/
def prepareMessage (P : Prims) (agree : Agree) (H : Hash32) (S : Schnorr) (ks : KeySigner) (ourKey recipient content : Bytes) (tags : Tags) (now : Int)
    (modify : Event → Event) (d1 d2 : Draw) : Option (Event × Event) :=
  let rumor := rumorOf H ourKey recipient content tags now
  match giftWrap codec H S (wrapEnv P agree H S ks ourKey modify d1) rumor ourKey with
  | none => none
  | some toUs =>
    -- the keyer has remembered a conversation key
    let ks' := (ks.encrypt P agree d1.rnd (codec.enc { rumor with sig := [] }) ourKey).2
    match giftWrap codec H S (wrapEnv P agree H S ks' recipient modify d2) rumor recipient with
    | none => none
    | some toThem => some (toUs, toThem)

/-- `GiftUnwrap` (nip59.go:67-100) with a plain key signer (nip17.go:161-164). -/
def unwrap (P : Prims) (agree : Agree) (H : Hash32) (S : Schnorr) (ks : KeySigner) (gw : Event) : Res Unit Event × KeySigner :=
  match ks.decrypt P agree gw.content gw.pubkey with
  | (.panic, ks) => (.panic, ks)
  | (.err _, ks) => (.err (), ks)
  | (.ok jseal, ks) => match codec.dec jseal with
    | none => (.err (), ks)
    | some s => match checkSignature H S s with
      | some true => match ks.decrypt P agree s.content s.pubkey with
        | (.panic, ks) => (.panic, ks)
        | (.err _, ks) => (.err (), ks)
        | (.ok jrumor, ks) => match codec.dec jrumor with
          | none => (.err (), ks)
          | some rumor => (.ok { rumor with pubkey := s.pubkey, id := getID H { rumor with pubkey := s.pubkey } }, ks)
      | _ => (.err (), ks)

/-- The loop of `ListenForMessages` (nip17.go:156-171) over the events of the subscription: what is sent on the channel. -/
def listen (P : Prims) (agree : Agree) (H : Hash32) (S : Schnorr) : KeySigner → List Event → Out (List Event)
  | _, [] => .val []
  | ks, e :: es => match unwrap P agree H S ks e with
    | (.panic, _) => .panic
    | (.err _, ks) => listen P agree H S ks es
    | (.ok r, ks) => match listen P agree H S ks es with
      | .panic => .panic
      | .val l => .val (r :: l)

/-- The filter of `ListenForMessages` (nip17.go:156-160). -/
def inbox (pk : Bytes) (since : Int) : Filter := { kinds := some [1059], tags := some [(b! "p", some [pk])], since := some since }

/-- `GetDMRelays` (nip17.go:20-31) on the event found. -/
def dmRelays : Nat → Tags → List Bytes
  | _, [] => []
  | n, (k :: u :: _) :: rest => if k = b! "relay" then (if n + 1 = 3 then [u] else u :: dmRelays (n + 1) rest) else dmRelays n rest
  | n, _ :: rest => dmRelays n rest

/-- What `Publish` returns (relay.go:333-335, 359-403): the relay said OK (or the connection broke while waiting: no error either, see C35), it refused with a reason, or the
message could not be written or no answer came in time, with Go's text for that. -/
inductive Answer
  | accepted
  | refused (reason : Bytes)
  | failed (text : Bytes)
  deriving DecidableEq

/-- The text of the error `Publish` returns, nothing for nil (relay.go:376-381). -/
def Answer.error : Answer → Option Bytes
  | .accepted => none
  | .refused reason => some (b! "msg: " ++ reason)
  | .failed text => some text

/-- What was done at a relay, in order. -/
inductive Act
  | unreachable (url : Bytes)
  | published (url : Bytes) (e : Event) (a : Answer)
  | authenticated (url : Bytes) (ok : Bool)
  deriving DecidableEq

/-- The relays: what they do depends on everything that happened before. -/
structure Net where
  ensure : List Act → Bytes → Bool
  publish : List Act → Bytes → Event → Answer
  auth : List Act → Bytes → Bool

/-- `publishOrAuth` (nip17.go:51-70): what was done, and whether `sendErr` was set to nil. -/
def publishOrAuth (net : Net) (tr : List Act) (url : Bytes) (e : Event) : List Act × Bool :=
  if net.ensure tr url = false then (tr ++ [.unreachable url], false)
  else
    let a := net.publish tr url e
    let tr := tr ++ [.published url e a]
    match a.error with
    | none => (tr, true)
    | some text =>
      if (b! "auth-required:").isPrefixOf text then
        let ok := net.auth tr url
        let tr := tr ++ [.authenticated url ok]
        if ok then
          let a := net.publish tr url e
          (tr ++ [.published url e a], decide (a.error = none))
        else (tr, false)
      else (tr, false)

/-- nip17.go:73-75, 83-85: the loops; `ok` is `sendErr == nil`. -/
def publishAll (net : Net) : List Act → List Bytes → Event → Bool → List Act × Bool
  | tr, [], _, ok => (tr, ok)
  | tr, url :: urls, e, ok =>
    let (tr, o) := publishOrAuth net tr url e
    publishAll net tr urls e (ok || o)

/-- `PublishMessage` (nip17.go:34-88) after the message has been prepared (`none`: it could not): what was done and whether the result is nil. -/
def publishMessage (net : Net) (prepared : Option (Event × Event)) (ourRelays theirRelays : List Bytes) : List Act × Bool :=
  match prepared with
  | none => ([], false)
  | some (toUs, toThem) =>
    match publishAll net [] ourRelays toUs false with
    | (tr, false) => (tr, false)
    | (tr, true) => publishAll net tr theirRelays toThem false

/-! ## Specification -/

/-- The two keys agree on a secret. -/
def Agrees (S : Schnorr) (agree : Agree) (sk1 sk2 : Bytes) : Prop :=
  ∃ p1 p2 ck, getPublicKey S sk1 = some p1 ∧ getPublicKey S sk2 = some p2 ∧ agree p2 sk1 = some ck ∧ agree p1 sk2 = some ck

/-- What the messages are made of is what Go's types allow and JSON can carry. -/
def Sendable (recipient content : Bytes) (tags : Tags) (now : Int) (d : Draw) : Prop :=
  Json.Utf8 recipient ∧ Json.Utf8 content ∧ (∀ t ∈ tags, ∀ s ∈ t, Json.Utf8 s) ∧ Json.InInt64 now ∧ Json.InInt64 d.sealTime ∧ d.rnd.length = 32 ∧ d.rndOuter.length = 32

/-! ## C120 -/

theorem okOf_some {α : Type} {r : Res Unit α} {a : α} : okOf r = some a ↔ r = .ok a := by
  cases r <;> simp [okOf]

theorem encrypt_ok_size {P : Prims} {ck rnd m c : Bytes} (h : Nip44.encrypt P ck none rnd m = .ok c) : 1 ≤ m.length ∧ m.length ≤ 65535 := by
  have hf := (Nip44.C56_encrypt_errors P ck none rnd m (fun _ h => by cases h)).1
  rcases Nat.lt_or_ge m.length 1 with h1 | h1
  · rw [hf.2 (.inl (by omega))] at h; cases h
  · rcases Nat.lt_or_ge 65535 m.length with h2 | h2
    · rw [hf.2 (.inr h2)] at h; cases h
    · exact ⟨h1, h2⟩

theorem encrypt_decrypts {P : Prims} {ck rnd m c : Bytes} (hr : rnd.length = 32) (h : Nip44.encrypt P ck none rnd m = .ok c) : Nip44.decrypt P ck c = .ok m := by
  obtain ⟨h1, h2⟩ := encrypt_ok_size h
  obtain ⟨c', e1, e2⟩ := Nip44.C56_roundtrip P ck none rnd m (fun _ h => by cases h) hr h1 h2
  rw [h] at e1
  cases e1
  exact e2

theorem b64_ascii {s : Bytes} {c : UInt8} (h : c ∈ b64Enc s) : 32 ≤ c ∧ c ≠ 34 ∧ c ≠ 92 ∧ c < 0x7f := by
  rcases b64Enc_mem s c h with h | h
  · revert h
    have : ∀ c ∈ b64Chars, 32 ≤ c ∧ c ≠ 34 ∧ c ≠ 92 ∧ c < 0x7f := by decide +kernel
    exact this c
  · subst h; decide

theorem encrypt_b64 {P : Prims} {ck rnd m c : Bytes} (h : Nip44.encrypt P ck none rnd m = .ok c) : ∃ s, c = b64Enc s := by
  unfold Nip44.encrypt at h
  split at h
  · cases h
  · simp only at h
    split at h
    · cases h
    · cases h; exact ⟨_, rfl⟩

theorem hex_utf8 (b : Bytes) : Json.Utf8 (hexEnc b) := by
  refine .ascii (fun c hc => ?_)
  have := hexEnc_lower b c hc
  have key : ∀ c : UInt8, (48 ≤ c ∧ c ≤ 57) ∨ (97 ≤ c ∧ c ≤ 102) → c < 0x80 := by decide +kernel
  exact key c this

/-- Spec: what the owner of a key can read. -/
def reads (P : Prims) (agree : Agree) (sk : Bytes) (peer c : Bytes) : Res Unit Bytes :=
  match agree peer sk with
  | none => .err ()
  | some ck => Nip44.decrypt P ck c

/-- Specification: an event that can be written and read back. -/
def OkEvent (e : Event) : Prop := Json.InInt64 e.kind ∧ Json.InInt64 e.createdAt ∧ Json.EventUtf8 e

theorem signed_seal_ok {H : Hash32} {S : Schnorr} {c : Bytes} {t : Int} {sk : Bytes} {e' : Event} (hc : ∃ s, c = b64Enc s) (ht : Json.InInt64 t)
    (h : signEvent H S (Gift.sealOf c t) sk = (e', true)) : OkEvent e' := by
  obtain ⟨s, rfl⟩ := hc
  unfold signEvent at h
  split at h
  · simp at h
  · dsimp only at h
    split at h
    · simp at h
    · simp only [Prod.mk.injEq, and_true] at h
      subst h
      refine ⟨by simp only [Gift.sealOf]; decide, ht, hex_utf8 _, hex_utf8 _, .ascii (fun c hc => ?_), hex_utf8 _, by simp [Gift.sealOf]⟩
      have := (b64_ascii hc).2.2.2
      exact Nat.lt_trans this (by decide)

theorem honest {P : Prims} {agree : Agree} {H : Hash32} {S : Schnorr} {ks : KeySigner} {skA pkA skB pkB : Bytes} {modify : Event → Event} {d : Draw}
    (hS : S.Correct) (hk : Keyer.Inv agree skA ks) (hpA : getPublicKey S skA = some pkA) (hpB : getPublicKey S skB = some pkB)
    (hAB : Agrees S agree skA skB) (hNB : Agrees S agree d.nonceKey skB) (hm : ∀ e, (modify e).content = e.content) (ht : Json.InInt64 d.sealTime)
    (hr : d.rnd.length = 32) (hro : d.rndOuter.length = 32) :
    Gift.Honest codec OkEvent H S (wrapEnv P agree H S ks pkB modify d) pkA (fun peer c => okOf (reads P agree skB peer c)) where
  json := fun e he => Json.C21_round_trip he.1 he.2.1 he.2.2
  signer := by
    intro p c e' h1 h2
    simp only [wrapEnv] at h1 h2
    rw [okOf_some, (Keyer.encrypt_spec P hk d.rnd p pkB).1] at h1
    split at h2
    · rename_i e'' hs
      cases h2
      rw [hk.same] at hs
      obtain ⟨k1, -, k3, -, -, -, k7⟩ := C04_sign_verifies H S hS _ _ _ hs
      refine ⟨k7, by rw [hpA] at k1; exact (Option.some.inj k1).symm, k3, ?_⟩
      refine signed_seal_ok ?_ ht hs
      split at h1
      · cases h1
      · exact encrypt_b64 h1
    · cases h2
  modify := hm
  inner := by
    intro p c h
    simp only [wrapEnv] at h
    rw [okOf_some, (Keyer.encrypt_spec P hk d.rnd p pkB).1] at h
    obtain ⟨p1, p2, ck, a1, a2, a3, a4⟩ := hAB
    rw [hpA] at a1; cases a1
    rw [hpB] at a2; cases a2
    rw [a3] at h
    rw [okOf_some]
    simp only [reads, a4]
    exact encrypt_decrypts hr h
  outer := by
    intro p c k h hp
    obtain ⟨p1, p2, ck, a1, a2, a3, a4⟩ := hNB
    simp only [wrapEnv] at h hp
    rw [hp] at a1; cases a1
    rw [hpB] at a2; cases a2
    rw [a3] at h
    simp only [okOf_some] at h
    rw [okOf_some]
    simp only [reads, a4]
    exact encrypt_decrypts hro h
  crypto := hS

theorem unwrap_spec {P : Prims} {agree : Agree} {H : Hash32} {S : Schnorr} {sk : Bytes} {ks : KeySigner} (h : Keyer.Inv agree sk ks) (gw : Event) :
    okOf (unwrap P agree H S ks gw).1 = giftUnwrap codec H S (fun peer c => okOf (reads P agree sk peer c)) gw ∧ Keyer.Inv agree sk (unwrap P agree H S ks gw).2 ∧
    ((unwrap P agree H S ks gw).1 = .panic ↔ (reads P agree sk gw.pubkey gw.content = .panic ∨
      ∃ js s, reads P agree sk gw.pubkey gw.content = .ok js ∧ codec.dec js = some s ∧ checkSignature H S s = some true ∧ reads P agree sk s.pubkey s.content = .panic)) := by
  obtain ⟨h1, h2⟩ := Keyer.decrypt_spec P h gw.content gw.pubkey
  have hr : (ks.decrypt P agree gw.content gw.pubkey).1 = reads P agree sk gw.pubkey gw.content := h1
  unfold unwrap giftUnwrap
  rcases hd : ks.decrypt P agree gw.content gw.pubkey with ⟨js | _ | _, ks1⟩
  · rw [hd] at h2 hr
    simp only at h2 hr
    rcases hj : codec.dec js with _ | sl
    · simp [okOf, h2, hj, ← hr]
    · rcases hc : checkSignature H S sl with _ | _ | _
      · simp [okOf, h2, hj, hc, ← hr]
      · simp [okOf, h2, hj, hc, ← hr]
      · obtain ⟨g1, g2⟩ := Keyer.decrypt_spec P h2 sl.content sl.pubkey
        have gr : (ks1.decrypt P agree sl.content sl.pubkey).1 = reads P agree sk sl.pubkey sl.content := g1
        rcases hd2 : ks1.decrypt P agree sl.content sl.pubkey with ⟨jr | _ | _, ks2⟩
        · rw [hd2] at g2 gr
          simp only at gr g2
          rcases hj2 : codec.dec jr with _ | inner
          · simp [okOf, g2, hj, hc, hd2, hj2, ← gr, ← hr]
          · simp [okOf, g2, hj, hc, hd2, hj2, ← gr, ← hr]
        · rw [hd2] at g2 gr
          simp only at gr g2
          simp [okOf, g2, hj, hc, hd2, ← gr, ← hr]
        · rw [hd2] at g2 gr
          simp only at gr g2
          simp [okOf, g2, hj, hc, hd2, ← gr, ← hr]
  · rw [hd] at h2 hr
    simp only at h2 hr
    simp [okOf, h2, ← hr]
  · rw [hd] at h2 hr
    simp only at h2 hr
    simp [okOf, h2, ← hr]

/-- **C120: the recipient reads the message.** Whatever both keyers did before: if a message was prepared, the recipient's keyer unwraps the wrap made for them to exactly the message,
with the sender as author, and the sender's own keyer does the same with the wrap for themselves. -/
theorem C120_both_read (P : Prims) (agree : Agree) (H : Hash32) (S : Schnorr) (hS : S.Correct) (skA pkA skB pkB : Bytes)
    (hpA : getPublicKey S skA = some pkA) (hpB : getPublicKey S skB = some pkB) (hAB : Agrees S agree skA skB) (hAA : Agrees S agree skA skA)
    (histA histB : List Keyer.Call) (content : Bytes) (tags : Tags) (now : Int) (modify : Event → Event) (hm : ∀ e, (modify e).content = e.content) (d1 d2 : Draw)
    (hN1 : Agrees S agree d1.nonceKey skA) (hN2 : Agrees S agree d2.nonceKey skB)
    (hs1 : Sendable pkB content tags now d1) (hs2 : Sendable pkB content tags now d2) (toUs toThem : Event)
    (h : prepareMessage P agree H S ((Keyer.newKeySigner skA).after P agree histA) pkA pkB content tags now modify d1 d2 = some (toUs, toThem)) :
    (unwrap P agree H S ((Keyer.newKeySigner skB).after P agree histB) toThem).1 = .ok (rumorOf H pkA pkB content tags now) ∧
    (unwrap P agree H S ((Keyer.newKeySigner skA).after P agree histB) toUs).1 = .ok (rumorOf H pkA pkB content tags now) := by
  obtain ⟨u1, u2, u3, u4, u5, u6, u7⟩ := hs1
  obtain ⟨-, -, -, -, v5, v6, v7⟩ := hs2
  have hkA := Keyer.after_inv P histA (Keyer.new_inv agree skA)
  have hok : OkEvent { rumorOf H pkA pkB content tags now with sig := [] } := by
    refine ⟨by simp only [rumorOf]; decide, u4, hex_utf8 _, ?_, u2, .nil, ?_⟩
    · unfold getPublicKey at hpA
      rcases hd : hexDec skA with _ | b
      · rw [hd] at hpA; cases hpA
      · rw [hd] at hpA; cases hpA; exact hex_utf8 _
    · intro t ht
      simp only [rumorOf, List.mem_append, List.mem_singleton] at ht
      rcases ht with ht | rfl
      · exact u3 t ht
      · intro s hs
        simp only [List.mem_cons, List.not_mem_nil, or_false] at hs
        rcases hs with rfl | rfl
        · exact .ascii (by decide +kernel)
        · exact u1
  have hres : ({ rumorOf H pkA pkB content tags now with sig := [], pubkey := pkA, id := getID H { rumorOf H pkA pkB content tags now with pubkey := pkA } } : Event) =
      rumorOf H pkA pkB content tags now := by
    simp [rumorOf, getID, serialize, serializeEventInto]
  unfold prepareMessage at h
  simp only at h
  split at h
  · cases h
  · rename_i w1 hw1
    split at h
    · cases h
    · rename_i w2 hw2
      simp only [Option.some.injEq, Prod.mk.injEq] at h
      obtain ⟨rfl, rfl⟩ := h
      have hkA' := (Keyer.encrypt_spec P hkA d1.rnd (codec.enc { rumorOf H pkA pkB content tags now with sig := [] }) pkA).2
      have r1 := Gift.C70_roundtrip codec OkEvent H S _ pkA _ (honest (P := P) (modify := modify) (d := d1) hS hkA hpA hpA hAA hN1 hm u5 u6 u7) _ _ pkA hok hw1
      have r2 := Gift.C70_roundtrip codec OkEvent H S _ pkA _ (honest (P := P) (modify := modify) (d := d2) hS hkA' hpA hpB hAB hN2 hm v5 v6 v7) _ _ pkB hok hw2
      rw [hres] at r1 r2
      have s1 := (unwrap_spec (P := P) (H := H) (S := S) (Keyer.after_inv P histB (Keyer.new_inv agree skA)) w1).1
      have s2 := (unwrap_spec (P := P) (H := H) (S := S) (Keyer.after_inv P histB (Keyer.new_inv agree skB)) w2).1
      rw [r1, okOf_some] at s1
      rw [r2, okOf_some] at s2
      exact ⟨s2, s1⟩

/-! ### How long a message can be -/

/-- Keys can sign every hash, and keys and signatures have the sizes of BIP-340. -/
structure Signs (S : Schnorr) (sk : Bytes) : Prop where
  ok : ∃ b, hexDec sk = some b ∧ (S.pubOf b).length = 32 ∧ ∀ h : Bytes, h.length = 32 → ∃ sg, S.sign b h = some sg ∧ sg.length = 64

theorem calcPadding_upto {n : Nat} (h : n ≤ 40960) : Nip44.calcPadding n ≤ 40960 := by
  unfold Nip44.calcPadding
  split
  · omega
  · rename_i h32
    have hl : Nat.log2 (n - 1) ≤ 15 := by
      have : Nat.log2 (n - 1) < 16 := (Nat.log2_lt (by omega)).2 (by omega)
      omega
    have : n - 1 < 2 ^ (Nat.log2 (n - 1) + 1) := Nat.lt_log2_self
    simp only
    generalize Nat.log2 (n - 1) = k at *
    interval_cases k <;> norm_num at * <;> omega

theorem calcPadding_above {n : Nat} (h : 40960 < n) (h2 : n ≤ 65535) : 49152 ≤ Nip44.calcPadding n := by
  unfold Nip44.calcPadding
  rw [if_neg (by omega)]
  have hl : Nat.log2 (n - 1) = 15 := by
    have h1 : Nat.log2 (n - 1) < 16 := (Nat.log2_lt (by omega)).2 (by omega)
    have h2 : 15 ≤ Nat.log2 (n - 1) := (Nat.le_log2 (by omega)).2 (by omega)
    omega
  rw [hl]
  norm_num
  omega

theorem encrypt_length {P : Prims} {ck rnd m : Bytes} (hr : rnd.length = 32) (h1 : 1 ≤ m.length) (h2 : m.length ≤ 65535) :
    ∃ s, Nip44.encrypt P ck none rnd m = .ok (b64Enc s) ∧ s.length = 67 + Nip44.calcPadding m.length := by
  unfold Nip44.encrypt
  rcases hp : Nip44.pad m with _ | padded
  · rw [Nip44.C55_rejects] at hp; omega
  · have := (Nip44.pad_length hp).1
    refine ⟨_, rfl, ?_⟩
    simp [Nip44.chacha_length, Nip44.mac_length, this, hr]
    omega

theorem fmtNatAux_len : ∀ (fuel n : Nat), (fmtNatAux fuel n).length ≤ fuel + 1
  | 0, n => by simp [fmtNatAux]
  | fuel + 1, n => by
    have := fmtNatAux_len fuel (n / 10)
    unfold fmtNatAux
    split <;> simp <;> omega

theorem fmtInt_len {i : Int} (h : Json.InInt64 i) : (fmtInt i).length ≤ 70 := by
  have h1 : i.natAbs < 2 ^ 64 := by
    obtain ⟨a, b⟩ := h
    omega
  have h2 : i.natAbs.log2 ≤ 63 := by
    rcases Nat.eq_zero_or_pos i.natAbs with h0 | h0
    · simp [h0]
    · have : i.natAbs.log2 < 64 := (Nat.log2_lt (by omega)).2 h1
      omega
  have := fmtNatAux_len (i.natAbs.log2 + 1) i.natAbs
  unfold fmtInt fmtNat
  split
  · simp; omega
  · simp; omega

theorem wString_plain_len {s : Bytes} (h : ∀ c ∈ s, 32 ≤ c ∧ c < 127 ∧ c ≠ 34 ∧ c ≠ 92) : (Json.wString s).length = s.length + 2 := by
  rw [Json.wString, Json.wBody_plain h _ (Nat.le_refl _)]
  simp

theorem hex_plain' (b : Bytes) : ∀ c ∈ hexEnc b, 32 ≤ c ∧ c < 127 ∧ c ≠ 34 ∧ c ≠ 92 := by
  intro c hc
  have key : ∀ c : UInt8, (48 ≤ c ∧ c ≤ 57) ∨ (97 ≤ c ∧ c ≤ 102) → 32 ≤ c ∧ c < 127 ∧ c ≠ 34 ∧ c ≠ 92 := by decide +kernel
  exact key c (hexEnc_lower b c hc)

theorem wOpt_hex_len (key b : Bytes) : (Json.wOpt key (hexEnc b)).length ≤ key.length + 2 * b.length + 6 := by
  unfold Json.wOpt
  split
  · simp
  · simp [wString_plain_len (hex_plain' b), length_hexEnc]
    omega

theorem b64_plain (s : Bytes) : ∀ c ∈ b64Enc s, 32 ≤ c ∧ c < 127 ∧ c ≠ 34 ∧ c ≠ 92 := by
  intro c hc
  obtain ⟨a, b, d, e⟩ := b64_ascii hc
  exact ⟨a, e, b, d⟩

/-- Signing a seal works, and its JSON is only a little longer than its content. -/
theorem seal_json {H : Hash32} {S : Schnorr} {sk s : Bytes} {t : Int} (hs : Signs S sk) (ht : Json.InInt64 t) :
    ∃ e', signEvent H S (Gift.sealOf (b64Enc s) t) sk = (e', true) ∧
      (b64Enc s).length ≤ (Json.encodeEvent e').length ∧ (Json.encodeEvent e').length ≤ (b64Enc s).length + 1000 := by
  obtain ⟨b, h1, h2, h3⟩ := hs.ok
  have hsg := fun e => h3 (H (serialize e)).val (H (serialize e)).property
  unfold signEvent
  rw [h1]
  simp only
  obtain ⟨sg, g1, g2⟩ := hsg { Gift.sealOf (b64Enc s) t with pubkey := hexEnc (S.pubOf b) }
  rw [g1]
  simp only
  refine ⟨_, rfl, ?_, ?_⟩
  · unfold Json.encodeEvent
    simp only [Gift.sealOf, List.length_append, wString_plain_len (b64_plain s)]
    omega
  · unfold Json.encodeEvent
    have f1 : (fmtInt 13).length ≤ 70 := fmtInt_len (by decide)
    have f2 := fmtInt_len ht
    have f3 := wOpt_hex_len (b! "id") (H (serialize { Gift.sealOf (b64Enc s) t with pubkey := hexEnc (S.pubOf b) })).val
    have f4 := wOpt_hex_len (b! "pubkey") (S.pubOf b)
    have f5 := wOpt_hex_len (b! "sig") sg
    have f6 : (Json.wTags []).length = 2 := by decide
    have f7 := (H (serialize { Gift.sealOf (b64Enc s) t with pubkey := hexEnc (S.pubOf b) })).property
    have l1 : (b! "id").length = 2 := by decide
    have l2 : (b! "pubkey").length = 6 := by decide
    have l3 : (b! "sig").length = 3 := by decide
    have l4 : (b! "\"kind\":").length = 7 := by decide
    have l5 : (b! ",\"created_at\":").length = 14 := by decide
    have l6 : (b! ",\"tags\":").length = 8 := by decide
    have l7 : (b! ",\"content\":").length = 11 := by decide
    simp only [Gift.sealOf, List.length_append, wString_plain_len (b64_plain s), List.length_cons, List.length_nil] at *
    omega

/-- One gift wrap is made exactly if the rumor's JSON has at most 40960 bytes. -/
theorem wrap_iff {P : Prims} {agree : Agree} {H : Hash32} {S : Schnorr} {ks : KeySigner} {skA pkB : Bytes} {d : Draw} (hk : Keyer.Inv agree skA ks)
    (hsA : Signs S skA) (hsN : Signs S d.nonceKey) (hAB : ∃ ck, agree pkB skA = some ck) (hNB : ∃ ck, agree pkB d.nonceKey = some ck) (ht : Json.InInt64 d.sealTime)
    (hr : d.rnd.length = 32) (hro : d.rndOuter.length = 32) (modify : Event → Event) (rumor : Event) (rcpt : Bytes) :
    (giftWrap codec H S (wrapEnv P agree H S ks pkB modify d) rumor rcpt).isSome = true ↔ (Json.encodeEvent { rumor with sig := [] }).length ≤ 40960 := by
  obtain ⟨ck, hck⟩ := hAB
  obtain ⟨cn, hcn⟩ := hNB
  have henc : ∀ p, (wrapEnv P agree H S ks pkB modify d).encrypt p = okOf (Nip44.encrypt P ck none d.rnd p) := by
    intro p
    simp only [wrapEnv]
    rw [(Keyer.encrypt_spec P hk d.rnd p pkB).1, hck]
  have hout : ∀ p, (wrapEnv P agree H S ks pkB modify d).outer p = okOf (Nip44.encrypt P cn none d.rndOuter p) := by
    intro p
    simp only [wrapEnv, hcn]
  have hpos : 1 ≤ (Json.encodeEvent { rumor with sig := [] }).length := by simp [Json.encodeEvent]
  unfold giftWrap
  rw [henc]
  simp only [codec]
  generalize Json.encodeEvent { rumor with sig := [] } = m at *
  rcases Nat.lt_or_ge 65535 m.length with hbig | hbig
  · have he : Nip44.encrypt P ck none d.rnd m = .err () :=
      (Nip44.C56_encrypt_errors P ck none d.rnd m (fun _ h => by cases h)).1.2 (.inr hbig)
    rw [he]
    simp [okOf]
    omega
  · obtain ⟨s, e1, e2⟩ := encrypt_length (P := P) (ck := ck) hr hpos hbig
    obtain ⟨sl, g1, g2, g3⟩ := seal_json (H := H) (s := s) hsA ht
    have hsign : (wrapEnv P agree H S ks pkB modify d).sign (Gift.sealOf (b64Enc s) d.sealTime) = some sl := by
      simp only [wrapEnv, hk.same, g1]
    have hst : (wrapEnv P agree H S ks pkB modify d).sealTime = d.sealTime := rfl
    rw [e1]
    simp only [okOf, hst, hsign, hout]
    rw [b64Enc_length, e2] at g2 g3
    rcases Nat.lt_or_ge 40960 m.length with hl | hl
    · have hp := calcPadding_above hl hbig
      have he : Nip44.encrypt P cn none d.rndOuter (Json.encodeEvent sl) = .err () :=
        (Nip44.C56_encrypt_errors P cn none d.rndOuter _ (fun _ h => by cases h)).1.2 (.inr (by omega))
      rw [he]
      simp
      omega
    · have hp := calcPadding_upto hl
      obtain ⟨s', e1', -⟩ := encrypt_length (P := P) (ck := cn) (m := Json.encodeEvent sl) hro (by omega) (by omega)
      rw [e1']
      have hnk : (wrapEnv P agree H S ks pkB modify d).nonceKey = d.nonceKey := rfl
      obtain ⟨b, n1, n2, n3⟩ := hsN.ok
      have hgw : ∀ e, (signEvent H S e d.nonceKey).2 = true := by
        intro e
        unfold signEvent
        rw [n1]
        simp only
        obtain ⟨sg, q1, -⟩ := n3 _ (H (serialize { e with pubkey := hexEnc (S.pubOf b) })).property
        rw [q1]
      simp only [hnk]
      rcases hx : signEvent H S ((wrapEnv P agree H S ks pkB modify d).modify (Gift.wrapOf (b64Enc s') rcpt (wrapEnv P agree H S ks pkB modify d).wrapTime)) d.nonceKey with ⟨gw, ok⟩
      have := hgw ((wrapEnv P agree H S ks pkB modify d).modify (Gift.wrapOf (b64Enc s') rcpt (wrapEnv P agree H S ks pkB modify d).wrapTime))
      rw [hx] at this
      simp only at this
      subst this
      simp [hl]

/-- **C120 (partial): which messages can be sent.** With working keys a message is prepared exactly if the JSON text of its rumor has at most 40960 bytes: so
every shorter one can be sent. Missing: longer ones cannot, see `C120_long_message`. -/
theorem C120_prepared_iff_partial (P : Prims) (agree : Agree) (H : Hash32) (S : Schnorr) (skA pkA pkB : Bytes) (hsA : Signs S skA)
    (hAA : ∃ ck, agree pkA skA = some ck) (hAB : ∃ ck, agree pkB skA = some ck) (hist : List Keyer.Call) (content : Bytes) (tags : Tags) (now : Int)
    (modify : Event → Event) (d1 d2 : Draw) (hs1 : Signs S d1.nonceKey) (hs2 : Signs S d2.nonceKey) (hN1 : ∃ ck, agree pkA d1.nonceKey = some ck)
    (hN2 : ∃ ck, agree pkB d2.nonceKey = some ck) (ht1 : Json.InInt64 d1.sealTime) (ht2 : Json.InInt64 d2.sealTime)
    (hr1 : d1.rnd.length = 32 ∧ d1.rndOuter.length = 32) (hr2 : d2.rnd.length = 32 ∧ d2.rndOuter.length = 32) :
    (prepareMessage P agree H S ((Keyer.newKeySigner skA).after P agree hist) pkA pkB content tags now modify d1 d2).isSome = true ↔
      (Json.encodeEvent (rumorOf H pkA pkB content tags now)).length ≤ 40960 := by
  have hkA := Keyer.after_inv P hist (Keyer.new_inv agree skA)
  have hkA' := (Keyer.encrypt_spec P hkA d1.rnd (codec.enc { rumorOf H pkA pkB content tags now with sig := [] }) pkA).2
  have w1 := wrap_iff (P := P) (H := H) hkA hsA hs1 hAA hN1 ht1 hr1.1 hr1.2 modify (rumorOf H pkA pkB content tags now) pkA
  have w2 := wrap_iff (P := P) (H := H) hkA' hsA hs2 hAB hN2 ht2 hr2.1 hr2.2 modify (rumorOf H pkA pkB content tags now) pkB
  have hsig : ({ rumorOf H pkA pkB content tags now with sig := [] } : Event) = rumorOf H pkA pkB content tags now := rfl
  rw [hsig] at w1
  unfold prepareMessage
  simp only
  rcases h1 : giftWrap codec H S (wrapEnv P agree H S ((Keyer.newKeySigner skA).after P agree hist) pkA modify d1) (rumorOf H pkA pkB content tags now) pkA with _ | a
  · rw [h1] at w1
    simpa using w1
  · rw [h1] at w1
    simp only
    split
    · rename_i h2
      rw [h2] at w2
      exact w2
    · rename_i b h2
      rw [h2] at w2
      exact w2

theorem runeWidth_le4 {s : Bytes} {w : Nat} (h : Json.runeWidth s = some w) : w ≤ 4 := by
  unfold Json.runeWidth at h
  repeat' split at h
  all_goals first | (cases h; done) | (simp only [Option.some.injEq] at h; omega)

theorem wByte_pos (c : UInt8) : 1 ≤ (Json.wByte c).length := by
  unfold Json.wByte
  repeat' split
  all_goals simp

/-- Escaping never shortens. -/
theorem wBody_ge : ∀ (n : Nat) (s : Bytes), s.length ≤ n → s.length ≤ (Json.wBody n s).length
  | _, [], _ => by simp
  | 0, _ :: _, h => by simp at h
  | n + 1, c :: s, h => by
    have hn : s.length ≤ n := by simpa using h
    unfold Json.wBody
    split
    · have := wByte_pos c
      have := wBody_ge n s hn
      simp only [List.length_cons, List.length_append]
      omega
    · split
      · have := wBody_ge n s hn
        simp only [List.length_cons, List.length_append]
        omega
      · rename_i w hw
        have h4 := runeWidth_le4 hw
        obtain ⟨p1, p2⟩ := Json.runeWidth_pos hw
        have hd : ((c :: s).drop w).length = s.length + 1 - w := by simp
        have := wBody_ge n ((c :: s).drop w) (by rw [hd]; omega)
        rw [hd] at this
        split
        · simp only [List.length_cons, List.length_append, List.length_nil]; omega
        · split
          · simp only [List.length_cons, List.length_append, List.length_nil]; omega
          · simp only [List.length_append, List.length_take, List.length_cons]
            simp only [List.length_cons] at p2
            omega

/-- **C120 refuted: long messages cannot be sent.** The padding of the inner encryption takes a rumor of more than 40960 bytes beyond what the outer one can carry, so no
message of 40960 bytes or more is ever sent, though one encryption carries 65535. -/
theorem C120_long_message (P : Prims) (agree : Agree) (H : Hash32) (S : Schnorr) (skA pkA pkB : Bytes) (hsA : Signs S skA)
    (hAA : ∃ ck, agree pkA skA = some ck) (hAB : ∃ ck, agree pkB skA = some ck) (hist : List Keyer.Call) (content : Bytes) (hc : 40960 ≤ content.length) (tags : Tags) (now : Int)
    (modify : Event → Event) (d1 d2 : Draw) (hs1 : Signs S d1.nonceKey) (hs2 : Signs S d2.nonceKey) (hN1 : ∃ ck, agree pkA d1.nonceKey = some ck)
    (hN2 : ∃ ck, agree pkB d2.nonceKey = some ck) (ht1 : Json.InInt64 d1.sealTime) (ht2 : Json.InInt64 d2.sealTime)
    (hr1 : d1.rnd.length = 32 ∧ d1.rndOuter.length = 32) (hr2 : d2.rnd.length = 32 ∧ d2.rndOuter.length = 32) :
    prepareMessage P agree H S ((Keyer.newKeySigner skA).after P agree hist) pkA pkB content tags now modify d1 d2 = none ∧
    (content.length ≤ 65535 → ∀ ck rnd, rnd.length = 32 → ∃ c, Nip44.encrypt P ck none rnd content = .ok c) := by
  refine ⟨?_, fun hle ck rnd hr => ?_⟩
  · have := C120_prepared_iff_partial P agree H S skA pkA pkB hsA hAA hAB hist content tags now modify d1 d2 hs1 hs2 hN1 hN2 ht1 ht2 hr1 hr2
    have hl : 40960 < (Json.encodeEvent (rumorOf H pkA pkB content tags now)).length := by
      have hw : content.length + 2 ≤ (Json.wString content).length := by
        have := wBody_ge content.length content (Nat.le_refl _)
        simp only [Json.wString, List.length_append, List.length_cons, List.length_nil]
        omega
      unfold Json.encodeEvent
      simp only [rumorOf, List.length_append]
      omega
    rcases hp : prepareMessage P agree H S ((Keyer.newKeySigner skA).after P agree hist) pkA pkB content tags now modify d1 d2 with _ | x
    · rfl
    · rw [hp] at this
      simp only [Option.isSome_some, true_iff] at this
      omega
  · obtain ⟨s, h, -⟩ := encrypt_length (P := P) (ck := ck) (m := content) hr (by omega) hle
    exact ⟨_, h⟩

/-! ### Receiving -/

/-- Spec: the listener dies of this event. -/
def Kills (P : Prims) (agree : Agree) (H : Hash32) (S : Schnorr) (sk : Bytes) (e : Event) : Prop :=
  reads P agree sk e.pubkey e.content = .panic ∨
    ∃ js s, reads P agree sk e.pubkey e.content = .ok js ∧ codec.dec js = some s ∧ checkSignature H S s = some true ∧ reads P agree sk s.pubkey s.content = .panic

theorem listen_spec {P : Prims} {agree : Agree} {H : Hash32} {S : Schnorr} {sk : Bytes} : ∀ (es : List Event) (ks : KeySigner), Keyer.Inv agree sk ks →
    (listen P agree H S ks es = .panic ↔ ∃ e ∈ es, Kills P agree H S sk e) ∧
    ∀ out, listen P agree H S ks es = .val out → out = es.filterMap (giftUnwrap codec H S (fun peer c => okOf (reads P agree sk peer c)))
  | [], ks, _ => by simp [listen]
  | e :: es, ks, h => by
    obtain ⟨h1, h2, h3⟩ := unwrap_spec (P := P) (H := H) (S := S) h e
    have ih := listen_spec (P := P) (H := H) (S := S) es _ h2
    unfold listen
    rcases hu : unwrap P agree H S ks e with ⟨r | _ | _, ks'⟩
    · rw [hu] at h1 h2 h3 ih
      simp only [reduceCtorEq, false_iff] at h1 h2 h3 ih
      have hk : ¬ Kills P agree H S sk e := h3
      rw [show ∀ (x : Event), okOf (Res.ok x) = some x from fun _ => rfl] at h1
      simp only [List.mem_cons, exists_eq_or_imp, hk, false_or, List.filterMap_cons, ← h1]
      rw [← ih.1]
      rcases hl : listen P agree H S ks' es with l | _
      · simp only [reduceCtorEq, Out.val.injEq, true_and]
        intro out ho
        rw [← ho, ih.2 l hl]
      · simp
    · rw [hu] at h1 h2 h3 ih
      simp only [reduceCtorEq, false_iff] at h1 h2 h3 ih
      have hk : ¬ Kills P agree H S sk e := h3
      rw [show ∀ u : Unit, okOf (Res.err u : Res Unit Event) = none from fun _ => rfl] at h1
      simp only [List.mem_cons, exists_eq_or_imp, hk, false_or, List.filterMap_cons, ← h1]
      exact ih
    · rw [hu] at h1 h2 h3 ih
      simp only [true_iff] at h3
      have hk : Kills P agree H S sk e := h3
      simp [hk]

/-- **C120: what is delivered.** Whatever events arrive: if the listener survives, it delivers, in the order of arrival, one message for every event that decrypts to a
correctly signed seal whose content decrypts to an event, and nothing else. The author of each is the signer of its seal and its id is the one its fields give. -/
theorem C120_delivers (P : Prims) (agree : Agree) (H : Hash32) (S : Schnorr) (sk : Bytes) (hist : List Keyer.Call) (es out : List Event)
    (h : listen P agree H S ((Keyer.newKeySigner sk).after P agree hist) es = .val out) :
    (∀ r ∈ out, r.id = getID H r ∧ ∃ e ∈ es, ∃ js sl jr inner, reads P agree sk e.pubkey e.content = .ok js ∧ codec.dec js = some sl ∧ checkSignature H S sl = some true ∧
      reads P agree sk sl.pubkey sl.content = .ok jr ∧ codec.dec jr = some inner ∧ r.pubkey = sl.pubkey ∧ r.content = inner.content ∧ r.tags = inner.tags ∧ r.kind = inner.kind ∧
      r.createdAt = inner.createdAt) ∧
    (∀ (before after : List Event) (e : Event) (r : Event), es = before ++ e :: after → (unwrap P agree H S (Keyer.newKeySigner sk) e).1 = .ok r →
      ∃ o1 o2, out = o1 ++ r :: o2 ∧ o1.length ≤ before.length ∧ o2.length ≤ after.length) := by
  have hi := Keyer.after_inv P hist (Keyer.new_inv agree sk)
  have ho := (listen_spec (P := P) (H := H) (S := S) es _ hi).2 out h
  refine ⟨fun r hr => ?_, fun before after e r he hu => ?_⟩
  · rw [ho, List.mem_filterMap] at hr
    obtain ⟨e, he, hr⟩ := hr
    rw [Gift.C70_unwrap_iff] at hr
    obtain ⟨js, sl, jr, inner, a1, a2, a3, a4, a5, a6, a7, a8, a9, a10, a11, -⟩ := hr
    rw [okOf_some] at a1 a4
    exact ⟨a7, e, he, js, sl, jr, inner, a1, a2, a3, a4, a5, a6, a11, a10, a9, a8⟩
  · have hu' := (unwrap_spec (P := P) (H := H) (S := S) (Keyer.new_inv agree sk) e).1
    rw [hu] at hu'
    rw [ho, he, List.filterMap_append, List.filterMap_cons, ← hu']
    exact ⟨_, _, rfl, List.length_filterMap_le _ _, List.length_filterMap_le _ _⟩

/-- **C120 refuted: anyone can kill a listener.** One event with 132 line breaks as its content, from any key the listener can agree with, crashes the whole process, wherever it
comes in the stream. -/
theorem C120_crash (P : Prims) (agree : Agree) (H : Hash32) (S : Schnorr) (sk : Bytes) (hist : List Keyer.Call) (before after : List Event) (e : Event)
    (hc : e.content = List.replicate 132 10) (ck : Bytes) (ha : agree e.pubkey sk = some ck) :
    listen P agree H S ((Keyer.newKeySigner sk).after P agree hist) (before ++ e :: after) = .panic := by
  rw [(listen_spec (P := P) (H := H) (S := S) _ _ (Keyer.after_inv P hist (Keyer.new_inv agree sk))).1]
  refine ⟨e, by simp, .inl ?_⟩
  simp only [reads, ha]
  rw [hc]
  exact (Nip44.C57_panics_iff_only_line_breaks _ _ _).2 ⟨by simp, by simp, fun c hc => Or.inl (List.eq_of_mem_replicate hc)⟩

/-- … and, exactly, when one dies. -/
theorem C120_crash_iff (P : Prims) (agree : Agree) (H : Hash32) (S : Schnorr) (sk : Bytes) (hist : List Keyer.Call) (es : List Event) :
    listen P agree H S ((Keyer.newKeySigner sk).after P agree hist) es = .panic ↔ ∃ e ∈ es, Kills P agree H S sk e :=
  (listen_spec (P := P) (H := H) (S := S) _ _ (Keyer.after_inv P hist (Keyer.new_inv agree sk))).1

/-! ### Asking for messages -/

theorem prepared_tags {P : Prims} {agree : Agree} {H : Hash32} {S : Schnorr} (hS : S.Correct) {ks : KeySigner} {pkA pkB content : Bytes} {tags : Tags} {now : Int} {d1 d2 : Draw} {toUs toThem : Event}
    (h : prepareMessage P agree H S ks pkA pkB content tags now id d1 d2 = some (toUs, toThem)) :
    (toThem.tags = [[b! "p", pkB]] ∧ toThem.kind = 1059 ∧ toThem.createdAt = d2.wrapTime) ∧ toUs.tags = [[b! "p", pkA]] ∧ toUs.kind = 1059 ∧ toUs.createdAt = d1.wrapTime := by
  unfold prepareMessage at h
  simp only at h
  split at h
  · cases h
  · rename_i w1 hw1
    split at h
    · cases h
    · rename_i w2 hw2
      simp only [Option.some.injEq, Prod.mk.injEq] at h
      obtain ⟨rfl, rfl⟩ := h
      exact ⟨(Gift.C70_wrap_signed_by_throwaway _ _ _ hS _ _ _ _ hw2).2.2 rfl, (Gift.C70_wrap_signed_by_throwaway _ _ _ hS _ _ _ _ hw1).2.2 rfl⟩

/-- **C120 (partial): asking for messages.** The wrap for the recipient is asked for by the recipient's listener exactly if the time it carries is not before `since`. -/
theorem C120_asked_for_partial (P : Prims) (agree : Agree) (H : Hash32) (S : Schnorr) (hS : S.Correct) (ks : KeySigner) (pkA pkB content : Bytes) (tags : Tags) (now : Int) (d1 d2 : Draw)
    (toUs toThem : Event) (h : prepareMessage P agree H S ks pkA pkB content tags now id d1 d2 = some (toUs, toThem)) (since : Int) :
    Spec.Matches (inbox pkB since) toThem ↔ since ≤ d2.wrapTime := by
  obtain ⟨⟨h1, h2, h3⟩, -⟩ := prepared_tags hS h
  constructor
  · rintro ⟨_, hs, _⟩
    rw [← h3]
    exact hs since rfl
  · intro hs
    refine ⟨⟨by simp [inbox], ?_, by simp [inbox], ?_⟩, ?_, by simp [inbox]⟩
    · intro ks hk
      simp only [inbox, Option.some.injEq] at hk
      rw [← hk, h2]; simp
    · intro tm hk name vals hm
      simp only [inbox, Option.some.injEq] at hk
      subst hk
      simp only [List.mem_singleton, Prod.mk.injEq, Option.some.injEq] at hm
      obtain ⟨rfl, rfl⟩ := hm
      rw [h1]
      exact ⟨_, by simp, pkB, [], rfl, by simp⟩
    · intro w hw
      simp only [inbox, Option.some.injEq] at hw
      rw [← hw, h3]; exact hs

/-- **C120 refuted: messages are missed.** The wrap's time is up to 599 minutes before the sending (nip59.go:52), and `since` is compared with it: a listener asking for what is sent
from `now` on is not given a message sent at `now` unless the random offset happens to be zero. A `since` ten hours earlier is always enough. -/
theorem C120_since (P : Prims) (agree : Agree) (H : Hash32) (S : Schnorr) (hS : S.Correct) (ks : KeySigner) (pkA pkB content : Bytes) (tags : Tags) (now : Int) (d1 d2 : Draw)
    (toUs toThem : Event) (h : prepareMessage P agree H S ks pkA pkB content tags now id d1 d2 = some (toUs, toThem)) (r : Int) (hr0 : 0 ≤ r) (hr : r < 600)
    (hw : d2.wrapTime = now - 60 * r) :
    (0 < r → (rumorOf H pkA pkB content tags now).createdAt = now ∧ ¬ Spec.Matches (inbox pkB now) toThem) ∧
    (∀ since, since ≤ now - 36000 → Spec.Matches (inbox pkB since) toThem) := by
  constructor
  · intro hpos
    refine ⟨rfl, ?_⟩
    rw [C120_asked_for_partial P agree H S hS ks pkA pkB content tags now d1 d2 toUs toThem h]
    omega
  · intro since hs
    rw [C120_asked_for_partial P agree H S hS ks pkA pkB content tags now d1 d2 toUs toThem h]
    omega

/-- **C120: the relays for messages** are the first three named in the list. -/
theorem C120_dm_relays (tags : Tags) :
    dmRelays 0 tags = (tags.filterMap (fun t => match t with | k :: u :: _ => if k = b! "relay" then some u else none | _ => none)).take 3 := by
  have key : ∀ (tags : Tags) (n : Nat), n < 3 →
      dmRelays n tags = (tags.filterMap (fun t => match t with | k :: u :: _ => if k = b! "relay" then some u else none | _ => none)).take (3 - n) := by
    intro tags
    induction tags with
    | nil => intro n _; simp [dmRelays]
    | cons t rest ih =>
      intro n hn
      match t with
      | [] => simpa [dmRelays] using ih n hn
      | [_] => simpa [dmRelays] using ih n hn
      | k :: u :: more =>
        unfold dmRelays
        by_cases hk : k = b! "relay"
        · rw [if_pos hk]
          rcases Nat.lt_or_ge (n + 1) 3 with h3 | h3
          · rw [if_neg (by omega), ih (n + 1) h3, List.filterMap_cons]
            simp only [if_pos hk]
            rw [show 3 - n = (3 - (n + 1)) + 1 by omega, List.take_succ_cons]
          · have : n = 2 := by omega
            subst this
            rw [if_pos rfl, List.filterMap_cons]
            simp only [if_pos hk]
            rfl
        · rw [if_neg hk, List.filterMap_cons]
          simp only [if_neg hk]
          exact ih n hn
  exact key tags 0 (by omega)

/-! ### Publishing -/

/-- Spec: a relay of the list accepted the event. -/
def AcceptedBy (tr : List Act) (urls : List Bytes) (e : Event) : Prop := ∃ u ∈ urls, Act.published u e .accepted ∈ tr

/-- Spec: Go's own error texts (of the websocket library, of contexts) do not look like a relay's refusal. -/
def Net.Plain (net : Net) : Prop := ∀ tr u e text, net.publish tr u e = .failed text → ¬ (b! "auth-required:") <+: text

theorem msg_not_auth (reason : Bytes) : (b! "auth-required:").isPrefixOf (b! "msg: " ++ reason) = false := rfl

theorem publishOrAuth_eq {net : Net} (hp : net.Plain) (tr : List Act) (url : Bytes) (e : Event) :
    publishOrAuth net tr url e = if net.ensure tr url = false then (tr ++ [.unreachable url], false)
      else (tr ++ [.published url e (net.publish tr url e)], decide (net.publish tr url e = .accepted)) := by
  unfold publishOrAuth
  split
  · rfl
  · simp only
    rcases ha : net.publish tr url e with _ | reason | text
    · simp [Answer.error]
    · simp only [Answer.error, msg_not_auth, Bool.false_eq_true, if_false]
      simp
    · have := hp tr url e text ha
      rw [← List.isPrefixOf_iff_prefix] at this
      simp only [Answer.error]
      rw [if_neg this]
      simp

theorem publishAll_spec {net : Net} (hp : net.Plain) : ∀ (urls : List Bytes) (tr : List Act) (e : Event) (ok : Bool), ∃ more,
    (publishAll net tr urls e ok).1 = tr ++ more ∧ ((publishAll net tr urls e ok).2 = true ↔ ok = true ∨ AcceptedBy more urls e) ∧
    (∀ a ∈ more, ∃ u ∈ urls, a = .unreachable u ∨ ∃ x, a = .published u e x) ∧
    (∀ u ∈ urls, .unreachable u ∈ more ∨ ∃ x, .published u e x ∈ more)
  | [], tr, e, ok => ⟨[], by simp [publishAll, AcceptedBy]⟩
  | url :: urls, tr, e, ok => by
    have hq := publishOrAuth_eq hp tr url e
    unfold publishAll
    by_cases hen : net.ensure tr url = false
    · rw [if_pos hen] at hq
      rw [hq]
      simp only [Bool.or_false]
      obtain ⟨more, m1, m2, m3, m4⟩ := publishAll_spec hp urls (tr ++ [.unreachable url]) e ok
      refine ⟨.unreachable url :: more, by rw [m1]; simp, ?_, ?_, ?_⟩
      · rw [m2]
        unfold AcceptedBy
        simp only [List.mem_cons, reduceCtorEq, false_or, exists_eq_or_imp]
        constructor
        · rintro (h | h)
          · exact .inl h
          · exact .inr (.inr h)
        · rintro (h | h | h)
          · exact .inl h
          · obtain ⟨u, hu, hx⟩ := m3 _ h
            rcases hx with hx | ⟨x, hx⟩
            · cases hx
            · cases hx; exact .inr ⟨url, hu, h⟩
          · exact .inr h
      · intro a ha
        rcases List.mem_cons.1 ha with rfl | ha
        · exact ⟨url, by simp, .inl rfl⟩
        · obtain ⟨u, hu, hx⟩ := m3 a ha
          exact ⟨u, by simp [hu], hx⟩
      · intro u hu
        rcases List.mem_cons.1 hu with rfl | hu
        · exact .inl (by simp)
        · rcases m4 u hu with h | ⟨x, h⟩
          · exact .inl (by simp [h])
          · exact .inr ⟨x, by simp [h]⟩
    · rw [if_neg hen] at hq
      rw [hq]
      simp only
      obtain ⟨more, m1, m2, m3, m4⟩ := publishAll_spec hp urls (tr ++ [.published url e (net.publish tr url e)]) e (ok || decide (net.publish tr url e = .accepted))
      refine ⟨.published url e (net.publish tr url e) :: more, by rw [m1]; simp, ?_, ?_, ?_⟩
      · rw [m2]
        unfold AcceptedBy
        simp only [Bool.or_eq_true, decide_eq_true_eq, List.mem_cons, Act.published.injEq, exists_eq_or_imp, true_and]
        constructor
        · rintro ((h | h) | ⟨u, hu, h⟩)
          · exact .inl h
          · exact .inr (.inl (.inl h.symm))
          · exact .inr (.inr ⟨u, hu, .inr h⟩)
        · rintro (h | (h | h) | ⟨u, hu, h | h⟩)
          · exact .inl (.inl h)
          · exact .inl (.inr h.symm)
          · obtain ⟨u, hu, hx⟩ := m3 _ h
            rcases hx with hx | ⟨x, hx⟩
            · cases hx
            · cases hx; exact .inr ⟨url, hu, h⟩
          · exact .inl (.inr h.2.symm)
          · exact .inr ⟨u, hu, h⟩
      · intro a ha
        rcases List.mem_cons.1 ha with rfl | ha
        · exact ⟨url, by simp, .inr ⟨_, rfl⟩⟩
        · obtain ⟨u, hu, hx⟩ := m3 a ha
          exact ⟨u, by simp [hu], hx⟩
      · intro u hu
        rcases List.mem_cons.1 hu with rfl | hu
        · exact .inr ⟨_, by simp; exact .inl rfl⟩
        · rcases m4 u hu with h | ⟨x, h⟩
          · exact .inl (by simp [h])
          · exact .inr ⟨x, by simp [h]⟩

/-- **C120: publishing.** However the relays answer: our copy goes to all of our relays and to no other; if none of them accepts it nothing is sent to the
recipient's; otherwise the recipient's copy goes to all of theirs and to no other. The result is nil exactly if some of ours accepted our copy and some of theirs accepted
theirs. -/
theorem C120_publish (net : Net) (hp : net.Plain) (toUs toThem : Event) (ours theirs : List Bytes) : ∃ first second,
    (publishMessage net (some (toUs, toThem)) ours theirs).1 = first ++ second ∧
    (∀ a ∈ first, ∃ u ∈ ours, a = .unreachable u ∨ ∃ x, a = .published u toUs x) ∧ (∀ u ∈ ours, .unreachable u ∈ first ∨ ∃ x, .published u toUs x ∈ first) ∧
    (∀ a ∈ second, ∃ u ∈ theirs, a = .unreachable u ∨ ∃ x, a = .published u toThem x) ∧
    (¬ AcceptedBy first ours toUs → second = []) ∧
    (AcceptedBy first ours toUs → ∀ u ∈ theirs, .unreachable u ∈ second ∨ ∃ x, .published u toThem x ∈ second) ∧
    ((publishMessage net (some (toUs, toThem)) ours theirs).2 = true ↔ AcceptedBy first ours toUs ∧ AcceptedBy second theirs toThem) := by
  obtain ⟨m, m1, m2, m3, m4⟩ := publishAll_spec hp ours [] toUs false
  simp only [Bool.false_eq_true, false_or, List.nil_append] at m1 m2
  unfold publishMessage
  rcases hf : publishAll net [] ours toUs false with ⟨tr, _ | _⟩
  · rw [hf] at m1 m2
    simp only [Bool.false_eq_true, false_iff] at m1 m2
    subst m1
    simp only [hf]
    exact ⟨tr, [], by simp, m3, m4, by simp, fun _ => rfl, fun h => absurd h m2, by simp [m2]⟩
  · rw [hf] at m1 m2
    simp only [true_iff] at m1 m2
    subst m1
    simp only [hf]
    obtain ⟨n, n1, n2, n3, n4⟩ := publishAll_spec hp theirs tr toThem false
    simp only [Bool.false_eq_true, false_or] at n2
    exact ⟨tr, n, n1, m3, m4, n3, fun h => absurd m2 h, fun _ => n4, by simp [n2, m2]⟩

/-- **C120 refuted: no authentication.** A relay that wants authentication and would accept it is never given it: `Publish`'s error starts with "msg: ", which the check for "auth-required:"
does not see. So a message is not delivered although the recipient's relay would have taken it after AUTH. -/
theorem C120_never_authenticates (toUs toThem : Event) (hne : toUs ≠ toThem) (u v : Bytes) : ∃ net : Net, net.Plain ∧
    (∀ tr w e, net.publish (tr ++ [.authenticated w true]) w e = .accepted) ∧ (∀ tr w, net.auth tr w = true) ∧ (∀ tr w, net.ensure tr w = true) ∧
    (publishMessage net (some (toUs, toThem)) [u] [v]).2 = false ∧ ∀ a ∈ (publishMessage net (some (toUs, toThem)) [u] [v]).1, ∀ w ok, a ≠ .authenticated w ok := by
  let net : Net := ⟨fun _ _ => true, fun tr w e => if e = toUs then .accepted else if tr.getLast? = some (.authenticated w true) then .accepted else .refused (b! "auth-required: please"), fun _ _ => true⟩
  have hp : net.Plain := by
    intro tr w e text h
    simp only [net] at h
    split at h
    · cases h
    · split at h <;> cases h
  obtain ⟨f, s, h1, h2, -, h4, -, -, h7⟩ := C120_publish net hp toUs toThem [u] [v]
  have hr : (publishMessage net (some (toUs, toThem)) [u] [v]).2 = false := by
    simp only [publishMessage, publishAll, publishOrAuth_eq hp]
    simp [net, Ne.symm hne]
  refine ⟨net, hp, ?_, fun _ _ => rfl, fun _ _ => rfl, hr, ?_⟩
  · intro tr w e
    simp only [net, List.getLast?_append, List.getLast?_singleton, Option.some_or, if_true]
    split <;> rfl
  · intro a ha w ok hc
    rw [h1, List.mem_append] at ha
    subst hc
    rcases ha with ha | ha
    · obtain ⟨_, _, h | ⟨x, h⟩⟩ := h2 _ ha <;> cases h
    · obtain ⟨_, _, h | ⟨x, h⟩⟩ := h4 _ ha <;> cases h

/-! ### The hypotheses can be met -/

/-- A value of the examples. -/
def exA : Bytes := hexEnc (List.replicate 32 7)
/-- A value of the examples. -/
def exB : Bytes := hexEnc (List.replicate 32 9)
/-- A value of the examples. -/
def exN : Bytes := hexEnc (List.replicate 32 5)
/-- A value of the examples. -/
def exDraw : Draw := ⟨List.replicate 32 1, List.replicate 32 2, exN, 940, 880⟩

theorem toy_signs (b : Bytes) (h : b.length = 32) : Signs toySchnorr (hexEnc b) :=
  ⟨b, hexDec_hexEnc b, h, fun x hx => ⟨b ++ x, by simp [toySchnorr, h, hx], by simp [h, hx]⟩⟩

example : getPublicKey toySchnorr exA = some exA ∧ getPublicKey toySchnorr exB = some exB ∧ Agrees toySchnorr Keyer.toyAgree exA exB ∧ Agrees toySchnorr Keyer.toyAgree exA exA ∧
    Agrees toySchnorr Keyer.toyAgree exN exA ∧ Agrees toySchnorr Keyer.toyAgree exN exB ∧ Sendable exB (b! "hello") [[b! "subject", b! "x"]] 1000 exDraw ∧
    Signs toySchnorr exA ∧ Signs toySchnorr exN := by
  refine ⟨by decide +kernel, by decide +kernel, ⟨exA, exB, _, by decide +kernel, by decide +kernel, rfl, by decide +kernel⟩, ⟨exA, exA, _, by decide +kernel, by decide +kernel, rfl, rfl⟩,
    ⟨exN, exA, _, by decide +kernel, by decide +kernel, rfl, by decide +kernel⟩, ⟨exN, exB, _, by decide +kernel, by decide +kernel, rfl, by decide +kernel⟩,
    ⟨hex_utf8 _, .ascii (by decide +kernel), ?_, by decide, by decide, by decide, by decide⟩, toy_signs _ (by simp), toy_signs _ (by simp)⟩
  intro t ht x hx
  simp only [List.mem_singleton] at ht
  subst ht
  simp only [List.mem_cons, List.not_mem_nil, or_false] at hx
  rcases hx with rfl | rfl <;> exact .ascii (by decide +kernel)

/-- The message is prepared, and delivered among noise. -/
example : (match prepareMessage Nip44.samplePrims Keyer.toyAgree toyHash toySchnorr (Keyer.newKeySigner exA) exA exB (b! "hello") [[b! "subject", b! "x"]] 1000 id exDraw exDraw with
    | some (toUs, toThem) => decide (listen Nip44.samplePrims Keyer.toyAgree toyHash toySchnorr (Keyer.newKeySigner exB) [{ toUs with content := b! "noise" }, toThem] = .val [rumorOf toyHash exA exB (b! "hello") [[b! "subject", b! "x"]] 1000])
    | none => false) = true := by decide +kernel

/-- Relays that meet `Plain`, one refusing: the result is nil. -/
example : (⟨fun _ _ => true, fun _ u _ => if u = b! "a" then .refused (b! "blocked: no") else .accepted, fun _ _ => true⟩ : Net).Plain ∧
    (publishMessage ⟨fun _ _ => true, fun _ u _ => if u = b! "a" then .refused (b! "blocked: no") else .accepted, fun _ _ => true⟩ (some (sampleEvent, { sampleEvent with kind := 7 }))
      [b! "a", b! "b"] [b! "c"]).2 = true := by
  refine ⟨fun tr u e text h => ?_, by decide +kernel⟩
  simp only at h
  split at h <;> cases h

end GoNostr.Dm
