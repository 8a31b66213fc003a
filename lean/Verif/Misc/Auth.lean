import Verif.Misc.Threads
import Verif.Event.Theorems
/-!
# C69: validating AUTH events (nip42); C70: gift wraps (nip59)
-/

set_option autoImplicit false

namespace GoNostr.Auth

open Thread (IsFirst find_spec first_unique)

/-- The parts of a `net/url` URL that are compared. -/
structure Url where
  scheme : Bytes
  host : Bytes
  path : Bytes
  deriving DecidableEq, Repr

/-- External functions: `strings.ToLower` and `url.Parse` (`none` is an error). -/
structure Env where
  lower : Bytes → Bytes
  parse : Bytes → Option Url

/-- `strings.TrimSuffix(s, "/")`. -/
def trimSlash (s : Bytes) : Bytes := if s.getLast? = some 47 then s.dropLast else s

/-- `parseURL` (nip42/nip42.go:27-33). -/
def parseURL (env : Env) (input : Bytes) : Option Url := env.parse (env.lower (trimSlash input))

/-- `CreateUnsignedAuthEvent` (nip42/nip42.go:13-24); `now` is the clock in seconds. -/
def createUnsigned (challenge pubkey relayURL : Bytes) (now : Int) : Event where
  id := []
  pubkey := pubkey
  createdAt := now
  kind := 22242
  tags := [[b! "relay", relayURL], [b! "challenge", challenge]]
  content := []
  sig := []

/-- `ValidateAuthEvent` (nip42/nip42.go:37-79); `none` is `("", false)`, `now` the clock in nanoseconds. Times are compared as
unbounded integers of nanoseconds (`time.Time` holds seconds and nanoseconds; created_at values so large that the seconds wrap land in the far past
and are refused like the far future they stand for). -/
def validate (env : Env) (H : Hash32) (S : Schnorr) (now : Int) (e : Event) (challenge relayURL : Bytes) : Option Bytes :=
  if e.kind ≠ 22242 then none
  else match Tags.findWithValue (b! "challenge") challenge e.tags with
  | none => none
  | some _ => match parseURL env relayURL with
    | none => none
    | some expected => match Tags.find (b! "relay") e.tags with
      | some (_ :: u :: _) => match parseURL env u with
        | none => none
        | some found =>
          if expected.scheme ≠ found.scheme ∨ expected.host ≠ found.host ∨ expected.path ≠ found.path then none
          else if e.createdAt * 1000000000 > now + 600000000000 ∨ e.createdAt * 1000000000 < now - 600000000000 then none
          else match checkSignature H S e with
            | some true => some e.pubkey
            | _ => none
      | _ => none

/-! ## Specification -/

/-- Spec: both urls parse, after dropping one trailing slash and lowercasing, to the same scheme, host and path. -/
def SameRelay (env : Env) (a b : Bytes) : Prop :=
  ∃ x y, env.parse (env.lower (trimSlash a)) = some x ∧ env.parse (env.lower (trimSlash b)) = some y ∧
    x.scheme = y.scheme ∧ x.host = y.host ∧ x.path = y.path

/-- Spec: what an acceptable AUTH event is. -/
structure Acceptable (env : Env) (H : Hash32) (S : Schnorr) (now : Int) (e : Event) (challenge relayURL : Bytes) : Prop where
  kind : e.kind = 22242
  challenge : ∃ r, b! "challenge" :: challenge :: r ∈ e.tags
  relay : ∃ u r, IsFirst (fun t => ∃ v r, t = b! "relay" :: v :: r) e.tags (b! "relay" :: u :: r) ∧ SameRelay env relayURL u
  fresh : now - 600 * 1000000000 ≤ e.createdAt * 1000000000 ∧ e.createdAt * 1000000000 ≤ now + 600 * 1000000000
  signature : checkSignature H S e = some true

theorem findWithValue_isSome (key value : Bytes) : ∀ tags : Tags, (∃ t, Tags.findWithValue key value tags = some t) ↔ ∃ r, key :: value :: r ∈ tags
  | [] => by simp [Tags.findWithValue]
  | t :: rest => by
    have ih := findWithValue_isSome key value rest
    match t with
    | [] => simpa [Tags.findWithValue] using ih
    | [_] => simpa [Tags.findWithValue] using ih
    | k :: v :: r =>
      by_cases h : v = value ∧ k = key
      · obtain ⟨rfl, rfl⟩ := h
        constructor
        · intro _; exact ⟨r, List.mem_cons_self⟩
        · intro _; exact ⟨k :: v :: r, by simp [Tags.findWithValue]⟩
      · simp only [Tags.findWithValue, if_neg h]
        rw [ih]
        constructor
        · rintro ⟨r, hr⟩; exact ⟨r, List.mem_cons_of_mem _ hr⟩
        · rintro ⟨r', hr⟩
          rcases List.mem_cons.1 hr with hc | hr
          · simp only [List.cons.injEq] at hc
            exact absurd ⟨hc.2.1.symm, hc.1.symm⟩ h
          · exact ⟨r', hr⟩

/-- **C69**. `ValidateAuthEvent` accepts exactly the acceptable events, and returns the author's public key. -/
theorem C69_validate_iff (env : Env) (H : Hash32) (S : Schnorr) (now : Int) (e : Event) (challenge relayURL pk : Bytes) :
    validate env H S now e challenge relayURL = some pk ↔ pk = e.pubkey ∧ Acceptable env H S now e challenge relayURL := by
  constructor
  · intro h
    unfold validate at h
    split at h
    · cases h
    · rename_i hk
      split at h
      · cases h
      · rename_i t ht
        split at h
        · cases h
        · rename_i x hx
          split at h
          · rename_i k u r hf
            split at h
            · cases h
            · rename_i y hy
              split at h
              · cases h
              · rename_i hu
                split at h
                · cases h
                · rename_i htm
                  split at h
                  · rename_i hs
                    cases h
                    refine ⟨rfl, Decidable.not_not.1 hk, (findWithValue_isSome _ _ _).1 ⟨_, ht⟩, ?_, ?_, hs⟩
                    · rcases find_spec (b! "relay") e.tags with ⟨w, h1, h2⟩ | ⟨h1, -⟩
                      · rw [hf] at h1
                        cases h1
                        have h3 := h2
                        obtain ⟨pre, post, -, ⟨v, r', h4⟩, -⟩ := h3
                        simp only [List.cons.injEq] at h4
                        obtain ⟨rfl, rfl, rfl⟩ := h4
                        refine ⟨u, r, h2, x, y, hx, hy, ?_⟩
                        simp only [not_or, ne_eq, Decidable.not_not] at hu
                        exact hu
                      · rw [hf] at h1; cases h1
                    · omega
                  · cases h
          · cases h
  · rintro ⟨rfl, hk, hc, ⟨u, r, hr, x, y, hx, hy, h1, h2, h3⟩, ht, hs⟩
    obtain ⟨t, hfv⟩ := (findWithValue_isSome _ _ _).2 hc
    have hf : Tags.find (b! "relay") e.tags = some (b! "relay" :: u :: r) := by
      rcases find_spec (b! "relay") e.tags with ⟨w, g1, g2⟩ | ⟨-, g2⟩
      · rw [g1, first_unique g2 hr]
      · obtain ⟨pre, post, h4, h5, -⟩ := hr
        exact absurd h5 (g2 _ (by rw [h4]; simp))
    have hu : ¬ (x.scheme ≠ y.scheme ∨ x.host ≠ y.host ∨ x.path ≠ y.path) := by simp [h1, h2, h3]
    have htm : ¬ (e.createdAt * 1000000000 > now + 600000000000 ∨ e.createdAt * 1000000000 < now - 600000000000) := by omega
    unfold validate
    rw [if_neg (by simp [hk]), hfv]
    simp only [parseURL, hx, hf, hy, if_neg hu, if_neg htm, hs]

/-- **C69** (what acceptance authenticates). The returned key is the one under which the signature verifies. -/
theorem C69_returned_key_signed (env : Env) (H : Hash32) (S : Schnorr) (now : Int) (e : Event) (challenge relayURL pk : Bytes)
    (h : validate env H S now e challenge relayURL = some pk) :
    ∃ k sg, hexDec pk = some k ∧ hexDec e.sig = some sg ∧ S.verify sg (H (serialize e)).val k = true := by
  obtain ⟨rfl, ha⟩ := (C69_validate_iff env H S now e challenge relayURL pk).1 h
  obtain ⟨k, sg, h1, -, h2, -, h3⟩ := (C05_checkSignature_iff H S e).1 ha.signature
  exact ⟨k, sg, h1, h2, h3⟩

/-- **C69** (created events). An event made by `CreateUnsignedAuthEvent` and signed with any key is accepted by the relay for the same
challenge and url within ten minutes, provided the url parses, and authenticates the signer's key. -/
theorem C69_created_event_accepted (env : Env) (H : Hash32) (S : Schnorr) (hS : S.Correct) (challenge pubkey relayURL sk : Bytes) (made now : Int)
    (x : Url) (hx : env.parse (env.lower (trimSlash relayURL)) = some x) (e : Event)
    (hs : signEvent H S (createUnsigned challenge pubkey relayURL made) sk = (e, true))
    (h1 : made * 1000000000 ≤ now + 600 * 1000000000) (h2 : now - 600 * 1000000000 ≤ made * 1000000000) :
    validate env H S now e challenge relayURL = some e.pubkey ∧ getPublicKey S sk = some e.pubkey := by
  obtain ⟨g1, -, g3, g4, g5, g6, -⟩ := C04_sign_verifies H S hS _ sk e hs
  refine ⟨(C69_validate_iff env H S now e challenge relayURL _).2 ⟨rfl, ?_, ?_, ?_, ?_, g3⟩, g1⟩
  · rw [g5]; rfl
  · rw [g6]; exact ⟨[], by simp [createUnsigned]⟩
  · rw [g6]
    exact ⟨relayURL, [], ⟨[], [[b! "challenge", challenge]], rfl, ⟨_, _, rfl⟩, by simp⟩, x, x, hx, hx, rfl, rfl, rfl⟩
  · rw [g4]; exact ⟨h2, h1⟩

example : let env : Env := ⟨id, fun u => some ⟨b! "wss", u.drop 6, []⟩⟩
    let sk := hexEnc (List.replicate 32 7)
    let e := (signEvent toyHash toySchnorr (createUnsigned (b! "chal") [] (b! "wss://r.com/") 1000) sk).1
    validate env toyHash toySchnorr 1300500000000 e (b! "chal") (b! "wss://r.com") = some sk ∧
    validate env toyHash toySchnorr 1600000000001 e (b! "chal") (b! "wss://r.com") = none ∧
    validate env toyHash toySchnorr 1300500000000 e (b! "other") (b! "wss://r.com") = none := by decide +kernel

end GoNostr.Auth

namespace GoNostr.Gift

/-- External functions: the JSON text of an event (`Event.String`, event.go:22-25) and its parser (`easyjson.Unmarshal`). -/
structure Json where
  enc : Event → Bytes
  dec : Bytes → Option Event

/-- What `GiftWrap` is given and draws: the sender's `encrypt` and `sign`, the caller's `modify`, the outer nip44 encryption with the key
derived from the throw-away key, that key, the two timestamps. -/
structure WrapEnv where
  encrypt : Bytes → Option Bytes
  sign : Event → Option Event
  modify : Event → Event
  nonceKey : Bytes
  outer : Bytes → Option Bytes
  sealTime : Int
  wrapTime : Int

/-- The unsigned seal (nip59/nip59.go:28-33). -/
def sealOf (ct : Bytes) (time : Int) : Event where
  id := []
  pubkey := []
  createdAt := time
  kind := 13
  tags := []
  content := ct
  sig := []

/-- The unsigned gift wrap (nip59/nip59.go:49-56). -/
def wrapOf (ct recipient : Bytes) (time : Int) : Event where
  id := []
  pubkey := []
  createdAt := time
  kind := 1059
  tags := [[b! "p", recipient]]
  content := ct
  sig := []

/-- `GiftWrap` (nip59/nip59.go:14-65); `none` is an error. -/
def giftWrap (J : Json) (H : Hash32) (S : Schnorr) (w : WrapEnv) (rumor : Event) (recipient : Bytes) : Option Event :=
  match w.encrypt (J.enc { rumor with sig := [] }) with
  | none => none
  | some rumorCt => match w.sign (sealOf rumorCt w.sealTime) with
    | none => none
    | some seal' => match w.outer (J.enc seal') with
      | none => none
      | some sealCt => match signEvent H S (w.modify (wrapOf sealCt recipient w.wrapTime)) w.nonceKey with
        | (gw, true) => some gw
        | (_, false) => none

/-- `GiftUnwrap` (nip59/nip59.go:67-100); `decrypt` is the recipient's function of the other party's key and the ciphertext; `none` is an error. -/
def giftUnwrap (J : Json) (H : Hash32) (S : Schnorr) (decrypt : Bytes → Bytes → Option Bytes) (gw : Event) : Option Event :=
  match decrypt gw.pubkey gw.content with
  | none => none
  | some jseal => match J.dec jseal with
    | none => none
    | some seal' => match checkSignature H S seal' with
      | some true => match decrypt seal'.pubkey seal'.content with
        | none => none
        | some jrumor => match J.dec jrumor with
          | none => none
          | some rumor => some { rumor with pubkey := seal'.pubkey, id := getID H { rumor with pubkey := seal'.pubkey } }
      | _ => none

/-- **C70** (adversarial). For every wrap whatsoever and whatever the recipient's decryption does: it is accepted exactly when it decrypts to an
event (the seal) with a valid signature whose content decrypts, under the seal's own key, to an event; the result is that event with the public
key of the seal and the id computed from it. So the author of the result is always the key that signed the seal, whatever the rumor claims. -/
theorem C70_unwrap_iff (J : Json) (H : Hash32) (S : Schnorr) (decrypt : Bytes → Bytes → Option Bytes) (gw r : Event) :
    giftUnwrap J H S decrypt gw = some r ↔
    ∃ js sl jr inner, decrypt gw.pubkey gw.content = some js ∧ J.dec js = some sl ∧ checkSignature H S sl = some true ∧
      decrypt sl.pubkey sl.content = some jr ∧ J.dec jr = some inner ∧
      r.pubkey = sl.pubkey ∧ r.id = getID H r ∧ r.createdAt = inner.createdAt ∧ r.kind = inner.kind ∧ r.tags = inner.tags ∧
      r.content = inner.content ∧ r.sig = inner.sig := by
  constructor
  · intro h
    unfold giftUnwrap at h
    split at h
    · cases h
    · rename_i js h1
      split at h
      · cases h
      · rename_i sl h2
        split at h
        · rename_i h3
          split at h
          · cases h
          · rename_i jr h4
            split at h
            · cases h
            · rename_i inner h5
              cases h
              exact ⟨js, sl, jr, inner, h1, h2, h3, h4, h5, rfl, rfl, rfl, rfl, rfl, rfl, rfl⟩
        · cases h
  · rintro ⟨js, sl, jr, inner, h1, h2, h3, h4, h5, g1, g2, g3, g4, g5, g6, g7⟩
    unfold giftUnwrap
    simp only [h1, h2, h3, h4, h5, Option.some.injEq]
    obtain ⟨i1, i2, i3, i4, i5, i6, i7⟩ := r
    simp only at g1 g2 g3 g4 g5 g6 g7
    subst g1 g3 g4 g5 g6 g7
    have e : getID H { inner with pubkey := sl.pubkey } = i1 := by
      rw [g2]
      simp [getID, serialize, serializeEventInto]
    rw [e]

/-- The contracts of the round trip: JSON round trips on the events of the class `Ok`; the signer signs and only fills in author, id and signature; the recipient's decryption
inverts the sender's encryption given the sender's key, and the outer encryption given the throw-away key. -/
structure Honest (J : Json) (Ok : Event → Prop) (H : Hash32) (S : Schnorr) (w : WrapEnv) (senderPub : Bytes)
    (decrypt : Bytes → Bytes → Option Bytes) : Prop where
  json : ∀ e, Ok e → J.dec (J.enc e) = some e
  signer : ∀ p c e', w.encrypt p = some c → w.sign (sealOf c w.sealTime) = some e' → e'.content = c ∧ e'.pubkey = senderPub ∧ checkSignature H S e' = some true ∧ Ok e'
  modify : ∀ e, (w.modify e).content = e.content
  inner : ∀ p c, w.encrypt p = some c → decrypt senderPub c = some p
  outer : ∀ p c k, w.outer p = some c → getPublicKey S w.nonceKey = some k → decrypt k c = some p
  crypto : S.Correct

/-- **C70** (round trip). What an honest sender wraps, the recipient unwraps: the rumor with the sender's public key, the id computed from its
fields and no signature. -/
theorem C70_roundtrip (J : Json) (Ok : Event → Prop) (H : Hash32) (S : Schnorr) (w : WrapEnv) (senderPub : Bytes) (decrypt : Bytes → Bytes → Option Bytes)
    (hh : Honest J Ok H S w senderPub decrypt) (rumor gw : Event) (recipient : Bytes) (hok : Ok { rumor with sig := [] }) (h : giftWrap J H S w rumor recipient = some gw) :
    giftUnwrap J H S decrypt gw =
      some { rumor with sig := [], pubkey := senderPub, id := getID H { rumor with pubkey := senderPub } } := by
  unfold giftWrap at h
  split at h
  · cases h
  · rename_i rc h1
    split at h
    · cases h
    · rename_i sl h2
      split at h
      · cases h
      · rename_i sc h3
        split at h
        · rename_i gw' h4
          cases h
          obtain ⟨k1, -, -, -, -, -, k2⟩ := C04_sign_verifies H S hh.crypto _ _ _ h4
          obtain ⟨s1, s2, s3, s4⟩ := hh.signer _ _ _ h1 h2
          have hc : gw.content = sc := by rw [k2, hh.modify]; rfl
          have d1 := hh.outer _ _ _ h3 k1
          have d2 := hh.inner _ _ h1
          unfold giftUnwrap
          rw [hc, d1]
          simp only [hh.json _ s4, s3, s2]
          rw [s1, d2]
          simp only [hh.json _ hok, Option.some.injEq]
          simp [getID, serialize, serializeEventInto]
        · cases h

/-- **C70** (the wrap itself). The gift wrap is signed by the throw-away key, addressed to the recipient unless `modify` changes it, and its
signature is valid; the sender's key does not appear in its public fields. -/
theorem C70_wrap_signed_by_throwaway (J : Json) (H : Hash32) (S : Schnorr) (hS : S.Correct) (w : WrapEnv) (rumor gw : Event) (recipient : Bytes)
    (h : giftWrap J H S w rumor recipient = some gw) :
    getPublicKey S w.nonceKey = some gw.pubkey ∧ checkSignature H S gw = some true ∧
    (w.modify = id → gw.tags = [[b! "p", recipient]] ∧ gw.kind = 1059 ∧ gw.createdAt = w.wrapTime) := by
  unfold giftWrap at h
  split at h
  · cases h
  · split at h
    · cases h
    · split at h
      · cases h
      · split at h
        · rename_i gw' h4
          cases h
          obtain ⟨k1, -, k3, k4, k5, k6, -⟩ := C04_sign_verifies H S hS _ _ _ h4
          refine ⟨k1, k3, ?_⟩
          intro hm
          rw [hm] at k4 k5 k6
          exact ⟨k6, k5, k4⟩
        · cases h

/-- **C70 refuted (kind of the seal).** The unwrapper never looks at the kind of the seal: any signed event whose content the recipient can
decrypt serves as one, here a kind 1 note. -/
theorem C70_seal_kind_unchecked : ∃ (J : Json) (H : Hash32) (S : Schnorr) (decrypt : Bytes → Bytes → Option Bytes) (gw sl r : Event),
    J.dec gw.content = some sl ∧ sl.kind = 1 ∧ giftUnwrap J H S decrypt gw = some r := by
  let sk := hexEnc (List.replicate 32 7)
  let note : Event := (signEvent toyHash toySchnorr { Auth.createUnsigned [] [] [] 5 with kind := 1 } sk).1
  let rumor : Event := { Auth.createUnsigned [] [] [] 6 with kind := 14 }
  refine ⟨⟨fun _ => [], fun b => if b = [1] then some note else some rumor⟩, toyHash, toySchnorr, fun _ c => some c,
    { rumor with content := [1] }, note, { rumor with pubkey := sk, id := getID toyHash { rumor with pubkey := sk } }, ?_, ?_, ?_⟩ <;> decide +kernel

/-- A codec and cipher meeting the contracts: an instance in which a rumor is wrapped and read. -/
example : let sk := hexEnc (List.replicate 32 7)
    let nk := hexEnc (List.replicate 32 9)
    let rumor : Event := { Auth.createUnsigned (b! "x") [] [] 6 with kind := 14, content := b! "hello" }
    let sealed : Event := (signEvent toyHash toySchnorr (sealOf [1, 0] 50) sk).1
    let J : Json := ⟨fun e => if e.kind = 14 then [0] else [1], fun b => if b = [1] then some sealed else if b = [0] then some { rumor with sig := [] } else none⟩
    let w : WrapEnv := ⟨fun p => some (1 :: p), fun e => some (signEvent toyHash toySchnorr e sk).1, id, nk, fun p => some (2 :: p), 50, 60⟩
    let decrypt := fun (k c : Bytes) => if k = sk then (if c.head? = some 1 then some c.tail else none) else if k = nk then some c.tail else none
    ((giftWrap J toyHash toySchnorr w rumor (b! "rcpt")).bind (giftUnwrap J toyHash toySchnorr decrypt)).map (fun r => (r.content, r.pubkey)) = some (b! "hello", sk) := by
  decide +kernel

end GoNostr.Gift
