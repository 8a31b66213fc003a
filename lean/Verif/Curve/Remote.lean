import Verif.Curve.Whole
import Verif.Nip04.Theorems
import Verif.Nips.Signer
import Verif.Nips.Client
/-!
# C169: remote signing as a whole

The static signer (`Nips/Signer`) and the client (`Nips/Client`) of NIP-46 together, with the keys, key agreement and signatures of secp256k1, the encryption of NIP-44 and NIP-04, and the JSON of
events. How a request and a response are written as JSON (json-iterator) is a parameter with a round-trip law. Nonces are arbitrary functions of what is encrypted.
-/

set_option autoImplicit false

namespace GoNostr.Curve.Remote

open Bunker (Request Response Static Table CryptOp)

attribute [local irreducible] fieldP groupN toBE ser scalarOf

noncomputable section

/-! ## The model -/

/-- nip46/nip46.go:14-29: requests and responses as JSON. -/
structure Wire where
  encReq : Request → Bytes
  decReq : Bytes → Option Request
  encResp : Response → Bytes
  decResp : Bytes → Option Response

/-- What is written is read back, and is not empty. -/
structure Wire.Good (W : Wire) : Prop where
  req : ∀ r, W.decReq (W.encReq r) = some r ∧ W.encReq r ≠ []
  resp : ∀ r, W.decResp (W.encResp r) = some r ∧ W.encResp r ≠ []

/-- What signer and client are given. -/
structure Env where
  P : Nip44.Prims
  extract : Bytes → Bytes → Bytes
  H : Hash32
  L : Lib
  A : Nip04.Aes
  W : Wire
  /-- the nonce a response is encrypted with -/
  respNonce : Response → Bytes
  /-- the nonce of `nip44_encrypt` and the initialization vector of `nip04_encrypt` -/
  nonce : Bytes → Bytes
  iv : Bytes → Bytes
  relays : Bytes
  authorize : Option (Bool → Bytes → Bytes → Bool)
  now : Int

/-- nip46/bunker_session.go:11-15. -/
structure Session where
  publicKey : Bytes
  shared : Bytes
  ck : Bytes

/-- The results of the encryption functions as the signer sees them. -/
def toCrypt : Res Unit Bytes → Out (Except Bytes Bytes)
  | .ok r => .val (.ok r)
  | .err _ => .val (.error (b! "error"))
  | .panic => .panic

/-- nip46/bunker_session.go:25-32, nip46/client.go:128-134: NIP-44, else NIP-04; nothing if both fail. -/
def open_ (E : Env) (shared ck content : Bytes) : Out (Option Bytes) :=
  match Nip44.decrypt E.P ck content with
  | .panic => .panic
  | .ok plain => .val (some plain)
  | .err _ => match Nip04.decrypt E.A content shared with
    | .panic => .panic
    | .ok plain => .val (some plain)
    | .err _ => .val none

/-- nip46/static-key-signer.go: the signer with the secret key `sk`. The texts of errors are simplified. -/
def signer (E : Env) (sk : Bytes) : Static Session where
  zero := ⟨[], [], []⟩
  makeSession := fun client =>
    match computeSharedSecret04 client sk with
    | none => none
    | some shared => match generateConversationKey E.extract client sk with
      | none => none
      | some ck => match getPublicKey (bip340 E.L) sk with
        | none => none
        | some pk => some ⟨pk, shared, ck⟩
  pubKey := fun s => s.publicKey
  parse := fun s e => match open_ E s.shared s.ck e.content with
    | .panic => .panic
    | .val none => .val none
    | .val (some plain) => .val (E.W.decReq plain)
  lock := fun s r => match Nip44.encrypt E.P s.ck none (E.respNonce r) (E.W.encResp r) with
    | .ok c => some c
    | _ => none
  sign := fun e => match signEvent E.H (bip340 E.L) e sk with
    | (e, true) => .ok e
    | _ => .error (b! "error")
  decodeEvent := fun b => match Json.decodeEvent b with
    | some e => .ok e
    | none => .error (b! "error")
  encodeEvent := Json.encodeEvent
  validPubkey := isValidPublicKey (bip340 E.L).parsePub
  crypt := fun op pk text =>
    match op with
    | .enc44 => match generateConversationKey E.extract pk sk with
      | none => .val (.error (b! "error"))
      | some ck => toCrypt (Nip44.encrypt E.P ck none (E.nonce text) text)
    | .dec44 => match generateConversationKey E.extract pk sk with
      | none => .val (.error (b! "error"))
      | some ck => toCrypt (Nip44.decrypt E.P ck text)
    | .enc04 => match computeSharedSecret04 pk sk with
      | none => .val (.error (b! "error"))
      | some s => toCrypt (Nip04.encrypt E.A (E.iv text) text s)
    | .dec04 => match computeSharedSecret04 pk sk with
      | none => .val (.error (b! "error"))
      | some s => toCrypt (Nip04.decrypt E.A text s)
  relays := E.relays
  authorize := E.authorize
  now := E.now

/-- nip46/client.go:99-100: the client's secrets with the signer `target`; errors are ignored. -/
def shared (target sk : Bytes) : Bytes := (computeSharedSecret04 target sk).getD []

/-- The conversation key of client and signer (nip46/client.go:100, nip44/nip44.go:156-170). -/
def convKey (E : Env) (target sk : Bytes) : Bytes := (generateConversationKey E.extract target sk).getD (List.replicate 32 0)

/-- nip46/client.go:127-139: what the client with the secret key `sk` makes of the events that arrive. -/
def reader (E : Env) (target sk : Bytes) : Client.Reader where
  dec44 := fun c => match Nip44.decrypt E.P (convKey E target sk) c with
    | .panic => .panic
    | .ok plain => .val (some plain)
    | .err _ => .val none
  dec04 := fun c => match Nip04.decrypt E.A c (shared target sk) with
    | .panic => .panic
    | .ok plain => .val (some plain)
    | .err _ => .val none
  parse := fun plain => (E.W.decResp plain).map (fun r => ⟨r.id, r.error, r.result⟩)

/-- nip46/client.go:234-256: the event that carries a request. -/
def request (E : Env) (target sk nonce : Bytes) (now : Int) (req : Request) : Option Event :=
  match Nip44.encrypt E.P (convKey E target sk) none nonce (E.W.encReq req) with
  | .ok c => match signEvent E.H (bip340 E.L) ⟨[], [], now, 24133, [[b! "p", target]], c, []⟩ sk with
    | (e, true) => some e
    | _ => none
  | _ => none

/-! ## Specification -/

/-- A call: the client's event for the request goes to the signer, in the state `t`; the signer answers with a correctly signed event of its own, addressed to the client, which the client reads as `resp`. -/
def Call (E : Env) (skS pkS : Bytes) (t : Table Session) (skC pkC nonce : Bytes) (now : Int) (req : Request) (resp : Client.Resp) : Prop :=
  ∃ e t' r evt, request E pkS skC nonce now req = some e ∧ e.pubkey = pkC ∧ (signer E skS).handle t e = .val (t', .answered req r evt) ∧
    evt.pubkey = pkS ∧ evt.tags = [[b! "p", pkC]] ∧ evt.createdAt = E.now ∧ checkSignature E.H (bip340 E.L) evt = some true ∧
    (reader E pkS skC).read evt.kind evt.content = .val (some resp)

/-- The signer's authorizer, if there is one, allows such requests. -/
def Allows (E : Env) (harmless : Bool) (pkC secret : Bytes) : Prop := ∀ f, E.authorize = some f → f harmless pkC secret = true

/-! ## Proofs -/

open Bunker

/-- In every reachable state each session is the one of its client. -/
theorem handle_inv {S : Type} {env : Static S} {t t' : Table S} {e : Event} {a : Answer} {tbl : Bytes → Option S} (hi : Bunker.Inv t tbl) (hm : ∀ k s, tbl k = some s → env.makeSession k = some s)
    (h : env.handle t e = .val (t', a)) : ∃ tbl', Bunker.Inv t' tbl' ∧ ∀ k s, tbl' k = some s → env.makeSession k = some s := by
  obtain ⟨t1, e1, h1⟩ := getOrCreate_spec env.zero hi e.pubkey (env.makeSession e.pubkey)
  have hnew : ∀ k s, (if k = e.pubkey then (tbl e.pubkey).or (env.makeSession e.pubkey) else tbl k) = some s → env.makeSession k = some s := by
    intro k s hs
    split at hs
    · next hk =>
      subst hk
      cases hc : tbl e.pubkey with
      | none => rw [hc] at hs; exact hs
      | some s' => rw [hc] at hs; cases hs; exact hm _ _ hc
    · exact hm _ _ hs
  have ht : t' = t ∨ t' = t1 := by
    unfold Static.handle at h
    split at h
    · cases h; exact .inl rfl
    · rw [e1] at h
      simp only [Out.bind] at h
      right
      split at h
      · cases h; rfl
      · next s _ =>
        cases hp : env.parse s e with
        | panic => rw [hp] at h; cases h
        | val ro =>
          cases ro with
          | none => rw [hp] at h; cases h; rfl
          | some req =>
            rw [hp] at h
            simp only at h
            cases hs : staticSwitch env s req with
            | panic => rw [hs] at h; cases h
            | val lo => rw [hs] at h; cases lo <;> (cases h; rfl)
  rcases ht with rfl | rfl
  · exact ⟨tbl, hi, hm⟩
  · exact ⟨_, h1, hnew⟩

theorem run_inv {S : Type} {env : Static S} : ∀ (es : List Event) (t t' : Table S) (as : List Answer) (tbl : Bytes → Option S), Bunker.Inv t tbl → (∀ k s, tbl k = some s → env.makeSession k = some s) →
    env.run t es = .val (t', as) → ∃ tbl', Bunker.Inv t' tbl' ∧ ∀ k s, tbl' k = some s → env.makeSession k = some s
  | [], t, t', as, tbl, hi, hm, h => by
    rw [Static.run] at h
    cases h
    exact ⟨tbl, hi, hm⟩
  | e :: es, t, t', as, tbl, hi, hm, h => by
    rw [Static.run] at h
    cases h1 : env.handle t e with
    | panic => rw [h1] at h; cases h
    | val x =>
      obtain ⟨t1, a⟩ := x
      rw [h1] at h
      simp only [Out.bind] at h
      cases h2 : env.run t1 es with
      | panic => rw [h2] at h; cases h
      | val y =>
        obtain ⟨t2, as'⟩ := y
        rw [h2] at h
        cases h
        obtain ⟨tbl1, i1, m1⟩ := handle_inv hi hm h1
        exact run_inv es t1 _ _ tbl1 i1 m1 h2

/-- The state after any history that did not crash. -/
def Reachable (E : Env) (skS : Bytes) (t : Table Session) : Prop := ∃ events as, (signer E skS).run ⟨[], []⟩ events = .val (t, as)

theorem reachable_inv {E : Env} {skS : Bytes} {t : Table Session} (h : Reachable E skS t) :
    ∃ tbl, Bunker.Inv t tbl ∧ ∀ k s, tbl k = some s → (signer E skS).makeSession k = some s := by
  obtain ⟨events, as, hr⟩ := h
  exact run_inv events ⟨[], []⟩ _ _ (fun _ => none) ⟨List.Pairwise.nil, rfl, by simp⟩ (by simp) hr

/-- Two parties with private keys and their secrets. -/
theorem secrets (E : Env) {skA skB pkA pkB : Bytes} (kA : IsPrivateKey skA) (kB : IsPrivateKey skB) (hA : getPublicKey (bip340 E.L) skA = some pkA) (hB : getPublicKey (bip340 E.L) skB = some pkB) :
    ∃ s ck, s.length = 32 ∧ computeSharedSecret04 pkB skA = some s ∧ computeSharedSecret04 pkA skB = some s ∧ generateConversationKey E.extract pkB skA = some ck ∧
      generateConversationKey E.extract pkA skB = some ck := by
  obtain ⟨p1, p2, ck, g1, g2, g3, g4⟩ := agrees E.extract E.L kA kB
  rw [hA] at g1
  rw [hB] at g2
  cases g1
  cases g2
  obtain ⟨a, a1, a2, ea⟩ := kA
  obtain ⟨b, b1, b2, eb⟩ := kB
  obtain ⟨s, hl, -, -, -, -, h5, h6⟩ := C162_same_secret E.L skA skB pkA pkB (toBE 32 a) (toBE 32 b) (by rw [ea]; exact hexDec_hexEnc _) (by rw [eb]; exact hexDec_hexEnc _)
    (by rw [scalarOf_toBE a2]; omega) (by rw [scalarOf_toBE b2]; omega) hA hB
  exact ⟨s, ck, hl, h5, h6, g3, g4⟩

theorem sign_ok (H : Hash32) (L : Lib) (hL : ∀ sk h, L.nonce sk h % groupN ≠ 0) {sk pk : Bytes} (k : IsPrivateKey sk) (hp : getPublicKey (bip340 L) sk = some pk) (e : Event) :
    ∃ e', signEvent H (bip340 L) e sk = (e', true) ∧ e'.pubkey = pk ∧ e'.kind = e.kind ∧ e'.tags = e.tags ∧ e'.content = e.content ∧ e'.createdAt = e.createdAt ∧
      checkSignature H (bip340 L) e' = some true ∧ e'.id = getID H e' ∧ Json.Utf8 e'.id ∧ Json.Utf8 e'.sig ∧ e'.sig ≠ [] := by
  obtain ⟨b, hb, -, hs⟩ := (signs L hL k).ok
  obtain ⟨sg, hsg, hlen⟩ := hs (H (serialize { e with pubkey := hexEnc ((bip340 L).pubOf b) })).val (H _).property
  have h : signEvent H (bip340 L) e sk = ({ { e with pubkey := hexEnc ((bip340 L).pubOf b) } with id := hexEnc (H (serialize { e with pubkey := hexEnc ((bip340 L).pubOf b) })).val, sig := hexEnc sg }, true) := by
    simp only [signEvent, hb, hsg]
  obtain ⟨h1, h2, h3, h4, h5, h6, h7⟩ := C04_sign_verifies H (bip340 L) (C165_library_contract L) e sk _ h
  rw [hp] at h1
  rw [C03_checkID_iff] at h2
  refine ⟨_, h, (Option.some.inj h1).symm, h5, h6, h7, h4, h3, by simpa using h2, Dm.hex_utf8 _, Dm.hex_utf8 _, ?_⟩
  intro h0
  have : (hexEnc sg).length = 0 := congrArg List.length h0
  simp [hlen] at this

theorem length_pos {b : Bytes} (h : b ≠ []) : 1 ≤ b.length := by
  cases b with
  | nil => exact absurd rfl h
  | cons x xs => simp

variable {E : Env} {skC skS pkC pkS : Bytes}

/-- The call in terms of the method switch. -/
theorem call_of_switch (hW : E.W.Good) (hL : ∀ sk h, E.L.nonce sk h % groupN ≠ 0) (hn : ∀ r, (E.respNonce r).length = 32) (kC : IsPrivateKey skC) (kS : IsPrivateKey skS)
    (hC : getPublicKey (bip340 E.L) skC = some pkC) (hS : getPublicKey (bip340 E.L) skS = some pkS) {t : Table Session} (ht : Reachable E skS t) (nonce : Bytes) (hnonce : nonce.length = 32)
    (now : Int) (req : Request) (hfit : (E.W.encReq req).length ≤ 65535) (l : Local)
    (hl : ∀ s : Session, s.publicKey = pkS → staticSwitch (signer E skS) s req = .val (some l)) (resp : Response) (hresp : makeResponse req.id l.result (authorized (signer E skS) pkC l) = resp)
    (hfit' : (E.W.encResp resp).length ≤ 65535) : Call E skS pkS t skC pkC nonce now req ⟨resp.id, resp.error, resp.result⟩ := by
  obtain ⟨sh, ck, hsl, s1, s2, c1, c2⟩ := secrets E kC kS hC hS
  obtain ⟨c, hc, hdec⟩ := Nip44.C56_roundtrip E.P ck none nonce (E.W.encReq req) (by simp) hnonce (length_pos (hW.req req).2) hfit
  obtain ⟨e, he, ep, ek, et, ec, -⟩ := sign_ok E.H E.L hL kC hC ⟨[], [], now, 24133, [[b! "p", pkS]], c, []⟩
  have hck : convKey E pkS skC = ck := by rw [convKey, c1]; rfl
  have hreq : request E pkS skC nonce now req = some e := by simp only [request, hck, hc, he]
  obtain ⟨tbl, hi, hm⟩ := reachable_inv ht
  have hmake : (signer E skS).makeSession pkC = some ⟨pkS, sh, ck⟩ := by simp only [signer, s2, c2, hS]
  obtain ⟨t1, e1, -⟩ := getOrCreate_spec (signer E skS).zero hi e.pubkey ((signer E skS).makeSession e.pubkey)
  have hor : (tbl e.pubkey).or ((signer E skS).makeSession e.pubkey) = some ⟨pkS, sh, ck⟩ := by
    rw [ep]
    cases hx : tbl pkC with
    | none => exact hmake
    | some s => have := hm _ _ hx; rw [hmake] at this; cases this; rfl
  have hparse : (signer E skS).parse ⟨pkS, sh, ck⟩ e = .val (some req) := by
    simp only [signer, open_, ec, hdec]
    rw [(hW.req req).1]
  obtain ⟨rc, hrc, hrdec⟩ := Nip44.C56_roundtrip E.P ck none (E.respNonce resp) (E.W.encResp resp) (by simp) (hn resp) (length_pos (hW.resp resp).2) hfit'
  have hlock : (signer E skS).lock ⟨pkS, sh, ck⟩ resp = some rc := by simp only [signer, hrc]
  obtain ⟨evt, hevt, vp, vk, vt, vc, vn, vs, -⟩ := sign_ok E.H E.L hL kS hS ⟨[], [], E.now, 24133, [[b! "p", pkC]], rc, []⟩
  have hsign : (signer E skS).sign ⟨[], [], E.now, 24133, [[b! "p", pkC]], rc, []⟩ = .ok evt := by simp only [signer, hevt]
  refine ⟨e, t1, resp, evt, hreq, ep, ?_, vp, vt, vn, vs, ?_⟩
  · unfold Static.handle
    rw [if_neg (by rw [ek]; simp), e1, hor]
    have hll := hl ⟨pkS, sh, ck⟩ rfl
    simp only [Out.bind, hparse, hll]
    rw [ep, hresp]
    have hnow : (signer E skS).now = E.now := rfl
    simp only [respond, hlock, hnow, hsign]
  · rw [vk, vc]
    simp only [Client.Reader.read, reader, hck, hrdec, (hW.resp resp).1]
    rfl

theorem authorized_none {l : Local} (he : l.err = none) (h : Allows E l.harmless pkC l.secret) : authorized (signer E skS) pkC l = none := by
  have ha : (signer E skS).authorize = E.authorize := rfl
  unfold authorized
  rw [he, ha]
  cases hf : E.authorize with
  | none => rfl
  | some f => simp [h f hf]

/-- A call of one of the four encryption methods. -/
theorem call_of_crypt (hW : E.W.Good) (hL : ∀ sk h, E.L.nonce sk h % groupN ≠ 0) (hn : ∀ r, (E.respNonce r).length = 32) (kC : IsPrivateKey skC) (kS : IsPrivateKey skS)
    (hC : getPublicKey (bip340 E.L) skC = some pkC) (hS : getPublicKey (bip340 E.L) skS = some pkS) {t : Table Session} (ht : Reachable E skS t) (nonce : Bytes) (hnonce : nonce.length = 32)
    (now : Int) (id : Bytes) {skT pkT : Bytes} (kT : IsPrivateKey skT) (hT : getPublicKey (bip340 E.L) skT = some pkT) (method : Bytes) (op : CryptOp)
    (hm : ∀ s : Session, ∀ {params}, staticSwitch (signer E skS) s ⟨id, method, params⟩ = (cryptMethod (signer E skS) op params).bind (fun l => .val (some l))) (text r : Bytes) (hallow : Allows E false pkC [])
    (hcr : (signer E skS).crypt op pkT text = .val (.ok r)) (hr : r ≠ [])
    (hfit : (E.W.encReq ⟨id, method, [pkT, text]⟩).length ≤ 65535) (hfit' : (E.W.encResp ⟨id, [], r⟩).length ≤ 65535) :
    Call E skS pkS t skC pkC nonce now ⟨id, method, [pkT, text]⟩ ⟨id, [], r⟩ := by
  refine call_of_switch hW hL hn kC kS hC hS ht nonce hnonce now _ hfit { result := r } (fun s _ => ?_) ⟨id, [], r⟩ ?_ hfit'
  · rw [hm s]
    have hv : (signer E skS).validPubkey pkT = true := by
      obtain ⟨k, k1, k2, ek⟩ := kT
      refine (C164_valid_iff_owned E.L pkT ?_).2 ⟨k, k1, k2, by rw [← ek]; exact hT⟩
      rw [pub_eq] at hT
      obtain ⟨b, -, hb⟩ := Option.map_eq_some_iff.1 hT
      rw [← hb]
      simp [ser_length]
    have : cryptMethod (signer E skS) op [pkT, text] = .val { result := r } := by simp [cryptMethod, hv, hcr]
    rw [this]
    rfl
  · rw [authorized_none rfl hallow]
    simp [makeResponse, hr]

/-! ## C169 -/

variable (hW : E.W.Good) (hL : ∀ sk h, E.L.nonce sk h % groupN ≠ 0) (hn : ∀ r, (E.respNonce r).length = 32) (kC : IsPrivateKey skC) (kS : IsPrivateKey skS)
  (hC : getPublicKey (bip340 E.L) skC = some pkC) (hS : getPublicKey (bip340 E.L) skS = some pkS) {t : Table Session} (ht : Reachable E skS t) (nonce : Bytes) (hnonce : nonce.length = 32)
  (now : Int) (id : Bytes)

include hW hL hn kC kS hC hS ht hnonce

/-- **C169 (signing).** After any history of the signer, for any event (of valid UTF-8 texts): the client asks for its signature, the signer answers with the event signed by its own key, and `SignEvent` of the
client accepts exactly that, provided request and answer fit into a NIP-44 message. -/
theorem C169_sign (evt : Event) (hk : Json.InInt64 evt.kind) (hc : Json.InInt64 evt.createdAt) (hu : Json.EventUtf8 evt) (hallow : Allows E false pkC [])
    (hfit : (E.W.encReq ⟨id, b! "sign_event", [Json.encodeEvent evt]⟩).length ≤ 65535)
    (hfit' : (E.W.encResp ⟨id, [], Json.encodeEvent (signEvent E.H (bip340 E.L) evt skS).1⟩).length ≤ 65535) :
    ∃ signed, signEvent E.H (bip340 E.L) evt skS = (signed, true) ∧ signed.pubkey = pkS ∧ signed.kind = evt.kind ∧ signed.createdAt = evt.createdAt ∧ signed.tags = evt.tags ∧ signed.content = evt.content ∧
      Call E skS pkS t skC pkC nonce now ⟨id, b! "sign_event", [Json.encodeEvent evt]⟩ ⟨id, [], Json.encodeEvent signed⟩ ∧
      Client.signEventRemote E.H (bip340 E.L) false (some (Json.encodeEvent signed)) evt = .val (some signed) := by
  obtain ⟨signed, h, sp, sk, st, sc, sn, ss, sid, su1, su2, sne⟩ := sign_ok E.H E.L hL kS hS evt
  rw [h] at hfit'
  have hne : Json.encodeEvent signed ≠ [] := by
    intro h0
    have h1 := Json.C21_any_strings (e := signed) (by rw [sk]; exact hk) (by rw [sn]; exact hc)
    rw [h0] at h1
    revert h1
    have : Json.decodeEvent [] = none := by decide +kernel
    rw [this]
    simp
  refine ⟨signed, h, sp, sk, sn, st, sc, ?_, ?_⟩
  · refine call_of_switch hW hL hn kC kS hC hS ht nonce hnonce now _ hfit { result := Json.encodeEvent signed } (fun s _ => ?_) ⟨id, [], Json.encodeEvent signed⟩ ?_ hfit'
    · have hd : (signer E skS).decodeEvent (Json.encodeEvent evt) = .ok evt := by simp only [signer, Json.C21_round_trip hk hc hu]
      have hg : (signer E skS).sign evt = .ok signed := by simp only [signer, h]
      unfold staticSwitch
      rw [if_neg (by simp), if_neg (by simp), if_pos rfl]
      simp only [hd, hg]
      rfl
    · rw [authorized_none rfl hallow]
      simp [makeResponse, hne]
  · refine Client.C105_other_event evt signed (by rw [sk]; exact hk) (by rw [sn]; exact hc) ⟨su1, ?_, by rw [sc]; exact hu.2.2.1, su2, by rw [st]; exact hu.2.2.2.2⟩ sid ?_ sne ss
    · rw [sp]; exact public_utf8 E.L hS
    · rw [sp]
      intro h0
      rw [pub_eq] at hS
      obtain ⟨b, -, hb⟩ := Option.map_eq_some_iff.1 hS
      have : (hexEnc (ser (scalarOf b • G))).length = 0 := by rw [hb, h0]; rfl
      simp [ser_length] at this

/-- **C169 (the user's key).** `GetPublicKey` of the client is the public key of the signer. -/
theorem C169_public_key (hallow : Allows E true pkC []) (hfit : (E.W.encReq ⟨id, b! "get_public_key", []⟩).length ≤ 65535) (hfit' : (E.W.encResp ⟨id, [], pkS⟩).length ≤ 65535) :
    Call E skS pkS t skC pkC nonce now ⟨id, b! "get_public_key", []⟩ ⟨id, [], pkS⟩ := by
  refine call_of_switch hW hL hn kC kS hC hS ht nonce hnonce now _ hfit { result := pkS, harmless := true } (fun s hs => ?_) ⟨id, [], pkS⟩ ?_ hfit'
  · have : (signer E skS).pubKey s = pkS := hs
    unfold staticSwitch
    rw [if_neg (by simp), if_pos rfl, this]
  · rw [authorized_none rfl hallow]
    have hne : pkS ≠ [] := by
      intro h0
      rw [pub_eq] at hS
      obtain ⟨b, -, hb⟩ := Option.map_eq_some_iff.1 hS
      have : (hexEnc (ser (scalarOf b • G))).length = 0 := by rw [hb, h0]; rfl
      simp [ser_length] at this
    simp [makeResponse, hne]

/-- **C169 (encryption for a third party, NIP-44).** What the client gets from `NIP44Encrypt` is read by the third party under their own key and the signer's public key, as a message from the signer. -/
theorem C169_encrypt (skT pkT m : Bytes) (kT : IsPrivateKey skT) (hT : getPublicKey (bip340 E.L) skT = some pkT) (hmn : (E.nonce m).length = 32) (h1 : 1 ≤ m.length) (h2 : m.length ≤ 65535)
    (hallow : Allows E false pkC []) (hfit : (E.W.encReq ⟨id, b! "nip44_encrypt", [pkT, m]⟩).length ≤ 65535)
    (hfit' : ∀ ck c, Nip44.encrypt E.P ck none (E.nonce m) m = .ok c → (E.W.encResp ⟨id, [], c⟩).length ≤ 65535) :
    ∃ c ck, Call E skS pkS t skC pkC nonce now ⟨id, b! "nip44_encrypt", [pkT, m]⟩ ⟨id, [], c⟩ ∧ generateConversationKey E.extract pkS skT = some ck ∧ Nip44.decrypt E.P ck c = .ok m := by
  obtain ⟨sh, ck, -, -, -, c1, c2⟩ := secrets E kT kS hT hS
  obtain ⟨c, hc, hdec⟩ := Nip44.C56_roundtrip E.P ck none (E.nonce m) m (by simp) hmn h1 h2
  refine ⟨c, ck, ?_, c1, hdec⟩
  have hcr : (signer E skS).crypt .enc44 pkT m = .val (.ok c) := by simp only [signer, c2, hc, toCrypt]
  refine call_of_crypt hW hL hn kC kS hC hS ht nonce hnonce now id kT hT (b! "nip44_encrypt") .enc44 (fun _ => rfl) m c hallow hcr ?_ hfit (hfit' ck c hc)
  rintro rfl
  have : Nip44.decrypt E.P ck [] = .err () := rfl
  rw [this] at hdec
  cases hdec

/-- **C169 (decryption of a third party's message, NIP-44).** -/
theorem C169_decrypt (skT pkT m rnd : Bytes) (kT : IsPrivateKey skT) (hT : getPublicKey (bip340 E.L) skT = some pkT) (hr : rnd.length = 32) (h1 : 1 ≤ m.length) (h2 : m.length ≤ 65535)
    (ck c : Bytes) (hck : generateConversationKey E.extract pkS skT = some ck) (hc : Nip44.encrypt E.P ck none rnd m = .ok c)
    (hallow : Allows E false pkC []) (hfit : (E.W.encReq ⟨id, b! "nip44_decrypt", [pkT, c]⟩).length ≤ 65535) (hfit' : (E.W.encResp ⟨id, [], m⟩).length ≤ 65535) :
    Call E skS pkS t skC pkC nonce now ⟨id, b! "nip44_decrypt", [pkT, c]⟩ ⟨id, [], m⟩ := by
  obtain ⟨sh, ck', -, -, -, c1, c2⟩ := secrets E kT kS hT hS
  rw [hck] at c1
  cases c1
  obtain ⟨c', hc', hdec⟩ := Nip44.C56_roundtrip E.P ck none rnd m (by simp) hr h1 h2
  rw [hc] at hc'
  cases hc'
  have hcr : (signer E skS).crypt .dec44 pkT c = .val (.ok m) := by simp only [signer, c2, hdec, toCrypt]
  refine call_of_crypt hW hL hn kC kS hC hS ht nonce hnonce now id kT hT (b! "nip44_decrypt") .dec44 (fun _ => rfl) c m hallow hcr ?_ hfit hfit'
  rintro rfl
  simp at h1

/-- **C169 (NIP-04).** The same for NIP-04, for messages that are not empty. -/
theorem C169_nip04 (hA : E.A.Correct) (skT pkT m iv : Bytes) (kT : IsPrivateKey skT) (hT : getPublicKey (bip340 E.L) skT = some pkT) (hiv : iv.length = 16) (hiv' : (E.iv m).length = 16) (h1 : m ≠ [])
    (hallow : Allows E false pkC []) (hfit1 : (E.W.encReq ⟨id, b! "nip04_encrypt", [pkT, m]⟩).length ≤ 65535)
    (hfit2 : ∀ s c, Nip04.encrypt E.A (E.iv m) m s = .ok c → (E.W.encResp ⟨id, [], c⟩).length ≤ 65535)
    (hfit3 : ∀ s c, Nip04.encrypt E.A iv m s = .ok c → (E.W.encReq ⟨id, b! "nip04_decrypt", [pkT, c]⟩).length ≤ 65535) (hfit4 : (E.W.encResp ⟨id, [], m⟩).length ≤ 65535) :
    ∃ s, computeSharedSecret04 pkS skT = some s ∧
      (∃ c, Call E skS pkS t skC pkC nonce now ⟨id, b! "nip04_encrypt", [pkT, m]⟩ ⟨id, [], c⟩ ∧ Nip04.decrypt E.A c s = .ok m) ∧
      ∃ c, Nip04.encrypt E.A iv m s = .ok c ∧ Call E skS pkS t skC pkC nonce now ⟨id, b! "nip04_decrypt", [pkT, c]⟩ ⟨id, [], m⟩ := by
  obtain ⟨s, -, hl, s1, s2, -⟩ := secrets E kT kS hT hS
  obtain ⟨c, hc, hdec⟩ := Nip04.C58_roundtrip E.A hA (E.iv m) m s (.inr (.inr hl)) hiv'
  obtain ⟨d, hd, hddec⟩ := Nip04.C58_roundtrip E.A hA iv m s (.inr (.inr hl)) hiv
  refine ⟨s, s1, ⟨c, ?_, hdec⟩, d, hd, ?_⟩
  · have hcr : (signer E skS).crypt .enc04 pkT m = .val (.ok c) := by simp only [signer, s2, hc, toCrypt]
    refine call_of_crypt hW hL hn kC kS hC hS ht nonce hnonce now id kT hT (b! "nip04_encrypt") .enc04 (fun _ => rfl) m c hallow hcr ?_ hfit1 (hfit2 s c hc)
    rintro rfl
    have : Nip04.decrypt E.A [] s = .err () := rfl
    rw [this] at hdec
    cases hdec
  · have hcr : (signer E skS).crypt .dec04 pkT d = .val (.ok m) := by simp only [signer, s2, hddec, toCrypt]
    exact call_of_crypt hW hL hn kC kS hC hS ht nonce hnonce now id kT hT (b! "nip04_decrypt") .dec04 (fun _ => rfl) d m hallow hcr h1 (hfit3 s d hd) hfit4

/-- **C169 (refusal).** If the authorizer refuses the client's signing requests, the client gets the error `unauthorized` and nothing else. -/
theorem C169_refused (evt : Event) (hk : Json.InInt64 evt.kind) (hc : Json.InInt64 evt.createdAt) (hu : Json.EventUtf8 evt) (f : Bool → Bytes → Bytes → Bool) (hf : E.authorize = some f)
    (hno : f false pkC [] = false) (hfit : (E.W.encReq ⟨id, b! "sign_event", [Json.encodeEvent evt]⟩).length ≤ 65535) (hfit' : (E.W.encResp ⟨id, b! "unauthorized", []⟩).length ≤ 65535) :
    Call E skS pkS t skC pkC nonce now ⟨id, b! "sign_event", [Json.encodeEvent evt]⟩ ⟨id, b! "unauthorized", []⟩ := by
  obtain ⟨signed, h, -⟩ := sign_ok E.H E.L hL kS hS evt
  refine call_of_switch hW hL hn kC kS hC hS ht nonce hnonce now _ hfit { result := Json.encodeEvent signed } (fun s _ => ?_) ⟨id, b! "unauthorized", []⟩ ?_ hfit'
  · have hd : (signer E skS).decodeEvent (Json.encodeEvent evt) = .ok evt := by simp only [signer, Json.C21_round_trip hk hc hu]
    have hg : (signer E skS).sign evt = .ok signed := by simp only [signer, h]
    unfold staticSwitch
    rw [if_neg (by simp), if_neg (by simp), if_pos rfl]
    simp only [hd, hg]
    rfl
  · have ha : (signer E skS).authorize = E.authorize := rfl
    simp [authorized, ha, hf, hno, makeResponse]

omit hL hn hnonce kC hC hW ht

/-- The texts that crash: `?iv=`, and 132 to 87472 line breaks. -/
def Deadly (content : Bytes) : Prop := content = b! "?iv=" ∨ (132 ≤ content.length ∧ content.length ≤ 87472 ∧ ∀ c ∈ content, c = 10 ∨ c = 13)

omit kS hS in
theorem open_panics {s ck content : Bytes} (hs : s.length = 32) (h : Deadly content) : open_ E s ck content = .panic := by
  rcases h with rfl | h
  · have h1 : Nip44.decrypt E.P ck (b! "?iv=") = .err () := rfl
    have h2 : Nip04.decrypt E.A (b! "?iv=") s = .panic := by
      rw [Nip04.C58_decrypt_panics_iff]
      exact ⟨[], [], [], [], by decide +kernel, by decide, by decide, by simp [Nip04.validKey, hs], Or.inl (by decide)⟩
    simp only [open_, h1, h2]
  · have h1 := (Nip44.C57_panics_iff_only_line_breaks E.P ck content).2 h
    simp only [open_, h1]

/-- **C169, C96 refuted: anyone stops the signer.** Whoever has a private key of their own publishes one event of kind 24133 with a text of four characters; whatever the signer did before and whatever its
authorizer says, it crashes. -/
theorem C169_anyone_stops_the_signer (skX pkX : Bytes) (kX : IsPrivateKey skX) (hX : getPublicKey (bip340 E.L) skX = some pkX) (hh : Reachable E skS t) (event : Event) (hk : event.kind = 24133)
    (hp : event.pubkey = pkX) (hc : Deadly event.content) : (signer E skS).handle t event = .panic := by
  obtain ⟨s, ck, hl, s1, s2, c1, c2⟩ := secrets E kX kS hX hS
  obtain ⟨tbl, hi, hm⟩ := reachable_inv hh
  have hmake : (signer E skS).makeSession pkX = some ⟨pkS, s, ck⟩ := by simp only [signer, s2, c2, hS]
  obtain ⟨t1, e1, -⟩ := getOrCreate_spec (signer E skS).zero hi event.pubkey ((signer E skS).makeSession event.pubkey)
  have hor : (tbl event.pubkey).or ((signer E skS).makeSession event.pubkey) = some ⟨pkS, s, ck⟩ := by
    rw [hp]
    cases hx : tbl pkX with
    | none => exact hmake
    | some s => have := hm _ _ hx; rw [hmake] at this; cases this; rfl
  have hparse : (signer E skS).parse ⟨pkS, s, ck⟩ event = .panic := by
    simp only [signer, open_panics (E := E) (ck := ck) hl hc]
  unfold Static.handle
  rw [if_neg (by simp [hk]), e1, hor]
  simp only [Out.bind, hparse]

omit kS in
/-- **C169, C103 refuted: anyone stops the client.** The same text in any event that reaches the client crashes it, whoever wrote it. -/
theorem C169_anyone_stops_the_client (kC' : IsPrivateKey skC) (kS' : IsPrivateKey skS) (hC' : getPublicKey (bip340 E.L) skC = some pkC) (content : Bytes) (hc : Deadly content) :
    (reader E pkS skC).read 24133 content = .panic := by
  obtain ⟨s, ck, hl, s1, s2, c1, c2⟩ := secrets E kC' kS' hC' hS
  have h := open_panics (E := E) (ck := ck) hl hc
  simp only [Client.Reader.read, reader, convKey, shared, c1, s1, Option.getD_some]
  simp only [open_] at h
  cases h44 : Nip44.decrypt E.P ck content with
  | panic => rfl
  | ok x => rw [h44] at h; cases h
  | err x =>
    rw [h44] at h
    simp only at h
    cases h04 : Nip04.decrypt E.A content s with
    | panic => rfl
    | ok x => rw [h04] at h; cases h
    | err x => rw [h04] at h; cases h

/-! ## A concrete case -/

/-- A text with its length in front, and back. -/
def encStr (s : Bytes) : Bytes := List.replicate s.length 1 ++ 0 :: s

/-- Reading it back; example format, models no code. -/
def decStr (b : Bytes) : Bytes × Bytes :=
  let n := (b.takeWhile (· = 1)).length
  ((b.drop (n + 1)).take n, (b.drop (n + 1)).drop n)

omit kS hS in
theorem decStr_encStr (s more : Bytes) : decStr (encStr s ++ more) = (s, more) := by
  have h : ((encStr s ++ more).takeWhile (· = 1)).length = s.length := by
    have : encStr s ++ more = List.replicate s.length 1 ++ (0 :: (s ++ more)) := by simp [encStr]
    rw [this, List.takeWhile_append_of_pos (by simp)]
    simp
  have hd : (encStr s ++ more).drop (s.length + 1) = s ++ more := by
    have : encStr s ++ more = (List.replicate s.length 1 ++ [0]) ++ (s ++ more) := by simp [encStr]
    rw [this, List.drop_left' (by simp)]
  simp [decStr, h, hd]

/-- Several of them; example format, models no code. -/
def decStrs : Nat → Bytes → List Bytes
  | 0, _ => []
  | n + 1, b => (decStr b).1 :: decStrs n (decStr b).2

omit kS hS in
theorem decStrs_enc : ∀ l : List Bytes, decStrs l.length (l.flatMap encStr) = l
  | [] => rfl
  | s :: l => by
    rw [List.flatMap_cons, List.length_cons, decStrs, decStr_encStr, decStrs_enc l]

/-- Requests and responses in such texts. -/
def plainWire : Wire where
  encReq := fun r => encStr r.id ++ (encStr r.method ++ (encStr (List.replicate r.params.length 1) ++ r.params.flatMap encStr))
  decReq := fun b =>
    let (id, b) := decStr b
    let (method, b) := decStr b
    let (n, b) := decStr b
    some ⟨id, method, decStrs n.length b⟩
  encResp := fun r => encStr r.id ++ (encStr r.error ++ encStr r.result)
  decResp := fun b =>
    let (id, b) := decStr b
    let (error, b) := decStr b
    some ⟨id, error, (decStr b).1⟩

omit kS hS in
theorem plainWire_good : plainWire.Good where
  req := fun r => by
    refine ⟨?_, by simp [plainWire, encStr]⟩
    simp only [plainWire, decStr_encStr, List.length_replicate, decStrs_enc]
  resp := fun r => by
    refine ⟨?_, by simp [plainWire, encStr]⟩
    have : decStr (encStr r.result) = (r.result, []) := by simpa using decStr_encStr r.result []
    simp only [plainWire, decStr_encStr, this]

/-- An environment with toy primitives. -/
def toyEnv : Env where
  P := Nip44.samplePrims
  extract := fun a b => a ++ b
  H := toyHash
  L := ⟨fun _ _ => 1, fun b => b⟩
  A := Nip04.sampleAes
  W := plainWire
  respNonce := fun _ => List.replicate 32 7
  nonce := fun _ => List.replicate 32 9
  iv := fun _ => List.replicate 16 3
  relays := b! "{}"
  authorize := none
  now := 5

omit kS hS in
/-- Two parties with generated keys; the assumptions of the theorems about the environment; and a call: the client learns the signer's public key. -/
example (r1 r2 : Bytes) : ∃ skC pkC skS pkS, IsPrivateKey skC ∧ IsPrivateKey skS ∧ getPublicKey (bip340 toyEnv.L) skC = some pkC ∧ getPublicKey (bip340 toyEnv.L) skS = some pkS ∧
    toyEnv.W.Good ∧ (∀ sk h, toyEnv.L.nonce sk h % groupN ≠ 0) ∧ toyEnv.A.Correct ∧ Allows toyEnv false pkC [] ∧
    Call toyEnv skS pkS ⟨[], []⟩ skC pkC (List.replicate 32 1) 6 ⟨b! "1", b! "get_public_key", []⟩ ⟨b! "1", [], pkS⟩ := by
  obtain ⟨pkC, hC, -⟩ := C164_generated_valid toyEnv.L r1
  obtain ⟨pkS, hS, hl, -⟩ := C164_generated_valid toyEnv.L r2
  have hL : ∀ sk h, toyEnv.L.nonce sk h % groupN ≠ 0 := fun _ _ => by
    have : 1 % groupN ≠ 0 := by decide +kernel
    exact this
  refine ⟨_, pkC, _, pkS, generated_key r1, generated_key r2, hC, hS, plainWire_good, hL, Nip04.sampleAes_correct, (fun f hf => by cases hf), ?_⟩
  refine C169_public_key plainWire_good hL (fun _ => by simp [toyEnv]) (generated_key r1) (generated_key r2) hC hS ⟨[], [], rfl⟩ _ (by simp) 6 (b! "1") (fun f hf => by cases hf) (by decide +kernel) ?_
  simp [toyEnv, plainWire, encStr, hl]

omit kS hS in
/-- And an event of kind 13 that the client has signed, which meets the assumptions of `C169_sign`. -/
example (r1 r2 : Bytes) : ∃ skC pkC skS pkS signed, signed.pubkey = pkS ∧ signed.kind = 13 ∧ signed.content = b64Enc (b! "hello") ∧
    Call toyEnv skS pkS ⟨[], []⟩ skC pkC (List.replicate 32 1) 6 ⟨b! "1", b! "sign_event", [Json.encodeEvent (Gift.sealOf (b64Enc (b! "hello")) 5)]⟩ ⟨b! "1", [], Json.encodeEvent signed⟩ := by
  obtain ⟨pkC, hC, -⟩ := C164_generated_valid toyEnv.L r1
  obtain ⟨pkS, hS, hl, -⟩ := C164_generated_valid toyEnv.L r2
  have hL : ∀ sk h, toyEnv.L.nonce sk h % groupN ≠ 0 := fun _ _ => by
    have : 1 % groupN ≠ 0 := by decide +kernel
    exact this
  obtain ⟨e', he, -, hlen⟩ := Dm.seal_json (H := toyEnv.H) (s := b! "hello") (t := 5) (signs toyEnv.L hL (generated_key r2)) (by decide)
  have hb : (b64Enc (b! "hello")).length = 8 := by decide +kernel
  obtain ⟨signed, -, h1, h2, -, -, h5, h6, -⟩ := C169_sign plainWire_good hL (fun _ => by simp [toyEnv]) (generated_key r1) (generated_key r2) hC hS ⟨[], [], rfl⟩ (List.replicate 32 1) (by simp) 6 (b! "1")
    (Gift.sealOf (b64Enc (b! "hello")) 5) (by decide) (by decide) ⟨.ascii (by simp [Gift.sealOf]), .ascii (by simp [Gift.sealOf]), .ascii (by decide +kernel), .ascii (by simp [Gift.sealOf]), by simp [Gift.sealOf]⟩
    (fun f hf => by cases hf) (by decide +kernel) (by rw [he]; simp [toyEnv, plainWire, encStr]; omega)
  exact ⟨_, pkC, _, pkS, signed, h1, h2, h5, h6⟩

example : Deadly (b! "?iv=") ∧ Deadly (List.replicate 132 10) := ⟨.inl rfl, .inr (by simp)⟩

end

end GoNostr.Curve.Remote
