import Verif.Nips.Bunker
import Verif.Tags.Model
/-!
# C87, C95, C96: what a remote signer answers (nip46)

`HandleRequest` of the static and of the dynamic signer, function by function. Key agreement, encryption, JSON and signing are parameters of the model; decryption may panic (see C57, C58).
-/

set_option autoImplicit false

namespace GoNostr.Bunker

/-- nip46/nip46.go:14-18 `Request`. -/
structure Request where
  id : Bytes
  method : Bytes
  params : List Bytes
  deriving DecidableEq

/-- nip46/nip46.go:25-29 `Response`. -/
structure Response where
  id : Bytes
  error : Bytes
  result : Bytes
  deriving DecidableEq

/-- What the method switch leaves behind: the local variables `secret`, `harmless`, `result`, `resultErr`. -/
structure Local where
  secret : Bytes := []
  harmless : Bool := false
  result : Bytes := []
  err : Option Bytes := none

/-- What a call of `HandleRequest` returns: an error, or the request, the response and the signed event that carries it. -/
inductive Answer where
  | failed
  | answered (req : Request) (resp : Response) (evt : Event)
  deriving DecidableEq

/-- nip46/bunker_session.go:44-54: the response, before encryption. -/
def makeResponse (id result : Bytes) (err : Option Bytes) : Response :=
  match err with
  | some e => ⟨id, e, []⟩
  | none => if result ≠ [] then ⟨id, [], result⟩ else ⟨[], [], []⟩

/-- The four methods of NIP-46 that encrypt and decrypt (nip46/static-key-signer.go:143-234). -/
inductive CryptOp where
  | enc44 | dec44 | enc04 | dec04
  deriving DecidableEq

/-- The parts of a static signer that are not modelled. `S` is `Session`. -/
structure Static (S : Type) where
  zero : S
  /-- `ComputeSharedSecret`, `GenerateConversationKey` and `GetPublicKey` of `getOrCreateSession` (static-key-signer.go:54-72). -/
  makeSession : Bytes → Option S
  pubKey : S → Bytes
  /-- `Session.ParseRequest` (bunker_session.go:22-36). -/
  parse : S → Event → Out (Option Request)
  /-- Marshal and encrypt a response (bunker_session.go:56-60). -/
  lock : S → Response → Option Bytes
  /-- `Event.Sign` with the signer's key; the error's text if it fails. -/
  sign : Event → Except Bytes Event
  decodeEvent : Bytes → Except Bytes Event
  encodeEvent : Event → Bytes
  /-- `nostr.IsValidPublicKey`. -/
  validPubkey : Bytes → Bool
  /-- Key agreement with the given key, then the operation. -/
  crypt : CryptOp → Bytes → Bytes → Out (Except Bytes Bytes)
  /-- JSON of `RelaysToAdvertise`. -/
  relays : Bytes
  /-- `AuthorizeRequest`, if not nil. -/
  authorize : Option (Bool → Bytes → Bytes → Bool)
  now : Int

variable {S : Type}

/-- The four encryption methods (static-key-signer.go:143-234), which only differ in the operation. -/
def cryptMethod (env : Static S) (op : CryptOp) (params : List Bytes) : Out Local :=
  match params with
  | [pk, text] =>
    if ¬ env.validPubkey pk then .val { err := some (b! "first argument is not a pubkey string") }
    else match env.crypt op pk text with
      | .panic => .panic
      | .val (.error e) => .val { err := some (b! "failed to encrypt: " ++ e) }
      | .val (.ok r) => .val { result := r }
  | _ => .val { err := some (b! "wrong number of arguments") }

/-- The switch (static-key-signer.go:111-241); nothing for an unknown method. -/
def staticSwitch (env : Static S) (s : S) (req : Request) : Out (Option Local) :=
  if req.method = b! "connect" then
    .val (some { secret := if 2 ≤ req.params.length then req.params[1]?.getD [] else [], result := b! "ack", harmless := true })
  else if req.method = b! "get_public_key" then .val (some { result := env.pubKey s, harmless := true })
  else if req.method = b! "sign_event" then
    .val (some (match req.params with
      | [p] => match env.decodeEvent p with
        | .error e => { err := some (b! "failed to decode event/2: " ++ e) }
        | .ok evt => match env.sign evt with
          | .error e => { err := some (b! "failed to sign event: " ++ e) }
          | .ok evt => { result := env.encodeEvent evt }
      | _ => { err := some (b! "wrong number of arguments to 'sign_event'") }))
  else if req.method = b! "get_relays" then .val (some { result := env.relays, harmless := true })
  else if req.method = b! "nip44_encrypt" then (cryptMethod env .enc44 req.params).bind (fun l => .val (some l))
  else if req.method = b! "nip44_decrypt" then (cryptMethod env .dec44 req.params).bind (fun l => .val (some l))
  else if req.method = b! "nip04_encrypt" then (cryptMethod env .enc04 req.params).bind (fun l => .val (some l))
  else if req.method = b! "nip04_decrypt" then (cryptMethod env .dec04 req.params).bind (fun l => .val (some l))
  else if req.method = b! "ping" then .val (some { result := b! "pong", harmless := true })
  else .val none

/-- static-key-signer.go:243-247: the authorizer is asked once the result is there. -/
def authorized (env : Static S) (from_ : Bytes) (l : Local) : Option Bytes :=
  match l.err, env.authorize with
  | none, some f => if f l.harmless from_ l.secret then none else some (b! "unauthorized")
  | e, _ => e

/-- nip46/bunker_session.go:56-66 and the signature (static-key-signer.go:249-259, dynamic-signer.go:235-245). -/
def respond (lock : Response → Option Bytes) (sign : Event → Except Bytes Event) (now : Int) (client : Bytes) (req : Request) (resp : Response) : Answer :=
  match lock resp with
  | none => .failed
  | some c =>
    match sign { id := [], pubkey := [], createdAt := now, kind := 24133, tags := [[b! "p", client]], content := c, sig := [] } with
    | .error _ => .failed
    | .ok evt => .answered req resp evt

/-- `StaticKeySigner.HandleRequest` (static-key-signer.go:85-260). -/
def Static.handle (env : Static S) (t : Table S) (event : Event) : Out (Table S × Answer) :=
  if event.kind ≠ 24133 then .val (t, .failed)
  else
    (t.getOrCreate env.zero event.pubkey (env.makeSession event.pubkey)).bind fun (session, t) =>
    match session with
    | none => .val (t, .failed)
    | some s =>
      (env.parse s event).bind fun r =>
      match r with
      | none => .val (t, .failed)
      | some req =>
        (staticSwitch env s req).bind fun l =>
        match l with
        | none => .val (t, .failed)
        | some l => .val (t, respond (env.lock s) env.sign env.now event.pubkey req (makeResponse req.id l.result (authorized env event.pubkey l)))

/-- Any history of requests; the answers in order. -/
def Static.run (env : Static S) : Table S → List Event → Out (Table S × List Answer)
  | t, [] => .val (t, [])
  | t, e :: es => (env.handle t e).bind fun (t, a) => (Static.run env t es).bind fun (t, as) => .val (t, a :: as)

/-! ## Specification of what the authorizer is asked -/

/-- The methods that do not use the user's key. -/
def harmlessMethod (m : Bytes) : Bool := [b! "connect", b! "get_public_key", b! "get_relays", b! "ping"].contains m

/-- A client presents a secret when it connects. -/
def presentedSecret (req : Request) : Bytes := if req.method = b! "connect" then req.params[1]?.getD [] else []

/-! ## Proofs -/

theorem staticSwitch_spec {env : Static S} {s : S} {req : Request} {l : Local} (h : staticSwitch env s req = .val (some l)) :
    l.harmless = harmlessMethod req.method ∧ l.secret = presentedSecret req ∧ l.err ≠ some [] := by
  have hc : ∀ op, ((cryptMethod env op req.params).bind (fun l => .val (some l)) : Out (Option Local)) = .val (some l) → l.harmless = false ∧ l.secret = [] ∧ l.err ≠ some [] := by
    intro op hh
    cases hx : cryptMethod env op req.params with
    | panic => rw [hx] at hh; cases hh
    | val l' =>
      rw [hx] at hh
      cases hh
      unfold cryptMethod at hx
      (repeat' split at hx) <;> first | (cases hx; done) | (cases hx; simp)
  unfold staticSwitch at h
  by_cases h1 : req.method = b! "connect"
  · rw [if_pos h1] at h
    cases h
    refine ⟨by rw [h1]; rfl, ?_, by simp⟩
    unfold presentedSecret
    rw [if_pos h1]
    simp only
    split
    · rfl
    · next hl => rw [List.getElem?_eq_none (by omega)]; rfl
  · rw [if_neg h1] at h
    have hp : presentedSecret req = [] := by unfold presentedSecret; rw [if_neg h1]
    rw [hp]
    by_cases h2 : req.method = b! "get_public_key"
    · rw [if_pos h2] at h
      cases h
      exact ⟨by rw [h2]; rfl, rfl, by simp⟩
    rw [if_neg h2] at h
    by_cases h3 : req.method = b! "sign_event"
    · rw [if_pos h3] at h
      have : harmlessMethod req.method = false := by rw [h3]; rfl
      rw [this]
      cases h
      (repeat' split) <;> simp
    rw [if_neg h3] at h
    by_cases h4 : req.method = b! "get_relays"
    · rw [if_pos h4] at h
      cases h
      exact ⟨by rw [h4]; rfl, rfl, by simp⟩
    rw [if_neg h4] at h
    by_cases h5 : req.method = b! "nip44_encrypt"
    · rw [if_pos h5] at h
      rw [h5]
      exact hc _ h
    rw [if_neg h5] at h
    by_cases h6 : req.method = b! "nip44_decrypt"
    · rw [if_pos h6] at h
      rw [h6]
      exact hc _ h
    rw [if_neg h6] at h
    by_cases h7 : req.method = b! "nip04_encrypt"
    · rw [if_pos h7] at h
      rw [h7]
      exact hc _ h
    rw [if_neg h7] at h
    by_cases h8 : req.method = b! "nip04_decrypt"
    · rw [if_pos h8] at h
      rw [h8]
      exact hc _ h
    rw [if_neg h8] at h
    by_cases h9 : req.method = b! "ping"
    · rw [if_pos h9] at h
      cases h
      exact ⟨by rw [h9]; rfl, rfl, by simp⟩
    rw [if_neg h9] at h
    cases h

theorem respond_answered {lock : Response → Option Bytes} {sign : Event → Except Bytes Event} {now : Int} {client : Bytes} {req req' : Request} {resp resp' : Response} {evt : Event}
    (h : respond lock sign now client req resp = .answered req' resp' evt) :
    req' = req ∧ resp' = resp ∧ ∃ c, lock resp = some c ∧ sign ⟨[], [], now, 24133, [[b! "p", client]], c, []⟩ = .ok evt := by
  unfold respond at h
  split at h
  · cases h
  · next c hc =>
    split at h
    · cases h
    · next e he =>
      cases h
      exact ⟨rfl, rfl, c, hc, he⟩

theorem handle_answered {env : Static S} {t t' : Table S} {event : Event} {req : Request} {resp : Response} {evt : Event}
    (h : env.handle t event = .val (t', .answered req resp evt)) :
    event.kind = 24133 ∧ ∃ s l c, env.parse s event = .val (some req) ∧ staticSwitch env s req = .val (some l) ∧ resp = makeResponse req.id l.result (authorized env event.pubkey l) ∧
      t.getOrCreate env.zero event.pubkey (env.makeSession event.pubkey) = .val (some s, t') ∧
      env.lock s resp = some c ∧ env.sign ⟨[], [], env.now, 24133, [[b! "p", event.pubkey]], c, []⟩ = .ok evt := by
  unfold Static.handle at h
  split at h
  · cases h
  · next hk =>
    refine ⟨by simpa using hk, ?_⟩
    cases hg : t.getOrCreate env.zero event.pubkey (env.makeSession event.pubkey) with
    | panic => rw [hg] at h; cases h
    | val r =>
      obtain ⟨session, t1⟩ := r
      rw [hg] at h
      simp only [Out.bind] at h
      cases session with
      | none => cases h
      | some s =>
        simp only at h
        cases hp : env.parse s event with
        | panic => rw [hp] at h; cases h
        | val ro =>
          cases ro with
          | none => rw [hp] at h; cases h
          | some r =>
            rw [hp] at h
            simp only at h
            cases hs : staticSwitch env s r with
            | panic => rw [hs] at h; cases h
            | val lo =>
              cases lo with
              | none => rw [hs] at h; cases h
              | some l =>
                rw [hs] at h
                simp only [Out.val.injEq, Prod.mk.injEq] at h
                obtain ⟨rfl, h⟩ := h
                obtain ⟨rfl, rfl, c, h1, h2⟩ := respond_answered h
                exact ⟨s, l, c, hp, hs, rfl, rfl, h1, h2⟩

/-- **C87 (static key).** If the authorizer refuses the request, whatever its method and parameters, the response carries the request's id, an error and no result, and the event sent to the client is
made from this response alone. -/
theorem C87_static_refused (env : Static S) (t t' : Table S) (event : Event) (req : Request) (resp : Response) (evt : Event)
    (h : env.handle t event = .val (t', .answered req resp evt)) (f : Bool → Bytes → Bytes → Bool) (hf : env.authorize = some f)
    (hr : f (harmlessMethod req.method) event.pubkey (presentedSecret req) = false) :
    resp.result = [] ∧ resp.error ≠ [] ∧ resp.id = req.id ∧
      ∃ s c, env.lock s resp = some c ∧ env.sign ⟨[], [], env.now, 24133, [[b! "p", event.pubkey]], c, []⟩ = .ok evt := by
  obtain ⟨-, s, l, c, -, h1, h2, -, h3, h4⟩ := handle_answered h
  obtain ⟨e1, e2, e3⟩ := staticSwitch_spec h1
  have : ∃ e, authorized env event.pubkey l = some e ∧ e ≠ [] := by
    unfold authorized
    cases he : l.err with
    | some e => exact ⟨e, rfl, fun hh => e3 (by rw [he, hh])⟩
    | none =>
      rw [hf]
      refine ⟨b! "unauthorized", ?_, by simp⟩
      simp only
      rw [e1, e2, hr]
      rfl
  obtain ⟨e, he, hne⟩ := this
  rw [he] at h2
  subst h2
  exact ⟨rfl, hne, rfl, s, c, h3, h4⟩

/-- **C87 (static key), the other direction.** A result only ever leaves the signer if there is no authorizer or it agreed to this very request. -/
theorem C87_static_result_approved (env : Static S) (t t' : Table S) (event : Event) (req : Request) (resp : Response) (evt : Event)
    (h : env.handle t event = .val (t', .answered req resp evt)) (hres : resp.result ≠ []) :
    env.authorize = none ∨ ∃ f, env.authorize = some f ∧ f (harmlessMethod req.method) event.pubkey (presentedSecret req) = true := by
  cases ha : env.authorize with
  | none => exact .inl rfl
  | some f =>
    refine .inr ⟨f, rfl, ?_⟩
    cases hr : f (harmlessMethod req.method) event.pubkey (presentedSecret req) with
    | true => rfl
    | false => exact absurd (C87_static_refused env t t' event req resp evt h f ha hr).1 hres

/-- **C95 (static key), part.** Provided no operation succeeds with an empty text, every response carries the request's id and either a result or an error. Missing: see `C95_empty_result_loses_id`. -/
theorem C95_static_partial (env : Static S) (t t' : Table S) (event : Event) (req : Request) (resp : Response) (evt : Event)
    (h : env.handle t event = .val (t', .answered req resp evt))
    (h1 : ∀ s, env.pubKey s ≠ []) (h2 : ∀ e, env.encodeEvent e ≠ []) (h3 : env.relays ≠ []) (h4 : ∀ op pk text, env.crypt op pk text ≠ .val (.ok [])) :
    resp.id = req.id ∧ ((resp.result = [] ∧ resp.error ≠ []) ∨ (resp.result ≠ [] ∧ resp.error = [])) := by
  obtain ⟨-, s, l, c, -, hs, rfl, -⟩ := handle_answered h
  have hl : l.err ≠ some [] := (staticSwitch_spec hs).2.2
  have hres : l.err = none → l.result ≠ [] := by
    have hc : ∀ op, ((cryptMethod env op req.params).bind (fun l => .val (some l)) : Out (Option Local)) = .val (some l) → l.err = none → l.result ≠ [] := by
      intro op hh
      cases hx : cryptMethod env op req.params with
      | panic => rw [hx] at hh; cases hh
      | val l' =>
        rw [hx] at hh
        cases hh
        unfold cryptMethod at hx
        split at hx
        · next pk text _ =>
          split at hx
          · cases hx; simp
          · cases hr : env.crypt op pk text with
            | panic => rw [hr] at hx; cases hx
            | val r =>
              rw [hr] at hx
              cases r with
              | error e => cases hx; simp
              | ok r =>
                cases hx
                intro _ hh
                simp only at hh
                subst hh
                exact h4 _ _ _ hr
        · cases hx; simp
    unfold staticSwitch at hs
    (repeat' split at hs) <;> first | (cases hs; done) | (cases hs; intro _; simp [h1, h2, h3]; done) | (exact hc _ hs) | (cases hs; simp)
  cases ha : authorized env event.pubkey l with
  | some e =>
    refine ⟨rfl, .inl ⟨rfl, ?_⟩⟩
    simp only [makeResponse]
    intro he
    subst he
    unfold authorized at ha
    split at ha
    · split at ha <;> simp at ha
    · exact hl ha
  | none =>
    have : l.err = none := by
      unfold authorized at ha
      split at ha
      · assumption
      · exact ha
    simp only [makeResponse]
    rw [if_pos (hres this)]
    exact ⟨rfl, .inr ⟨hres this, rfl⟩⟩

/-- **C95 is false.** A request to decrypt the encryption of an empty text succeeds with an empty result, and then the response has neither id nor result nor error: the client never gets an answer. -/
theorem C95_empty_result_loses_id (env : Static S) (t t' : Table S) (event : Event) (id pk ct : Bytes) (resp : Response) (evt : Event)
    (h : env.handle t event = .val (t', .answered ⟨id, b! "nip04_decrypt", [pk, ct]⟩ resp evt))
    (hv : env.validPubkey pk = true) (hc : env.crypt .dec04 pk ct = .val (.ok [])) (ha : env.authorize = none) : resp = ⟨[], [], []⟩ := by
  obtain ⟨-, s, l, c, -, hs, rfl, -⟩ := handle_answered h
  have : staticSwitch env s ⟨id, b! "nip04_decrypt", [pk, ct]⟩ = (cryptMethod env .dec04 [pk, ct]).bind (fun l => .val (some l)) := rfl
  rw [this] at hs
  have hx : cryptMethod env .dec04 [pk, ct] = .val { result := [] } := by simp [cryptMethod, hv, hc]
  rw [hx] at hs
  cases hs
  simp [authorized, ha, makeResponse]

/-- Whether handling this event with this session stays clear of a decryption that panics. -/
def Static.Safe (env : Static S) (s : S) (event : Event) : Prop :=
  env.parse s event ≠ .panic ∧ ∀ req, env.parse s event = .val (some req) → ∀ op pk text, req.params = [pk, text] → env.crypt op pk text ≠ .panic

theorem switch_val {env : Static S} {s : S} {req : Request} (h : ∀ op pk text, req.params = [pk, text] → env.crypt op pk text ≠ .panic) : ∃ l, staticSwitch env s req = .val l := by
  have hc : ∀ op, ∃ l, ((cryptMethod env op req.params).bind (fun l => .val (some l)) : Out (Option Local)) = .val l := by
    intro op
    cases hx : cryptMethod env op req.params with
    | val l => exact ⟨_, rfl⟩
    | panic =>
      unfold cryptMethod at hx
      split at hx
      · next pk text hp =>
        split at hx
        · cases hx
        · cases hr : env.crypt op pk text with
          | panic => exact absurd hr (h op pk text hp)
          | val r => rw [hr] at hx; cases r <;> cases hx
      · cases hx
  unfold staticSwitch
  (repeat' split) <;> first | exact ⟨_, rfl⟩ | exact hc _

theorem static_handle_val (env : Static S) {t : Table S} {tbl : Bytes → Option S} (hi : Inv t tbl) (event : Event) (hs : ∀ s, env.Safe s event) :
    ∃ t' a tbl', env.handle t event = .val (t', a) ∧ Inv t' tbl' := by
  obtain ⟨t1, e1, h1⟩ := getOrCreate_spec env.zero hi event.pubkey (env.makeSession event.pubkey)
  unfold Static.handle
  split
  · exact ⟨t, _, tbl, rfl, hi⟩
  · rw [e1]
    simp only [Out.bind]
    split
    · exact ⟨t1, _, _, rfl, h1⟩
    · next s _ =>
      cases hp : env.parse s event with
      | panic => exact absurd hp (hs s).1
      | val ro =>
        cases ro with
        | none => exact ⟨t1, _, _, rfl, h1⟩
        | some req =>
          obtain ⟨l, hl⟩ := switch_val (s := s) ((hs s).2 req hp)
          simp only [hl]
          split <;> exact ⟨t1, _, _, rfl, h1⟩

theorem static_run_val (env : Static S) : ∀ (es : List Event) (t : Table S) (tbl : Bytes → Option S), Inv t tbl → (∀ e ∈ es, ∀ s, env.Safe s e) → ∃ t' as, env.run t es = .val (t', as)
  | [], t, _, _, _ => ⟨t, [], rfl⟩
  | e :: es, t, tbl, h, hs => by
    obtain ⟨t1, a, tbl1, e1, h1⟩ := static_handle_val env h e (hs e (by simp))
    obtain ⟨t2, as, e2⟩ := static_run_val env es t1 tbl1 h1 (fun e he => hs e (List.mem_cons_of_mem _ he))
    exact ⟨t2, a :: as, by rw [Static.run, e1]; simp only [Out.bind]; rw [e2]⟩

/-- **C96 (static key), part.** No history of events makes the signer panic, except in a decryption. Missing: see `C96_static_panics` and, with the real decryption, `C169_anyone_stops_the_signer`. -/
theorem C96_static_partial (env : Static S) (events : List Event) (hs : ∀ e ∈ events, ∀ s, env.Safe s e) : env.run ⟨[], []⟩ events ≠ .panic := by
  obtain ⟨t, as, h⟩ := static_run_val env events ⟨[], []⟩ (fun _ => none) ⟨List.Pairwise.nil, rfl, by simp⟩ hs
  rw [h]
  exact fun hh => by cases hh

/-- **C96 is false (static key).** A first event whose decryption panics takes the signer down, whoever sent it: it is decrypted before anything is authorized. -/
theorem C96_static_panics (env : Static S) (event : Event) (s : S) (rest : List Event) (hk : event.kind = 24133) (hm : env.makeSession event.pubkey = some s) (hp : env.parse s event = .panic) :
    env.run ⟨[], []⟩ (event :: rest) = .panic := by
  have hi : Inv (⟨[], []⟩ : Table S) (fun _ => none) := ⟨List.Pairwise.nil, rfl, by simp⟩
  obtain ⟨t1, e1, -⟩ := getOrCreate_spec env.zero hi event.pubkey (env.makeSession event.pubkey)
  have : env.handle ⟨[], []⟩ event = .panic := by
    unfold Static.handle
    rw [if_neg (by simp [hk]), e1, hm]
    simp [Out.bind, hp]
  rw [Static.run, this]
  rfl

/-! ### A concrete signer -/

/-- Sessions are client keys; a request is `method` or `method,param`; nothing is encrypted. -/
def toyStatic (auth : Option (Bool → Bytes → Bytes → Bool)) : Static Bytes :=
  { zero := [], makeSession := fun c => if c = [] then none else some c, pubKey := fun _ => b! "me"
    parse := fun _ e => .val (some ⟨b! "1", e.content, e.tags.flatten⟩)
    lock := fun _ r => some (r.id ++ b! "|" ++ r.error ++ b! "|" ++ r.result)
    sign := fun e => .ok { e with sig := b! "signed" }
    decodeEvent := fun b => if b = [] then .error (b! "empty") else .ok ⟨[], [], 0, 1, [], b, []⟩
    encodeEvent := fun e => e.content ++ b! "/" ++ e.sig
    validPubkey := fun pk => pk.length == 4, crypt := fun _ _ t => .val (.ok t), relays := b! "{}", authorize := auth, now := 5 }

/-- A request event of the toy signer. -/
def toyRequest (client method : Bytes) (params : List Bytes) : Event := ⟨[], client, 1, 24133, [params], method, []⟩

/-- `toyStatic` with a decryption that panics at `?`. -/
def toyFragile : Static Bytes :=
  { toyStatic none with
    parse := fun s e => if e.content = b! "?" then .panic else (toyStatic none).parse s e
    crypt := fun op pk text => if text = b! "?" then .panic else (toyStatic none).crypt op pk text }

-- histories that are safe, and the two that are not: the event itself, and a text in it
example : ∀ e ∈ [toyRequest (b! "cl") (b! "nip04_decrypt") [b! "abcd", b! "!"], toyRequest (b! "cl") (b! "ping") []], ∀ s, toyFragile.Safe s e := by
  intro e he s
  simp only [List.mem_cons, List.not_mem_nil, or_false] at he
  rcases he with rfl | rfl
  · refine ⟨?_, ?_⟩
    · show toyFragile.parse [] _ ≠ .panic; decide +kernel
    · intro req hreq op pk text hp
      obtain rfl : req = ⟨b! "1", b! "nip04_decrypt", [b! "abcd", b! "!"]⟩ := by
        have : toyFragile.parse s (toyRequest (b! "cl") (b! "nip04_decrypt") [b! "abcd", b! "!"]) = .val (some ⟨b! "1", b! "nip04_decrypt", [b! "abcd", b! "!"]⟩) := rfl
        rw [this] at hreq
        cases hreq
        rfl
      cases hp
      show toyFragile.crypt .enc44 (b! "abcd") (b! "!") ≠ .panic
      decide +kernel
  · refine ⟨?_, ?_⟩
    · show toyFragile.parse [] _ ≠ .panic; decide +kernel
    · intro req hreq op pk text hp
      have : toyFragile.parse s (toyRequest (b! "cl") (b! "ping") []) = .val (some ⟨b! "1", b! "ping", []⟩) := rfl
      rw [this] at hreq
      cases hreq
      cases hp

example : toyFragile.run ⟨[], []⟩ [toyRequest (b! "cl") (b! "?") []] = .panic := by decide +kernel
example : toyFragile.run ⟨[], []⟩ [toyRequest (b! "cl") (b! "ping") [], toyRequest (b! "cl") (b! "nip04_decrypt") [b! "abcd", b! "?"]] = .panic := by decide +kernel

-- an authorizer that only allows harmless requests: signing is refused, ping is answered
example : (toyStatic (some (fun harmless _ _ => harmless))).run ⟨[], []⟩ [toyRequest (b! "cl") (b! "sign_event") [b! "x"], toyRequest (b! "cl") (b! "ping") []] =
    .val (⟨[b! "cl"], [b! "cl"]⟩,
      [.answered ⟨b! "1", b! "sign_event", [b! "x"]⟩ ⟨b! "1", b! "unauthorized", []⟩ ⟨[], [], 5, 24133, [[b! "p", b! "cl"]], b! "1|unauthorized|", b! "signed"⟩,
       .answered ⟨b! "1", b! "ping", []⟩ ⟨b! "1", [], b! "pong"⟩ ⟨[], [], 5, 24133, [[b! "p", b! "cl"]], b! "1||pong", b! "signed"⟩]) := by decide +kernel

-- an authorizer that checks the secret
example : (toyStatic (some (fun _ _ s => s == b! "pw"))).run ⟨[], []⟩ [toyRequest (b! "cl") (b! "connect") [b! "k", b! "pw"], toyRequest (b! "cl") (b! "connect") [b! "k", b! "no"]] =
    .val (⟨[b! "cl"], [b! "cl"]⟩,
      [.answered ⟨b! "1", b! "connect", [b! "k", b! "pw"]⟩ ⟨b! "1", [], b! "ack"⟩ ⟨[], [], 5, 24133, [[b! "p", b! "cl"]], b! "1||ack", b! "signed"⟩,
       .answered ⟨b! "1", b! "connect", [b! "k", b! "no"]⟩ ⟨b! "1", b! "unauthorized", []⟩ ⟨[], [], 5, 24133, [[b! "p", b! "cl"]], b! "1|unauthorized|", b! "signed"⟩]) := by
  decide +kernel

-- the empty answer of `C95_empty_result_loses_id`
example : (toyStatic none).run ⟨[], []⟩ [toyRequest (b! "cl") (b! "nip04_decrypt") [b! "abcd", []]] =
    .val (⟨[b! "cl"], [b! "cl"]⟩,
      [.answered ⟨b! "1", b! "nip04_decrypt", [b! "abcd", []]⟩ ⟨[], [], []⟩ ⟨[], [], 5, 24133, [[b! "p", b! "cl"]], b! "||", b! "signed"⟩]) := by decide +kernel

/-! ## The dynamic signer -/

/-- The parts of a dynamic signer that are not modelled. `H` is what belongs to a handler: its secret key and the user's keyer. -/
structure Dynamic (S H : Type) where
  zero : S
  /-- `getHandlerSecretKey` and `getUserKeyer` (dynamic-signer.go:103-110). -/
  handler : Bytes → Option H
  /-- dynamic-signer.go:117-132. -/
  makeSession : H → Bytes → Option S
  pubKey : S → Bytes
  parse : S → Event → Out (Option Request)
  lock : S → Response → Option Bytes
  /-- `eventResponse.Sign(handlerSecret)`. -/
  sign : H → Event → Except Bytes Event
  /-- `userKeyer.SignEvent`. -/
  signUser : H → Event → Except Bytes Event
  decodeEvent : Bytes → Except Bytes Event
  encodeEvent : Event → Bytes
  validPubkey : Bytes → Bool
  /-- `userKeyer.Encrypt`, `userKeyer.Decrypt`. -/
  crypt : H → Bool → Bytes → Bytes → Out (Except Bytes Bytes)
  authorizeSigning : Option (Event → Bytes → Bytes → Bool)
  authorizeEncryption : Option (Bytes → Bytes → Bool)
  /-- `getRelays` followed by JSON, if not nil. -/
  getRelays : Option (Bytes → Bytes)
  now : Int

variable {H : Type}

/-- dynamic-signer.go:184-227: both encryption methods. -/
def dynCrypt (env : Dynamic S H) (hd : H) (enc : Bool) (client secret : Bytes) (params : List Bytes) : Out Local :=
  match params with
  | [pk, text] =>
    if ¬ env.validPubkey pk then .val { err := some (b! "first argument is not a pubkey string") }
    else if (match env.authorizeEncryption with | some f => !f client secret | none => false) then .val { err := some (b! "refusing to encrypt") }
    else match env.crypt hd enc pk text with
      | .panic => .panic
      | .val (.error e) => .val { err := some (b! "failed to encrypt: " ++ e) }
      | .val (.ok r) => .val { result := r }
  | _ => .val { err := some (b! "wrong number of arguments") }

/-- dynamic-signer.go:154-176. -/
def dynSign (env : Dynamic S H) (hd : H) (client secret : Bytes) (params : List Bytes) : Local :=
  match params with
  | [p] => match env.decodeEvent p with
    | .error e => { err := some (b! "failed to decode event/2: " ++ e) }
    | .ok evt =>
      if (match env.authorizeSigning with | some f => !f evt client secret | none => false) then { err := some (b! "refusing to sign this event") }
      else match env.signUser hd evt with
        | .error e => { err := some (b! "failed to sign event: " ++ e) }
        | .ok evt => { result := env.encodeEvent evt }
  | _ => { err := some (b! "wrong number of arguments to 'sign_event'") }

/-- The switch (dynamic-signer.go:142-233). `secret` is a variable of this one request: it is empty for every method but `connect`. Line 178 calls `getRelays` exactly when it is nil, which panics. -/
def dynSwitch (env : Dynamic S H) (hd : H) (s : S) (client : Bytes) (req : Request) : Out (Option Local) :=
  let secret : Bytes := []
  if req.method = b! "connect" then
    .val (some { secret := if 2 ≤ req.params.length then req.params[1]?.getD [] else [], result := b! "ack" })
  else if req.method = b! "get_public_key" then .val (some { result := env.pubKey s })
  else if req.method = b! "sign_event" then .val (some (dynSign env hd client secret req.params))
  else if req.method = b! "get_relays" then
    match env.getRelays with
    | none => .panic
    | some _ => .val (some { result := b! "{}" })
  else if req.method = b! "nip44_encrypt" then (dynCrypt env hd true client secret req.params).bind (fun l => .val (some l))
  else if req.method = b! "nip44_decrypt" then (dynCrypt env hd false client secret req.params).bind (fun l => .val (some l))
  else if req.method = b! "ping" then .val (some { result := b! "pong" })
  else .val none

/-- `DynamicSigner.HandleRequest` (dynamic-signer.go:86-246). -/
def Dynamic.handle (env : Dynamic S H) (t : Table S) (event : Event) : Out (Table S × Answer) :=
  if event.kind ≠ 24133 then .val (t, .failed)
  else match Tags.find (b! "p") event.tags with
    | none => .val (t, .failed)
    | some tag =>
      (goIndex tag 1).bind fun hp =>
      if ¬ isValid32ByteHex hp then .val (t, .failed)
      else match env.handler hp with
        | none => .val (t, .failed)
        | some hd =>
          (t.getOrCreate env.zero event.pubkey (env.makeSession hd event.pubkey)).bind fun (session, t) =>
          match session with
          | none => .val (t, .failed)
          | some s =>
            (env.parse s event).bind fun r =>
            match r with
            | none => .val (t, .failed)
            | some req =>
              (dynSwitch env hd s event.pubkey req).bind fun l =>
              match l with
              | none => .val (t, .failed)
              | some l => .val (t, respond (env.lock s) (env.sign hd) env.now event.pubkey req (makeResponse req.id l.result l.err))

/-- Any history of requests. -/
def Dynamic.run (env : Dynamic S H) : Table S → List Event → Out (Table S × List Answer)
  | t, [] => .val (t, [])
  | t, e :: es => (env.handle t e).bind fun (t, a) => (Dynamic.run env t es).bind fun (t, as) => .val (t, a :: as)

/-- The requests the dynamic signer's authorizers refuse: the signing of an event the one does not want signed for this client, and any encryption or decryption for a client the other refuses. -/
def Refused (env : Dynamic S H) (client : Bytes) (req : Request) : Prop :=
  (req.method = b! "sign_event" ∧ ∃ p e f, req.params = [p] ∧ env.decodeEvent p = .ok e ∧ env.authorizeSigning = some f ∧ f e client [] = false) ∨
  ((req.method = b! "nip44_encrypt" ∨ req.method = b! "nip44_decrypt") ∧ ∃ f, env.authorizeEncryption = some f ∧ f client [] = false)

theorem dyn_answered {env : Dynamic S H} {t t' : Table S} {event : Event} {req : Request} {resp : Response} {evt : Event}
    (h : env.handle t event = .val (t', .answered req resp evt)) :
    ∃ hd s l, dynSwitch env hd s event.pubkey req = .val (some l) ∧ resp = makeResponse req.id l.result l.err := by
  unfold Dynamic.handle at h
  split at h
  · cases h
  · split at h
    · cases h
    · next tag _ =>
      cases hi : goIndex tag 1 with
      | panic => rw [hi] at h; cases h
      | val hp =>
        rw [hi] at h
        simp only [Out.bind] at h
        split at h
        · cases h
        · cases hh : env.handler hp with
          | none => rw [hh] at h; cases h
          | some hd =>
            rw [hh] at h
            simp only at h
            cases hg : t.getOrCreate env.zero event.pubkey (env.makeSession hd event.pubkey) with
            | panic => rw [hg] at h; cases h
            | val r =>
              obtain ⟨session, t1⟩ := r
              rw [hg] at h
              simp only at h
              cases session with
              | none => cases h
              | some s =>
                simp only at h
                cases hp : env.parse s event with
                | panic => rw [hp] at h; cases h
                | val ro =>
                 cases ro with
                 | none => rw [hp] at h; cases h
                 | some r =>
                  rw [hp] at h
                  simp only at h
                  cases hs : dynSwitch env hd s event.pubkey r with
                  | panic => rw [hs] at h; cases h
                  | val ol =>
                    rw [hs] at h
                    simp only at h
                    cases ol with
                    | none => cases h
                    | some l =>
                      simp only [Out.val.injEq, Prod.mk.injEq] at h
                      obtain ⟨rfl, h⟩ := h
                      obtain ⟨rfl, rfl, -⟩ := respond_answered h
                      exact ⟨hd, s, l, hs, rfl⟩

/-- **C87 (dynamic).** A request that an authorizer refuses gets its id, an error and no result. -/
theorem C87_dynamic_refused (env : Dynamic S H) (t t' : Table S) (event : Event) (req : Request) (resp : Response) (evt : Event)
    (h : env.handle t event = .val (t', .answered req resp evt)) (hr : Refused env event.pubkey req) :
    resp.result = [] ∧ resp.error ≠ [] ∧ resp.id = req.id := by
  obtain ⟨hd, s, l, hs, rfl⟩ := dyn_answered h
  have key : ∀ e, l.err = some e → e ≠ [] → (makeResponse req.id l.result l.err).result = [] ∧ (makeResponse req.id l.result l.err).error ≠ [] ∧ (makeResponse req.id l.result l.err).id = req.id := by
    intro e he hne
    rw [he]
    exact ⟨rfl, hne, rfl⟩
  have enc : ∀ b f, env.authorizeEncryption = some f → f event.pubkey [] = false → ∃ l' e, dynCrypt env hd b event.pubkey [] req.params = .val l' ∧ l'.err = some e ∧ e ≠ [] := by
    intro b f hf hx
    unfold dynCrypt
    rw [hf]
    split
    · split
      · exact ⟨_, _, rfl, rfl, by simp⟩
      · simp only [hx]
        exact ⟨_, _, rfl, rfl, by simp⟩
    · exact ⟨_, _, rfl, rfl, by simp⟩
  rcases hr with ⟨hm, p, e, f, hp, hdec, hf, hx⟩ | ⟨hm, f, hf, hx⟩
  · have : dynSwitch env hd s event.pubkey req = .val (some (dynSign env hd event.pubkey [] req.params)) := by
      unfold dynSwitch
      rw [hm]
      rfl
    rw [this] at hs
    cases hs
    refine key (b! "refusing to sign this event") ?_ (by simp)
    unfold dynSign
    rw [hp]
    simp only
    rw [hdec, hf]
    simp only [hx]
    rfl
  · rcases hm with hm | hm
    · have : dynSwitch env hd s event.pubkey req = (dynCrypt env hd true event.pubkey [] req.params).bind (fun l => .val (some l)) := by
        unfold dynSwitch
        rw [hm]
        rfl
      obtain ⟨l', e, hl', he, hne⟩ := enc true f hf hx
      rw [this, hl'] at hs
      cases hs
      exact key e he hne
    · have : dynSwitch env hd s event.pubkey req = (dynCrypt env hd false event.pubkey [] req.params).bind (fun l => .val (some l)) := by
        unfold dynSwitch
        rw [hm]
        rfl
      obtain ⟨l', e, hl', he, hne⟩ := enc false f hf hx
      rw [this, hl'] at hs
      cases hs
      exact key e he hne

/-- **C95 (dynamic), part.** Provided no operation succeeds with an empty text, every response of a dynamic signer carries the request's id and either a result or an error.
Missing: `C95_dynamic_empty_result`. -/
theorem C95_dynamic_partial (env : Dynamic S H) (t t' : Table S) (event : Event) (req : Request) (resp : Response) (evt : Event)
    (h : env.handle t event = .val (t', .answered req resp evt))
    (h1 : ∀ s, env.pubKey s ≠ []) (h2 : ∀ e, env.encodeEvent e ≠ []) (h4 : ∀ hd enc pk text, env.crypt hd enc pk text ≠ .val (.ok [])) :
    resp.id = req.id ∧ ((resp.result = [] ∧ resp.error ≠ []) ∨ (resp.result ≠ [] ∧ resp.error = [])) := by
  obtain ⟨hd, s, l, hs, rfl⟩ := dyn_answered h
  have hc : ∀ b params l, ((dynCrypt env hd b event.pubkey [] params).bind (fun l => .val (some l)) : Out (Option Local)) = .val (some l) →
      (∃ e, l.err = some e ∧ e ≠ []) ∨ (l.err = none ∧ l.result ≠ []) := by
    intro b params l hh
    unfold dynCrypt at hh
    split at hh
    · next pk text =>
      split at hh
      · cases hh; exact .inl ⟨_, rfl, by simp⟩
      · by_cases hx : (match env.authorizeEncryption with | some f => !f event.pubkey [] | none => false) = true
        · rw [if_pos hx] at hh; cases hh; exact .inl ⟨_, rfl, by simp⟩
        · rw [if_neg hx] at hh
          cases hr : env.crypt hd b pk text with
          | panic => rw [hr] at hh; cases hh
          | val r =>
            rw [hr] at hh
            cases r with
            | error e => cases hh; exact .inl ⟨_, rfl, by simp⟩
            | ok r =>
              cases hh
              exact .inr ⟨rfl, fun hh => h4 hd b pk text (by rw [hr]; exact congrArg (fun x => Out.val (Except.ok x)) hh)⟩
    · cases hh; exact .inl ⟨_, rfl, by simp⟩
  have hg : ∀ params, (∃ e, (dynSign env hd event.pubkey [] params).err = some e ∧ e ≠ []) ∨
      ((dynSign env hd event.pubkey [] params).err = none ∧ (dynSign env hd event.pubkey [] params).result ≠ []) := by
    intro params
    unfold dynSign
    split
    · next p =>
      cases hde : env.decodeEvent p with
      | error e => exact .inl ⟨_, rfl, by simp⟩
      | ok e =>
        simp only
        by_cases hx : (match env.authorizeSigning with | some f => !f e event.pubkey [] | none => false) = true
        · rw [if_pos hx]; exact .inl ⟨_, rfl, by simp⟩
        · rw [if_neg hx]
          cases hr : env.signUser hd e with
          | error e => exact .inl ⟨_, rfl, by simp⟩
          | ok r => exact .inr ⟨rfl, h2 _⟩
    · exact .inl ⟨_, rfl, by simp⟩
  have hl : (∃ e, l.err = some e ∧ e ≠ []) ∨ (l.err = none ∧ l.result ≠ []) := by
    unfold dynSwitch at hs
    simp only at hs
    (repeat' split at hs) <;> first
      | (cases hs; done)
      | (cases hs; exact hg _)
      | (exact hc _ _ _ hs)
      | (cases hs; exact .inr ⟨rfl, by simp [h1]⟩)
  rcases hl with ⟨e, he, hne⟩ | ⟨he, hr⟩
  · rw [he]; exact ⟨rfl, .inl ⟨rfl, hne⟩⟩
  · rw [he]
    simp only [makeResponse]
    rw [if_pos hr]
    exact ⟨rfl, .inr ⟨hr, rfl⟩⟩

/-- **C95 is false (dynamic).** Decrypting to an empty text gives a response without id, result or error. -/
theorem C95_dynamic_empty_result (env : Dynamic S H) (t t' : Table S) (event : Event) (id pk ct : Bytes) (resp : Response) (evt : Event)
    (h : env.handle t event = .val (t', .answered ⟨id, b! "nip44_decrypt", [pk, ct]⟩ resp evt))
    (hv : env.validPubkey pk = true) (hc : ∀ hd, env.crypt hd false pk ct = .val (.ok [])) (ha : env.authorizeEncryption = none) : resp = ⟨[], [], []⟩ := by
  obtain ⟨hd, s, l, hs, rfl⟩ := dyn_answered h
  have : dynSwitch env hd s event.pubkey ⟨id, b! "nip44_decrypt", [pk, ct]⟩ = (dynCrypt env hd false event.pubkey [] [pk, ct]).bind (fun l => .val (some l)) := rfl
  have hx : dynCrypt env hd false event.pubkey [] [pk, ct] = .val { result := [] } := by simp [dynCrypt, hv, hc, ha]
  rw [this, hx] at hs
  cases hs
  simp [makeResponse]

/-- **C87 (dynamic), the secret.** The authorizers never see the secret a client presented: two signers whose authorizers agree on the empty secret behave the same on every history. An authorizer that insists on a
secret therefore refuses everything. -/
theorem C87_dynamic_secret_ignored (env : Dynamic S H) (f f' : Event → Bytes → Bytes → Bool) (g g' : Bytes → Bytes → Bool)
    (hf : ∀ e c, f e c [] = f' e c []) (hg : ∀ c, g c [] = g' c []) (t : Table S) (events : List Event) :
    ({ env with authorizeSigning := some f, authorizeEncryption := some g } : Dynamic S H).run t events =
    ({ env with authorizeSigning := some f', authorizeEncryption := some g' } : Dynamic S H).run t events := by
  have hsw : ∀ hd s client req,
      dynSwitch ({ env with authorizeSigning := some f, authorizeEncryption := some g } : Dynamic S H) hd s client req =
      dynSwitch ({ env with authorizeSigning := some f', authorizeEncryption := some g' } : Dynamic S H) hd s client req := by
    intro hd s client req
    unfold dynSwitch dynSign dynCrypt
    simp only [hf, hg]
  have hh : ∀ t e,
      ({ env with authorizeSigning := some f, authorizeEncryption := some g } : Dynamic S H).handle t e =
      ({ env with authorizeSigning := some f', authorizeEncryption := some g' } : Dynamic S H).handle t e := by
    intro t e
    unfold Dynamic.handle
    simp only [hsw]
  induction events generalizing t with
  | nil => rfl
  | cons e es ih =>
    rw [Dynamic.run, Dynamic.run, hh]
    simp only [ih]

theorem find_len {key : Bytes} {tags : Tags} {tag : Tag} (h : Tags.find key tags = some tag) : 2 ≤ tag.length := by
  induction tags with
  | nil => simp [Tags.find] at h
  | cons t ts ih =>
    unfold Tags.find at h
    split at h
    · split at h
      · cases h; simp
      · exact ih h
    · exact ih h

/-- Whether handling this event stays clear of a decryption that panics. -/
def Dynamic.Safe (env : Dynamic S H) (event : Event) : Prop := ∀ s, env.parse s event ≠ .panic ∧
  ∀ req, env.parse s event = .val (some req) → ∀ hd enc pk text, req.params = [pk, text] → env.crypt hd enc pk text ≠ .panic

theorem dyn_handle_val (env : Dynamic S H) (hr : env.getRelays ≠ none) {t : Table S} {tbl : Bytes → Option S} (hi : Inv t tbl) (event : Event) (hsafe : env.Safe event) :
    ∃ t' a tbl', env.handle t event = .val (t', a) ∧ Inv t' tbl' := by
  unfold Dynamic.handle
  split
  · exact ⟨t, _, tbl, rfl, hi⟩
  · split
    · exact ⟨t, _, tbl, rfl, hi⟩
    · next tag htag =>
      have hl := find_len htag
      have : goIndex tag 1 = .val tag[1] := by
        unfold goIndex
        simp [List.getElem?_eq_getElem (show 1 < tag.length by omega)]
      rw [this]
      simp only [Out.bind]
      split
      · exact ⟨t, _, tbl, rfl, hi⟩
      · split
        · exact ⟨t, _, tbl, rfl, hi⟩
        · next hd _ =>
          obtain ⟨t1, e1, h1⟩ := getOrCreate_spec env.zero hi event.pubkey (env.makeSession hd event.pubkey)
          rw [e1]
          simp only
          split
          · exact ⟨t1, _, _, rfl, h1⟩
          · next s _ =>
            cases hp : env.parse s event with
            | panic => exact absurd hp (hsafe s).1
            | val ro =>
              cases ro with
              | none => exact ⟨t1, _, _, rfl, h1⟩
              | some req =>
                have hcr : ∀ b, ∃ l, ((dynCrypt env hd b event.pubkey [] req.params).bind (fun l => .val (some l)) : Out (Option Local)) = .val l := by
                  intro b
                  cases hx : dynCrypt env hd b event.pubkey [] req.params with
                  | val l => exact ⟨_, rfl⟩
                  | panic =>
                    unfold dynCrypt at hx
                    split at hx
                    · next pk text hpar =>
                      split at hx
                      · cases hx
                      · by_cases hy : (match env.authorizeEncryption with | some f => !f event.pubkey [] | none => false) = true
                        · rw [if_pos hy] at hx; cases hx
                        · rw [if_neg hy] at hx
                          cases hc : env.crypt hd b pk text with
                          | panic => exact absurd hc ((hsafe s).2 req hp hd b pk text hpar)
                          | val r => rw [hc] at hx; cases r <;> cases hx
                    · cases hx
                have : ∃ ol, dynSwitch env hd s event.pubkey req = .val ol := by
                  unfold dynSwitch
                  cases hg : env.getRelays with
                  | none => exact absurd hg hr
                  | some _ => simp only; (repeat' split) <;> first | exact ⟨_, rfl⟩ | exact hcr _
                obtain ⟨ol, hol⟩ := this
                simp only [hol]
                split <;> exact ⟨t1, _, _, rfl, h1⟩

/-- **C96 (dynamic), part.** A dynamic signer with a relay source never panics, except in a decryption. Missing: `C96_get_relays_panics`, `C96_dynamic_panics`. -/
theorem C96_dynamic_partial (env : Dynamic S H) (hr : env.getRelays ≠ none) (events : List Event) (hsafe : ∀ e ∈ events, env.Safe e) : env.run ⟨[], []⟩ events ≠ .panic := by
  have : ∀ (es : List Event) (t : Table S) (tbl : Bytes → Option S), Inv t tbl → (∀ e ∈ es, env.Safe e) → ∃ t' as, env.run t es = .val (t', as) := by
    intro es
    induction es with
    | nil => intro t _ _ _; exact ⟨t, [], rfl⟩
    | cons e es ih =>
      intro t tbl h hs
      obtain ⟨t1, a, tbl1, e1, h1⟩ := dyn_handle_val env hr h e (hs e (by simp))
      obtain ⟨t2, as, e2⟩ := ih t1 tbl1 h1 (fun e he => hs e (List.mem_cons_of_mem _ he))
      exact ⟨t2, a :: as, by rw [Dynamic.run, e1]; simp only [Out.bind]; rw [e2]⟩
  obtain ⟨t, as, h⟩ := this events ⟨[], []⟩ (fun _ => none) ⟨List.Pairwise.nil, rfl, by simp⟩ hsafe
  rw [h]
  exact fun hh => by cases hh

/-- **C96 is false (dynamic).** An event for one of the signer's keys whose decryption panics takes the signer down, whoever sent it. -/
theorem C96_dynamic_panics (env : Dynamic S H) (event : Event) (hd : H) (s : S) (key : Bytes) (more : List Bytes) (rest : List Event) (hk : event.kind = 24133)
    (ht : event.tags = [b! "p" :: key :: more]) (hkey : isValid32ByteHex key = true) (hh : env.handler key = some hd) (hm : env.makeSession hd event.pubkey = some s) (hp : env.parse s event = .panic) :
    env.run ⟨[], []⟩ (event :: rest) = .panic := by
  have hi : Inv (⟨[], []⟩ : Table S) (fun _ => none) := ⟨List.Pairwise.nil, rfl, by simp⟩
  obtain ⟨t1, e1, -⟩ := getOrCreate_spec env.zero hi event.pubkey (env.makeSession hd event.pubkey)
  have : env.handle ⟨[], []⟩ event = .panic := by
    unfold Dynamic.handle
    rw [if_neg (by simp [hk]), ht]
    have hf : Tags.find (b! "p") [b! "p" :: key :: more] = some (b! "p" :: key :: more) := by simp [Tags.find]
    have hg : goIndex (b! "p" :: key :: more) 1 = .val key := rfl
    rw [hf]
    rw [hm] at e1
    simp [hg, Out.bind, hkey, hh, hm, e1, hp]
  rw [Dynamic.run, this]
  rfl

/-- A concrete dynamic signer, like `toyStatic`. -/
def toyDynamic (as : Option (Event → Bytes → Bytes → Bool)) (ae : Option (Bytes → Bytes → Bool)) (gr : Option (Bytes → Bytes)) : Dynamic Bytes Unit :=
  { zero := [], handler := fun _ => some (), makeSession := fun _ c => some c, pubKey := fun _ => b! "me"
    parse := fun _ e => .val (some ⟨b! "1", e.content, (e.tags.drop 1).flatten⟩)
    lock := fun _ r => some (r.id ++ b! "|" ++ r.error ++ b! "|" ++ r.result)
    sign := fun _ e => .ok { e with sig := b! "signed" }, signUser := fun _ e => .ok { e with sig := b! "user" }
    decodeEvent := fun b => if b = [] then .error (b! "empty") else .ok ⟨[], [], 0, 1, [], b, []⟩
    encodeEvent := fun e => e.content ++ b! "/" ++ e.sig
    validPubkey := fun pk => pk.length == 4, crypt := fun _ _ _ t => .val (.ok t), authorizeSigning := as, authorizeEncryption := ae, getRelays := gr, now := 5 }

/-- A value of the examples. -/
def toyDynRequest (client method : Bytes) (params : List Bytes) : Event := ⟨[], client, 1, 24133, [[b! "p", List.replicate 64 97], params], method, []⟩

/-- `toyDynamic` with a decryption that panics at `?`. -/
def toyDynFragile : Dynamic Bytes Unit :=
  { toyDynamic none none (some id) with parse := fun s e => if e.content = b! "?" then .panic else (toyDynamic none none (some id)).parse s e }

example : toyDynFragile.run ⟨[], []⟩ [{ toyDynRequest (b! "cl") (b! "?") [] with tags := [[b! "p", List.replicate 64 97]] }] = .panic :=
  C96_dynamic_panics _ _ () (b! "cl") (List.replicate 64 97) [] [] rfl rfl (by decide +kernel) rfl rfl rfl

example : toyDynFragile.Safe (toyDynRequest (b! "cl") (b! "ping") []) := by
  intro s
  refine ⟨by show toyDynFragile.parse [] _ ≠ .panic; decide +kernel, fun req hreq hd enc pk text hp => ?_⟩
  show (.val (.ok text) : Out (Except Bytes Bytes)) ≠ .panic
  simp

example : (toyDynamic (some (fun e _ _ => e.content == b! "ok")) (some (fun _ _ => false)) (some id)).run ⟨[], []⟩
      [toyDynRequest (b! "cl") (b! "sign_event") [b! "ok"], toyDynRequest (b! "cl") (b! "sign_event") [b! "bad"], toyDynRequest (b! "cl") (b! "nip44_encrypt") [b! "abcd", b! "t"]] =
    .val (⟨[b! "cl"], [b! "cl"]⟩,
      [.answered ⟨b! "1", b! "sign_event", [b! "ok"]⟩ ⟨b! "1", [], b! "ok/user"⟩ ⟨[], [], 5, 24133, [[b! "p", b! "cl"]], b! "1||ok/user", b! "signed"⟩,
       .answered ⟨b! "1", b! "sign_event", [b! "bad"]⟩ ⟨b! "1", b! "refusing to sign this event", []⟩
         ⟨[], [], 5, 24133, [[b! "p", b! "cl"]], b! "1|refusing to sign this event|", b! "signed"⟩,
       .answered ⟨b! "1", b! "nip44_encrypt", [b! "abcd", b! "t"]⟩ ⟨b! "1", b! "refusing to encrypt", []⟩
         ⟨[], [], 5, 24133, [[b! "p", b! "cl"]], b! "1|refusing to encrypt|", b! "signed"⟩]) := by decide +kernel

-- the empty answer of `C95_dynamic_empty_result`
example : (toyDynamic none none (some id)).run ⟨[], []⟩ [toyDynRequest (b! "cl") (b! "nip44_decrypt") [b! "abcd", []]] =
    .val (⟨[b! "cl"], [b! "cl"]⟩,
      [.answered ⟨b! "1", b! "nip44_decrypt", [b! "abcd", []]⟩ ⟨[], [], []⟩ ⟨[], [], 5, 24133, [[b! "p", b! "cl"]], b! "||", b! "signed"⟩]) := by decide +kernel

/-- **C96 is false for dynamic signers without a relay source**, which the constructor documents as allowed: `get_relays` calls the nil function. -/
theorem C96_get_relays_panics : (toyDynamic none none none).run ⟨[], []⟩ [toyDynRequest (b! "cl") (b! "get_relays") []] = .panic := by decide +kernel

/-- **C87 (dynamic), scope.** With authorizers that refuse everything, a client still connects and learns the user's key: these methods are not submitted to any authorizer. -/
theorem C87_dynamic_connect_unauthorized :
    (toyDynamic (some (fun _ _ _ => false)) (some (fun _ _ => false)) (some id)).run ⟨[], []⟩ [toyDynRequest (b! "cl") (b! "get_public_key") []] =
    .val (⟨[b! "cl"], [b! "cl"]⟩,
      [.answered ⟨b! "1", b! "get_public_key", []⟩ ⟨b! "1", [], b! "me"⟩ ⟨[], [], 5, 24133, [[b! "p", b! "cl"]], b! "1||me", b! "signed"⟩]) := by decide +kernel

end GoNostr.Bunker
