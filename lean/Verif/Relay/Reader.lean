import Verif.Json.Preparse
/-!
# The reader of a connection: what is done with one message of a relay

The body of the reading loop (relay.go:231-315), byte for byte up to the parsers: the text is looked at by the quick
pre-parser (`Verif.Helpers.Model`), then by `ParseMessage` (`Verif.Json.Envelopes`), and handed to whom it concerns. What
the receivers do with it is in `Verif.Relay.Model` (subscriptions), `Verif.Relay.Publish` (OK) and `Verif.Relay.Count`.
-/

set_option autoImplicit false

namespace GoNostr.Reader
open GoNostr.Json

/-- Which duplicate check a subscription was given (relay.go:450-453): none, by id, by address. If both, the first counts. -/
inductive Check
  | none | byId | byAddress
  deriving DecidableEq

/-- What the reader uses of a subscription: `sub.match`, the duplicate check, whether `countResult` is set. -/
structure Sub where
  wants : Event → Bool
  check : Check
  counts : Bool

/-- What the reader consults while it handles one message: the table of subscriptions (by their number), `AssumeValid`,
the first result of `CheckSignature`, the answers of the duplicate checks, the table of callbacks of `Publish`, and
whether the user set handlers. -/
structure Relay where
  sub : Int → Option Sub
  assumeValid : Bool
  sigOk : Event → Bool
  seen : Int → Bytes → Bool
  seenNewer : Int → Bytes → Bytes → Int → Bool
  waiting : Bytes → Bool
  noticeHandler : Bool
  customHandler : Bool

/-- What the reader does. The first two are the questions to the duplicate checks of the subscription with this number. -/
inductive Act
  | askSeen (n : Int) (id : Bytes)
  | askNewer (n : Int) (pubkey d : Bytes) (ts : Int)
  | event (n : Int) (e : Event)
  | eose (n : Int)
  | closed (n : Int) (reason : Bytes)
  | count (n : Int) (c : Int) (hll : Option Bytes)
  | ok (id : Bytes) (ok : Bool) (reason : Bytes)
  | notice (text : Bytes)
  | logNotice (text : Bytes)
  | challenge (c : Bytes)
  | custom (msg : Bytes)
  deriving DecidableEq

section
/- *library* as in `Verif.Json.Envelopes`. -/
variable (valid : Bytes → Bool) (readCount : Bytes → Option (Option Int × Bytes))

/-- relay.go:236-251: the subscription the pre-parser finds, the questions asked, and whether to go on. -/
def precheck (R : Relay) (msg : Bytes) : Out (Option (Int × Sub) × List Act × Bool) := do
  let subid ← extractSubID msg
  let n ← subIdToSerial subid
  match R.sub n with
  | none => return (none, [], true)
  | some s =>
    match s.check with
    | .none => return (some (n, s), [], true)
    | .byId => do
      let m ← goSliceFrom msg (10 + subid.length)
      let id ← extractEventID m
      return (some (n, s), [.askSeen n id], !R.seen n id)
    | .byAddress => do
      let pk ← extractEventPubKey msg
      let d ← extractDTag msg
      let ts ← extractTimestamp msg
      return (some (n, s), [.askNewer n pk d ts], !R.seenNewer n pk d ts)

/-- `r.Subscriptions.Load(subIdToSerial(id))`. -/
def load (R : Relay) (id : Bytes) : Out (Option (Int × Sub)) := do
  let n ← subIdToSerial id
  return (R.sub n).map (fun s => (n, s))

/-- relay.go:261-315: the `switch`. `found` is the subscription of the pre-check. -/
def handle (R : Relay) (found : Option (Int × Sub)) : Env → Out (List Act)
  | .notice t => return [if R.noticeHandler then .notice t else .logNotice t]
  | .auth c _ => return (match c with | some c => [.challenge c] | none => [])
  | .event _ e => return (match found with
      | none => []
      | some (n, s) => if !s.wants e then [] else if !R.assumeValid && !R.sigOk e then [] else [.event n e])
  | .eose id => do
    let s ← load R id
    return (match s with | some (n, _) => [.eose n] | none => [])
  | .closed id reason => do
    let s ← load R id
    return (match s with | some (n, _) => [.closed n reason] | none => [])
  | .count id _ c hll => do
    let s ← load R id
    return (match s, c with | some (n, s), some c => if s.counts then [.count n c hll] else [] | _, _ => [])
  | .ok id ok reason => return (if R.waiting id then [.ok id ok reason] else [])
  | .req .. => return []
  | .close .. => return []

/-- relay.go:231-315: one round of the reading loop, after the message was read. -/
def onMessage (R : Relay) (msg : Bytes) : Out (List Act) := do
  let (found, asked, go) ← precheck R msg
  if go then
    match parseMessage valid readCount msg with
    | .env v => do
      let done ← handle R found v
      return asked ++ done
    | .unknown => return asked ++ (if R.customHandler then [.custom msg] else [])
    | .bad => return asked
  else return asked

/-! ## Nothing is done without reason -/

/-- Whether a message gives a reason for an action. -/
def Justified (R : Relay) (msg : Bytes) : Act → Prop
  | .askSeen n _ => ∃ s, R.sub n = some s ∧ s.check = .byId
  | .askNewer n _ _ _ => ∃ s, R.sub n = some s ∧ s.check = .byAddress
  | .event n e => ∃ id s, parseMessage valid readCount msg = .env (.event id e) ∧ R.sub n = some s ∧ s.wants e = true ∧
      (R.assumeValid = true ∨ R.sigOk e = true) ∧ ∃ p, extractSubID msg = .val p ∧ subIdToSerial p = .val n
  | .eose n => ∃ id s, parseMessage valid readCount msg = .env (.eose id) ∧ subIdToSerial id = .val n ∧ R.sub n = some s
  | .closed n r => ∃ id s, parseMessage valid readCount msg = .env (.closed id r) ∧ subIdToSerial id = .val n ∧ R.sub n = some s
  | .count n c h => ∃ id f s, parseMessage valid readCount msg = .env (.count id f (some c) h) ∧ subIdToSerial id = .val n ∧ R.sub n = some s ∧ s.counts = true
  | .ok id b r => parseMessage valid readCount msg = .env (.ok id b r) ∧ R.waiting id = true
  | .notice t => parseMessage valid readCount msg = .env (.notice t) ∧ R.noticeHandler = true
  | .logNotice t => parseMessage valid readCount msg = .env (.notice t) ∧ R.noticeHandler = false
  | .challenge c => ∃ e, parseMessage valid readCount msg = .env (.auth (some c) e)
  | .custom m => m = msg ∧ parseMessage valid readCount msg = .unknown ∧ R.customHandler = true

/-- Whether an action is a question to a duplicate check. -/
def Act.isQuestion : Act → Bool
  | .askSeen .. => true
  | .askNewer .. => true
  | _ => false

theorem load_val (R : Relay) (id : Bytes) : ∃ n, subIdToSerial id = .val n ∧ load R id = .val ((R.sub n).map (fun s => (n, s))) := by
  obtain ⟨n, h⟩ := C16_never_panics id
  exact ⟨n, h, by simp [load, h]⟩

theorem handle_val (R : Relay) (found : Option (Int × Sub)) (v : Env) : ∃ l, handle R found v = .val l ∧ l.length ≤ 1 ∧ ∀ a ∈ l, a.isQuestion = false := by
  cases v with
  | event id e =>
    refine ⟨_, rfl, ?_⟩
    split
    · simp
    · split
      · simp
      · split <;> simp [Act.isQuestion]
  | req => exact ⟨_, rfl, by simp⟩
  | count id f c h =>
    obtain ⟨n, h1, h2⟩ := load_val R id
    simp only [handle, h2, Out.val_bind]
    refine ⟨_, rfl, ?_⟩
    split
    · split <;> simp [Act.isQuestion]
    · simp
  | notice t => refine ⟨_, rfl, by simp, ?_⟩; simp; split <;> rfl
  | eose id =>
    obtain ⟨n, h1, h2⟩ := load_val R id
    simp only [handle, h2, Out.val_bind]
    refine ⟨_, rfl, ?_⟩
    split <;> simp [Act.isQuestion]
  | close => exact ⟨_, rfl, by simp⟩
  | closed id r =>
    obtain ⟨n, h1, h2⟩ := load_val R id
    simp only [handle, h2, Out.val_bind]
    refine ⟨_, rfl, ?_⟩
    split <;> simp [Act.isQuestion]
  | ok id b r => refine ⟨_, rfl, ?_⟩; split <;> simp [Act.isQuestion]
  | auth c e => refine ⟨_, rfl, ?_⟩; split <;> simp [Act.isQuestion]

theorem precheck_facts {R : Relay} {msg : Bytes} {found : Option (Int × Sub)} {asked : List Act} {go : Bool} (h : precheck R msg = .val (found, asked, go)) :
    (∃ p n, extractSubID msg = .val p ∧ subIdToSerial p = .val n ∧ found = (R.sub n).map (fun s => (n, s))) ∧ asked.length ≤ 1 ∧
      (∀ a ∈ asked, a.isQuestion = true ∧ Justified valid readCount R msg a) := by
  unfold precheck at h
  cases hp : extractSubID msg with
  | panic => rw [hp] at h; cases h
  | val p =>
    obtain ⟨n, hn⟩ := C16_never_panics p
    simp only [hp, hn, Out.val_bind] at h
    cases hs : R.sub n with
    | none =>
      simp only [hs] at h
      cases h
      exact ⟨⟨p, n, rfl, hn, by simp [hs]⟩, by simp⟩
    | some s =>
      simp only [hs] at h
      cases hc : s.check with
      | none =>
        simp only [hc] at h
        cases h
        exact ⟨⟨p, n, rfl, hn, by simp [hs]⟩, by simp⟩
      | byId =>
        simp only [hc] at h
        cases h1 : goSliceFrom msg (10 + p.length) with
        | panic => rw [h1] at h; cases h
        | val m =>
          simp only [h1, Out.val_bind] at h
          cases h2 : extractEventID m with
          | panic => rw [h2] at h; cases h
          | val id =>
            simp only [h2, Out.val_bind] at h
            cases h
            refine ⟨⟨p, n, rfl, hn, by simp [hs]⟩, by simp, ?_⟩
            simp only [List.mem_singleton, forall_eq]
            exact ⟨rfl, s, hs, hc⟩
      | byAddress =>
        simp only [hc] at h
        cases h1 : extractEventPubKey msg with
        | panic => rw [h1] at h; cases h
        | val pk =>
          obtain ⟨d, h2⟩ := C17_extractDTag_total msg
          obtain ⟨ts, h3⟩ := C17_extractTimestamp_total msg
          simp only [h1, h2, h3, Out.val_bind] at h
          cases h
          refine ⟨⟨p, n, rfl, hn, by simp [hs]⟩, by simp, ?_⟩
          simp only [List.mem_singleton, forall_eq]
          exact ⟨rfl, s, hs, hc⟩

/-- **C151.** For every text a relay sends, whatever the reader does is justified by it: an event goes to a subscription
only if the message parses as that event, the subscription wants it and its signature is good (unless the relay is
trusted); end-of-stored-events, refusals and counts go only to the subscription whose number they name, OKs only to a
waiting publisher of that id, notices, challenges and unknown messages as they are. At most one such thing is done for a
message, after at most one question to a duplicate check. -/
theorem C151_justified (R : Relay) (msg : Bytes) (acts : List Act) (h : onMessage valid readCount R msg = .val acts) :
    (∀ a ∈ acts, Justified valid readCount R msg a) ∧ (acts.filter (fun a => !a.isQuestion)).length ≤ 1 ∧ (acts.filter Act.isQuestion).length ≤ 1 := by
  unfold onMessage at h
  cases hp : precheck R msg with
  | panic => rw [hp] at h; cases h
  | val p =>
    obtain ⟨found, asked, go⟩ := p
    obtain ⟨⟨p, n, f1, f2, f3⟩, f4, f5⟩ := precheck_facts valid readCount hp
    simp only [hp, Out.val_bind] at h
    have hq : ∀ done : List Act, done.length ≤ 1 → (∀ a ∈ done, a.isQuestion = false) → (∀ a ∈ done, Justified valid readCount R msg a) → acts = asked ++ done →
        (∀ a ∈ acts, Justified valid readCount R msg a) ∧ (acts.filter (fun a => !a.isQuestion)).length ≤ 1 ∧ (acts.filter Act.isQuestion).length ≤ 1 := by
      rintro done d1 d2 d3 rfl
      refine ⟨?_, ?_, ?_⟩
      · intro a ha
        rcases List.mem_append.1 ha with ha | ha
        · exact (f5 a ha).2
        · exact d3 a ha
      · rw [List.filter_append, List.filter_eq_nil_iff.2 (fun a ha => by simp [(f5 a ha).1]), List.nil_append]
        exact Nat.le_trans (List.length_filter_le _ _) d1
      · rw [List.filter_append, (List.filter_eq_nil_iff (l := done)).2 (fun a ha => by simp [d2 a ha]), List.append_nil]
        exact Nat.le_trans (List.length_filter_le _ _) f4
    cases go with
    | false =>
      simp only [Bool.false_eq_true, if_false] at h
      cases h
      exact hq [] (by simp) (by simp) (by simp) (by simp)
    | true =>
      simp only [if_true] at h
      cases hm : parseMessage valid readCount msg with
      | bad =>
        simp only [hm] at h
        cases h
        exact hq [] (by simp) (by simp) (by simp) (by simp)
      | unknown =>
        simp only [hm] at h
        cases h
        refine hq (if R.customHandler then [.custom msg] else []) (by split <;> simp) ?_ ?_ rfl
        · split <;> simp [Act.isQuestion]
        · split
          · simp only [List.mem_singleton, forall_eq]; exact ⟨rfl, hm, ‹_›⟩
          · simp
      | env v =>
        simp only [hm] at h
        obtain ⟨l, l1, l2, l3⟩ := handle_val R found v
        rw [l1] at h
        simp only [Out.val_bind] at h
        cases h
        refine hq l l2 l3 ?_ rfl
        intro a ha
        cases v with
        | event id e =>
          simp only [handle] at l1
          cases l1
          subst f3
          cases hs : R.sub n with
          | none => simp [hs] at ha
          | some s =>
            simp only [hs, Option.map_some] at ha
            split at ha
            · simp at ha
            · split at ha
              · simp at ha
              · rename_i w1 w2
                simp only [List.mem_singleton] at ha
                subst ha
                refine ⟨id, s, hm, hs, by simpa using w1, ?_, p, f1, f2⟩
                cases hx : R.assumeValid <;> cases hy : R.sigOk e <;> simp_all
        | req => cases l1; simp at ha
        | close => cases l1; simp at ha
        | count id f c hl =>
          obtain ⟨k, k1, k2⟩ := load_val R id
          simp only [handle, k2, Out.val_bind] at l1
          cases l1
          cases hs : R.sub k with
          | none => simp [hs] at ha
          | some s =>
            cases c with
            | none => simp [hs] at ha
            | some c =>
              simp only [hs, Option.map_some] at ha
              split at ha
              · simp only [List.mem_singleton] at ha
                subst ha
                exact ⟨id, f, s, hm, k1, hs, ‹_›⟩
              · simp at ha
        | notice t =>
          cases l1
          simp only [List.mem_singleton] at ha
          subst ha
          split
          · exact ⟨hm, ‹_›⟩
          · exact ⟨hm, by cases hx : R.noticeHandler <;> simp_all⟩
        | eose id =>
          obtain ⟨k, k1, k2⟩ := load_val R id
          simp only [handle, k2, Out.val_bind] at l1
          cases l1
          cases hs : R.sub k with
          | none => simp [hs] at ha
          | some s =>
            simp only [hs, Option.map_some, List.mem_singleton] at ha
            subst ha
            exact ⟨id, s, hm, k1, hs⟩
        | closed id r =>
          obtain ⟨k, k1, k2⟩ := load_val R id
          simp only [handle, k2, Out.val_bind] at l1
          cases l1
          cases hs : R.sub k with
          | none => simp [hs] at ha
          | some s =>
            simp only [hs, Option.map_some, List.mem_singleton] at ha
            subst ha
            exact ⟨id, s, hm, k1, hs⟩
        | ok id b r =>
          cases l1
          split at ha
          · simp only [List.mem_singleton] at ha
            subst ha
            exact ⟨hm, ‹_›⟩
          · simp at ha
        | auth c e =>
          cases l1
          cases c with
          | none => simp at ha
          | some c =>
            simp only [List.mem_singleton] at ha
            subst ha
            exact ⟨e, hm⟩

/-- **C151.** For every text a relay sends: an event reaches a subscription that has a duplicate check only after this check
was asked and said that it had not been seen. -/
theorem C151_asked (R : Relay) (msg : Bytes) (acts : List Act) (h : onMessage valid readCount R msg = .val acts) (n : Int) (e : Event) (s : Sub)
    (he : Act.event n e ∈ acts) (hs : R.sub n = some s) :
    (s.check = .byId → ∃ id, acts = [.askSeen n id, .event n e] ∧ R.seen n id = false) ∧
    (s.check = .byAddress → ∃ pk d ts, acts = [.askNewer n pk d ts, .event n e] ∧ R.seenNewer n pk d ts = false) := by
  have key : ∀ found asked go, precheck R msg = .val (found, asked, go) → (∀ a ∈ asked, a.isQuestion = true) →
      go = true ∧ ∃ t, found = some (n, t) ∧ acts = asked ++ [.event n e] := by
    intro found asked go hp hq
    unfold onMessage at h
    simp only [hp, Out.val_bind] at h
    have hna : Act.event n e ∉ asked := fun hm => by simpa [Act.isQuestion] using hq _ hm
    cases go with
    | false =>
      simp at h
      exact absurd (h ▸ he) hna
    | true =>
      refine ⟨rfl, ?_⟩
      simp only [if_true] at h
      cases hm : parseMessage valid readCount msg with
      | bad => simp [hm] at h; exact absurd (h ▸ he) hna
      | unknown =>
        simp [hm] at h
        subst h
        rcases List.mem_append.1 he with hx | hx
        · exact absurd hx hna
        · split at hx <;> simp at hx
      | env v =>
        obtain ⟨l, hl, hlen, _⟩ := handle_val R found v
        simp [hm, hl] at h
        subst h
        have hx : Act.event n e ∈ l := (List.mem_append.1 he).resolve_left hna
        have hl1 : l = [.event n e] := by
          match l, hlen, hx with
          | [a], _, hx => simp at hx; rw [hx]
        subst hl1
        cases v with
        | event id e' =>
          simp only [handle, Out.pure_eq] at hl
          cases found with
          | none => simp at hl
          | some p =>
            obtain ⟨m, t⟩ := p
            simp only at hl
            split at hl
            · simp at hl
            · split at hl
              · simp at hl
              · simp at hl
                exact ⟨t, by rw [hl.1], rfl⟩
        | req => simp [handle] at hl
        | count id f c hh =>
          obtain ⟨k, h1, h2⟩ := load_val R id
          simp only [handle, h2, Out.val_bind, Out.pure_eq] at hl
          split at hl
          · split at hl <;> simp at hl
          · simp at hl
        | notice t => simp [handle] at hl; split at hl <;> simp at hl
        | eose id =>
          obtain ⟨k, h1, h2⟩ := load_val R id
          simp only [handle, h2, Out.val_bind, Out.pure_eq] at hl
          split at hl <;> simp at hl
        | close => simp [handle] at hl
        | closed id r =>
          obtain ⟨k, h1, h2⟩ := load_val R id
          simp only [handle, h2, Out.val_bind, Out.pure_eq] at hl
          split at hl <;> simp at hl
        | ok id b r => simp only [handle, Out.pure_eq] at hl; split at hl <;> simp at hl
        | auth c e => simp only [handle, Out.pure_eq] at hl; split at hl <;> simp at hl
  cases hp : precheck R msg with
  | panic => unfold onMessage at h; rw [hp] at h; cases h
  | val p =>
    obtain ⟨found, asked, go⟩ := p
    have hq := (precheck_facts valid readCount hp).2.2
    obtain ⟨k1, t, k2, k3⟩ := key found asked go hp (fun a ha => (hq a ha).1)
    subst k1 k2 k3
    unfold precheck at hp
    cases h0 : extractSubID msg with
    | panic => rw [h0] at hp; cases hp
    | val p =>
      obtain ⟨m, hm⟩ := C16_never_panics p
      simp only [h0, hm, Out.val_bind] at hp
      cases hsm : R.sub m with
      | none => simp [hsm] at hp
      | some u =>
        simp only [hsm] at hp
        cases hc : u.check with
        | none =>
          simp [hc] at hp
          obtain ⟨⟨rfl, rfl⟩, _⟩ := hp
          rw [hs] at hsm; cases hsm
          simp [hc]
        | byId =>
          simp only [hc] at hp
          cases h1 : goSliceFrom msg (10 + p.length) with
          | panic => rw [h1] at hp; cases hp
          | val mm =>
            simp only [h1, Out.val_bind] at hp
            cases h2 : extractEventID mm with
            | panic => rw [h2] at hp; cases hp
            | val id =>
              simp [h2] at hp
              obtain ⟨⟨rfl, rfl⟩, rfl, h4⟩ := hp
              rw [hs] at hsm; cases hsm
              exact ⟨fun _ => ⟨id, rfl, h4⟩, fun hx => by rw [hc] at hx; cases hx⟩
        | byAddress =>
          simp only [hc] at hp
          cases h1 : extractEventPubKey msg with
          | panic => rw [h1] at hp; cases hp
          | val pk =>
            obtain ⟨d, h2⟩ := C17_extractDTag_total msg
            obtain ⟨ts, h3⟩ := C17_extractTimestamp_total msg
            simp [h1, h2, h3] at hp
            obtain ⟨⟨rfl, rfl⟩, rfl, h4⟩ := hp
            rw [hs] at hsm; cases hsm
            exact ⟨fun hx => (by rw [hc] at hx; cases hx), fun _ => ⟨pk, d, ts, rfl, h4⟩⟩

/-- **C151.** Exactly when a message of a relay crashes the program: the pre-parser does not survive it. For a
subscription with a duplicate check this is about the id or the public key (C17 says which texts these are). -/
theorem C151_crash_iff (R : Relay) (msg : Bytes) : onMessage valid readCount R msg = .panic ↔
    extractSubID msg = .panic ∨ ∃ p n s, extractSubID msg = .val p ∧ subIdToSerial p = .val n ∧ R.sub n = some s ∧
      ((s.check = .byId ∧ readerEventID msg = .panic) ∨ (s.check = .byAddress ∧ extractEventPubKey msg = .panic)) := by
  have hpre : onMessage valid readCount R msg = .panic ↔ precheck R msg = .panic := by
    constructor
    · intro h
      cases hp : precheck R msg with
      | panic => rfl
      | val p =>
        obtain ⟨found, asked, go⟩ := p
        unfold onMessage at h
        simp only [hp, Out.val_bind] at h
        cases go with
        | false => simp at h
        | true =>
          simp only [if_true] at h
          cases hm : parseMessage valid readCount msg with
          | bad => simp [hm] at h
          | unknown => simp [hm] at h
          | env v =>
            obtain ⟨l, l1, _⟩ := handle_val R found v
            simp [hm, l1] at h
    · intro h
      simp [onMessage, h]
  rw [hpre]
  unfold precheck
  cases hp : extractSubID msg with
  | panic => simp
  | val p =>
    obtain ⟨n, hn⟩ := C16_never_panics p
    simp only [hn, Out.val_bind, reduceCtorEq, false_or]
    cases hs : R.sub n with
    | none =>
      simp only [Out.pure_eq, reduceCtorEq, false_iff]
      rintro ⟨p', n', s, h1, h2, h3, _⟩
      cases h1
      rw [hn] at h2
      cases h2
      rw [hs] at h3
      cases h3
    | some s =>
      have key : (∃ p' n' s', Out.val p = Out.val p' ∧ subIdToSerial p' = .val n' ∧ R.sub n' = some s' ∧
          ((s'.check = .byId ∧ readerEventID msg = .panic) ∨ (s'.check = .byAddress ∧ extractEventPubKey msg = .panic))) ↔
          ((s.check = .byId ∧ readerEventID msg = .panic) ∨ (s.check = .byAddress ∧ extractEventPubKey msg = .panic)) := by
        constructor
        · rintro ⟨p', n', s', h1, h2, h3, h4⟩
          cases h1
          rw [hn] at h2
          cases h2
          rw [hs] at h3
          cases h3
          exact h4
        · exact fun h => ⟨p, n, s, rfl, hn, hs, h⟩
      rw [key]
      cases hc : s.check with
      | none => simp [hc]
      | byId =>
        simp only [reduceCtorEq, false_and, or_false, true_and]
        unfold readerEventID
        simp only [hp, Out.val_bind]
        cases h1 : goSliceFrom msg (10 + p.length) with
        | panic => simp [hc, h1]
        | val m =>
          simp only [hc, h1, Out.val_bind]
          cases h2 : extractEventID m <;> simp
      | byAddress =>
        obtain ⟨d, h2⟩ := C17_extractDTag_total msg
        obtain ⟨ts, h3⟩ := C17_extractTimestamp_total msg
        simp only [hc, reduceCtorEq, false_and, false_or, true_and]
        cases h1 : extractEventPubKey msg <;> simp [h2, h3]

/-! ## What is sent is delivered -/

theorem ws_bracket_free {w w' : Bytes} (hw : Ws w) (hw' : Ws w') : (34 : UInt8) ∉ w ++ 91 :: w' := by
  intro h
  rcases List.mem_append.1 h with h | h
  · simpa using hw.no_quote 34 h
  · rcases List.mem_cons.1 h with h | h
    · exact absurd h (by decide)
    · simpa using hw'.no_quote 34 h

theorem sep_free {pre : Bytes} (h : Sep pre 44) : (34 : UInt8) ∉ pre := by
  rcases h with ⟨_, h⟩ | ⟨u, v, hu, hv, rfl, _⟩
  · exact absurd h (by decide)
  · intro hm
    rcases List.mem_append.1 hm with hm | hm
    · simpa using hu.no_quote 34 hm
    · rcases List.mem_cons.1 hm with hm | hm
      · exact absurd hm (by decide)
      · simpa using hv.no_quote 34 hm

theorem gtext_raw' {t : Bytes} {v : GVal} (h : GText t v) : v.raw = t := by cases h <;> rfl

/-- The pre-parser on an EVENT message in any layout whose first element after the label is a string: it finds the text of
the string up to the first quote in it, escaped or not. -/
theorem extractSubID_layout {msg b v : Bytes} {x : GVal} {l : List GVal} (hm : IsMessage msg (b! "EVENT") (⟨34 :: (b ++ [34]), v, false⟩ :: x :: l)) :
    extractSubID msg = .val ((b ++ [34]).takeWhile (· ≠ 34)) := by
  obtain ⟨w, w', t, hw, hw', ht, rfl⟩ := hm
  cases ht with
  | @item _ pre t u _ _ hs ht hu =>
    have ht' : 34 :: (b ++ [34]) = t := gtext_raw' ht
    subst ht'
    have hfree := ws_bracket_free hw hw'
    have hpre := sep_free hs
    obtain ⟨p, q, hpq, hp⟩ := List.eq_append_cons_of_mem (show (34 : UInt8) ∈ b ++ [34] by simp)
    have htake : (b ++ [34]).takeWhile (· ≠ 34) = p := by
      rw [hpq]
      exact takeWhile_append_stop (fun y hy => by simp only [ne_eq, decide_eq_true_eq]; rintro rfl; exact hp hy) (by decide)
    rw [htake]
    have hmsg : w ++ 91 :: (w' ++ (34 :: (b! "EVENT" ++ [34]) ++ (pre ++ (34 :: (b ++ [34]) ++ u)))) =
        (w ++ 91 :: w') ++ b! "\"EVENT\"" ++ (pre ++ 34 :: (p ++ 34 :: (q ++ u))) := by
      have : (34 : UInt8) :: (b ++ [34]) ++ u = 34 :: (p ++ 34 :: (q ++ u)) := by
        rw [hpq]; simp
      rw [this]
      simp
    have hf : FirstSplit (b! "\"EVENT\"") (w ++ 91 :: (w' ++ (34 :: (b! "EVENT" ++ [34]) ++ (pre ++ (34 :: (b ++ [34]) ++ u))))) (w ++ 91 :: w')
        (pre ++ 34 :: (p ++ 34 :: (q ++ u))) := by
      refine ⟨hmsg, fun j hj hocc => ?_⟩
      rw [hmsg] at hocc
      obtain ⟨a, c, e1, e2⟩ := hocc
      have : ((w ++ 91 :: w') ++ b! "\"EVENT\"" ++ (pre ++ 34 :: (p ++ 34 :: (q ++ u))))[j]? = some 34 := by
        rw [e1, List.append_assoc, List.getElem?_append_right (by omega)]
        simp [e2]
      rw [List.append_assoc, List.getElem?_append_left hj] at this
      exact hfree (List.mem_of_getElem? this)
    have e1 := hf.index
    unfold extractSubID
    simp only [e1]
    rw [if_neg (by omega), goSliceFrom_at (a := w ++ 91 :: w' ++ b! "\"EVENT\"") (b := pre ++ 34 :: (p ++ 34 :: (q ++ u))) hf.1 (by simp; omega)]
    simp only [Out.val_bind]
    rw [indexOf_singleton_eq hpre, if_neg (by omega)]
    rw [goSliceFrom_at (a := w ++ 91 :: w' ++ b! "\"EVENT\"" ++ pre ++ [34]) (b := p ++ 34 :: (q ++ u)) (by rw [hf.1]; simp) (by simp; omega)]
    simp only [Out.val_bind]
    rw [indexOf_singleton_eq hp]
    exact goSlice_at (a := w ++ 91 :: w' ++ b! "\"EVENT\"" ++ pre ++ [34]) (c := 34 :: (q ++ u)) (by rw [hf.1]; simp) (by simp; omega) (by simp; omega)

/-- The number is found although the label behind it may be written with escapes. -/
theorem serial_layout {n : Int} (h1 : -(2 ^ 63) ≤ n) (h2 : n < 2 ^ 63) (b : Bytes) :
    subIdToSerial ((fmtInt n ++ 58 :: b ++ [34]).takeWhile (· ≠ 34)) = .val n := by
  have hfree : ∀ c ∈ fmtInt n ++ [58], decide (c ≠ 34) = true := by
    intro c hc
    rcases List.mem_append.1 hc with hc | hc
    · have := fmtInt_free n (c := 34) (by decide)
      simp only [ne_eq, decide_eq_true_eq]
      rintro rfl
      exact this hc
    · simp only [List.mem_singleton] at hc
      subst hc; decide
  have : fmtInt n ++ 58 :: b ++ [34] = (fmtInt n ++ [58]) ++ (b ++ [34]) := by simp
  rw [this, List.takeWhile_append_of_pos (by simpa using hfree)]
  exact C16_subid_roundtrip n h1 h2 _

/-- What is done with an event once it is parsed: delivered if it is wanted and authentic. -/
def deliver (R : Relay) (n : Int) (s : Sub) (e : Event) : List Act :=
  if s.wants e = true ∧ (R.assumeValid = true ∨ R.sigOk e = true) then [.event n e] else []

theorem handle_event (R : Relay) (n : Int) (s : Sub) (id : Option Bytes) (e : Event) : handle R (some (n, s)) (.event id e) = .val (deliver R n s e) := by
  unfold handle deliver
  cases h1 : s.wants e <;> cases h2 : R.assumeValid <;> cases h3 : R.sigOk e <;> simp [h1, h3]

/-- **C151 (partial: see below).** An EVENT message, in any layout, whose subscription id begins with the number of a
subscription without duplicate check and a colon: the event is handed to that subscription if it wants it and the
signature is good (or the relay trusted), and nothing else happens. If there is no such subscription, nothing happens.
Missing: an id whose number or colon is written with escapes (`C151_escaped_dropped`), and subscriptions with a duplicate
check in layouts other than this package's (`C151_checked_partial`; C18 shows why). -/
theorem C151_event_partial (R : Relay) {msg b v : Bytes} {n : Int} {x : GVal} {e : Event} (h1 : -(2 ^ 63) ≤ n) (h2 : n < 2 ^ 63)
    (hm : IsMessage msg (b! "EVENT") [⟨34 :: (fmtInt n ++ 58 :: b ++ [34]), v, false⟩, x]) (hx : SaysEvent x e) :
    (∀ s, R.sub n = some s → s.check = .none → onMessage valid readCount R msg = .val (deliver R n s e)) ∧
    (R.sub n = none → onMessage valid readCount R msg = .val []) := by
  have hp := extractSubID_layout hm
  have hn := serial_layout h1 h2 b
  have hparse := C23_any_layout valid readCount hm (.eventSub (s := v) ⟨rfl, rfl⟩ hx)
  refine ⟨fun s hs hc => ?_, fun hs => ?_⟩
  · have : precheck R msg = .val (some (n, s), [], true) := by
      unfold precheck
      simp only [hp, hn, Out.val_bind, hs, hc]
      rfl
    simp [onMessage, this, hparse, handle_event]
  · have : precheck R msg = .val (none, [], true) := by
      unfold precheck
      simp only [hp, hn, Out.val_bind, hs]
      rfl
    simp [onMessage, this, hparse, handle]

/-- **C151 (partial).** Subscriptions with a duplicate check, for messages as this package and most relays write them
(any event with hex id and key, not before 1970): the check by id is asked about the id of the event, the check by
address about its author, `d` tag (if written without escapes, and no tag is `["d"]` alone) and time; unless it says that
this was seen, the event is handled as without check. Missing: other layouts, where C18 shows the wrong question being
asked. -/
theorem C151_checked_partial (R : Relay) {n : Int} {label : Bytes} {e : Event} {s : Sub} (h1 : -(2 ^ 63) ≤ n) (h2 : n < 2 ^ 63) (hl : PlainText label) (hi : Hex64 e.id) (hp : Hex64 e.pubkey)
    (hk : InInt64 e.kind) (hc : InInt64 e.createdAt) (h0 : 0 ≤ e.createdAt) (hu : EventUtf8 e) (hs : R.sub n = some s) :
    ∃ msg, marshal (.event (some (makeSubID n label)) e) = .val msg ∧
      (s.check = .none → onMessage valid readCount R msg = .val (deliver R n s e)) ∧
      (s.check = .byId → onMessage valid readCount R msg = .val (.askSeen n e.id :: if R.seen n e.id then [] else deliver R n s e)) ∧
      (s.check = .byAddress → [b! "d"] ∉ e.tags → PlainText e.tags.getD → wString e.tags.getD = rawQuoted e.tags.getD →
        onMessage valid readCount R msg = .val (.askNewer n e.pubkey e.tags.getD e.createdAt :: if R.seenNewer n e.pubkey e.tags.getD e.createdAt then [] else deliver R n s e)) := by
  obtain ⟨msg, m1, m2, m3, m4, m5, m6⟩ := C18_agrees_partial valid readCount (n := n) hl hi hp hk hc h0 hu
  have hn := C16_subid_roundtrip n h1 h2 label
  refine ⟨msg, m1, fun hck => ?_, fun hck => ?_, fun hck d1 d2 d3 => ?_⟩
  · have : precheck R msg = .val (some (n, s), [], true) := by
      unfold precheck
      simp only [m3, Out.val_bind, hn, hs, hck]
      rfl
    simp [onMessage, this, m2, handle_event]
  · have : precheck R msg = .val (some (n, s), [.askSeen n e.id], !R.seen n e.id) := by
      unfold precheck
      unfold readerEventID at m4
      simp only [m3, Out.val_bind] at m4
      simp only [m3, Out.val_bind, hn, hs, hck]
      cases h : goSliceFrom msg (10 + (makeSubID n label).length) with
      | panic => rw [h] at m4; cases m4
      | val m =>
        rw [h] at m4
        simp only [Out.val_bind] at m4 ⊢
        rw [m4]
        rfl
    cases hd : R.seen n e.id <;> simp [onMessage, this, m2, handle_event, hd]
  · obtain ⟨msg', d4, d5⟩ := C18_dTag_partial (n := n) hl hi hp hu d1 d2 d3
    rw [m1] at d4
    cases d4
    have : precheck R msg = .val (some (n, s), [.askNewer n e.pubkey e.tags.getD e.createdAt], !R.seenNewer n e.pubkey e.tags.getD e.createdAt) := by
      unfold precheck
      simp only [m3, Out.val_bind, hn, hs, hck, m5, m6, d5]
      rfl
    cases hd : R.seenNewer n e.pubkey e.tags.getD e.createdAt <;> simp [onMessage, this, m2, handle_event, hd]

/-- **C151.** The other messages, in any layout that parses (C23) and in which the word `EVENT` does not stand in quotes:
each goes to the one it concerns and to no one else. (No subscription has the number -1: they are counted from 1.) -/
theorem C151_others (R : Relay) {msg : Bytes} (hw : ∀ i, ¬ OccursAt (b! "\"EVENT\"") msg i) (hneg : R.sub (-1) = none) :
    (∀ t, parseMessage valid readCount msg = .env (.notice t) → onMessage valid readCount R msg = .val [if R.noticeHandler then .notice t else .logNotice t]) ∧
    (∀ c e, parseMessage valid readCount msg = .env (.auth (some c) e) → onMessage valid readCount R msg = .val [.challenge c]) ∧
    (∀ id b r, parseMessage valid readCount msg = .env (.ok id b r) → onMessage valid readCount R msg = .val (if R.waiting id then [.ok id b r] else [])) ∧
    (∀ n label, -(2 ^ 63) ≤ n → n < 2 ^ 63 → parseMessage valid readCount msg = .env (.eose (makeSubID n label)) →
      onMessage valid readCount R msg = .val (if (R.sub n).isSome then [.eose n] else [])) ∧
    (∀ n label r, -(2 ^ 63) ≤ n → n < 2 ^ 63 → parseMessage valid readCount msg = .env (.closed (makeSubID n label) r) →
      onMessage valid readCount R msg = .val (if (R.sub n).isSome then [.closed n r] else [])) ∧
    (∀ n label f c h s, -(2 ^ 63) ≤ n → n < 2 ^ 63 → parseMessage valid readCount msg = .env (.count (makeSubID n label) f (some c) h) → R.sub n = some s →
      onMessage valid readCount R msg = .val (if s.counts then [.count n c h] else [])) ∧
    (parseMessage valid readCount msg = .unknown → onMessage valid readCount R msg = .val (if R.customHandler then [.custom msg] else [])) := by
  have hpre : precheck R msg = .val (none, [], true) := by
    have h0 : indexOf (b! "\"EVENT\"") msg = -1 := by
      rcases indexOf_cases (b! "\"EVENT\"") msg with h | ⟨pre, post, hf, _⟩
      · exact h.1
      · exact absurd ⟨pre, post, hf.1, rfl⟩ (hw pre.length)
    have h1 : extractSubID msg = .val [] := by
      unfold extractSubID
      simp only [h0, if_true]
    unfold precheck
    simp only [h1, Out.val_bind, C16_no_colon [] (by simp), hneg]
    rfl
  refine ⟨fun t h => ?_, fun c e h => ?_, fun id b r h => ?_, fun n label h1 h2 h => ?_, fun n label r h1 h2 h => ?_, fun n label f c hl s h1 h2 h hs => ?_, fun h => ?_⟩
  · simp [onMessage, hpre, h, handle]
  · simp [onMessage, hpre, h, handle]
  · simp [onMessage, hpre, h, handle]
  · cases hs : R.sub n <;> simp [onMessage, hpre, h, handle, load, C16_subid_roundtrip n h1 h2 label, hs]
  · cases hs : R.sub n <;> simp [onMessage, hpre, h, handle, load, C16_subid_roundtrip n h1 h2 label, hs]
  · simp [onMessage, hpre, h, handle, load, C16_subid_roundtrip n h1 h2 label, hs]
  · simp [onMessage, hpre, h]

/-! ## Where it fails -/

/-- A relay connection with one subscription, number 1, that wants everything. -/
def exR : Relay := ⟨fun n => if n = 1 then some ⟨fun _ => true, .none, false⟩ else none, true, fun _ => false, fun _ _ => false, fun _ _ _ _ => false, fun _ => false, true, true⟩

/-- The event of the examples. -/
def exE : Event := ⟨hexA, hexA, 5, 1, [], [], []⟩

/-- An event message whose subscription id, `1:`, is written with an escape. -/
def escapedMsg : Bytes := b! "[\"EVENT\",\"1\\u003a\",{\"id\":\"" ++ hexA ++ b! "\",\"pubkey\":\"" ++ hexA ++ b! "\",\"kind\":1,\"created_at\":5,\"tags\":[],\"content\":\"\"}]"

/-- An event message that names no subscription, with an event that has a member `1:`, of value null. -/
def unnamedMsg : Bytes := b! "[\"EVENT\",{\"1:\":null,\"id\":\"" ++ hexA ++ b! "\",\"pubkey\":\"" ++ hexA ++ b! "\",\"kind\":1,\"created_at\":5,\"tags\":[],\"content\":\"\"}]"

theorem escaped_facts : labelOf escapedMsg = some (b! "EVENT") ∧ (match gArray escapedMsg with
    | [_, s, x] => Parsed.of ((decodeEvent x.raw).map (.event (some s.str)))
    | _ => .bad) = .env (.event (some (b! "1:")) exE) ∧ (match gArray escapedMsg with | [_, _] => False | _ => True) ∧ extractSubID escapedMsg = .val (b! "1\\u003a") := by
  refine ⟨by decide +kernel, by decide +kernel, ?_, by decide +kernel⟩
  have : (gArray escapedMsg).length = 3 := by decide +kernel
  generalize gArray escapedMsg = g at this
  match g, this with
  | [_, _, _], _ => trivial

theorem unnamed_facts : labelOf unnamedMsg = some (b! "EVENT") ∧ (match gArray unnamedMsg with
    | [_, x] => Parsed.of ((decodeEvent x.raw).map (.event none))
    | _ => .bad) = .env (.event none exE) ∧ extractSubID unnamedMsg = .val (b! "1:") := by
  refine ⟨by decide +kernel, by decide +kernel, by decide +kernel⟩

theorem escaped_parse : parseMessage valid readCount escapedMsg = .env (.event (some (b! "1:")) exE) := by
  obtain ⟨h1, h2, h3, _⟩ := escaped_facts
  generalize escapedMsg = m at *
  unfold parseMessage fromArray
  rw [h1]
  simp only [if_true]
  generalize gArray m = g at *
  match g, h2, h3 with
  | [_, _, _], h2, _ => exact h2

theorem unnamed_parse : parseMessage valid readCount unnamedMsg = .env (.event none exE) := by
  obtain ⟨h1, h2, _⟩ := unnamed_facts
  generalize unnamedMsg = m at *
  unfold parseMessage fromArray
  rw [h1]
  simp only [if_true]
  generalize gArray m = g at *
  match g, h2 with
  | [_, _], h2 => exact h2

/-- **C151 is false for legal messages with escapes in the subscription id:** the message is parsed as an event for the
subscription, which wants it, and is dropped. -/
theorem C151_escaped_dropped : ∃ msg, parseMessage valid readCount msg = .env (.event (some (b! "1:")) exE) ∧ onMessage valid readCount exR msg = .val [] := by
  refine ⟨escapedMsg, escaped_parse valid readCount, ?_⟩
  have hp : precheck exR escapedMsg = .val (none, [], true) := by
    unfold precheck
    rw [escaped_facts.2.2.2]
    rfl
  simp [onMessage, hp, escaped_parse valid readCount, handle]

/-- **C151 is false the other way round:** a message that names no subscription (a member of the event that is ignored has
the name of one) is delivered to it. -/
theorem C151_unnamed_delivered : ∃ msg, parseMessage valid readCount msg = .env (.event none exE) ∧ onMessage valid readCount exR msg = .val [.event 1 exE] := by
  refine ⟨unnamedMsg, unnamed_parse valid readCount, ?_⟩
  have hp : precheck exR unnamedMsg = .val (some (1, ⟨fun _ => true, .none, false⟩), [], true) := by
    unfold precheck
    rw [unnamed_facts.2.2]
    rfl
  simp only [onMessage, hp, unnamed_parse valid readCount, handle, Out.val_bind, if_true]
  rfl

/-- A message with white space and an escaped label meets the hypotheses of `C151_event_partial`. -/
example : ∃ msg, IsMessage msg (b! "EVENT") [⟨34 :: (fmtInt 7 ++ 58 :: b! "a\\n" ++ [34]), b! "7:a\n", false⟩, ⟨encodeEvent exE, [], true⟩] ∧ SaysEvent ⟨encodeEvent exE, [], true⟩ (cleanEvent exE) := by
  have hb : Esc (b! "7:a" ++ b! "\\n") (b! "7:a" ++ b! "\n") := Esc.append (Esc.plain (by decide +kernel)) (.short (by decide +kernel) .nil)
  obtain ⟨g1, g2⟩ := gtext_event (e := exE) (by simp [InInt64, exE]) (by simp [InInt64, exE])
  exact ⟨_, ⟨[32], [10], _, by simp [Ws], by simp [Ws], .item (pre := [44, 32]) (.inr ⟨[], [32], by simp [Ws], by simp [Ws], rfl, .inl rfl⟩) (.str hb) (.item sep_comma g1 (.close (rest := []) .nil)), rfl⟩, g2⟩

/-- A subscription with a duplicate check and a message meet the hypotheses of `C151_checked_partial` and `C151_asked`. -/
example : ∃ msg, onMessage valid readCount { exR with sub := fun n => if n = 1 then some ⟨fun _ => true, .byId, false⟩ else none } msg =
    .val [.askSeen 1 hexA, .event 1 exE] := by
  have hh : Hex64 hexA := ⟨by decide +kernel, by unfold IsLowerHexByte hexA; decide +kernel⟩
  obtain ⟨msg, _, _, h, _⟩ := C151_checked_partial valid readCount { exR with sub := fun n => if n = 1 then some ⟨fun _ => true, .byId, false⟩ else none }
    (n := 1) (label := []) (e := exE) (s := ⟨fun _ => true, .byId, false⟩) (by decide) (by decide) (by decide +kernel) hh hh
    (by simp [InInt64, exE]) (by simp [InInt64, exE]) (by decide)
    ⟨.ascii (by unfold exE hexA; decide +kernel), .ascii (by unfold exE hexA; decide +kernel), .nil, .nil, by simp [exE]⟩ rfl
  exact ⟨msg, h rfl⟩

/-- An EOSE message meets the hypotheses of `C151_others`. -/
example : (∀ i, ¬ OccursAt (b! "\"EVENT\"") (b! "[\"EOSE\",\"1:\"]") i) ∧ exR.sub (-1) = none ∧ parseMessage valid readCount (b! "[\"EOSE\",\"1:\"]") = .env (.eose (makeSubID 1 [])) := by
  refine ⟨fun i h => ?_, rfl, rfl⟩
  have : indexOf (b! "\"EVENT\"") (b! "[\"EOSE\",\"1:\"]") = -1 := by decide +kernel
  rcases indexOf_cases (b! "\"EVENT\"") (b! "[\"EOSE\",\"1:\"]") with h' | ⟨pre, post, _, h'⟩
  · exact h'.2 i h
  · omega

end

end GoNostr.Reader
