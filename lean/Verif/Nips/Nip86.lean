import Verif.Helpers.Theorems
import Verif.Nip19.Theorems
/-!
# nip86: relay management requests
-/

set_option autoImplicit false

namespace GoNostr.Nip86

/-- What a parameter (`any`) may hold, as far as `DecodeRequest` can tell: a string, a `float64` that is a whole number, one that is
not (or not a number), a Go slice of strings, anything else. Infinite floats are left out: no JSON number gives one. -/
inductive Param
  | str (s : Bytes)
  | whole (z : Int)
  | fraction
  | strs (l : List Bytes)
  | other
  deriving DecidableEq

/-- nip86/types.go:3-6 -/
structure Request where
  method : Bytes
  params : List Param

/-- Not modelled: `schnorr.ParsePubKey` succeeding, `net.ParseIP`, and `int(x)` for a whole `float64` (implementation-specific beyond
64 bits). -/
structure Env where
  parsePub : Bytes → Bool
  parseIP : Bytes → Option Bytes
  toInt : Int → Int

/-- methods.go:208-332, the types implementing `MethodParams`. -/
inductive Call
  | supportedMethods
  | banPubKey (pk reason : Bytes)
  | listBannedPubKeys
  | allowPubKey (pk reason : Bytes)
  | listAllowedPubKeys
  | listEventsNeedingModeration
  | allowEvent (id reason : Bytes)
  | banEvent (id reason : Bytes)
  | listBannedEvents
  | listAllowedEvents
  | listDisallowedKinds
  | changeRelayName (name : Bytes)
  | changeRelayDescription (description : Bytes)
  | changeRelayIcon (url : Bytes)
  | allowKind (kind : Int)
  | disallowKind (kind : Int)
  | listAllowedKinds
  | blockIP (ip reason : Bytes)
  | unblockIP (ip reason : Bytes)
  | listBlockedIPs
  | grantAdmin (pk : Bytes) (methods : List Bytes)
  | revokeAdmin (pk : Bytes) (methods : List Bytes)
  | stats
  deriving DecidableEq

/-- The `MethodName` methods (methods.go:210-332). -/
def Call.methodName : Call → Bytes
  | .supportedMethods => b! "supportedmethods"
  | .banPubKey _ _ => b! "banpubkey"
  | .listBannedPubKeys => b! "listbannedpubkeys"
  | .allowPubKey _ _ => b! "allowpubkey"
  | .listAllowedPubKeys => b! "listallowedpubkeys"
  | .listEventsNeedingModeration => b! "listeventsneedingmoderation"
  | .allowEvent _ _ => b! "allowevent"
  | .banEvent _ _ => b! "banevent"
  | .listBannedEvents => b! "listbannedevents"
  | .listAllowedEvents => b! "listallowedevents"
  | .listDisallowedKinds => b! "listdisallowedkinds"
  | .changeRelayName _ => b! "changerelayname"
  | .changeRelayDescription _ => b! "changerelaydescription"
  | .changeRelayIcon _ => b! "changerelayicon"
  | .allowKind _ => b! "allowkind"
  | .disallowKind _ => b! "disallowkind"
  | .listAllowedKinds => b! "listallowedkinds"
  | .blockIP _ _ => b! "blockip"
  | .unblockIP _ _ => b! "unblockip"
  | .listBlockedIPs => b! "listblockedips"
  | .grantAdmin _ _ => b! "grantadmin"
  | .revokeAdmin _ _ => b! "revokeadmin"
  | .stats => b! "stats"

/-- `s, _ := p.(string)` -/
def Param.text : Param → Bytes
  | .str s => s
  | _ => []

/-- methods.go:23-26 and the like. -/
def reasonOf : List Param → Bytes
  | _ :: p :: _ => p.text
  | _ => []

/-- methods.go:15-27, 30-42: the cases with a public key. -/
def withKey (env : Env) (mk : Bytes → Bytes → Call) (params : List Param) : Res Unit Call :=
  match params with
  | [] => .err ()
  | .str pk :: _ => if isValidPublicKey env.parsePub pk then .ok (mk pk (reasonOf params)) else .err ()
  | _ => .err ()

/-- methods.go:47-59, 60-72: the cases with an event id. -/
def withId (mk : Bytes → Bytes → Call) (params : List Param) : Res Unit Call :=
  match params with
  | [] => .err ()
  | .str id :: _ => if isValid32ByteHex id then .ok (mk id (reasonOf params)) else .err ()
  | _ => .err ()

/-- methods.go:79-96: the cases with a text. -/
def withText (mk : Bytes → Call) (params : List Param) : Res Unit Call :=
  match params with
  | [] => .err ()
  | p :: _ => .ok (mk p.text)

/-- methods.go:97-114: the cases with a kind. -/
def withKind (env : Env) (mk : Int → Call) (params : List Param) : Res Unit Call :=
  match params with
  | [] => .err ()
  | .whole z :: _ => .ok (mk (env.toInt z))
  | _ => .err ()

/-- methods.go:117-144: the cases with an address. -/
def withIP (env : Env) (mk : Bytes → Bytes → Call) (params : List Param) : Res Unit Call :=
  match params with
  | [] => .err ()
  | p :: _ => match env.parseIP p.text with
    | none => .err ()
    | some ip => .ok (mk ip (reasonOf params))

/-- methods.go:147-170: the cases with methods; the type assertions panic. -/
def withMethods (mk : Bytes → List Bytes → Call) (params : List Param) : Res Unit Call :=
  match params with
  | .str pk :: .strs l :: _ => .ok (mk pk l)
  | _ :: _ :: _ => .panic
  | _ => .err ()

/-- `DecodeRequest` (methods.go:11-176). -/
def decodeRequest (env : Env) (r : Request) : Res Unit Call :=
  if r.method = b! "supportedmethods" then .ok .supportedMethods
  else if r.method = b! "banpubkey" then withKey env .banPubKey r.params
  else if r.method = b! "listbannedpubkeys" then .ok .listBannedPubKeys
  else if r.method = b! "allowpubkey" then withKey env .allowPubKey r.params
  else if r.method = b! "listallowedpubkeys" then .ok .listAllowedPubKeys
  else if r.method = b! "listeventsneedingmoderation" then .ok .listEventsNeedingModeration
  else if r.method = b! "allowevent" then withId .allowEvent r.params
  else if r.method = b! "banevent" then withId .banEvent r.params
  else if r.method = b! "listbannedevents" then .ok .listBannedEvents
  else if r.method = b! "listallowedevents" then .ok .listAllowedEvents
  else if r.method = b! "listdisallowedkinds" then .ok .listDisallowedKinds
  else if r.method = b! "changerelayname" then withText .changeRelayName r.params
  else if r.method = b! "changerelaydescription" then withText .changeRelayDescription r.params
  else if r.method = b! "changerelayicon" then withText .changeRelayIcon r.params
  else if r.method = b! "allowkind" then withKind env .allowKind r.params
  else if r.method = b! "disallowkind" then withKind env .disallowKind r.params
  else if r.method = b! "listallowedkinds" then .ok .listAllowedKinds
  else if r.method = b! "blockip" then withIP env .blockIP r.params
  else if r.method = b! "unblockip" then withIP env .unblockIP r.params
  else if r.method = b! "listblockedips" then .ok .listBlockedIPs
  else if r.method = b! "grantadmin" then withMethods .grantAdmin r.params
  else if r.method = b! "revokeadmin" then withMethods .revokeAdmin r.params
  else if r.method = b! "stats" then .ok .stats
  else .err ()

/-! ## Specification -/

/-- Spec: the calls without arguments. -/
def Plain (c : Call) : Prop :=
  c = .supportedMethods ∨ c = .listBannedPubKeys ∨ c = .listAllowedPubKeys ∨ c = .listEventsNeedingModeration ∨ c = .listBannedEvents ∨
  c = .listAllowedEvents ∨ c = .listDisallowedKinds ∨ c = .listAllowedKinds ∨ c = .listBlockedIPs ∨ c = .stats

/-- Spec: the reason given after the first argument: the second one if it is a string, nothing otherwise. -/
inductive Reason : List Param → Bytes → Prop
  | text (s : Bytes) (more : List Param) : Reason (.str s :: more) s
  | absent : Reason [] []
  | odd (p : Param) (more : List Param) : (∀ s, p ≠ .str s) → Reason (p :: more) []

/-- Spec: which arguments go with which call. A text argument that is not a string counts as the empty text. -/
inductive Args (env : Env) : List Param → Call → Prop
  | banPubKey (pk reason : Bytes) (l : List Param) : isValidPublicKey env.parsePub pk = true → Reason l reason → Args env (.str pk :: l) (.banPubKey pk reason)
  | allowPubKey (pk reason : Bytes) (l : List Param) : isValidPublicKey env.parsePub pk = true → Reason l reason → Args env (.str pk :: l) (.allowPubKey pk reason)
  | allowEvent (id reason : Bytes) (l : List Param) : Nip19.IsHex32 id → Reason l reason → Args env (.str id :: l) (.allowEvent id reason)
  | banEvent (id reason : Bytes) (l : List Param) : Nip19.IsHex32 id → Reason l reason → Args env (.str id :: l) (.banEvent id reason)
  | changeRelayName (p : Param) (s : Bytes) (l : List Param) : Reason [p] s → Args env (p :: l) (.changeRelayName s)
  | changeRelayDescription (p : Param) (s : Bytes) (l : List Param) : Reason [p] s → Args env (p :: l) (.changeRelayDescription s)
  | changeRelayIcon (p : Param) (s : Bytes) (l : List Param) : Reason [p] s → Args env (p :: l) (.changeRelayIcon s)
  | allowKind (z : Int) (l : List Param) : Args env (.whole z :: l) (.allowKind (env.toInt z))
  | disallowKind (z : Int) (l : List Param) : Args env (.whole z :: l) (.disallowKind (env.toInt z))
  | blockIP (p : Param) (s ip reason : Bytes) (l : List Param) : Reason [p] s → env.parseIP s = some ip → Reason l reason → Args env (p :: l) (.blockIP ip reason)
  | unblockIP (p : Param) (s ip reason : Bytes) (l : List Param) : Reason [p] s → env.parseIP s = some ip → Reason l reason → Args env (p :: l) (.unblockIP ip reason)
  | grantAdmin (pk : Bytes) (ms : List Bytes) (l : List Param) : Args env (.str pk :: .strs ms :: l) (.grantAdmin pk ms)
  | revokeAdmin (pk : Bytes) (ms : List Bytes) (l : List Param) : Args env (.str pk :: .strs ms :: l) (.revokeAdmin pk ms)
  | plain (l : List Param) (c : Call) : Plain c → Args env l c

/-- Spec: a request as it comes out of a JSON text: an array of strings arrives as `[]any`, never as `[]string`. -/
def FromJson (r : Request) : Prop := ∀ l, Param.strs l ∉ r.params

theorem reason_text (p : Param) : Reason [p] p.text := by
  cases p with
  | str s => exact .text s []
  | whole z => exact .odd _ _ (by simp)
  | fraction => exact .odd _ _ (by simp)
  | strs l => exact .odd _ _ (by simp)
  | other => exact .odd _ _ (by simp)

theorem reason_text_iff (p : Param) (s : Bytes) : Reason [p] s ↔ s = p.text := by
  constructor
  · intro h
    cases h with
    | text => rfl
    | odd _ _ ho => cases p <;> first | rfl | exact absurd rfl (ho _)
  · rintro rfl; exact reason_text p

theorem reason_iff (p : Param) (l : List Param) (s : Bytes) : Reason l s ↔ s = reasonOf (p :: l) := by
  cases l with
  | nil => constructor
           · intro h; cases h; rfl
           · rintro rfl; exact .absent
  | cons q l =>
    have : Reason (q :: l) s ↔ Reason [q] s := by
      constructor
      · intro h
        cases h with
        | text => exact .text _ _
        | odd _ _ ho => exact .odd _ _ ho
      · intro h
        cases h with
        | text => exact .text _ _
        | odd _ _ ho => exact .odd _ _ ho
    rw [this, reason_text_iff]
    rfl

theorem withKey_iff (env : Env) (mk : Bytes → Bytes → Call) (l : List Param) (c : Call) :
    withKey env mk l = .ok c ↔ ∃ pk reason m, l = .str pk :: m ∧ isValidPublicKey env.parsePub pk = true ∧ Reason m reason ∧ c = mk pk reason := by
  cases l with
  | nil => simp [withKey]
  | cons p l =>
    cases p <;> simp only [withKey, reduceCtorEq, List.cons.injEq, Param.str.injEq, false_and, exists_false]
    rename_i pk
    constructor
    · intro h
      split at h
      · rename_i hk
        simp only [Res.ok.injEq] at h
        exact ⟨pk, _, l, ⟨rfl, rfl⟩, hk, (reason_iff (.str pk) l _).2 rfl, h.symm⟩
      · cases h
    · rintro ⟨_, r, _, ⟨rfl, rfl⟩, hk, hr, rfl⟩
      rw [if_pos hk, (reason_iff (.str pk) l _).1 hr]

theorem withId_iff (mk : Bytes → Bytes → Call) (l : List Param) (c : Call) :
    withId mk l = .ok c ↔ ∃ id reason m, l = .str id :: m ∧ Nip19.IsHex32 id ∧ Reason m reason ∧ c = mk id reason := by
  cases l with
  | nil => simp [withId]
  | cons p l =>
    cases p <;> simp only [withId, reduceCtorEq, List.cons.injEq, Param.str.injEq, false_and, exists_false]
    rename_i id
    have hh : isValid32ByteHex id = true ↔ Nip19.IsHex32 id := C19_isValid32ByteHex_iff id
    constructor
    · intro h
      split at h
      · rename_i hk
        simp only [Res.ok.injEq] at h
        exact ⟨id, _, l, ⟨rfl, rfl⟩, hh.1 hk, (reason_iff (.str id) l _).2 rfl, h.symm⟩
      · cases h
    · rintro ⟨_, r, _, ⟨rfl, rfl⟩, hk, hr, rfl⟩
      rw [if_pos (hh.2 hk), (reason_iff (.str id) l _).1 hr]

theorem withText_iff (mk : Bytes → Call) (l : List Param) (c : Call) :
    withText mk l = .ok c ↔ ∃ p s m, l = p :: m ∧ Reason [p] s ∧ c = mk s := by
  cases l with
  | nil => simp [withText]
  | cons p l =>
    simp only [withText, Res.ok.injEq, List.cons.injEq, reason_text_iff]
    constructor
    · rintro rfl; exact ⟨p, _, l, ⟨rfl, rfl⟩, rfl, rfl⟩
    · rintro ⟨_, _, _, ⟨rfl, rfl⟩, rfl, rfl⟩; rfl

theorem withKind_iff (env : Env) (mk : Int → Call) (l : List Param) (c : Call) :
    withKind env mk l = .ok c ↔ ∃ z m, l = .whole z :: m ∧ c = mk (env.toInt z) := by
  cases l with
  | nil => simp [withKind]
  | cons p l =>
    cases p <;> simp only [withKind, reduceCtorEq, List.cons.injEq, Param.whole.injEq, false_and, exists_false, Res.ok.injEq]
    constructor
    · rintro rfl; exact ⟨_, l, ⟨rfl, rfl⟩, rfl⟩
    · rintro ⟨_, _, ⟨rfl, rfl⟩, rfl⟩; rfl

theorem withIP_iff (env : Env) (mk : Bytes → Bytes → Call) (l : List Param) (c : Call) :
    withIP env mk l = .ok c ↔ ∃ p s ip reason m, l = p :: m ∧ Reason [p] s ∧ env.parseIP s = some ip ∧ Reason m reason ∧ c = mk ip reason := by
  cases l with
  | nil => simp [withIP]
  | cons p l =>
    simp only [withIP]
    constructor
    · intro h
      rcases hp : env.parseIP p.text with _ | ip
      · rw [hp] at h; cases h
      · rw [hp] at h
        simp only [Res.ok.injEq] at h
        exact ⟨p, _, ip, _, l, rfl, reason_text p, hp, (reason_iff p l _).2 rfl, h.symm⟩
    · rintro ⟨q, s, ip, r, m, hl, hs, hip, hr, rfl⟩
      simp only [List.cons.injEq] at hl
      obtain ⟨rfl, rfl⟩ := hl
      rw [reason_text_iff] at hs
      subst hs
      rw [hip, (reason_iff p l _).1 hr]

theorem withMethods_iff (mk : Bytes → List Bytes → Call) (l : List Param) (c : Call) :
    withMethods mk l = .ok c ↔ ∃ pk ms m, l = .str pk :: .strs ms :: m ∧ c = mk pk ms := by
  constructor
  · intro h
    unfold withMethods at h
    split at h
    · simp only [Res.ok.injEq] at h; exact ⟨_, _, _, rfl, h.symm⟩
    · cases h
    · cases h
  · rintro ⟨_, _, _, rfl, rfl⟩; rfl

theorem ite_elim {α : Type} {Q c : Prop} [Decidable c] {a b y : α} (h1 : c → a = y → Q) (h2 : ¬ c → b = y → Q) :
    (if c then a else b) = y → Q := by
  split
  · exact h1 ‹_›
  · exact h2 ‹_›

/-! ## C118 -/

/-- **C118 (partial): requests are read as what they say.** A request is decoded into a call exactly if its method is the call's name and its
parameters are arguments for it; keys, ids and addresses of users, events and hosts are valid. -/
theorem C118_decodes_partial (env : Env) (r : Request) (c : Call) :
    decodeRequest env r = .ok c ↔ r.method = c.methodName ∧ Args env r.params c := by
  obtain ⟨method, params⟩ := r
  constructor
  · intro h
    revert h
    unfold decodeRequest
    have kp : ∀ d m, Plain d → method = m → d.methodName = m → (Res.ok d : Res Unit Call) = .ok c → method = c.methodName ∧ Args env params c := by
      rintro d m hd rfl hn h; cases h; exact ⟨hn.symm, .plain _ _ hd⟩
    repeat' refine ite_elim (fun hm => ?_) (fun _ => ?_)
    all_goals first
      | exact kp _ _ (by simp [Plain]) hm rfl
      | (intro h; obtain ⟨pk, reason, m, rfl, h1, h2, rfl⟩ := (withKey_iff _ _ _ _).1 h; exact ⟨hm, by constructor <;> assumption⟩)
      | (intro h; obtain ⟨pk, reason, m, rfl, h1, h2, rfl⟩ := (withId_iff _ _ _).1 h; exact ⟨hm, by constructor <;> assumption⟩)
      | (intro h; obtain ⟨p, s, m, rfl, h1, rfl⟩ := (withText_iff _ _ _).1 h; exact ⟨hm, by constructor; assumption⟩)
      | (intro h; obtain ⟨z, m, rfl, rfl⟩ := (withKind_iff _ _ _ _).1 h; exact ⟨hm, by constructor⟩)
      | (intro h; obtain ⟨p, s, ip, reason, m, rfl, h1, h2, h3, rfl⟩ := (withIP_iff _ _ _ _).1 h; exact ⟨hm, by constructor <;> assumption⟩)
      | (intro h; obtain ⟨pk, ms, m, rfl, rfl⟩ := (withMethods_iff _ _ _).1 h; exact ⟨hm, by constructor⟩)
      | (intro h; cases h)
  · rintro ⟨hm, ha⟩
    simp only at hm ha
    subst hm
    cases ha with
    | plain _ _ hp => rcases hp with rfl | rfl | rfl | rfl | rfl | rfl | rfl | rfl | rfl | rfl <;> rfl
    | banPubKey pk reason l h1 h2 => exact (withKey_iff _ _ _ _).2 ⟨pk, reason, l, rfl, h1, h2, rfl⟩
    | allowPubKey pk reason l h1 h2 => exact (withKey_iff _ _ _ _).2 ⟨pk, reason, l, rfl, h1, h2, rfl⟩
    | allowEvent pk reason l h1 h2 => exact (withId_iff _ _ _).2 ⟨pk, reason, l, rfl, h1, h2, rfl⟩
    | banEvent pk reason l h1 h2 => exact (withId_iff _ _ _).2 ⟨pk, reason, l, rfl, h1, h2, rfl⟩
    | changeRelayName p s l h1 => exact (withText_iff _ _ _).2 ⟨p, s, l, rfl, h1, rfl⟩
    | changeRelayDescription p s l h1 => exact (withText_iff _ _ _).2 ⟨p, s, l, rfl, h1, rfl⟩
    | changeRelayIcon p s l h1 => exact (withText_iff _ _ _).2 ⟨p, s, l, rfl, h1, rfl⟩
    | allowKind z l => rfl
    | disallowKind z l => rfl
    | blockIP p s ip reason l h1 h2 h3 => exact (withIP_iff _ _ _ _).2 ⟨p, s, ip, reason, l, rfl, h1, h2, h3, rfl⟩
    | unblockIP p s ip reason l h1 h2 h3 => exact (withIP_iff _ _ _ _).2 ⟨p, s, ip, reason, l, rfl, h1, h2, h3, rfl⟩
    | grantAdmin pk ms l => rfl
    | revokeAdmin pk ms l => rfl

/-- **C118 (partial): when it crashes.** Only a request to grant or revoke rights crashes the decoder, and it does so exactly if it has
two parameters that are not a string and a Go slice of strings. -/
theorem C118_panics_iff_partial (env : Env) (r : Request) :
    decodeRequest env r = .panic ↔ (r.method = b! "grantadmin" ∨ r.method = b! "revokeadmin") ∧ 2 ≤ r.params.length ∧
      ¬ ∃ pk ms m, r.params = .str pk :: .strs ms :: m := by
  obtain ⟨method, params⟩ := r
  have hw : ∀ mk, withMethods mk params = .panic ↔ 2 ≤ params.length ∧ ¬ ∃ pk ms m, params = .str pk :: .strs ms :: m := by
    intro mk
    unfold withMethods
    split
    · simp
    · rename_i p q m hn
      simp only [List.length_cons, true_iff]
      refine ⟨by omega, ?_⟩
      rintro ⟨pk, ms, m', h⟩
      simp only [List.cons.injEq] at h
      exact hn pk ms h.1 h.2.1
    · rename_i h1 h2
      simp only [reduceCtorEq, false_iff, not_and]
      intro hl
      exfalso
      rcases params with _ | ⟨a, _ | ⟨b, m⟩⟩
      · simp at hl
      · simp at hl
      · exact h2 _ _ _ rfl
  have k1 : ∀ mk, withKey env mk params ≠ .panic := by
    intro mk; unfold withKey; repeat' split
    all_goals simp
  have k2 : ∀ mk, withId mk params ≠ .panic := by
    intro mk; unfold withId; repeat' split
    all_goals simp
  have k3 : ∀ mk, withText mk params ≠ .panic := by
    intro mk; unfold withText; repeat' split
    all_goals simp
  have k4 : ∀ mk, withKind env mk params ≠ .panic := by
    intro mk; unfold withKind; repeat' split
    all_goals simp
  have k5 : ∀ mk, withIP env mk params ≠ .panic := by
    intro mk; unfold withIP; repeat' split
    all_goals simp
  simp only
  by_cases hg : method = b! "grantadmin"
  · subst hg
    rw [show decodeRequest env ⟨b! "grantadmin", params⟩ = withMethods .grantAdmin params from rfl, hw]
    simp
  by_cases hr : method = b! "revokeadmin"
  · subst hr
    rw [show decodeRequest env ⟨b! "revokeadmin", params⟩ = withMethods .revokeAdmin params from rfl, hw]
    simp
  simp only [hg, hr, or_self, false_and, iff_false]
  unfold decodeRequest
  repeat' refine ite_elim (fun hm => ?_) (fun _ => ?_)
  all_goals first | exact k1 _ | exact k2 _ | exact k3 _ | exact k4 _ | exact k5 _ | exact absurd hm hg | exact absurd hm hr | (intro h; cases h)

/-- **C118 refuted: rights can never be granted.** Every request to grant or revoke rights that comes out of a JSON text and has its two
parameters crashes the relay; none is ever decoded. -/
theorem C118_admin_crashes (env : Env) (r : Request) (hj : FromJson r) (hm : r.method = b! "grantadmin" ∨ r.method = b! "revokeadmin") :
    (2 ≤ r.params.length → decodeRequest env r = .panic) ∧ ∀ c, decodeRequest env r ≠ .ok c := by
  have hn : ¬ ∃ pk ms m, r.params = .str pk :: .strs ms :: m := by
    rintro ⟨pk, ms, m, h⟩
    exact hj ms (by rw [h]; simp)
  refine ⟨fun hl => (C118_panics_iff_partial env r).2 ⟨hm, hl, hn⟩, ?_⟩
  intro c hc
  obtain ⟨h1, h2⟩ := (C118_decodes_partial env r c).1 hc
  obtain ⟨method, params⟩ := r
  simp only at h1 h2 hn hm
  cases h2 with
  | grantAdmin pk ms l => exact hn ⟨pk, ms, l, rfl⟩
  | revokeAdmin pk ms l => exact hn ⟨pk, ms, l, rfl⟩
  | plain _ _ hp =>
    rw [h1] at hm
    rcases hp with rfl | rfl | rfl | rfl | rfl | rfl | rfl | rfl | rfl | rfl <;> exact absurd hm (by decide)
  | _ => rw [h1] at hm; exact absurd hm (by simp [Call.methodName])

/-- **C118 refuted: what is not a text erases one.** A request to change the relay's name to something that is not a string is decoded as one
to make it empty, and it is the same for the description and the icon. -/
theorem C118_odd_name_erases (env : Env) (p : Param) (more : List Param) (hp : ∀ s, p ≠ .str s) :
    decodeRequest env ⟨b! "changerelayname", p :: more⟩ = .ok (.changeRelayName []) ∧
    decodeRequest env ⟨b! "changerelaydescription", p :: more⟩ = .ok (.changeRelayDescription []) ∧
    decodeRequest env ⟨b! "changerelayicon", p :: more⟩ = .ok (.changeRelayIcon []) := by
  have h := Reason.odd p [] hp
  exact ⟨(C118_decodes_partial _ _ _).2 ⟨rfl, .changeRelayName _ _ _ h⟩, (C118_decodes_partial _ _ _).2 ⟨rfl, .changeRelayDescription _ _ _ h⟩,
    (C118_decodes_partial _ _ _).2 ⟨rfl, .changeRelayIcon _ _ _ h⟩⟩

/-- Every call but granting and revoking rights can be asked for in JSON. -/
theorem C118_others_usable (env : Env) (c : Call) (l : List Param) (h : Args env l c) (hc : c.methodName ≠ b! "grantadmin" ∧ c.methodName ≠ b! "revokeadmin") :
    ∃ r, FromJson r ∧ decodeRequest env r = .ok c := by
  have key : ∀ m, Args env m c → (∀ x, Param.strs x ∉ m) → ∃ r, FromJson r ∧ decodeRequest env r = .ok c :=
    fun m hm hn => ⟨⟨c.methodName, m⟩, hn, (C118_decodes_partial _ _ _).2 ⟨rfl, hm⟩⟩
  have hr : ∀ m s, Reason m s → Reason [.str s] s := fun m s _ => .text s []
  cases h with
  | banPubKey pk reason l h1 h2 => exact key [.str pk, .str reason] (.banPubKey _ _ _ h1 (hr _ _ h2)) (by simp)
  | allowPubKey pk reason l h1 h2 => exact key [.str pk, .str reason] (.allowPubKey _ _ _ h1 (hr _ _ h2)) (by simp)
  | allowEvent pk reason l h1 h2 => exact key [.str pk, .str reason] (.allowEvent _ _ _ h1 (hr _ _ h2)) (by simp)
  | banEvent pk reason l h1 h2 => exact key [.str pk, .str reason] (.banEvent _ _ _ h1 (hr _ _ h2)) (by simp)
  | changeRelayName p s l h1 => exact key [.str s] (.changeRelayName _ _ _ (hr _ _ h1)) (by simp)
  | changeRelayDescription p s l h1 => exact key [.str s] (.changeRelayDescription _ _ _ (hr _ _ h1)) (by simp)
  | changeRelayIcon p s l h1 => exact key [.str s] (.changeRelayIcon _ _ _ (hr _ _ h1)) (by simp)
  | allowKind z l => exact key [.whole z] (.allowKind _ _) (by simp)
  | disallowKind z l => exact key [.whole z] (.disallowKind _ _) (by simp)
  | blockIP p s ip reason l h1 h2 h3 => exact key [.str s, .str reason] (.blockIP _ s _ _ _ (hr _ _ h1) h2 (hr _ _ h3)) (by simp)
  | unblockIP p s ip reason l h1 h2 h3 => exact key [.str s, .str reason] (.unblockIP _ s _ _ _ (hr _ _ h1) h2 (hr _ _ h3)) (by simp)
  | grantAdmin pk ms l => exact absurd rfl hc.1
  | revokeAdmin pk ms l => exact absurd rfl hc.2
  | plain _ _ hp => exact key [] (.plain _ _ hp) (by simp)

/-- Not vacuous: a ban with a reason, a refused key, a crashing request. -/
example : let env : Env := ⟨fun b => b.length == 32, fun _ => none, id⟩
    decodeRequest env ⟨b! "banpubkey", [.str Nip19.sampleHex, .str (b! "spam")]⟩ = .ok (.banPubKey Nip19.sampleHex (b! "spam")) ∧
    decodeRequest env ⟨b! "banpubkey", [.str (b! "XYZ")]⟩ = .err () ∧
    decodeRequest env ⟨b! "grantadmin", [.str Nip19.sampleHex, .other]⟩ = .panic ∧ FromJson ⟨b! "grantadmin", [.str Nip19.sampleHex, .other]⟩ := by
  refine ⟨by decide +kernel, by decide +kernel, by decide +kernel, by simp [FromJson]⟩

end GoNostr.Nip86
