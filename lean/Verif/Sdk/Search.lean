import Verif.Sdk.Profile
import Verif.Sdk.Specific
import Verif.Sdk.Input
import Verif.Sdk.Tracker
import Verif.Filter.Theorems
import Verif.Helpers.Url
/-!
# Users from searches and texts; the weekly check of names; which list is fetched from where

sdk/search.go, sdk/metadata.go:66-103, sdk/specific_event.go:27-55, and the tables of sdk/lists_*.go, replaceable_loader.go
and addressable_loader.go.
-/

set_option autoImplicit false

namespace GoNostr.Sdk
open GoNostr.Nip19

/-! ## C154: `SearchUsers` -/

/-- The filter of a search (search.go:13-16). -/
def searchFilter (query : Bytes) : Filter := { search := query, limit := 10 }

/-- `SearchUsers` (search.go:9-22), from what `FetchMany` yields. -/
def searchUsers {α : Type} (env : ProfileEnv α) : List Event → List (Profile α)
  | [] => []
  | e :: es => (parseMetadata env e).1 :: searchUsers env es

/-- **C154 (partial).** A search gives one profile for each event the relays send, in their order, with the author of that
event; its fields are those of the event if that is a profile. Missing: that they are profiles, and one for a user
(`C154_any_event`, `C154_repeated`). -/
theorem C154_search_partial {α : Type} (env : ProfileEnv α) (es : List Event) :
    (searchUsers env es).map (·.pubkey) = es.map (·.pubkey) ∧ (searchUsers env es).map (·.event) = es.map some ∧
    ∀ e ∈ es, e.kind = 0 → ⟨e.pubkey, some e, (env.parse e.content).1⟩ ∈ searchUsers env es := by
  induction es with
  | nil => simp [searchUsers]
  | cons e es ih =>
    obtain ⟨h1, h2, h3⟩ := ih
    refine ⟨?_, ?_, ?_⟩
    · simp only [searchUsers, List.map_cons, h1, parseMetadata]
      split <;> rfl
    · simp only [searchUsers, List.map_cons, h2, parseMetadata]
      split <;> rfl
    · intro e' he hk
      rcases List.mem_cons.1 he with rfl | he
      · simp [searchUsers, parseMetadata, hk]
      · exact List.mem_cons_of_mem _ (h3 e' he hk)

/-- **C154 is false:** the filter of a search does not say that profiles are looked for. Every event matches it, so a relay
may answer with anything, and an event that is no profile gives a "user" with its author as key and empty fields. -/
theorem C154_any_event {α : Type} (env : ProfileEnv α) (query : Bytes) (e : Event) (h : e.kind ≠ 0) :
    (searchFilter query).matches (some e) = true ∧ searchUsers env [e] = [⟨e.pubkey, some e, env.blank⟩] := by
  refine ⟨?_, by simp [searchUsers, parseMetadata, h]⟩
  simp [searchFilter, Filter.matches, Filter.matchesIgnoringTimestamps, passes, tagEntries, matchTagsLoop]

/-- **C154 is false:** a user of whom a relay knows two versions of the profile is found twice. -/
theorem C154_repeated {α : Type} (env : ProfileEnv α) (pk : Bytes) :
    ∃ e e' : Event, e.id ≠ e'.id ∧ e.kind = 0 ∧ e'.kind = 0 ∧ (searchUsers env [e, e']).map (·.pubkey) = [pk, pk] :=
  ⟨⟨b! "i", pk, 10, 0, [], [], []⟩, ⟨b! "j", pk, 20, 0, [], [], []⟩, by simp, rfl, rfl, rfl⟩

/-! ## C155: `NIP05Valid` -/

/-- What `NIP05Valid` uses of a profile (metadata.go:16-32). Times in seconds. -/
structure Named where
  pubkey : Bytes
  nip05 : Bytes
  valid : Bool
  last : Int

/-- `NIP05Valid` (metadata.go:67-84): `now` is the clock, `ask` what `nip05.QueryIdentifier` finds (the key; `none` for an
error), `back` is `AddDate(0, 0, -7)` (*parameter*: the length of days depends on the place). The result says whether the
server was asked. -/
def nip05Valid (back : Int → Int) (p : Named) (now : Int) (ask : Bytes → Option Bytes) : Named × Bool × Bool :=
  if p.nip05 = [] then (p, false, false)
  else if p.last < back now then
    let v := match ask p.nip05 with
      | none => false
      | some pk => pk == p.pubkey
    ({ p with last := now, valid := v }, v, true)
  else (p, p.valid, false)

/-- Calls one after the other, each with its time and the answer the server would give; the results, newest last. -/
def nip05Run (back : Int → Int) (p : Named) : List (Int × (Bytes → Option Bytes)) → List (Bool × Bool)
  | [] => []
  | c :: cs => let r := nip05Valid back p c.1 c.2; r.2 :: nip05Run back r.1 cs

/-- The zero time. -/
def zeroTime : Int := -62135596800

theorem nip05Run_length (back : Int → Int) : ∀ (cs : List (Int × (Bytes → Option Bytes))) (p : Named), (nip05Run back p cs).length = cs.length
  | [], _ => rfl
  | _ :: cs, p => by simp [nip05Run, nip05Run_length back cs]

theorem nip05_later (back : Int → Int) : ∀ (cs : List (Int × (Bytes → Option Bytes))) (p : Named), p.nip05 ≠ [] → ∀ (k : Nat) (c : Int × (Bytes → Option Bytes)) (r : Bool × Bool),
    cs[k]? = some c → (nip05Run back p cs)[k]? = some r →
      (∃ (j : Nat) (d : Int × (Bytes → Option Bytes)) (b : Bool), j ≤ k ∧ cs[j]? = some d ∧ (nip05Run back p cs)[j]? = some (b, true) ∧ r.1 = b ∧
        (r.1 = true ↔ d.2 p.nip05 = some p.pubkey) ∧ (j = k ∨ back c.1 ≤ d.1)) ∨
      (r = (p.valid, false) ∧ back c.1 ≤ p.last ∧ ∀ j ≤ k, ∀ b, (nip05Run back p cs)[j]? ≠ some (b, true))
  | [], p, _, k, c, r, h, _ => by simp at h
  | d :: cs, p, hn, k, c, r, h, hr => by
    by_cases hask : p.last < back d.1
    · -- asked at once
      have hv : nip05Valid back p d.1 d.2 = ({ p with last := d.1, valid := (match d.2 p.nip05 with | none => false | some pk => pk == p.pubkey) },
          (match d.2 p.nip05 with | none => false | some pk => pk == p.pubkey), true) := by
        simp [nip05Valid, hn, hask]
      generalize hvv : (match d.2 p.nip05 with | none => false | some pk => pk == p.pubkey) = v at hv
      have hiff : v = true ↔ d.2 p.nip05 = some p.pubkey := by
        rw [← hvv]
        cases d.2 p.nip05 with
        | none => simp
        | some pk => simp
      cases k with
      | zero =>
        simp only [nip05Run, hv, List.getElem?_cons_zero, Option.some.injEq] at hr h
        subst hr h
        exact .inl ⟨0, d, v, Nat.le_refl _, rfl, by simp [nip05Run, hv], rfl, hiff, .inl rfl⟩
      | succ k =>
        simp only [nip05Run, hv, List.getElem?_cons_succ] at hr h
        rcases nip05_later back cs { p with last := d.1, valid := v } hn k c r h hr with ⟨j, e, b, h1, h2, h3, h4, h5, h6⟩ | ⟨h1, h2, h3⟩
        · exact .inl ⟨j + 1, e, b, by omega, by simpa using h2, by simp only [nip05Run, hv, List.getElem?_cons_succ]; exact h3, h4, h5, by rcases h6 with h6 | h6 <;> [left; right] <;> [omega; exact h6]⟩
        · refine .inl ⟨0, d, v, by omega, rfl, by simp [nip05Run, hv], by rw [h1], by rw [h1]; exact hiff, .inr h2⟩
    · have hv : nip05Valid back p d.1 d.2 = (p, p.valid, false) := by simp [nip05Valid, hn, hask]
      cases k with
      | zero =>
        simp only [nip05Run, hv, List.getElem?_cons_zero, Option.some.injEq] at hr h
        subst hr h
        refine .inr ⟨rfl, by omega, ?_⟩
        intro j hj b hb
        have : j = 0 := by omega
        subst this
        simp [nip05Run, hv] at hb
      | succ k =>
        simp only [nip05Run, hv, List.getElem?_cons_succ] at hr h
        rcases nip05_later back cs p hn k c r h hr with ⟨j, e, b, h1, h2, h3, h4, h5, h6⟩ | ⟨h1, h2, h3⟩
        · exact .inl ⟨j + 1, e, b, by omega, by simpa using h2, by simp only [nip05Run, hv, List.getElem?_cons_succ]; exact h3, h4, h5, by rcases h6 with h6 | h6 <;> [left; right] <;> [omega; exact h6]⟩
        · refine .inr ⟨h1, h2, ?_⟩
          intro j hj b hb
          cases j with
          | zero => simp [nip05Run, hv] at hb
          | succ j =>
            simp only [nip05Run, hv, List.getElem?_cons_succ] at hb
            exact h3 j (by omega) b hb

/-- **C155.** For every sequence of calls at any times on a profile as it was fetched: each call says what the server said at
a call not longer ago than a week (that one or an earlier one), namely whether it gave the key of the profile for its name.
A profile without a name is never valid, and the server is then not asked. -/
theorem C155_confirmed (back : Int → Int) (p : Named) (hl : p.last = zeroTime) (cs : List (Int × (Bytes → Option Bytes)))
    (hz : ∀ c ∈ cs, zeroTime < back c.1) (k : Nat) (c : Int × (Bytes → Option Bytes)) (r : Bool × Bool) (hc : cs[k]? = some c) (hr : (nip05Run back p cs)[k]? = some r) :
    (p.nip05 = [] → r = (false, false)) ∧
    (p.nip05 ≠ [] → ∃ j d b, j ≤ k ∧ cs[j]? = some d ∧ (nip05Run back p cs)[j]? = some (b, true) ∧
      (r.1 = true ↔ d.2 p.nip05 = some p.pubkey) ∧ (j = k ∨ back c.1 ≤ d.1)) := by
  constructor
  · intro hn
    have hv : ∀ now ask, nip05Valid back p now ask = (p, false, false) := by intro now ask; simp [nip05Valid, hn]
    have hall : ∀ cs : List (Int × (Bytes → Option Bytes)), ∀ x ∈ nip05Run back p cs, x = (false, false) := by
      intro cs
      induction cs with
      | nil => simp [nip05Run]
      | cons d cs ih =>
        intro x hx
        simp only [nip05Run, hv, List.mem_cons] at hx
        rcases hx with rfl | hx
        · rfl
        · exact ih x hx
    exact hall cs r (List.mem_of_getElem? hr)
  · intro hn
    rcases nip05_later back cs p hn k c r hc hr with ⟨j, d, b, h1, h2, h3, _, h5, h6⟩ | ⟨_, h2, _⟩
    · exact ⟨j, d, b, h1, h2, h3, h5, h6⟩
    · have := hz c (List.mem_of_getElem? hc)
      omega

theorem nip05_asks (back : Int → Int) : ∀ (cs : List (Int × (Bytes → Option Bytes))) (p : Named) (k : Nat) (c : Int × (Bytes → Option Bytes)) (b : Bool),
    (∀ (i j : Nat) (d e : Int × (Bytes → Option Bytes)), i ≤ j → cs[i]? = some d → cs[j]? = some e → d.1 ≤ e.1) → (∀ d ∈ cs, p.last ≤ d.1) → cs[k]? = some c →
    (nip05Run back p cs)[k]? = some (b, true) → p.last < back c.1
  | [], p, k, c, b, _, _, h, _ => by simp at h
  | d :: cs, p, k, c, b, hm, hge, h, hr => by
    cases k with
    | zero =>
      simp only [nip05Run, List.getElem?_cons_zero, Option.some.injEq] at hr h
      subst h
      unfold nip05Valid at hr
      split at hr
      · simp at hr
      · split at hr
        · assumption
        · simp at hr
    | succ k =>
      simp only [nip05Run, List.getElem?_cons_succ] at hr h
      have hd := hge d List.mem_cons_self
      have hp : p.last ≤ (nip05Valid back p d.1 d.2).1.last ∧ (nip05Valid back p d.1 d.2).1.last ≤ d.1 := by
        unfold nip05Valid
        split
        · exact ⟨Int.le_refl _, hd⟩
        · split
          · exact ⟨hd, by simp⟩
          · exact ⟨Int.le_refl _, hd⟩
      have := nip05_asks back cs _ k c b (fun i j d e hij hd he => hm (i + 1) (j + 1) d e (by omega) (by simpa using hd) (by simpa using he))
        (fun e he => by
          obtain ⟨j, hj, rfl⟩ := List.getElem_of_mem he
          exact Int.le_trans hp.2 (hm 0 (j + 1) d _ (by omega) rfl (by simp [hj]))) h hr
      omega

/-- **C155.** The server is not bothered: with a clock that does not run backwards, between two calls that asked it lies more
than a week. -/
theorem C155_weekly (back : Int → Int) (p : Named) (cs : List (Int × (Bytes → Option Bytes)))
    (hm : ∀ (i j : Nat) (d e : Int × (Bytes → Option Bytes)), i ≤ j → cs[i]? = some d → cs[j]? = some e → d.1 ≤ e.1) (i j : Nat) (hij : i < j) (d e : Int × (Bytes → Option Bytes))
    (hd : cs[i]? = some d) (he : cs[j]? = some e) (b b' : Bool) (hb : (nip05Run back p cs)[i]? = some (b, true)) (hb' : (nip05Run back p cs)[j]? = some (b', true)) :
    d.1 < back e.1 := by
  induction i generalizing p cs j with
  | zero =>
    cases cs with
    | nil => simp at hd
    | cons c cs =>
      obtain ⟨j, rfl⟩ : ∃ j', j = j' + 1 := ⟨j - 1, by omega⟩
      simp only [List.getElem?_cons_zero, Option.some.injEq] at hd
      subst hd
      simp only [nip05Run, List.getElem?_cons_zero, List.getElem?_cons_succ, Option.some.injEq] at hb hb' he
      have hl : (nip05Valid back p c.1 c.2).1.last = c.1 := by
        unfold nip05Valid at hb ⊢
        split at hb
        · simp at hb
        · rename_i h1
          split at hb
          · rename_i h2
            rw [if_neg h1, if_pos h2]
          · simp at hb
      have := nip05_asks back cs (nip05Valid back p c.1 c.2).1 j e b'
        (fun i j d e hij hd he => hm (i + 1) (j + 1) d e (by omega) (by simpa using hd) (by simpa using he))
        (fun x hx => by
          obtain ⟨k, hk, rfl⟩ := List.getElem_of_mem hx
          rw [hl]
          exact hm 0 (k + 1) c _ (by omega) rfl (by simp [hk])) he hb'
      rwa [hl] at this
  | succ i ih =>
    cases cs with
    | nil => simp at hd
    | cons c cs =>
      obtain ⟨j, rfl⟩ : ∃ j', j = j' + 1 := ⟨j - 1, by omega⟩
      simp only [nip05Run, List.getElem?_cons_succ] at hb hb' hd he
      exact ih _ cs (fun i j d e hij hd he => hm (i + 1) (j + 1) d e (by omega) (by simpa using hd) (by simpa using he)) j (by omega) hd he hb hb'

/-- **C155 does not survive a change of the name:** once a name was confirmed, any other name (or key) put into the same
profile counts as confirmed for a week, without asking. -/
theorem C155_changed_name (back : Int → Int) (p : Named) (now : Int) (ask ask' : Bytes → Option Bytes) (name : Bytes) (hn : name ≠ []) (h0 : p.nip05 ≠ [])
    (h1 : p.last < back now) (h2 : back now ≤ now) (h3 : ask p.nip05 = some p.pubkey) :
    (nip05Valid back { (nip05Valid back p now ask).1 with nip05 := name } now ask').2 = (true, false) := by
  have : nip05Valid back p now ask = ({ p with last := now, valid := true }, true, true) := by simp [nip05Valid, h0, h1, h3]
  rw [this]
  have hx : ¬ now < back now := by omega
  simp [nip05Valid, hn, hx]

/-- A week of seconds; two calls: the second, a day later, says what the server said at the first. -/
example : nip05Run (· - 604800) ⟨b! "k", b! "a@b.c", false, zeroTime⟩ [(1000000000, fun _ => some (b! "k")), (1000086400, fun _ => none), (1001000000, fun _ => none)] =
    [(true, true), (true, false), (false, true)] := by decide +kernel

/-! ## C156: events and profiles from texts -/

/-- `FetchSpecificEventFromInput` (specific_event.go:27-55): the pointer looked for; a failing type assertion panics. -/
def inputPointer (input : Bytes) : Res Unit Pointer :=
  match Nip19.decode input with
  | .panic => .panic
  | .ok (pre, v) =>
    if pre = b! "nevent" then match v with
      | .event p => .ok (.event p)
      | _ => .panic
    else if pre = b! "naddr" then match v with
      | .entity p => .ok (.entity p)
      | _ => .panic
    else if pre = b! "note" then match v with
      | .str s => .ok (.event { id := s })
      | _ => .panic
    else .err ()
  | .err _ => if isValid32ByteHex input then .ok (.event { id := input }) else .err ()

/-- `FetchSpecificEventFromInput` (specific_event.go:27-55); `none` is the error for a text that is no reference. -/
def fetchFromInput (s : Surroundings) (input : Bytes) (withRelays skipLocalStore : Bool) : Out (Option Outcome) :=
  match inputPointer input with
  | .panic => .panic
  | .err _ => .val none
  | .ok p => do
    let o ← fetchSpecific s p withRelays skipLocalStore
    return some o

/-- What `Decode` makes of the codes. -/
theorem decode_shape {code pre : Bytes} {v : Value} (h : Nip19.decode code = .ok (pre, v)) :
    ((pre = b! "npub" ∨ pre = b! "nsec" ∨ pre = b! "note") ∧ ∃ s, v = .str s) ∨ (pre = b! "nprofile" ∧ ∃ p, v = .profile p) ∨
    (pre = b! "nevent" ∧ ∃ p, v = .event p) ∨ (pre = b! "naddr" ∧ ∃ p, v = .entity p) := by
  unfold Nip19.decode at h
  cases hb : bechDecode code with
  | panic => rw [hb] at h; cases h
  | err e => rw [hb] at h; cases h
  | ok r =>
    obtain ⟨p0, bits⟩ := r
    rw [hb] at h
    simp only [Res.ok_bind] at h
    cases hc : convertBits bits 5 8 false with
    | panic => rw [hc] at h; cases h
    | err e => rw [hc] at h; cases h
    | ok data =>
      rw [hc] at h
      simp only [Res.ok_bind] at h
      unfold decodeData at h
      split at h
      · rename_i hp
        split at h
        · cases h
        · simp only [Res.ok.injEq, Prod.mk.injEq] at h
          obtain ⟨rfl, rfl⟩ := h
          exact .inl ⟨hp, _, rfl⟩
      · split at h
        · rename_i hp
          cases hd : decodeProfile ((bytesOf data).length + 1) (bytesOf data) { publicKey := [] } with
          | panic => rw [hd] at h; cases h
          | err e => rw [hd] at h; cases h
          | ok q => rw [hd] at h; cases h; exact .inr (.inl ⟨hp, q, rfl⟩)
        · split at h
          · rename_i hp
            cases hd : decodeEvent ((bytesOf data).length + 1) (bytesOf data) { id := [] } with
            | panic => rw [hd] at h; cases h
            | err e => rw [hd] at h; cases h
            | ok q => rw [hd] at h; cases h; exact .inr (.inr (.inl ⟨hp, q, rfl⟩))
          · split at h
            · rename_i hp
              cases hd : decodeEntity ((bytesOf data).length + 1) (bytesOf data) { publicKey := [] } with
              | panic => rw [hd] at h; cases h
              | err e => rw [hd] at h; cases h
              | ok q => rw [hd] at h; cases h; exact .inr (.inr (.inr ⟨hp, q, rfl⟩))
            · cases h

/-- `Decode` does not take a hex text. -/
theorem decode_hex {input : Bytes} (h : (hexDec input).isSome) : Nip19.decode input = .err () := by
  have hn : ∀ pre bits, bechDecode input = .ok (pre, bits) → pre.head? ≠ some 110 := by
    intro pre bits hb hx
    rw [code_not_hex hb hx] at h
    cases h
  unfold Nip19.decode
  cases hb : bechDecode input with
  | panic => exact absurd hb (bechDecode_no_panic _)
  | err e => rfl
  | ok r =>
    obtain ⟨p, bits⟩ := r
    have hp := hn p bits hb
    simp only [Res.ok_bind]
    cases hc : convertBits bits 5 8 false with
    | panic => unfold convertBits at hc; simp only at hc; repeat' split at hc
               all_goals first | cases hc | simp at hc
    | err e => rfl
    | ok data =>
      simp only [Res.ok_bind]
      unfold decodeData
      have : p ≠ b! "npub" ∧ p ≠ b! "nsec" ∧ p ≠ b! "note" ∧ p ≠ b! "nprofile" ∧ p ≠ b! "nevent" ∧ p ≠ b! "naddr" := by
        refine ⟨?_, ?_, ?_, ?_, ?_, ?_⟩ <;> (rintro rfl; exact hp rfl)
      simp [this]

/-- **C156.** Which event a text asks for: the text of an id that id; a code made from a pointer to an event or an address that
pointer, a `note` code its id; texts of users and keys are refused, and so is everything that is neither; no text but the
`naddr` codes of C54 crashes. -/
theorem C156_event_input (input : Bytes) :
    (isValid32ByteHex input = true → inputPointer input = .ok (.event { id := input })) ∧
    (∀ p : Pointer, Carryable p → (∀ q, p ≠ .profile q) → input = encodePointer p → inputPointer input = .ok p) ∧
    (∀ id, IsHex32 id → encodeNote id = .ok input → inputPointer input = .ok (.event { id := id })) ∧
    (∀ pk, IsHex32 pk → (encodePublicKey pk = .ok input ∨ encodePrivateKey pk = .ok input) → inputPointer input = .err ()) ∧
    (Nip19.decode input = .err () → isValid32ByteHex input = false → inputPointer input = .err ()) ∧
    (inputPointer input = .panic ↔ Nip19.decode input = .panic) := by
  refine ⟨fun h => ?_, fun p hc hp he => ?_, fun id hid he => ?_, fun pk hpk he => ?_, fun h1 h2 => ?_, ?_⟩
  · have hx : (hexDec input).isSome = true := by
      unfold isValid32ByteHex at h
      split at h
      · cases h
      · split at h
        · cases h
        · exact h
    simp [inputPointer, decode_hex hx, h]
  · have ht := C53_pointer_roundtrip_partial p hc
    rw [← he] at ht
    unfold toPointer at ht
    unfold inputPointer
    cases hd : Nip19.decode input with
    | panic => rw [hd] at ht; cases ht
    | err e => rw [hd] at ht; cases ht
    | ok r =>
      obtain ⟨pre, v⟩ := r
      rw [hd] at ht
      simp only [Res.ok_bind] at ht ⊢
      rcases decode_shape hd with ⟨h1, s, rfl⟩ | ⟨rfl, q, rfl⟩ | ⟨rfl, q, rfl⟩ | ⟨rfl, q, rfl⟩
      · rcases h1 with rfl | rfl | rfl
        · simp at ht; exact absurd ht.symm (hp _)
        · simp at ht
        · simp at ht ⊢; exact ht
      · simp at ht; exact absurd ht.symm (hp _)
      · simp at ht ⊢; exact ht
      · simp at ht ⊢; exact ht
  · obtain ⟨_, _, c, c1, c2⟩ := C52_keys_roundtrip id hid
    rw [he] at c1
    cases c1
    simp [inputPointer, c2]
  · obtain ⟨⟨c, c1, c2⟩, ⟨c', c1', c2'⟩, _⟩ := C52_keys_roundtrip pk hpk
    rcases he with he | he
    · rw [he] at c1; cases c1; simp [inputPointer, c2]
    · rw [he] at c1'; cases c1'; simp [inputPointer, c2']
  · simp [inputPointer, h1, h2]
  · unfold inputPointer
    cases hd : Nip19.decode input with
    | panic => simp
    | err e =>
      simp only [reduceCtorEq, iff_false]
      split <;> simp
    | ok r =>
      obtain ⟨pre, v⟩ := r
      simp only [reduceCtorEq, iff_false]
      rcases decode_shape hd with ⟨h1, s, rfl⟩ | ⟨rfl, q, rfl⟩ | ⟨rfl, q, rfl⟩ | ⟨rfl, q, rfl⟩
      · rcases h1 with rfl | rfl | rfl <;> simp
      · simp
      · simp
      · simp

/-- A pointer with a relay meets the hypotheses. -/
example : Carryable (.event ⟨sampleHex, some [b! "wss://r"], [], 0⟩) ∧ isValid32ByteHex sampleHex = true ∧ IsHex32 sampleHex := by
  refine ⟨⟨by decide +kernel, .inr rfl, rfl, by simp, ?_⟩, by decide +kernel, by decide +kernel⟩
  intro v hv
  simp at hv
  subst hv
  decide

/-- `FetchProfileFromInput` (metadata.go:89-103): the hints it saves, and whose profile it then fetches (`none` for a text
that names nobody). -/
def profileFromInput (url : Url.Env) (testing : Bool) (nip05 : Bytes → Option ProfilePointer) (now : Int) (input : Bytes) : Out (Option (List Saved × Bytes)) := do
  let p ← inputToProfile nip05 input
  match p with
  | none => return none
  | some p => return some (((p.relays.getD []).filter (fun r => !isVirtualRelay testing r)).map (fun r => ⟨p.publicKey, Url.normalizeURL url r, .lastInHint, now⟩), p.publicKey)

/-- **C156.** The profile fetched is that of the user the text names (C109), and the relays in the text, except virtual ones,
are remembered in their normal form as hints for this user, and no other hints. -/
theorem C156_profile_input (url : Url.Env) (testing : Bool) (nip05 : Bytes → Option ProfilePointer) (now : Int) (input : Bytes) (p : ProfilePointer)
    (hp : inputToProfile nip05 input = .val (some p)) :
    ∃ hints, profileFromInput url testing nip05 now input = .val (some (hints, p.publicKey)) ∧
      ∀ h : Saved, h ∈ hints ↔ h.pubkey = p.publicKey ∧ h.kind = .lastInHint ∧ h.ts = now ∧
        ∃ r ∈ p.relays.getD [], isVirtualRelay testing r = false ∧ h.relay = Url.normalizeURL url r := by
  refine ⟨_, by simp only [profileFromInput, hp, Out.val_bind]; rfl, fun h => ?_⟩
  obtain ⟨pk, r, k, t⟩ := h
  simp only [List.mem_map, List.mem_filter, Bool.not_eq_true', Saved.mk.injEq]
  constructor
  · rintro ⟨x, ⟨h1, h2⟩, rfl, rfl, rfl, rfl⟩
    exact ⟨rfl, rfl, rfl, x, h1, h2, rfl⟩
  · rintro ⟨rfl, rfl, rfl, x, h1, h2, rfl⟩
    exact ⟨x, ⟨h1, h2⟩, rfl, rfl, rfl, rfl⟩

/-- **C156: a virtual relay is remembered** if the text does not have it in normal form: the check comes before. -/
theorem C156_virtual_remembered : ∃ hints, profileFromInput Url.exEnv false (fun _ => some ⟨b! "k", some [b! "cache2.primal.net"]⟩) 5 (b! "a@b.c") = .val (some (hints, b! "k")) ∧
    ∃ h ∈ hints, isVirtualRelay false h.relay = true := by
  have h : inputToProfile (fun _ => some ⟨b! "k", some [b! "cache2.primal.net"]⟩) (b! "a@b.c") = .val (some ⟨b! "k", some [b! "cache2.primal.net"]⟩) := by decide +kernel
  refine ⟨[⟨b! "k", b! "wss://cache2.primal.net", .lastInHint, 5⟩], ?_, by decide +kernel⟩
  simp only [profileFromInput, h, Out.val_bind]
  decide +kernel

/-! ## C157: every list from its own kind -/

/-- The lists and sets of `System` (lists_event.go, lists_profile.go, lists_relay.go, lists_topics.go). -/
inductive ListName
  | follows | mutes | bookmarks | pins | relays | blockedRelays | searchRelays | topics
  deriving DecidableEq

/-- The sets of `System` (sdk/lists_profile.go:43, lists_relay.go:50, lists_topics.go:28). -/
inductive SetName
  | followSets | relaySets | topicSets
  deriving DecidableEq

/-- The arguments `actualKind` and `replaceableIndex` of each `fetchGenericList` (lists_profile.go:25, 34, lists_event.go:21, 30,
lists_relay.go:23, 32, 41, lists_topics.go:19; the indices are the constants of replaceable_loader.go:18-29). -/
def listArgs : ListName → Int × Nat
  | .follows => (3, 1)
  | .mutes => (10000, 2)
  | .pins => (10001, 3)
  | .relays => (10002, 4)
  | .bookmarks => (10003, 5)
  | .blockedRelays => (10006, 8)
  | .searchRelays => (10007, 9)
  | .topics => (10015, 10)

/-- The same for `fetchGenericSets` (lists_profile.go:43, lists_relay.go:50, lists_topics.go:28; addressable_loader.go:16-20). -/
def setArgs : SetName → Int × Nat
  | .followSets => (30000, 0)
  | .relaySets => (30002, 1)
  | .topicSets => (30015, 2)

/-- `initializeReplaceableDataloaders` (replaceable_loader.go:35-49): the kind the loader at an index asks for. -/
def replaceableLoader : List Int := [0, 3, 10000, 10001, 10002, 10003, 10004, 10005, 10006, 10007, 10015, 10030]

/-- `initializeAddressableDataloaders` (addressable_loader.go:23-29). -/
def addressableLoader : List Int := [30000, 30002, 30015, 30030]

/-- Spec: the kinds NIP-51, NIP-02 and NIP-65 give to the lists. -/
def ListName.kind : ListName → Int
  | .follows => 3
  | .mutes => 10000
  | .pins => 10001
  | .relays => 10002
  | .bookmarks => 10003
  | .blockedRelays => 10006
  | .searchRelays => 10007
  | .topics => 10015

/-- Spec: the kinds NIP-51 gives to the sets. -/
def SetName.kind : SetName → Int
  | .followSets => 30000
  | .relaySets => 30002
  | .topicSets => 30015

/-- **C157.** Every list and set is looked up in the store, and asked for from relays, under the kind the NIPs give it, and no two
share a loader. -/
theorem C157_kinds (l l' : ListName) (s s' : SetName) :
    (listArgs l).1 = l.kind ∧ replaceableLoader[(listArgs l).2]? = some l.kind ∧ isReplaceableKind l.kind = true ∧
    (setArgs s).1 = s.kind ∧ addressableLoader[(setArgs s).2]? = some s.kind ∧ isAddressableKind s.kind = true ∧
    ((listArgs l).2 = (listArgs l').2 → l = l') ∧ ((setArgs s).2 = (setArgs s').2 → s = s') := by
  cases l <;> cases l' <;> cases s <;> cases s' <;> decide

end GoNostr.Sdk
