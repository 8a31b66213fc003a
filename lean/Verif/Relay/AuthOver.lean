import Verif.Relay.EndToEnd
import Verif.Misc.Auth
/-!
# C181: authenticating over a connection

A relay asks who it talks to, the library reads the question, signs the answer with the user's key and sends it, and a relay that reads and validates with this library (C69) knows the user. From text to text, with signatures
over secp256k1 (C165). The relay is a specification.
-/

set_option autoImplicit false

namespace GoNostr.AuthOver
open GoNostr.Json GoNostr.Reader GoNostr.Curve GoNostr.Auth GoNostr.EndToEnd

attribute [local irreducible] fieldP groupN toBE ser scalarOf

/-- `Relay.Auth` (relay.go:342-351): the event to be signed, for the challenge and the address of the connection; `made` is the clock in seconds. -/
def authEvent (challenge url : Bytes) (made : Int) : Event where
  id := []
  pubkey := []
  createdAt := made
  kind := 22242
  tags := [[b! "relay", url], [b! "challenge", challenge]]
  content := []
  sig := []

/-- relay.go:269-274: what a thing the reader does makes of the challenge of the connection. -/
def remember (c : Bytes) : Act → Bytes
  | .challenge c' => c'
  | _ => c

/-- The challenge of the connection (relay.go:35) after the reader has done these things; before there was one it is empty. -/
def challengeAfter (acts : List Act) : Bytes := acts.foldl remember []

/-! ## Specification -/

section
/- *library* as in `Verif.Json.Envelopes`. -/
variable (valid : Bytes → Bool) (readCount : Bytes → Option (Option Int × Bytes))

/-- Specification: a relay that reads and validates with this library. Whom the message authenticates at `now` (nanoseconds), for the challenge this connection was given and the address of the relay, and the answer. -/
def authenticate (env : Auth.Env) (H : Hash32) (S : Schnorr) (now : Int) (challenge url : Bytes) (msg : Bytes) : Option Bytes × List Json.Env :=
  match parseMessage valid readCount msg with
  | .env (.auth none e) => match validate env H S now e challenge url with
    | some pk => (some pk, [.ok e.id true []])
    | none => (none, [.ok e.id false (b! "error: failed to authenticate")])
  | _ => (none, [])

/-- Specification: made at most ten minutes before or after. -/
def Fresh (made now : Int) : Prop := now - 600 * 1000000000 ≤ made * 1000000000 ∧ made * 1000000000 ≤ now + 600 * 1000000000

/-! ## The question is read -/

theorem keep (l : List Act) (c : Bytes) (h : ∀ c', Act.challenge c' ∉ l) : l.foldl remember c = c := by
  induction l generalizing c with
  | nil => rfl
  | cons a l ih =>
    rw [List.foldl_cons]
    have ha : remember c a = c := by
      cases a <;> first | rfl | exact absurd List.mem_cons_self (h _)
    rw [ha]
    exact ih c (fun c' hc => h c' (List.mem_cons_of_mem _ hc))

theorem jByte_quote : ∀ c : UInt8, (34 : UInt8) ∉ jByte c ∨ jByte c = [92, 34] := by decide +kernel

theorem jBody_quote (s pre post : Bytes) (h : jBody s = pre ++ 34 :: post) : ∃ p, pre = p ++ [92] := by
  induction s generalizing pre with
  | nil => simp [jBody] at h
  | cons c s ih =>
    have h' : jByte c ++ jBody s = pre ++ 34 :: post := by simpa [jBody] using h
    rcases List.append_eq_append_iff.1 h' with ⟨a, rfl, h2⟩ | ⟨a, h1, h2⟩
    · obtain ⟨p, rfl⟩ := ih a h2
      exact ⟨jByte c ++ p, by simp⟩
    · cases a with
      | nil =>
        obtain ⟨p, hp⟩ := ih [] (by simpa using h2.symm)
        simp at hp
      | cons x a =>
        simp only [List.cons_append, List.cons.injEq] at h2
        obtain ⟨rfl, -⟩ := h2
        rcases jByte_quote c with hq | hq
        · exact absurd (by rw [h1]; simp) hq
        · rw [hq] at h1
          match pre with
          | [] => simp at h1
          | [y] => simp at h1; exact ⟨[], by simp [h1.1]⟩
          | y :: z :: pre => simp at h1

theorem after_word (c P post : Bytes) (h : b! "[\"AUTH\"," ++ jString c ++ [93] = P ++ 34 :: post) (hl : P.getLast? = some 84) : post = [93] := by
  have h' : (b! "[\"AUTH\",\"") ++ (jBody c ++ [34, 93]) = P ++ 34 :: post := by rw [← h]; simp [jString]
  rcases List.append_eq_append_iff.1 h' with ⟨a, rfl, h2⟩ | ⟨a, h1, h2⟩
  · rcases List.append_eq_append_iff.1 h2 with ⟨b, rfl, h3⟩ | ⟨b, h3, h4⟩
    · match b with
      | [] => simpa using h3.symm
      | [x] => simp at h3
      | x :: y :: b => simp at h3
    · cases b with
      | nil => simpa using h4
      | cons x b =>
        simp only [List.cons_append, List.cons.injEq] at h4
        obtain ⟨rfl, -⟩ := h4
        obtain ⟨p, rfl⟩ := jBody_quote c a b h3
        rw [← List.append_assoc, List.getLast?_append] at hl
        simp at hl
  · exfalso
    cases a with
    | nil =>
      rw [List.append_nil] at h1
      rw [← h1] at hl
      revert hl
      decide
    | cons x a =>
      simp only [List.cons_append, List.cons.injEq] at h2
      obtain ⟨rfl, -⟩ := h2
      have hlen : P.length < 9 := by
        have := congrArg List.length h1
        simp at this
        omega
      have hP : P = (b! "[\"AUTH\",\"").take P.length := by rw [h1]; simp
      have hn : (b! "[\"AUTH\",\"")[P.length]? = some 34 := by rw [h1]; simp
      rw [hP] at hl
      generalize P.length = n at hlen hl hn
      revert n
      decide

theorem question_sub (c : Bytes) : extractSubID (b! "[\"AUTH\"," ++ jString c ++ [93]) = .val [] := by
  unfold extractSubID
  rcases indexOf_cases (b! "\"EVENT\"") (b! "[\"AUTH\"," ++ jString c ++ [93]) with ⟨h, -⟩ | ⟨pre, post, hf, h⟩
  · simp only [h, if_true]
  · have hm := hf.1
    have hpost : post = [93] := after_word c (pre ++ b! "\"EVENT") post (by rw [hm]; simp) (by simp)
    subst hpost
    simp only [h]
    rw [if_neg (by omega), hm, show (pre.length : Int) + 7 = ((pre ++ b! "\"EVENT\"").length : Nat) by simp]
    rw [goSliceFrom_split]
    rfl

/-- **C181 (the question).** Whatever the challenge, with quotes, line breaks or the word `EVENT` in it, the connection reads the relay's question as exactly that challenge, and keeps it until there is another. -/
theorem C181_question (hj : ReadsCount readCount) (R : Relay) (hneg : R.sub (-1) = none) (c : Bytes) :
    ∃ asks, marshal (.auth (some c) zeroEvent) = .val asks ∧ onMessage valid readCount R asks = .val [.challenge c] ∧
      ∀ before after : List Act, (∀ c', Act.challenge c' ∉ after) → challengeAfter (before ++ [.challenge c] ++ after) = c := by
  obtain ⟨asks, a1, a2⟩ := C23_what_arrives valid readCount hj (env := .auth (some c) zeroEvent) ⟨fun _ => rfl, by decide, by decide⟩
  refine ⟨asks, a1, ?_, ?_⟩
  · have hsub : extractSubID asks = .val [] := by
      simp only [marshal, Out.val.injEq] at a1
      rw [← a1]
      exact question_sub c
    have hpre : precheck R asks = .val (none, [], true) := by
      unfold precheck
      simp only [hsub, Out.val_bind, C16_no_colon [] (by simp), hneg]
      rfl
    simp [onMessage, hpre, a2, arrives, handle]
  · intro before after h
    unfold challengeAfter
    rw [List.foldl_append, List.foldl_append, List.foldl_cons, List.foldl_nil]
    exact keep after c h

/-! ## The answer -/

theorem writeable (c url : Bytes) (made : Int) (hc : Utf8 c) (hu : Utf8 url) (h1 : InInt64 made) (h0 : 0 ≤ made) : Writeable (authEvent c url made) := by
  refine ⟨by simp [authEvent, InInt64], h1, h0, .nil, ?_⟩
  intro t ht s hs
  simp only [authEvent, List.mem_cons, List.not_mem_nil, or_false] at ht
  rcases ht with rfl | rfl <;> simp only [List.mem_cons, List.not_mem_nil, or_false] at hs <;> rcases hs with rfl | rfl
  · exact .ascii (by decide +kernel)
  · exact hu
  · exact .ascii (by decide +kernel)
  · exact hc

/-- What an answer to one question is good for. -/
theorem acceptable_iff (env : Auth.Env) (H : Hash32) (S : Schnorr) (now made : Int) (e : Event) (c url c' url' : Bytes) (ht : e.tags = [[b! "relay", url], [b! "challenge", c]]) (hk : e.kind = 22242) (hm : e.createdAt = made)
    (hs : checkSignature H S e = some true) : Acceptable env H S now e c' url' ↔ c' = c ∧ SameRelay env url' url ∧ Fresh made now := by
  constructor
  · rintro ⟨-, ⟨r, h1⟩, ⟨u, r', h2, h3⟩, h4, -⟩
    rw [ht] at h1 h2
    have e1 : c' = c := by
      simp only [List.mem_cons, List.not_mem_nil, or_false, List.cons.injEq] at h1
      rcases h1 with ⟨h, -⟩ | ⟨-, h, -⟩
      · exact absurd h (by decide)
      · exact h
    have e2 : u = url := by
      obtain ⟨pre, post, h5, -, h6⟩ := h2
      cases pre with
      | nil => simp only [List.nil_append, List.cons.injEq] at h5; exact h5.1.2.1.symm
      | cons x pre =>
        simp only [List.cons_append, List.cons.injEq] at h5
        exact absurd ⟨url, [], h5.1.symm⟩ (h6 x List.mem_cons_self)
    subst e1 e2
    exact ⟨rfl, h3, by rw [hm] at h4; exact h4⟩
  · rintro ⟨rfl, h2, h3⟩
    refine ⟨hk, ⟨[], by rw [ht]; simp⟩, ⟨url, [], ?_, h2⟩, by rw [hm]; exact h3, hs⟩
    rw [ht]
    exact ⟨[], [[b! "challenge", c']], rfl, ⟨_, _, rfl⟩, by simp⟩

/-- **C181** (partial). A user with any valid key answers the challenge over the connection to the address `url`; for every relay that gets the text of the answer, whatever its address, the challenge it gave and the time: it takes the user to be
the owner of a key exactly if that is the key the answer was signed with, the challenge is its own, the address is its own and the answer is fresh. It then says so, and the connection reads that as the confirmation. In every other case it refuses. So the
relay that asked knows the user, and no other relay, and no other connection to the same relay, can be told the same with this answer. Missing: challenges and addresses that are not UTF-8, for which it is false. -/
theorem C181_answer_partial (hj : ReadsCount readCount) (env : Auth.Env) (H : Hash32) (L : Lib) (hL : ∀ sk h, L.nonce sk h % groupN ≠ 0) (k : Nat) (hk1 : 1 ≤ k) (hk2 : k < groupN) (R : Relay) (hneg : R.sub (-1) = none)
    (c url : Bytes) (hc : Utf8 c) (hu : Utf8 url) (made : Int) (hm : InInt64 made) (h0 : 0 ≤ made) :
    ∃ e answer, signEvent H (bip340 L) (authEvent c url made) (hexEnc (toBE 32 k)) = (e, true) ∧ getPublicKey (bip340 L) (hexEnc (toBE 32 k)) = some e.pubkey ∧ marshal (.auth none e) = .val answer ∧
      (∀ now c' url' pk, (authenticate valid readCount env H (bip340 L) now c' url' answer).1 = some pk ↔ pk = e.pubkey ∧ c' = c ∧ SameRelay env url' url ∧ Fresh made now) ∧
      (∀ now c' url', c' = c ∧ SameRelay env url' url ∧ Fresh made now → (authenticate valid readCount env H (bip340 L) now c' url' answer).2 = [.ok e.id true []]) ∧
      (∀ now c' url', ¬ (c' = c ∧ SameRelay env url' url ∧ Fresh made now) → (authenticate valid readCount env H (bip340 L) now c' url' answer).2 = [.ok e.id false (b! "error: failed to authenticate")]) ∧
      (∃ confirmation, marshal (.ok e.id true []) = .val confirmation ∧ (R.waiting e.id = true → onMessage valid readCount R confirmation = .val [.ok e.id true []])) := by
  obtain ⟨e, g1, g2, -, g4, g5⟩ := C165_sign_then_check H L hL (authEvent c url made) k hk1 hk2
  obtain ⟨i1, i2, i3, i4, i5, i6⟩ := signed_shape H L _ e _ g1 (writeable c url made hc hu hm h0)
  obtain ⟨answer, p1, p2⟩ := C23_round_trip_partial valid readCount hj (env := .auth none e) ⟨by simp, i3, i4⟩ i6
  have hiff := fun now c' url' => acceptable_iff env H (bip340 L) now made e c url c' url' g5.2.2.1 g5.2.1 g5.1 g4
  have hval := fun now c' url' pk => C69_validate_iff env H (bip340 L) now e c' url' pk
  have hau : ∀ now c' url', authenticate valid readCount env H (bip340 L) now c' url' answer = match validate env H (bip340 L) now e c' url' with
      | some pk => (some pk, [.ok e.id true []])
      | none => (none, [.ok e.id false (b! "error: failed to authenticate")]) := by
    intro now c' url'
    unfold authenticate
    rw [p2]
    rfl
  refine ⟨e, answer, g1, g2, p1, ?_, ?_, ?_, ?_⟩
  · intro now c' url' pk
    rw [hau, ← hiff, ← hval]
    cases validate env H (bip340 L) now e c' url' <;> simp
  · intro now c' url' h
    rw [hau, (hval now c' url' e.pubkey).2 ⟨rfl, (hiff now c' url').2 h⟩]
  · intro now c' url' h
    rw [hau]
    cases hv : validate env H (bip340 L) now e c' url' with
    | none => rfl
    | some pk => exact absurd ((hiff now c' url').1 ((hval now c' url' pk).1 hv).2) h
  · have hid : PlainText e.id := fun c hc => ⟨(hex_plain i1.2 c hc).1, (hex_plain i1.2 c hc).2.2⟩
    obtain ⟨ok, o1, o2⟩ := C23_round_trip_partial valid readCount hj (env := .ok e.id true []) hid trivial
    refine ⟨ok, o1, fun hwait => ?_⟩
    rw [(C151_others valid readCount R (ok_no_event e.id i1 ok o1) hneg).2.2.1 e.id true [] o2, if_pos hwait]

/-- **C181 (impostors).** Whatever text a relay is sent, it takes the sender for the owner of a key only if the text has an event for its challenge, signed under that key. -/
theorem C181_signed (env : Auth.Env) (H : Hash32) (S : Schnorr) (now : Int) (c url msg pk : Bytes) (h : (authenticate valid readCount env H S now c url msg).1 = some pk) :
    ∃ e key sg, parseMessage valid readCount msg = .env (.auth none e) ∧ (∃ r, b! "challenge" :: c :: r ∈ e.tags) ∧ hexDec pk = some key ∧ hexDec e.sig = some sg ∧ S.verify sg (H (serialize e)).val key = true := by
  unfold authenticate at h
  split at h
  · next e hp =>
    cases hv : validate env H S now e c url with
    | none => rw [hv] at h; cases h
    | some pk' =>
      rw [hv] at h
      cases h
      obtain ⟨k, sg, a, b, d⟩ := C69_returned_key_signed env H S now e c url pk hv
      exact ⟨e, k, sg, hp, ((C69_validate_iff env H S now e c url pk).1 hv).2.challenge, a, b, d⟩
  · cases h

/-- **C181 (too early).** An answer that is sent before the relay has asked is an answer to the empty challenge, which no relay that gives another accepts. -/
theorem C181_too_early (hj : ReadsCount readCount) (env : Auth.Env) (H : Hash32) (L : Lib) (hL : ∀ sk h, L.nonce sk h % groupN ≠ 0) (k : Nat) (hk1 : 1 ≤ k) (hk2 : k < groupN) (acts : List Act) (hno : ∀ c, Act.challenge c ∉ acts)
    (url : Bytes) (hu : Utf8 url) (made : Int) (hm : InInt64 made) (h0 : 0 ≤ made) :
    ∃ e answer, signEvent H (bip340 L) (authEvent (challengeAfter acts) url made) (hexEnc (toBE 32 k)) = (e, true) ∧ marshal (.auth none e) = .val answer ∧
      ∀ now c' url', c' ≠ [] → (authenticate valid readCount env H (bip340 L) now c' url' answer).1 = none := by
  have hch : challengeAfter acts = [] := by
    unfold challengeAfter
    exact keep acts [] hno
  rw [hch]
  obtain ⟨e, answer, a1, -, a3, a4, -⟩ := C181_answer_partial valid readCount hj env H L hL k hk1 hk2 exR rfl [] url .nil hu made hm h0
  refine ⟨e, answer, a1, a3, fun now c' url' hc => ?_⟩
  cases hr : (authenticate valid readCount env H (bip340 L) now c' url' answer).1 with
  | none => rfl
  | some pk => exact absurd ((a4 now c' url' pk).1 hr).2.1 hc

/-- **C181 is false of challenges that are not UTF-8:** the question is read as it is, but the text of the answer has another challenge in it, and the relay that asked refuses it. -/
theorem C181_not_utf8 (hj : ReadsCount readCount) (env : Auth.Env) (H : Hash32) (L : Lib) (hL : ∀ sk h, L.nonce sk h % groupN ≠ 0) (k : Nat) (hk1 : 1 ≤ k) (hk2 : k < groupN) (c url : Bytes) (hbad : ¬ Utf8 c) (made : Int) (hm : InInt64 made) :
    ∃ e answer, signEvent H (bip340 L) (authEvent c url made) (hexEnc (toBE 32 k)) = (e, true) ∧ marshal (.auth none e) = .val answer ∧ ∀ now url', (authenticate valid readCount env H (bip340 L) now c url' answer).1 = none := by
  obtain ⟨e, g1, g2, -, g4, g5⟩ := C165_sign_then_check H L hL (authEvent c url made) k hk1 hk2
  obtain ⟨answer, p1, p2⟩ := C23_what_arrives valid readCount hj (env := .auth none e) ⟨by simp, by rw [g5.2.1]; simp [authEvent, InInt64], by rw [g5.1]; exact hm⟩
  refine ⟨e, answer, g1, p1, fun now url' => ?_⟩
  cases hr : (authenticate valid readCount env H (bip340 L) now c url' answer).1 with
  | none => rfl
  | some pk =>
    obtain ⟨e', -, -, h1, ⟨r, h2⟩, -⟩ := C181_signed valid readCount env H (bip340 L) now c url' answer pk hr
    rw [p2] at h1
    simp only [arrives, Parsed.env.injEq, Json.Env.auth.injEq, true_and] at h1
    subst h1
    have ht : e.tags = [[b! "relay", url], [b! "challenge", c]] := g5.2.2.1
    simp only [cleanEvent, ht, List.map_cons, List.map_nil, List.mem_cons, List.not_mem_nil, or_false, List.cons.injEq] at h2
    rcases h2 with ⟨h2, -⟩ | ⟨-, h2, -⟩
    · have hx : clean (b! "relay") = b! "relay" := by decide +kernel
      rw [hx] at h2
      exact absurd h2 (by decide)
    · refine absurd ?_ hbad
      rw [h2]
      exact clean_isUtf8 c

end

/-- The hypotheses are met: a challenge with quotes and the word `EVENT` in it, a key and a library whose nonces are never zero; the relay that asked accepts, also under its address in capitals, and another connection does not. -/
example (valid : Bytes → Bool) : ∃ (L : Lib) (e : Event) (answer : Bytes), signEvent toyHash (bip340 L) (authEvent (b! "\"EVENT\",\"x") (b! "wss://r.com") 1000) (hexEnc (toBE 32 3)) = (e, true) ∧ marshal (.auth none e) = .val answer ∧
    (let env : Auth.Env := ⟨List.map (fun c => if 65 ≤ c ∧ c ≤ 90 then c + 32 else c), fun u => some ⟨b! "wss", u.drop 6, []⟩⟩
     (authenticate valid readCountText env toyHash (bip340 L) 1300500000000 (b! "\"EVENT\",\"x") (b! "wss://R.com/") answer).1 = some e.pubkey ∧
     (authenticate valid readCountText env toyHash (bip340 L) 1300500000000 (b! "other") (b! "wss://R.com/") answer).1 = none) := by
  have h3 : 3 < groupN := by decide +kernel
  let L : Lib := ⟨fun _ _ => 5, fun x => x⟩
  have hL : ∀ sk h : Bytes, L.nonce sk h % groupN ≠ 0 := by
    intro _ _
    have : 5 % groupN ≠ 0 := by decide +kernel
    exact this
  let env : Auth.Env := ⟨List.map (fun c => if 65 ≤ c ∧ c ≤ 90 then c + 32 else c), fun u => some ⟨b! "wss", u.drop 6, []⟩⟩
  obtain ⟨e, answer, a1, -, a3, a4, -⟩ := C181_answer_partial valid readCountText readCountText_reads env toyHash L hL 3 (by omega) h3 exR rfl (b! "\"EVENT\",\"x") (b! "wss://r.com") (.ascii (by decide +kernel)) (.ascii (by decide +kernel)) 1000
    (by decide) (by decide)
  refine ⟨L, e, answer, a1, a3, (a4 _ _ _ _).2 ⟨rfl, rfl, ⟨_, _, rfl, rfl, by decide +kernel⟩, by unfold Fresh; omega⟩, ?_⟩
  cases hr : (authenticate valid readCountText env toyHash (bip340 L) 1300500000000 (b! "other") (b! "wss://R.com/") answer).1 with
  | none => rfl
  | some pk => exact absurd ((a4 _ _ _ _).1 hr).2.1 (by decide +kernel)

end GoNostr.AuthOver
