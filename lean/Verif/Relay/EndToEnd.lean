import Verif.Relay.Reader
import Verif.Curve.Bip340
/-!
# C180: what is published arrives

From the private key of one user to the subscription of another, byte for byte: signing (C165), the text of the publication, a relay that is built on this library, the text of the request, the texts of the
answer and of the confirmation, and the readers of both connections (C151). The relay is a specification: it keeps every authentic event it is sent and answers requests from all it has. Sockets carry texts as they
are and in order (C123).
-/

set_option autoImplicit false

namespace GoNostr.EndToEnd
open GoNostr.Json GoNostr.Reader GoNostr.Curve
open KeyMaking (beVal)

attribute [local irreducible] fieldP groupN toBE ser scalarOf

/-! ## Specification -/

section
/- *library* as in `Verif.Json.Envelopes`. -/
variable (valid : Bytes → Bool) (readCount : Bytes → Option (Option Int × Bytes))

/-- Specification: a relay that reads and writes with this library. An authentic event is kept and confirmed, another one refused; a request is answered with every event kept that matches one of its filters, and then the end of
stored events. -/
def serve (authentic : Event → Bool) (kept : List Event) (msg : Bytes) : List Event × List Env :=
  match parseMessage valid readCount msg with
  | .env (.event _ e) => if authentic e then (kept ++ [e], [.ok e.id true []]) else (kept, [.ok e.id false (b! "invalid: bad signature")])
  | .env (.req id fs) => (kept, (kept.filter (fun e => Filters.match (some e) fs)).map (.event (some id)) ++ [.eose id])
  | _ => (kept, [])

/-- Specification: what the relay has kept after these texts, of whatever clients. -/
def keptAfter (authentic : Event → Bool) (msgs : List Bytes) : List Event := msgs.foldl (fun kept msg => (serve valid readCount authentic kept msg).1) []

/-- Specification: the signature is genuine (C05, over secp256k1: C165). -/
def genuine (H : Hash32) (L : Lib) (e : Event) : Bool := decide (checkSignature H (bip340 L) e = some true)

/-- Specification: an event as a user can write one: numbers that fit, not before 1970, texts in UTF-8. -/
structure Writeable (e : Event) : Prop where
  kind : InInt64 e.kind
  time : InInt64 e.createdAt
  since1970 : 0 ≤ e.createdAt
  content : Utf8 e.content
  tags : ∀ t ∈ e.tags, ∀ s ∈ t, Utf8 s

/-! ## Proofs -/

theorem runeWidth_take {s : Bytes} {w : Nat} (h : runeWidth s = some w) : runeWidth (s.take w) = some w := by
  cases s with
  | nil => cases h
  | cons c0 t =>
    unfold runeWidth at h
    simp only at h
    split at h
    · next hc => cases h; simp [runeWidth, hc]
    · next hc =>
      split at h
      · next h1 =>
        split at h
        · split at h
          · next h2 => cases h; simp only [List.take_succ_cons, List.take_zero, runeWidth]; rw [if_neg hc, if_pos h1, if_pos h2]
          · cases h
        · cases h
      · next h1 =>
        split at h
        · next h2 =>
          split at h
          · split at h
            · next h3 => cases h; simp only [List.take_succ_cons, List.take_zero, runeWidth]; rw [if_neg hc, if_neg h1, if_pos h2, if_pos h3]
            · cases h
          · cases h
        · next h2 =>
          split at h
          · next h3 =>
            split at h
            · split at h
              · next h4 => cases h; simp only [List.take_succ_cons, List.take_zero, runeWidth]; rw [if_neg hc, if_neg h1, if_neg h2, if_pos h3, if_pos h4]
              · cases h
            · cases h
          · cases h

theorem sanitize_isUtf8 : ∀ (n : Nat) (s : Bytes), Utf8 (sanitize n s)
  | 0, _ => .nil
  | _ + 1, [] => .nil
  | n + 1, c :: s => by
    unfold sanitize
    cases h : runeWidth (c :: s) with
    | none => exact .char (p := [0xEF, 0xBF, 0xBD]) rfl (sanitize_isUtf8 n s)
    | some w =>
      have hw := (runeWidth_pos h).2
      refine .char (p := (c :: s).take w) ?_ (sanitize_isUtf8 n _)
      rw [runeWidth_take h, List.length_take, Nat.min_eq_left hw]
theorem clean_isUtf8 (s : Bytes) : Utf8 (clean s) := sanitize_isUtf8 _ s

theorem serve_keeps (authentic : Event → Bool) (kept : List Event) (msg : Bytes) (e : Event) (h : e ∈ kept) : e ∈ (serve valid readCount authentic kept msg).1 := by
  unfold serve
  split
  · split
    · exact List.mem_append_left _ h
    · exact h
  · exact h
  · exact h

theorem keeps (authentic : Event → Bool) (msgs : List Bytes) (kept : List Event) (e : Event) (h : e ∈ kept) : e ∈ msgs.foldl (fun kept msg => (serve valid readCount authentic kept msg).1) kept := by
  induction msgs generalizing kept with
  | nil => exact h
  | cons m msgs ih => exact ih _ (serve_keeps valid readCount authentic kept m e h)

theorem hex_ascii {s : Bytes} (h : ∀ c ∈ s, IsLowerHexByte c) : Utf8 s := by
  have key : ∀ c : UInt8, IsLowerHexByte c → c < 0x80 := by unfold IsLowerHexByte; decide +kernel
  exact .ascii (fun c hc => key c (h c hc))

/-- What signing puts in is hexadecimal. -/
theorem signed_hex (H : Hash32) (L : Lib) (d e : Event) (sk : Bytes) (h : signEvent H (bip340 L) d sk = (e, true)) : Utf8 e.id ∧ Utf8 e.pubkey ∧ Utf8 e.sig := by
  unfold signEvent at h
  split at h
  · cases h
  · dsimp only at h
    split at h
    · cases h
    · cases h
      exact ⟨hex_ascii (hexEnc_lower _), hex_ascii (hexEnc_lower _), hex_ascii (hexEnc_lower _)⟩

/-- What signing puts in: hexadecimal texts of the right length. -/
theorem signed_shape (H : Hash32) (L : Lib) (d e : Event) (sk : Bytes) (h : signEvent H (bip340 L) d sk = (e, true)) (hw : Writeable d) :
    Hex64 e.id ∧ Hex64 e.pubkey ∧ InInt64 e.kind ∧ InInt64 e.createdAt ∧ 0 ≤ e.createdAt ∧ EventUtf8 e := by
  unfold signEvent at h
  split at h
  · cases h
  · next k hk =>
    dsimp only at h
    split at h
    · cases h
    · next sg hsg =>
      cases h
      refine ⟨⟨by rw [length_hexEnc, (H _).2], hexEnc_lower _⟩, ⟨by rw [length_hexEnc]; exact congrArg (2 * ·) (ser_length _), hexEnc_lower _⟩, hw.kind, hw.time, hw.since1970, ?_⟩
      exact ⟨hex_ascii (hexEnc_lower _), hex_ascii (hexEnc_lower _), hw.content, hex_ascii (hexEnc_lower _), hw.tags⟩

theorem match_withTags (fs : List Filter) (e : Event) : Filters.match (some e) (fs.map withTags) = Filters.match (some e) fs := by
  rw [Bool.eq_iff_iff, C07_match_iff_exists, C07_match_iff_exists]
  have : ∀ f : Filter, Spec.Matches (withTags f) e ↔ Spec.Matches f e := by
    intro f
    unfold Spec.Matches Spec.MatchesButTime Spec.InWindow withTags
    cases hf : f.tags <;> simp [tagEntries]
  simp [this]

theorem ok_no_event (id : Bytes) (hi : Hex64 id) (msg : Bytes) (h : marshal (.ok id true []) = .val msg) (i : Nat) : ¬ OccursAt (b! "\"EVENT\"") msg i := by
  rintro ⟨pre, post, hm, -⟩
  have h69 : (69 : UInt8) ∈ msg := by rw [hm]; simp
  simp only [marshal, Out.val.injEq] at h
  rw [← h] at h69
  simp only [rawQuoted, List.mem_append] at h69
  have hj : (69 : UInt8) ∉ jString [] := by decide +kernel
  have hx : (69 : UInt8) ∉ id := fun hm => absurd (hi.2 _ hm) (by decide)
  simp [hj, hx] at h69

/-- **C180** (partial). One user signs a note with any valid key, publishes it over a connection to a relay, and is told so; whatever anybody sent to the relay before and sends after, another user who then asks
that relay with any filters that match the note gets it: the relay's answer contains a text that the other's connection hands to the subscription as exactly the event that was signed, with the author's key and the
author's words. The subscription may have no duplicate check or one by id that has not seen the event. Missing: texts that are not UTF-8, times before 1970, filters that are not plain (C22) and checks by address
(C18), for which it is false. -/
theorem C180_arrives_partial (hj : ReadsCount readCount) (H : Hash32) (L : Lib) (hL : ∀ sk h, L.nonce sk h % groupN ≠ 0) (k : Nat) (hk1 : 1 ≤ k) (hk2 : k < groupN) (draft : Event) (hw : Writeable draft)
    (before between : List Bytes) (mine other : Relay) (n : Int) (hn0 : 1 ≤ n) (hn : n < 2 ^ 63) (label : Bytes) (hl : PlainText label) (fs : List Filter) (hne : fs ≠ [])
    (hfw : ∀ f ∈ fs, Writable f) (hfp : ∀ f ∈ fs, Plain f) (s : Sub) (hs : other.sub n = some s) (hwants : ∀ e, s.wants e = Filters.match (some e) fs) (hcheck : s.check ≠ .byAddress)
    (hsig : ∀ e, other.sigOk e = genuine H L e) (hneg : mine.sub (-1) = none) :
    ∃ e pub req, signEvent H (bip340 L) draft (hexEnc (toBE 32 k)) = (e, true) ∧ getPublicKey (bip340 L) (hexEnc (toBE 32 k)) = some e.pubkey ∧
      (e.createdAt = draft.createdAt ∧ e.kind = draft.kind ∧ e.tags = draft.tags ∧ e.content = draft.content) ∧
      marshal (.event none e) = .val pub ∧ marshal (.req (makeSubID n label) fs) = .val req ∧
      (∃ confirmation, (serve valid readCount (genuine H L) (keptAfter valid readCount (genuine H L) before) pub).2.map marshal =
        [.val confirmation] ∧ (mine.waiting e.id = true → onMessage valid readCount mine confirmation = .val [.ok e.id true []])) ∧
      ((∃ f ∈ fs, Spec.Matches f e) → (s.check = .byId → other.seen n e.id = false) →
        ∃ text acts, Out.val text ∈ (serve valid readCount (genuine H L)
          (keptAfter valid readCount (genuine H L) (before ++ [pub] ++ between)) req).2.map marshal ∧
          onMessage valid readCount other text = .val acts ∧ Act.event n e ∈ acts) := by
  obtain ⟨e, g1, g2, -, g4, g5⟩ := C165_sign_then_check H L hL draft k hk1 hk2
  obtain ⟨i1, i2, i3, i4, i5, i6⟩ := signed_shape H L draft e _ g1 hw
  have hA : genuine H L e = true := by simp [genuine, g4]
  obtain ⟨pub, p1, p2⟩ := C23_round_trip_partial valid readCount hj (env := .event none e) ⟨by simp, i3, i4⟩ i6
  have hplain : PlainText (makeSubID n label) := by
    intro c hc
    unfold makeSubID at hc
    rw [List.mem_append, List.mem_append] at hc
    rcases hc with (hc | hc) | hc
    · exact (by unfold IsDigitByte; decide +kernel : ∀ c : UInt8, c = 45 ∨ IsDigitByte c → 32 ≤ c ∧ c ≠ 34 ∧ c ≠ 92) c (fmtInt_chars n c hc)
    · rw [List.mem_singleton] at hc; subst hc; decide
    · exact hl c hc
  obtain ⟨req, r1, r2⟩ := C23_round_trip_partial valid readCount hj (env := .req (makeSubID n label) fs) ⟨hplain, hne, hfw⟩ hfp
  refine ⟨e, pub, req, g1, g2, g5, p1, r1, ?_, ?_⟩
  · have hserve : ∀ kept, (serve valid readCount (genuine H L) kept pub).2 = [.ok e.id true []] := by
      intro kept
      unfold serve
      rw [p2]
      simp only [norm, hA, if_true]
    have hid : PlainText e.id := fun c hc => ⟨(hex_plain i1.2 c hc).1, (hex_plain i1.2 c hc).2.2⟩
    obtain ⟨ok, o1, o2⟩ := C23_round_trip_partial valid readCount hj (env := .ok e.id true []) hid trivial
    refine ⟨ok, by rw [hserve]; simp [o1], fun hwait => ?_⟩
    have := (C151_others valid readCount mine (ok_no_event e.id i1 ok o1) hneg).2.2.1 e.id true [] o2
    rw [this, if_pos hwait]
  · intro hmatch hseen
    have hm : Filters.match (some e) fs = true := (C07_match_iff_exists fs e).2 hmatch
    have hkept : e ∈ keptAfter valid readCount (genuine H L) (before ++ [pub] ++ between) := by
      unfold keptAfter
      rw [List.foldl_append, List.foldl_append]
      refine keeps valid readCount _ between _ e ?_
      rw [List.foldl_cons, List.foldl_nil]
      unfold serve
      rw [p2]
      simp only [norm, hA, if_true]
      simp
    obtain ⟨text, t1, t2, t3, -⟩ := C151_checked_partial valid readCount other (n := n) (label := label) (e := e) (s := s) (by omega) hn hl i1 i2 i3 i4 i5 i6 hs
    have hdel : deliver other n s e = [.event n e] := by
      unfold deliver
      rw [if_pos ⟨by rw [hwants]; exact hm, .inr (by rw [hsig]; exact hA)⟩]
    have hin : Out.val text ∈ (serve valid readCount (genuine H L)
        (keptAfter valid readCount (genuine H L) (before ++ [pub] ++ between)) req).2.map marshal := by
      unfold serve
      rw [r2]
      simp only [norm, List.map_append, List.map_map, List.mem_append, List.mem_map, List.mem_filter]
      exact .inl ⟨e, ⟨hkept, by rw [match_withTags]; exact hm⟩, t1⟩
    cases hc : s.check with
    | none => exact ⟨text, _, hin, t2 hc, by rw [hdel]; simp⟩
    | byId => exact ⟨text, _, hin, t3 hc, by rw [hseen hc, hdel]; simp⟩
    | byAddress => exact absurd hc hcheck

/-- **C180 is false of texts that are not UTF-8:** such a note is signed, and the signature is genuine, but whatever the relay was sent before it refuses the publication (unless a hash collides): what it reads is another text. -/
theorem C180_not_utf8 (hj : ReadsCount readCount) (H : Hash32) (L : Lib) (hL : ∀ sk h, L.nonce sk h % groupN ≠ 0) (k : Nat) (hk1 : 1 ≤ k) (hk2 : k < groupN) (draft : Event) (hk : InInt64 draft.kind)
    (hc : InInt64 draft.createdAt) (hbad : ¬ Utf8 draft.content) (kept : List Event) :
    ∃ e pub, signEvent H (bip340 L) draft (hexEnc (toBE 32 k)) = (e, true) ∧ genuine H L e = true ∧ marshal (.event none e) = .val pub ∧
      (serve valid readCount (genuine H L) kept pub = (kept, [.ok e.id false (b! "invalid: bad signature")]) ∨ (∃ m₁ m₂, m₁ ≠ m₂ ∧ H m₁ = H m₂) ∨
        (∃ x d₁ d₂ : Bytes, d₁ ≠ d₂ ∧ beVal (L.challenge (x ++ d₁)) % groupN = beVal (L.challenge (x ++ d₂)) % groupN)) := by
  obtain ⟨e, g1, g2, -, g4, g5⟩ := C165_sign_then_check H L hL draft k hk1 hk2
  obtain ⟨s1, s2, s3⟩ := signed_hex H L draft e _ g1
  obtain ⟨pub, p1, p2⟩ := C23_what_arrives valid readCount hj (env := .event none e) ⟨by simp, by rw [g5.2.1]; exact hk, by rw [g5.1]; exact hc⟩
  refine ⟨e, pub, g1, by simp [genuine, g4], p1, ?_⟩
  have cid : (cleanEvent e).id = e.id := clean_utf8 s1
  have cpk : (cleanEvent e).pubkey = e.pubkey := clean_utf8 s2
  have csg : (cleanEvent e).sig = e.sig := clean_utf8 s3
  by_cases hg : checkSignature H (bip340 L) (cleanEvent e) = some true
  · rcases C165_signature_binds_fields H L (cleanEvent e) e cpk csg hg g4 with h | h | h
    · refine absurd ?_ hbad
      rw [← g5.2.2.2, ← h.2.2.2]
      exact clean_isUtf8 _
    · exact .inr (.inl h)
    · exact .inr (.inr h)
  · left
    unfold serve
    rw [p2]
    simp only [arrives, genuine, hg, decide_false, Bool.false_eq_true, if_false, cid]

end

/-! ## Concrete cases -/

/-- The note of the example. -/
def exNote : Event := ⟨[], [], 1700000000, 1, [[b! "t", b! "asknostr"]], b! "hello \"world\"\n", []⟩

/-- The hypotheses are met: a note, a key, a library whose nonces are never zero, a filter by kind, a connection with a subscription; so it arrives. -/
example (valid : Bytes → Bool) (before between : List Bytes) : ∃ (L : Lib) (e : Event) (pub req text : Bytes) (acts : List Act),
    signEvent toyHash (bip340 L) exNote (hexEnc (toBE 32 3)) = (e, true) ∧ marshal (.event none e) = .val pub ∧
      Out.val text ∈ (serve valid readCountText (genuine toyHash L) (keptAfter valid readCountText (genuine toyHash L) (before ++ [pub] ++ between)) req).2.map marshal ∧ Act.event 1 e ∈ acts := by
  have h3 : 3 < groupN := by decide +kernel
  let L : Lib := ⟨fun _ _ => 5, fun x => x⟩
  have hL : ∀ sk h : Bytes, L.nonce sk h % groupN ≠ 0 := by
    intro _ _
    have : 5 % groupN ≠ 0 := by decide +kernel
    exact this
  let f : Filter := { kinds := some [1] }
  let other : Relay := { exR with sub := fun n => if n = 1 then some ⟨fun e => Filters.match (some e) [f], .none, false⟩ else none, sigOk := genuine toyHash L }
  have hw : Writeable exNote := ⟨by decide, by decide, by decide, .ascii (by decide +kernel), by
    intro t ht s hs
    have h2 : t = [b! "t", b! "asknostr"] := by simpa [exNote] using ht
    subst h2
    simp only [List.mem_cons, List.not_mem_nil, or_false] at hs
    rcases hs with rfl | rfl <;> exact .ascii (by decide +kernel)⟩
  have hfw : ∀ g ∈ [f], Writable g := by
    intro g hg
    rw [List.mem_singleton.1 hg]
    exact ⟨by simp [elems, f, InInt64], by simp [f], by simp [f], by decide, by simp [f, tagEntries], by simp [f, tagEntries]⟩
  have hfp : ∀ g ∈ [f], Plain g := by
    intro g hg
    rw [List.mem_singleton.1 hg]
    exact ⟨by simp [f], by simp [f], by simp [f], by simp [f, tagEntries], by simp [f], by simp [f, elems], by simp [f, elems], .nil, by simp [f, tagEntries]⟩
  obtain ⟨e, pub, req, h1, -, h3', h4, h5, -, h7⟩ := C180_arrives_partial valid readCountText readCountText_reads toyHash L hL 3 (by omega) h3 exNote hw before between exR other 1 (by omega) (by omega) []
    (by simp [PlainText]) [f] (by simp) hfw hfp _ rfl (fun _ => rfl) (by decide) (fun _ => rfl) rfl
  have hm : Spec.Matches f e := by
    refine ⟨⟨by simp [f], ?_, by simp [f], by simp [f]⟩, by simp [f, Spec.InWindow]⟩
    intro ks hks
    have : ks = [1] := by simpa [f] using hks.symm
    rw [this, h3'.2.1]; simp [exNote]
  obtain ⟨text, acts, t1, -, t3⟩ := h7 ⟨f, by simp, hm⟩ (by intro h; cases h)
  exact ⟨L, e, pub, req, text, acts, h1, h4, t1, t3⟩

/-- A content that is not UTF-8, for `C180_not_utf8`. -/
example : ¬ Utf8 [0xFF] := by
  intro h
  have := clean_utf8 h
  revert this
  decide +kernel

end GoNostr.EndToEnd
