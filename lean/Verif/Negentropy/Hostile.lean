import Verif.Negentropy.Theorems
/-!
# C108: messages of the other side

`Reconcile` over the whole life of a session: the two channels are closed when a client is done (negentropy.go:76-80), and
sending on or closing a closed channel panics.
-/

set_option autoImplicit false

namespace GoNostr.Neg

/-- negentropy.go:69-85 `Reconcile` with the state of the two channels: `closed` tells that they were closed before. A
panic in the middle of a message is reported for the whole message; ids sent before it are not kept. -/
def deliver (H : Hash32) (n : Neg) (closed : Bool) (msg : Bytes) : Res Unit (Bytes × Neg × Bool) := do
  let (out, n', done) ← reconcile H n msg
  if closed ∧ (done ∨ n'.haves ≠ n.haves ∨ n'.haveNots ≠ n.haveNots) then .panic
  else return (out, n', closed || done)

/-- The relay sends several messages, whatever we answer. -/
def deliverAll (H : Hash32) : Neg → Bool → List Bytes → Res Unit (Neg × Bool)
  | n, closed, [] => .ok (n, closed)
  | n, closed, m :: ms => do
    let (_, n, closed) ← deliver H n closed m
    deliverAll H n closed ms

/-! ## C108 is false -/

/-- The message with nothing in it, `61`: it ends a client's session. -/
def emptyMsg : Bytes := b! "61"

/-- C108 is false: a relay that sends the final message twice crashes every client, whatever is in its store. -/
theorem C108_second_end (H : Hash32) (n : Neg) (hc : n.isClient = true) : deliverAll H n false [emptyMsg, emptyMsg] = .panic := by
  have h1 : ∀ m : Neg, m.isClient = true → reconcile H m emptyMsg = .ok ([], { m with lastIn := 0, lastOut := 0 }, true) := by
    intro m hm
    have : reconcileAux H m emptyMsg = .ok (emptyMsg, { m with lastIn := 0, lastOut := 0 }) := by rfl
    unfold reconcile
    rw [this, Res.ok_bind]
    simp only [hm, and_true]
    rfl
  simp [deliverAll, deliver, h1 n hc, h1 { n with lastIn := 0, lastOut := 0 } hc, bind, Res.bind, pure]

/-- A bound that announces an id of 2^62 bytes. -/
def longBound : Bytes := b! "6100c08080808080808000"

/-- C108 is false: this message crashes every client and every server, whatever is in the store. -/
theorem C108_long_bound (H : Hash32) (n : Neg) (closed : Bool) : deliver H n closed longBound = .panic := by
  have h0 : (match (⟨longBound, 0⟩ : Reader).readHexByte with | .ok (b, r) => decide (b = 0x61 ∧ r = ⟨longBound, 2⟩) | _ => false) = true := by decide +kernel
  have h1 : (match readBound 0 ⟨longBound, 2⟩ with | .panic => true | _ => false) = true := by decide +kernel
  have e0 : (⟨longBound, 0⟩ : Reader).readHexByte = .ok (0x61, ⟨longBound, 2⟩) := by
    cases h : (⟨longBound, 0⟩ : Reader).readHexByte with
    | ok x => obtain ⟨b, r⟩ := x; rw [h] at h0; obtain ⟨rfl, rfl⟩ := of_decide_eq_true h0; rfl
    | err e => rw [h] at h0; cases h0
    | panic => rw [h] at h0; cases h0
  have e1 : readBound 0 ⟨longBound, 2⟩ = .panic := by
    cases h : readBound 0 ⟨longBound, 2⟩ with
    | panic => rfl
    | ok x => rw [h] at h1; cases h1
    | err e => rw [h] at h1; cases h1
  have e2 : reconcileAux H n longBound = .panic := by
    unfold reconcileAux
    rw [e0, Res.ok_bind]
    simp only [ne_eq, not_true_eq_false, if_false]
    have : (loop H (longBound.length + 1) { n := { n with lastIn := 0, lastOut := 0 }, r := ⟨longBound, 2⟩, full := hexEnc [0x61], prevBound := ⟨0, []⟩, prevIndex := 0, skipping := false }) = .panic := by
      simp only [loop, loopStep]
      rw [if_pos (by decide +kernel), e1]
      rfl
    rw [this]
    rfl
  unfold deliver reconcile
  rw [e2]
  rfl

/-- Two bounds, at 5 and (by a difference that overflows to -2) at 3; the second range has a fingerprint. -/
def decreasingBounds : Bytes := b! "6106000081ffffffffffffffffff7f0001" ++ List.replicate 32 102

/-- C108 is false: decreasing bounds crash even a server with an empty store, when it writes the answer. -/
theorem C108_decreasing : deliver padHash { items := [] } false decreasingBounds = .panic := by
  have h1 : (match deliver padHash { items := [] } false decreasingBounds with | .panic => true | _ => false) = true := by decide +kernel
  cases h : deliver padHash { items := [] } false decreasingBounds with
  | panic => rfl
  | ok x => rw [h] at h1; cases h1
  | err e => rw [h] at h1; cases h1

/-! ## What holds -/

/-- **C108** (partial). A message made of ranges with increasing bounds is processed without an error or a crash as long as
the session is not over, whatever fingerprints and ids the other side put in it and whether or not they are true; the
store is left as it was. Missing: malformed messages (`C108_long_bound`, `C108_decreasing`), messages after the end of a
session (`C108_second_end`), and a frame size limit. -/
theorem C108_wellformed_partial (H : Hash32) (n : Neg) (hv : VecOK n.items) (hlim : n.limit = none) (M : List Rng) (hm : MsgOK 0 M)
    (hmono : Mono zeroBound M) : ∃ out n' closed, deliver H n false (wire M) = .ok (out, n', closed) ∧ n'.items = n.items ∧
      (closed = true → n.isClient = true) := by
  obtain ⟨M', h, hn, n', h1, -, -, h4, -, -, -, -⟩ := reconcile_eq H n hv hlim M hm hmono
  unfold deliver
  rw [h1, Res.ok_bind]
  by_cases hc : M' = [] ∧ n.isClient = true
  · rw [if_pos hc]
    exact ⟨[], n', true, by simp [pure], h4, fun _ => hc.2⟩
  · rw [if_neg hc]
    exact ⟨wire M', n', false, by simp [pure], h4, by simp⟩

/-- A server never closes anything, so it goes on after any number of well-formed messages. -/
theorem C108_server_partial (H : Hash32) (n : Neg) (hv : VecOK n.items) (hlim : n.limit = none) (hs : n.isClient = false)
    (ms : List (List Rng)) (hm : ∀ M ∈ ms, MsgOK 0 M ∧ Mono zeroBound M) :
    ∃ n', deliverAll H n false (ms.map wire) = .ok (n', false) ∧ n'.items = n.items := by
  induction ms generalizing n with
  | nil => exact ⟨n, rfl, rfl⟩
  | cons M ms ih =>
    obtain ⟨h1, h2⟩ := hm M (by simp)
    obtain ⟨M', h, hn, n', e1, -, -, e4, e5, e6, -, -⟩ := reconcile_eq H n hv hlim M h1 h2
    have hd : deliver H n false (wire M) = .ok (wire M', n', false) := by
      unfold deliver
      rw [e1, Res.ok_bind, if_neg (by simp [hs])]
      simp [pure]
    obtain ⟨n2, e7, e8⟩ := ih n' (e4 ▸ hv) e5 (e6.trans hs) (fun N hN => hm N (by simp [hN]))
    refine ⟨n2, ?_, e8.trans e4⟩
    simp only [List.map_cons, deliverAll, hd, Res.ok_bind]
    exact e7

/-- Lies about what the other side has are well formed. -/
example : MsgOK 0 [⟨⟨5, []⟩, .fp (List.replicate 32 102)⟩, ⟨⟨maxTimestamp, []⟩, .ids [List.replicate 64 102]⟩] ∧
    Mono zeroBound [⟨⟨5, []⟩, .fp (List.replicate 32 102)⟩, ⟨⟨maxTimestamp, []⟩, .ids [List.replicate 64 102]⟩] := by
  refine ⟨⟨by decide, by decide, ⟨.inr ⟨by decide, by decide⟩, rfl, by decide⟩, rfl, by decide, by decide, ⟨.inl rfl, rfl, by decide⟩, ⟨by decide, by simp⟩, trivial⟩, ?_, ?_, trivial⟩
  · exact not_lt_zeroBound (by decide)
  · simp [ItemLt, maxTimestamp]

/-! ## Arbitrary bytes

What makes a message dangerous is in its bounds alone: everything else may be garbage. -/

/-- The payload that follows a mode: nothing, a fingerprint, or a count and as many ids. -/
def skipPayload (mode : Int) (r : Reader) : Res Unit Reader :=
  if mode = 0 then .ok r
  else if mode = 1 then (r.readString 32) >>= fun p => .ok p.2
  else if mode = 2 then readVarInt r >>= fun p => readIds p.1.toNat p.2 >>= fun q => .ok q.2
  else .err ()

/-- The bounds that can be read from `r` on are as the protocol has them: each is infinite or not below the one before and
below 2^56 - 1, and announces at most 32 bytes of id. Nothing is required of what comes after the point at which the message cannot be
read any more. -/
def Tame : Nat → Int → Reader → Prop
  | 0, _, _ => True
  | fuel + 1, last, r => ∀ ts r1 len r2, readTimestamp last r = .ok (ts, r1) → readVarInt r1 = .ok (len, r2) →
      (ts = maxTimestamp ∨ (last ≤ ts ∧ ts + 1 < 2 ^ 56)) ∧ 0 ≤ len ∧ len ≤ 32 ∧
      ∀ id r3 mode r4 r5, r2.readString (len * 2) = .ok (id, r3) → readVarInt r3 = .ok (mode, r4) → skipPayload (mode % 256) r4 = .ok r5 →
        Tame fuel ts r5

/-- The position of a reader is within its source, and the source is not absurdly long. -/
def Reader.OK (r : Reader) : Prop := 0 ≤ r.idx ∧ r.idx ≤ r.source.length ∧ r.source.length < 2 ^ 62

theorem bind_safe {α β : Type} {x : Res Unit α} {f : α → Res Unit β} (h1 : x ≠ .panic) (h2 : ∀ a, x = .ok a → f a ≠ .panic) : (x >>= f) ≠ .panic := by
  cases x with
  | ok a => exact h2 a rfl
  | err e => simp
  | panic => exact absurd rfl h1

theorem bind_ok {α β : Type} {x : Res Unit α} {f : α → Res Unit β} {b : β} (h : (x >>= f) = .ok b) : ∃ a, x = .ok a ∧ f a = .ok b := by
  cases x with
  | ok a => exact ⟨a, rfl, h⟩
  | err e => cases h
  | panic => cases h

theorem readHexByte_safe {r : Reader} (h : r.OK) : r.readHexByte ≠ .panic ∧ ∀ b r', r.readHexByte = .ok (b, r') → r'.OK := by
  obtain ⟨h0, h1, h2⟩ := h
  unfold Reader.readHexByte
  simp only
  by_cases hl : (r.source.length : Int) < r.idx + 2
  · rw [if_pos hl]; simp
  · rw [if_neg hl]
    have : goSlice r.source r.idx (r.idx + 2) = .val ((r.source.drop r.idx.toNat).take (r.idx + 2 - r.idx).toNat) := by
      unfold goSlice
      rw [if_pos ⟨h0, by omega, by omega⟩]
    rw [this]
    simp only
    split
    · refine ⟨by simp, fun b r' hr => ?_⟩
      cases hr
      exact ⟨by simp only; omega, by simp only; omega, h2⟩
    · simp

theorem readString_safe {r : Reader} (h : r.OK) {n : Int} (hn : 0 ≤ n) (hn' : n < 2 ^ 62) :
    r.readString n ≠ .panic ∧ ∀ s r', r.readString n = .ok (s, r') → r'.OK ∧ (s.length : Int) = n := by
  obtain ⟨h0, h1, h2⟩ := h
  unfold Reader.readString
  simp only
  by_cases hl : (r.source.length : Int) < r.idx + n
  · rw [if_pos hl, if_neg (by norm_num at *; omega)]; simp
  · rw [if_neg hl]
    have : goSlice r.source r.idx (r.idx + n) = .val ((r.source.drop r.idx.toNat).take (r.idx + n - r.idx).toNat) := by
      unfold goSlice
      rw [if_pos ⟨h0, by omega, by omega⟩]
    rw [this]
    refine ⟨by simp, fun s r' hr => ?_⟩
    cases hr
    exact ⟨⟨by simp only; omega, by simp only; omega, h2⟩, by simp; omega⟩

theorem readVarIntLoop_safe : ∀ (fuel : Nat) {r : Reader} (acc : Int), r.OK →
    readVarIntLoop fuel r acc ≠ .panic ∧ ∀ v r', readVarIntLoop fuel r acc = .ok (v, r') → r'.OK := by
  intro fuel
  induction fuel with
  | zero => intro r acc h; simp [readVarIntLoop]
  | succ fuel ih =>
    intro r acc h
    obtain ⟨s1, s2⟩ := readHexByte_safe h
    constructor
    · unfold readVarIntLoop
      refine bind_safe s1 (fun a ha => ?_)
      obtain ⟨b, r1⟩ := a
      simp only
      split
      · simp
      · exact (ih _ (s2 b r1 ha)).1
    · intro v r' hr
      unfold readVarIntLoop at hr
      obtain ⟨⟨b, r1⟩, ha, hf⟩ := bind_ok hr
      simp only at hf
      split at hf
      · cases hf; exact s2 _ _ ha
      · exact (ih _ (s2 b r1 ha)).2 v r' hf

theorem readVarInt_safe {r : Reader} (h : r.OK) : readVarInt r ≠ .panic ∧ ∀ v r', readVarInt r = .ok (v, r') → r'.OK := readVarIntLoop_safe _ 0 h

theorem readIds_safe : ∀ (k : Nat) {r : Reader}, r.OK → readIds k r ≠ .panic ∧ ∀ l r', readIds k r = .ok (l, r') → r'.OK := by
  intro k
  induction k with
  | zero =>
    intro r h
    refine ⟨by simp [readIds], fun l r' hr => ?_⟩
    cases hr; exact h
  | succ k ih =>
    intro r h
    obtain ⟨s1, s2⟩ := readString_safe h (n := 64) (by omega) (by norm_num)
    constructor
    · unfold readIds
      refine bind_safe s1 (fun a ha => ?_)
      refine bind_safe (ih (s2 a.1 a.2 ha).1).1 (fun c hc => ?_)
      simp
    · intro l r' hr
      unfold readIds at hr
      obtain ⟨a, ha, hf⟩ := bind_ok hr
      obtain ⟨c, hc, hg⟩ := bind_ok hf
      cases hg
      exact (ih (s2 a.1 a.2 ha).1).2 c.1 c.2 hc

/-- The test of `respLoop`. -/
def respFull (limit : Option Int) (full resp : Nat) : Bool := match limit with
  | none => false
  | some l => decide (l - 200 < ((full / 2 + resp / 2 : Nat) : Int))

theorem respLoop_cons (limit : Option Int) (full resp index : Nat) (item : Item) (rest : List Item) :
    respLoop limit full resp index (item :: rest) = if respFull limit full resp = true then ([], some (item, index)) else
      (item.id :: (respLoop limit full (resp + item.id.length) (index + 1) rest).1, (respLoop limit full (resp + item.id.length) (index + 1) rest).2) := rfl

theorem respLoop_mem (limit : Option Int) (full : Nat) : ∀ (mine : List Item) (resp index : Nat),
    (respLoop limit full resp index mine).1.length ≤ mine.length ∧
      ∀ item k, (respLoop limit full resp index mine).2 = some (item, k) → item ∈ mine ∧ index ≤ k ∧ k < index + mine.length ∧
        respFull limit full (resp + (respLoop limit full resp index mine).1.flatten.length) = true := by
  intro mine
  induction mine with
  | nil => intro resp index; simp [respLoop]
  | cons x mine ih =>
    intro resp index
    rw [respLoop_cons]
    split
    · next hc =>
      refine ⟨by simp, ?_⟩
      intro item k hs
      cases hs
      exact ⟨by simp, le_refl _, by simp, by simpa using hc⟩
    · obtain ⟨i1, i3⟩ := ih (resp + x.id.length) (index + 1)
      refine ⟨by simp only [List.length_cons]; omega, ?_⟩
      intro item k hs
      obtain ⟨j1, j2, j3, j4⟩ := i3 item k hs
      refine ⟨List.mem_cons_of_mem _ j1, by omega, by simp only [List.length_cons]; omega, ?_⟩
      rw [List.flatten_cons, List.length_append, ← Nat.add_assoc]
      exact j4

/-- What holds of the state of the message loop between ranges. -/
structure Safe (items : List Item) (s : Loop) : Prop where
  items_eq : s.n.items = items
  reader : s.r.OK
  last : s.n.lastIn = s.prevBound.ts
  out0 : 0 ≤ s.n.lastOut
  out : s.n.lastOut ≤ s.prevBound.ts
  good : GoodBound s.prevBound
  idx : s.prevIndex ≤ items.length
  ge : ∀ x ∈ items.drop s.prevIndex, s.prevBound.ts ≤ x.ts

theorem lift_safe {α : Type} {x : Out α} {a : α} (h : x = .val a) : lift x = .ok a := by rw [h]; rfl

theorem GoodBound.le_max {b : Item} (h : GoodBound b) : b.ts ≤ maxTimestamp := by
  rcases h.1 with h | ⟨-, h⟩
  · omega
  · simp only [maxTimestamp]
    norm_num at *
    omega

/-- The end of an iteration does not panic. -/
theorem stepEnd_safe (H : Hash32) {items : List Item} (hv : VecOK items) (s : Loop) (b : Item) (w : Sw) (hi : w.n.items = items) (hr : w.r.OK)
    (hin : w.n.lastIn = b.ts) (h0 : 0 ≤ w.part.last) (h1 : w.part.last ≤ b.ts) (hg : GoodBound b) (hu : w.upper ≤ items.length)
    (hge : exceeded w.n.limit w.full.length w.part.buf.length = false → ∀ x ∈ items.drop w.upper, b.ts ≤ x.ts) :
    ∃ s' stop, stepEnd H s b w = .val (s', stop) ∧ (stop = false → Safe items s' ∧ s'.prevBound = b ∧ s'.r = w.r) := by
  unfold stepEnd
  simp only
  split
  · have hf := (fingerprint_eq H items hv w.upper items.length hu (le_refl _)).1
    have hginf : GoodBound infiniteBound := ⟨Or.inl rfl, rfl, by simp [infiniteBound]⟩
    have hb := Wr.bound_eq (w := ⟨w.full, w.part.last⟩) hginf h0 (by have := hg.le_max; simp only [infiniteBound]; omega)
    simp only [hi] at *
    rw [hf, Out.val_bind, hb, Out.val_bind]
    exact ⟨_, true, rfl, by simp⟩
  · next hex =>
    refine ⟨_, false, rfl, fun _ => ⟨⟨hi, hr, hin, h0, h1, hg, hu, hge (by simpa using hex)⟩, rfl, rfl⟩⟩

theorem hex_len (w : Wr) (x : Bytes) : x.length ≤ (w.hex x).buf.length := by simp [Wr.hex]

/-- A server's answer to a list of ids does not panic. -/
theorem switchIdsServer_safe {items : List Item} (hv : VecOK items) {s : Loop} (n : Neg) (b : Item) (hg : GoodBound b) (hb : s.prevBound.ts ≤ b.ts)
    (hgp : GoodBound s.prevBound) (r : Reader) (upper : Nat) (hin : n.lastIn = b.ts) (hi : n.items = items) (h0 : 0 ≤ n.lastOut) (h1 : n.lastOut ≤ s.prevBound.ts)
    (hu : upper ≤ items.length) (hlu : s.prevIndex ≤ upper) (mine : List Item) (hmine : mine = (items.drop s.prevIndex).take (upper - s.prevIndex))
    (hts : ∀ x ∈ mine, s.prevBound.ts ≤ x.ts ∧ x.ts ≤ b.ts) (hge : ∀ x ∈ items.drop upper, b.ts ≤ x.ts) :
    ∃ w : Sw, switchIdsServer s n r b mine s.prevIndex upper = .val w ∧ w.n.items = items ∧ w.r = r ∧ w.n.lastIn = b.ts ∧
      0 ≤ w.part.last ∧ w.part.last ≤ b.ts ∧ w.upper ≤ items.length ∧
      (exceeded w.n.limit w.full.length w.part.buf.length = false → ∀ x ∈ items.drop w.upper, b.ts ≤ x.ts) := by
  obtain ⟨k1, -, -⟩ := finishSkip_eq (sk := s.skipping) (pb := s.prevBound) (w := ⟨[], n.lastOut⟩) hgp h0 h1
  have hlast0 : 0 ≤ (if s.skipping then s.prevBound.ts else n.lastOut) := by split <;> omega
  have hlastp : (if s.skipping then s.prevBound.ts else n.lastOut) ≤ s.prevBound.ts := by split <;> omega
  obtain ⟨q1, q2⟩ := respLoop_mem n.limit s.full.length mine 0 s.prevIndex
  have hsz := hv.size
  have hcount : mine.length = upper - s.prevIndex := by rw [hmine]; simp; omega
  cases hrl : respLoop n.limit s.full.length 0 s.prevIndex mine with
  | mk resp stop =>
    rw [hrl] at q1 q2
    simp only at q1 q2
    have hend : ∀ e : Item, GoodBound e → s.prevBound.ts ≤ e.ts → ∃ w1 w2 : Wr,
        (⟨[] ++ encMsg n.lastOut (fin s.skipping s.prevBound), if s.skipping then s.prevBound.ts else n.lastOut⟩ : Wr).bound e = .val w1 ∧
        (w1.byte 2).varInt resp.length = .val w2 ∧ w2.last = e.ts := by
      intro e he hle
      exact ⟨_, _, Wr.bound_eq he hlast0 (by simp only; omega), Wr.varInt_eq (by omega), rfl⟩
    unfold switchIdsServer
    rw [k1, Out.val_bind, hrl]
    simp only
    cases stop with
    | none =>
      obtain ⟨w1, w2, e1, e2, e3⟩ := hend b hg (by omega)
      simp only
      rw [e1, Out.val_bind, e2, Out.val_bind]
      refine ⟨_, rfl, hi, rfl, hin, ?_, ?_, hu, fun _ => hge⟩
      · simp only [Wr.hex, e3]; omega
      · simp only [Wr.hex, e3]; omega
    | some p =>
      obtain ⟨item, k⟩ := p
      obtain ⟨j1, j2, j3, j4⟩ := q2 item k rfl
      have hitem : item ∈ items := by
        rw [hmine] at j1
        exact List.mem_of_mem_drop (List.mem_of_mem_take j1)
      have hgi : GoodBound item := ⟨Or.inr (hv.ts item hitem), by rw [hv.idLen item hitem], by rw [hv.idLen item hitem]⟩
      obtain ⟨w1, w2, e1, e2, e3⟩ := hend item hgi (hts item j1).1
      simp only
      rw [e1, Out.val_bind, e2, Out.val_bind]
      refine ⟨_, rfl, hi, rfl, hin, ?_, ?_, by simp only; omega, ?_⟩
      · simp only [Wr.hex, e3]; have := (hv.ts item hitem).1; omega
      · simp only [Wr.hex, e3]; exact (hts item j1).2
      · intro hex
        exfalso
        simp only at hex
        cases hl : n.limit with
        | none => rw [hl] at j4; cases j4
        | some l =>
          rw [hl] at j4 hex
          simp only [respFull, exceeded, decide_eq_true_eq, decide_eq_false_iff_not] at j4 hex
          apply hex
          refine lt_of_lt_of_le j4 ?_
          have := hex_len w2 resp.flatten
          rw [List.length_append]
          simp only [List.length_nil]
          omega

/-- One iteration over a bound as the protocol has it does not panic and keeps the state sound. -/
theorem switchMode_safe (H : Hash32) {items : List Item} (hv : VecOK items) {s : Loop} (hs : Safe items s) (n : Neg) (b : Item) (hg : GoodBound b) (hb : s.prevBound.ts ≤ b.ts) (r : Reader) (hr : r.OK)
    (upper : Nat) (hlb : findLowerBound items s.prevIndex items.length b = .val upper) (mode : Int) (hi : n.items = items) (hin : n.lastIn = b.ts) (hout : n.lastOut = s.n.lastOut) :
    switchMode H s n r b s.prevIndex upper mode ≠ .panic ∧
    ∀ w, switchMode H s n r b s.prevIndex upper mode = .ok w →
      w.n.items = items ∧ w.r.OK ∧ w.n.lastIn = b.ts ∧ 0 ≤ w.part.last ∧ w.part.last ≤ b.ts ∧ w.upper ≤ items.length ∧
      (exceeded w.n.limit w.full.length w.part.buf.length = false → ∀ x ∈ items.drop w.upper, b.ts ≤ x.ts) ∧ skipPayload mode r = .ok w.r := by
  obtain ⟨u, u1, u2, u3, u4, u5⟩ := findLowerBound_eq items hv s.prevIndex hs.idx b
  obtain rfl : u = upper := Out.val.inj (u1.symm.trans hlb)
  have hge : ∀ x ∈ items.drop u, b.ts ≤ x.ts := by
    intro x hx
    rw [u5] at hx
    have := dropW_ge (List.Pairwise.sublist (List.drop_sublist _ _) hv.weak) hx
    by_contra hc
    exact this (Or.inl (by omega))
  have h0 : 0 ≤ n.lastOut := by rw [hout]; exact hs.out0
  have h1 : n.lastOut ≤ s.prevBound.ts := by rw [hout]; exact hs.out
  have hseg : ∀ x ∈ (items.drop s.prevIndex).take (u - s.prevIndex), s.prevBound.ts ≤ x.ts := fun x hx => hs.ge x (List.mem_of_mem_take hx)
  have hseglt : ∀ x ∈ (items.drop s.prevIndex).take (u - s.prevIndex), ItemLt x b := by
    rw [u4]; intro x hx; exact takeW_lt hx
  obtain ⟨k1, -, -⟩ := finishSkip_eq (sk := s.skipping) (pb := s.prevBound) (w := ⟨[], n.lastOut⟩) hs.good h0 h1
  have hlast0 : 0 ≤ (if s.skipping then s.prevBound.ts else n.lastOut) := by split <;> omega
  have hlastp : (if s.skipping then s.prevBound.ts else n.lastOut) ≤ s.prevBound.ts := by split <;> omega
  unfold switchMode
  by_cases hm0 : mode = 0
  · rw [if_pos hm0]
    refine ⟨by simp, ?_⟩
    intro w hw
    cases hw
    exact ⟨hi, hr, hin, h0, by simp only; omega, u3, fun _ => hge, by simp [skipPayload, hm0]⟩
  rw [if_neg hm0]
  by_cases hm1 : mode = 1
  · rw [if_pos hm1]
    obtain ⟨s1, s2⟩ := readString_safe hr (n := 32) (by omega) (by norm_num)
    obtain ⟨f1, -⟩ := fingerprint_eq H items hv s.prevIndex u u2 u3
    obtain ⟨N, n1, -, -⟩ := splitRange_eq H items hv s.prevIndex u u2 u3 b hg
      ⟨[] ++ encMsg n.lastOut (fin s.skipping s.prevBound), if s.skipping then s.prevBound.ts else n.lastOut⟩ hseglt hlast0
      (by simp only; omega) (fun x hx => by have := hseg x hx; simp only; omega)
    have hsk : ∀ a, r.readString 32 = .ok a → skipPayload mode r = .ok a.2 := by
      intro a ha
      unfold skipPayload
      rw [if_neg hm0, if_pos hm1, ha, Res.ok_bind]
    have key : ∀ a, r.readString 32 = .ok a → ∃ w : Sw, switchFingerprint H s n r b s.prevIndex u = .ok w ∧
        w.n.items = items ∧ w.r = a.2 ∧ w.n.lastIn = b.ts ∧ 0 ≤ w.part.last ∧ w.part.last ≤ b.ts ∧ w.upper = u := by
      intro a ha
      obtain ⟨theirs, r'⟩ := a
      unfold switchFingerprint
      rw [ha, Res.ok_bind]
      simp only [hi, lift_safe f1, Res.ok_bind]
      split
      · exact ⟨_, rfl, hi, rfl, hin, h0, by simp only; omega, rfl⟩
      · simp only [lift_safe k1, Res.ok_bind, lift_safe n1]
        exact ⟨_, rfl, hi, rfl, hin, by simp only; omega, by simp only; omega, rfl⟩
    constructor
    · cases ha : r.readString 32 with
      | panic => exact absurd ha s1
      | err e =>
        unfold switchFingerprint
        rw [ha]
        simp
      | ok a =>
        obtain ⟨w, hw, -⟩ := key a ha
        rw [hw]
        simp
    · intro w hw
      have : ∃ a, r.readString 32 = .ok a := by
        unfold switchFingerprint at hw
        obtain ⟨a, ha, -⟩ := bind_ok hw
        exact ⟨a, ha⟩
      obtain ⟨a, ha⟩ := this
      obtain ⟨w', hw', c1, c2, c3, c4, c5, c6⟩ := key a ha
      obtain rfl : w' = w := by rw [hw'] at hw; cases hw; rfl
      exact ⟨c1, by rw [c2]; exact (s2 a.1 a.2 ha).1, c3, c4, c5, by omega, fun _ => by rw [c6]; exact hge, by rw [hsk a ha, c2]⟩
  rw [if_neg hm1]
  by_cases hm2 : mode = 2
  · rw [if_pos hm2]
    obtain ⟨s1, s2⟩ := readVarInt_safe hr
    have hrange : vecRange items s.prevIndex u = .val ((items.drop s.prevIndex).take (u - s.prevIndex)) := by
      unfold vecRange
      rw [if_neg (by omega)]
    have key : ∀ a c, readVarInt r = .ok a → readIds a.1.toNat a.2 = .ok c → ∃ w : Sw, switchIds s n r b s.prevIndex u = .ok w ∧
        w.n.items = items ∧ w.r = c.2 ∧ w.n.lastIn = b.ts ∧ 0 ≤ w.part.last ∧ w.part.last ≤ b.ts ∧ w.upper ≤ items.length ∧
        (exceeded w.n.limit w.full.length w.part.buf.length = false → ∀ x ∈ items.drop w.upper, b.ts ≤ x.ts) := by
      intro a c ha hc
      unfold switchIds
      rw [ha, Res.ok_bind]
      simp only
      rw [hc, Res.ok_bind]
      simp only [hi, lift_safe hrange, Res.ok_bind]
      split
      · exact ⟨_, rfl, hi, rfl, hin, h0, by simp only [switchIdsClient]; omega, u3, fun _ => hge⟩
      · obtain ⟨w, hw, rest⟩ := switchIdsServer_safe hv n b hg hb hs.good c.2 u hin hi h0 h1 u3 u2 _ rfl (by
          intro x hx
          refine ⟨hseg x hx, ?_⟩
          rcases hseglt x hx with h | ⟨h, -⟩ <;> omega) hge
        exact ⟨w, lift_safe hw, rest⟩
    have hsk : ∀ a c, readVarInt r = .ok a → readIds a.1.toNat a.2 = .ok c → skipPayload mode r = .ok c.2 := by
      intro a c ha hc
      unfold skipPayload
      rw [if_neg hm0, if_neg hm1, if_pos hm2, ha, Res.ok_bind, hc, Res.ok_bind]
    constructor
    · cases ha : readVarInt r with
      | panic => exact absurd ha s1
      | err e =>
        unfold switchIds
        rw [ha]
        simp
      | ok a =>
        cases hc : readIds a.1.toNat a.2 with
        | panic => exact absurd hc (readIds_safe _ (s2 a.1 a.2 ha)).1
        | err e =>
          unfold switchIds
          rw [ha, Res.ok_bind]
          simp only
          rw [hc]
          simp
        | ok c =>
          obtain ⟨w, hw, -⟩ := key a c ha hc
          rw [hw]
          simp
    · intro w hw
      have : ∃ a c, readVarInt r = .ok a ∧ readIds a.1.toNat a.2 = .ok c := by
        unfold switchIds at hw
        obtain ⟨a, ha, hf⟩ := bind_ok hw
        obtain ⟨c, hc, -⟩ := bind_ok hf
        exact ⟨a, c, ha, hc⟩
      obtain ⟨a, c, ha, hc⟩ := this
      obtain ⟨w', hw', c1, c2, c3, c4, c5, c6, c7⟩ := key a c ha hc
      obtain rfl : w' = w := by rw [hw'] at hw; cases hw; rfl
      exact ⟨c1, by rw [c2]; exact (readIds_safe _ (s2 a.1 a.2 ha)).2 c.1 c.2 hc, c3, c4, c5, c6, c7, by rw [hsk a c ha hc, c2]⟩
  rw [if_neg hm2]
  simp

theorem readTimestamp_safe {r : Reader} (h : r.OK) (last : Int) : readTimestamp last r ≠ .panic ∧ ∀ ts r', readTimestamp last r = .ok (ts, r') → r'.OK := by
  obtain ⟨s1, s2⟩ := readVarInt_safe h
  unfold readTimestamp
  constructor
  · refine bind_safe s1 (fun a ha => ?_)
    obtain ⟨d, r1⟩ := a
    simp only
    split <;> simp
  · intro ts r' hr
    obtain ⟨⟨d, r1⟩, ha, hf⟩ := bind_ok hr
    simp only at hf
    split at hf <;> (cases hf; exact s2 _ _ ha)

theorem loopStep_safe (H : Hash32) {items : List Item} (hv : VecOK items) {s : Loop} (hs : Safe items s) {fuel : Nat} (ht : Tame (fuel + 1) s.n.lastIn s.r) :
    loopStep H s ≠ .panic ∧ ∀ s', loopStep H s = .ok (s', false) → Safe items s' ∧ Tame fuel s'.n.lastIn s'.r := by
  obtain ⟨t1, t2⟩ := readTimestamp_safe hs.reader s.n.lastIn
  cases hts : readTimestamp s.n.lastIn s.r with
  | panic => exact absurd hts t1
  | err e =>
    have : loopStep H s = .err e := by unfold loopStep readBound; rw [hts]; rfl
    rw [this]
    simp
  | ok p =>
  obtain ⟨ts, r1⟩ := p
  have ok1 := t2 ts r1 hts
  obtain ⟨v1, v2⟩ := readVarInt_safe ok1
  cases hlen : readVarInt r1 with
  | panic => exact absurd hlen v1
  | err e =>
    have : loopStep H s = .err e := by unfold loopStep readBound; simp only [hts, Res.ok_bind, hlen]; rfl
    rw [this]
    simp
  | ok p =>
  obtain ⟨len, r2⟩ := p
  have ok2 := v2 len r2 hlen
  obtain ⟨hb1, hb2, hb3, hrest⟩ := ht ts r1 len r2 hts hlen
  have hwrap : wrap64 (len * 2) = len * 2 := wrap64_id (by norm_num; omega) (by norm_num; omega)
  obtain ⟨x1, x2⟩ := readString_safe ok2 (n := len * 2) (by omega) (by norm_num; omega)
  cases hid : r2.readString (len * 2) with
  | panic => exact absurd hid x1
  | err e =>
    have : loopStep H s = .err e := by unfold loopStep readBound; simp only [hts, Res.ok_bind, hlen, hwrap, hid]; rfl
    rw [this]
    simp
  | ok p =>
  obtain ⟨id, r3⟩ := p
  obtain ⟨ok3, hidlen⟩ := x2 id r3 hid
  have hrb : readBound s.n.lastIn s.r = .ok (⟨ts, id⟩, r3) := by
    unfold readBound
    simp only [hts, Res.ok_bind, hlen, hwrap, hid]
    rfl
  obtain ⟨m1, m2⟩ := readVarInt_safe ok3
  cases hmode : readVarInt r3 with
  | panic => exact absurd hmode m1
  | err e =>
    have : loopStep H s = .err e := by unfold loopStep; simp only [hrb, Res.ok_bind, hmode]; rfl
    rw [this]
    simp
  | ok p =>
  obtain ⟨mode, r4⟩ := p
  have ok4 := m2 mode r4 hmode
  have hp0 : 0 ≤ s.prevBound.ts := by have := hs.out0; have := hs.out; omega
  have hle : s.prevBound.ts ≤ ts := by
    rcases hb1 with h | ⟨h, -⟩
    · rw [h]; exact hs.good.le_max
    · rw [← hs.last]; exact h
  have hg : GoodBound (⟨ts, id⟩ : Item) := by
    refine ⟨?_, by simp only; omega, by simp only; omega⟩
    rcases hb1 with h | ⟨h, h'⟩
    · exact Or.inl h
    · exact Or.inr ⟨by simp only; omega, h'⟩
  obtain ⟨u, u1, u2, u3, u4, u5⟩ := findLowerBound_eq items hv s.prevIndex hs.idx ⟨ts, id⟩
  obtain ⟨w1, w2⟩ := switchMode_safe H hv hs { s.n with lastIn := ts } ⟨ts, id⟩ hg hle r4 ok4 u u1 (mode % 256) hs.items_eq rfl rfl
  have hform : loopStep H s = (switchMode H s { s.n with lastIn := ts } r4 ⟨ts, id⟩ s.prevIndex u (mode % 256) >>= fun w => lift (stepEnd H s ⟨ts, id⟩ w)) := by
    have hu1 := u1
    rw [← hs.items_eq] at hu1
    unfold loopStep
    simp only [hrb, Res.ok_bind, hmode, hu1, lift]
  have hend : ∀ w, switchMode H s { s.n with lastIn := ts } r4 ⟨ts, id⟩ s.prevIndex u (mode % 256) = .ok w →
      ∃ s' stop, lift (stepEnd H s ⟨ts, id⟩ w) = .ok (s', stop) ∧ (stop = false → Safe items s' ∧ s'.prevBound = ⟨ts, id⟩ ∧ s'.r = w.r) := by
    intro w hw
    obtain ⟨c1, c2, c3, c4, c5, c6, c7, c8⟩ := w2 w hw
    obtain ⟨s', stop, e1, e2⟩ := stepEnd_safe H hv s ⟨ts, id⟩ w c1 c2 c3 c4 c5 hg c6 c7
    exact ⟨s', stop, lift_safe e1, e2⟩
  constructor
  · rw [hform]
    refine bind_safe w1 (fun w hw => ?_)
    obtain ⟨s', stop, e1, -⟩ := hend w hw
    rw [e1]
    simp
  · intro s' hs'
    rw [hform] at hs'
    obtain ⟨w, hw, hf⟩ := bind_ok hs'
    obtain ⟨s'', stop, e1, e2⟩ := hend w hw
    rw [e1] at hf
    cases hf
    obtain ⟨f1, f2, f3⟩ := e2 rfl
    refine ⟨f1, ?_⟩
    rw [f1.last, f2, f3]
    exact hrest id r3 mode r4 w.r hid hmode (w2 w hw).2.2.2.2.2.2.2

theorem loop_safe (H : Hash32) {items : List Item} (hv : VecOK items) : ∀ (fuel : Nat) {s : Loop}, Safe items s → Tame fuel s.n.lastIn s.r → loop H fuel s ≠ .panic := by
  intro fuel
  induction fuel with
  | zero => intro s _ _; simp [loop]
  | succ fuel ih =>
    intro s hs ht
    unfold loop
    split
    · have hstep := loopStep_safe H hv hs ht
      refine bind_safe hstep.1 (fun a ha => ?_)
      obtain ⟨s', stop⟩ := a
      simp only
      split
      · simp
      · next hstop =>
        obtain rfl : stop = false := by simpa using hstop
        obtain ⟨i1, i2⟩ := hstep.2 s' ha
        exact ih i1 i2
    · simp

/-- **C108** (partial). Whatever the bytes of a message: if the bounds that can be read from it are as the protocol has them, then
neither a client nor a server crashes on it during its session, with any frame size limit. Missing: messages with other bounds
(`C108_long_bound`, `C108_decreasing`) and the end of a session (`C108_second_end`). -/
theorem C108_tame_partial (H : Hash32) (n : Neg) (hv : VecOK n.items) (msg : Bytes) (hlen : msg.length < 2 ^ 62) (ht : Tame (msg.length + 1) 0 ⟨msg, 2⟩) :
    deliver H n false msg ≠ .panic := by
  have haux : reconcileAux H n msg ≠ .panic := by
    unfold reconcileAux
    have ok0 : (⟨msg, 0⟩ : Reader).OK := ⟨le_refl _, by simp only; omega, hlen⟩
    obtain ⟨s1, s2⟩ := readHexByte_safe ok0
    refine bind_safe s1 (fun a ha => ?_)
    obtain ⟨pv, r⟩ := a
    simp only
    have hr : r = ⟨msg, 2⟩ := by
      unfold Reader.readHexByte at ha
      simp only at ha
      (repeat' split at ha) <;> cases ha
      rfl
    have ok1 := s2 pv r ha
    split
    · split <;> simp
    · refine bind_safe ?_ (fun s' _ => by simp)
      refine loop_safe H hv _ ⟨rfl, ok1, rfl, le_refl _, le_refl _, goodZero, by simp, ?_⟩ (by rw [hr]; exact ht)
      intro x hx
      have := hv.ts x (by simpa using hx)
      simpa using this.1
  unfold deliver
  refine bind_safe ?_ (fun a _ => by simp)
  unfold reconcile
  refine bind_safe haux (fun a _ => ?_)
  simp only
  split <;> simp

/-- Bytes that are no message at all are tame: an unknown mode, an id list that ends too early, a text. -/
example : Tame 5 0 ⟨b! "6105000761", 2⟩ ∧ deliver padHash { items := [] } false (b! "61050007") = .err () := by
  constructor
  · intro ts r1 len r2 h1 h2
    have e1 : readTimestamp 0 ⟨b! "6105000761", 2⟩ = .ok (4, ⟨b! "6105000761", 4⟩) := by decide +kernel
    rw [e1] at h1
    cases h1
    have e2 : readVarInt ⟨b! "6105000761", 4⟩ = .ok (0, ⟨b! "6105000761", 6⟩) := by decide +kernel
    rw [e2] at h2
    cases h2
    refine ⟨.inr ⟨by decide, by decide⟩, by decide, by decide, ?_⟩
    intro id r3 mode r4 r5 h3 h4 h5
    have e3 : (⟨b! "6105000761", 6⟩ : Reader).readString (0 * 2) = .ok ([], ⟨b! "6105000761", 6⟩) := by decide +kernel
    rw [e3] at h3
    cases h3
    have e4 : readVarInt ⟨b! "6105000761", 6⟩ = .ok (7, ⟨b! "6105000761", 8⟩) := by decide +kernel
    rw [e4] at h4
    cases h4
    simp [skipPayload] at h5
  · have h : (match deliver padHash { items := [] } false (b! "61050007") with | .err _ => true | _ => false) = true := by decide +kernel
    cases h1 : deliver padHash { items := [] } false (b! "61050007") with
    | err e => rfl
    | ok x => rw [h1] at h; cases h
    | panic => rw [h1] at h; cases h

/-- Reconciling a message of the other side that has not the version byte never crashes either. -/
example : deliver padHash { items := [] } false (b! "6") ≠ .panic := by
  apply C108_tame_partial
  · exact ⟨by simp, by simp, by simp, by simp, by simp⟩
  · decide
  · intro ts r1 len r2 h1
    have e1 : readTimestamp 0 ⟨b! "6", 2⟩ = .err () := by decide +kernel
    rw [e1] at h1
    cases h1

end GoNostr.Neg
