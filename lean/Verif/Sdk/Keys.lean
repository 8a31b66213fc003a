import Verif.Sdk.Store
import Verif.Helpers.Theorems
/-!
# C140, C141: which relays are asked for a user's lists (sdk/replaceable_loader.go:144-187), and the keys of the SDK's records (sdk/loader_helpers.go, sdk/feeds.go:14-24, sdk/event_relays.go:10-21)
-/

set_option autoImplicit false

namespace GoNostr.SdkKeys

open GoNostr.Sdk (relayKey)

/-! ## The relays to ask -/

/-- What a call of `determineRelaysToQuery` gets from outside: the hints for the user (`TopN(pubkey, 3)`), the outbox relays asked for with 1 and with 3, and what the four
rotations yield to it, in the order of its calls. Other goroutines use the same rotations, so that can be any of their urls. -/
structure Src where
  hints3 : List Bytes
  outbox1 : List Bytes
  outbox3 : List Bytes
  metadata : List Bytes
  follow : List Bytes
  relayList : List Bytes
  fallback : List Bytes

/-- replaceable_loader.go:148-164. -/
def own (src : Src) (kind : Int) : List Bytes :=
  if kind = 10002 then src.hints3 else if kind = 0 ∨ kind = 3 then src.outbox1 else src.outbox3

/-- replaceable_loader.go:170-179. -/
def rotation (src : Src) (kind : Int) : List Bytes :=
  if kind = 0 then src.metadata else if kind = 3 then src.follow else if kind = 10002 then src.relayList else src.fallback

/-- The loop (replaceable_loader.go:168-184). -/
def fill (relays : List Bytes) : List Bytes → List Bytes
  | [] => relays
  | next :: rest => fill (if next ∈ relays then relays else relays ++ [next]) rest

/-- `determineRelaysToQuery` (replaceable_loader.go:144-187); a negative `needed` gives no rounds. The rotation is taken to yield as often as it is asked (`C80`). -/
def determine (src : Src) (kind : Int) : List Bytes :=
  let relays := own src kind
  fill relays ((rotation src kind).take (3 - relays.length))

theorem fill_spec (ds : List Bytes) : ∀ relays, ∃ new, fill relays ds = relays ++ new ∧ new.Nodup ∧ (∀ x ∈ new, x ∈ ds ∧ x ∉ relays) ∧ new.length ≤ ds.length ∧
    (∀ d ∈ ds, d ∈ relays ++ new) ∧ (ds.Nodup → (∀ d ∈ ds, d ∉ relays) → new = ds) := by
  induction ds with
  | nil => intro relays; exact ⟨[], by simp [fill], List.nodup_nil, by simp, by simp, by simp, fun _ _ => rfl⟩
  | cons d ds ih =>
    intro relays
    simp only [fill]
    by_cases hd : d ∈ relays
    · rw [if_pos hd]
      obtain ⟨new, h1, h2, h3, h4, h5, -⟩ := ih relays
      refine ⟨new, h1, h2, fun x hx => ⟨List.mem_cons_of_mem _ (h3 x hx).1, (h3 x hx).2⟩, by simp; omega, ?_, fun _ h => absurd hd (h d (by simp))⟩
      intro x hx
      rcases List.mem_cons.1 hx with rfl | hx
      · exact List.mem_append_left _ hd
      · exact h5 x hx
    · rw [if_neg hd]
      obtain ⟨new, h1, h2, h3, h4, h5, h6⟩ := ih (relays ++ [d])
      refine ⟨d :: new, by rw [h1]; simp, ?_, ?_, by simp; omega, ?_, ?_⟩
      · rw [List.nodup_cons]
        exact ⟨fun h => (h3 d h).2 (by simp), h2⟩
      · intro x hx
        rcases List.mem_cons.1 hx with rfl | hx
        · exact ⟨by simp, hd⟩
        · exact ⟨List.mem_cons_of_mem _ (h3 x hx).1, fun h => (h3 x hx).2 (List.mem_append_left _ h)⟩
      · intro x hx
        rcases List.mem_cons.1 hx with rfl | hx
        · simp
        · have := h5 x hx
          simpa using this
      · intro hn hdis
        rw [List.nodup_cons] at hn
        rw [h6 hn.2 (fun x hx h => by
          rcases List.mem_append.1 h with h | h
          · exact hdis x (List.mem_cons_of_mem _ hx) h
          · rw [List.mem_singleton] at h; subst h; exact hn.1 hx)]

/-- **C140.** The user's own relays are asked, all of them and first; if they are fewer than three, then others from the list for that kind, no relay twice, and not more than three
altogether; none is added if the user's own are three or more. The relay list (kind 10002) is looked for at hinted relays, never by way of the relay list. -/
theorem C140_relays (src : Src) (kind : Int) : ∃ new, determine src kind = own src kind ++ new ∧ new.Nodup ∧ (∀ x ∈ new, x ∈ rotation src kind ∧ x ∉ own src kind) ∧
    (determine src kind).length ≤ max 3 (own src kind).length ∧ (3 ≤ (own src kind).length → new = []) ∧ ((own src kind).Nodup → (determine src kind).Nodup) ∧
    (∀ hints outs outs', determine { src with hints3 := hints, outbox1 := outs, outbox3 := outs' } 10002 = determine { src with hints3 := hints } 10002) := by
  obtain ⟨new, h1, h2, h3, h4, h5, -⟩ := fill_spec ((rotation src kind).take (3 - (own src kind).length)) (own src kind)
  have hl : ((rotation src kind).take (3 - (own src kind).length)).length ≤ 3 - (own src kind).length := by simp; omega
  refine ⟨new, h1, h2, fun x hx => ⟨List.mem_of_mem_take (h3 x hx).1, (h3 x hx).2⟩, ?_, ?_, ?_, fun _ _ _ => rfl⟩
  · show (fill _ _).length ≤ _
    rw [h1, List.length_append]; omega
  · intro h
    have : new.length = 0 := by omega
    exact List.length_eq_zero_iff.1 this
  · intro hn
    show (fill _ _).Nodup
    rw [h1, List.nodup_append]
    exact ⟨hn, h2, fun a ha b hb he => (h3 b hb).2 (he ▸ ha)⟩

/-- **C140 (where from).** Each source counts only for its kinds: hints for kind 10002, the one outbox relay asked for kinds 0 and 3, the three for all others, and each rotation for its own kind. -/
theorem C140_sources (src : Src) (k : Int) (l : List Bytes) :
    (k ≠ 10002 → determine { src with hints3 := l } k = determine src k) ∧ (k ≠ 0 → k ≠ 3 → determine { src with outbox1 := l } k = determine src k) ∧
    (k = 0 ∨ k = 3 ∨ k = 10002 → determine { src with outbox3 := l } k = determine src k) ∧ (k ≠ 0 → determine { src with metadata := l } k = determine src k) ∧
    (k ≠ 3 → determine { src with follow := l } k = determine src k) ∧ (k ≠ 10002 → determine { src with relayList := l } k = determine src k) ∧
    (k = 0 ∨ k = 3 ∨ k = 10002 → determine { src with fallback := l } k = determine src k) := by
  refine ⟨fun h => ?_, fun h h' => ?_, fun h => ?_, fun h => ?_, fun h => ?_, fun h => ?_, fun h => ?_⟩
  · simp [determine, own, rotation, h]
  · simp [determine, own, rotation, h, h']
  · rcases h with rfl | rfl | rfl <;> rfl
  · simp [determine, own, rotation, h]
  · simp [determine, own, rotation, h]
  · simp [determine, own, rotation, h]
  · rcases h with rfl | rfl | rfl <;> rfl

/-- **C140 (somebody is asked).** If the rotation for the kind has a relay, at least one is asked. -/
theorem C140_some (src : Src) (kind : Int) (h : rotation src kind ≠ []) : determine src kind ≠ [] := by
  obtain ⟨new, h1, h2, h3, h4, h5, -⟩ := fill_spec ((rotation src kind).take (3 - (own src kind).length)) (own src kind)
  intro he
  have e : own src kind ++ new = [] := by rw [← h1]; exact he
  cases hr : rotation src kind with
  | nil => exact h hr
  | cons d ds =>
    have ho : own src kind = [] := (List.append_eq_nil_iff.1 e).1
    have := h5 d (by rw [hr, ho]; simp)
    rw [e] at this; cases this

/-- **C140 (three).** Three are asked if the next ones of the rotation are different from each other and from the user's own. -/
theorem C140_three_partial (src : Src) (kind : Int) (hlen : 3 ≤ (rotation src kind).length) (hn : (rotation src kind).Nodup) (hd : ∀ x ∈ rotation src kind, x ∉ own src kind) :
    3 ≤ (determine src kind).length := by
  obtain ⟨new, h1, -, -, -, -, h6⟩ := fill_spec ((rotation src kind).take (3 - (own src kind).length)) (own src kind)
  have := h6 (hn.sublist (List.take_sublist _ _)) (fun d hd' => hd d (List.mem_of_mem_take hd'))
  show 3 ≤ (fill _ _).length
  rw [h1, this]
  simp; omega

/-- **C140 is false.** A relay of the rotation that the user already has is not replaced by another: fewer than three are asked although more are known. -/
theorem C140_fewer : ∃ src : Src, (determine src 10000).length = 2 ∧
    ∃ a b c, a ∈ own src 10000 ++ rotation src 10000 ∧ b ∈ own src 10000 ++ rotation src 10000 ∧ c ∈ own src 10000 ++ rotation src 10000 ∧ a ≠ b ∧ a ≠ c ∧ b ≠ c :=
  ⟨⟨[], [], [b! "a", b! "b"], [], [], [], [b! "a", b! "c", b! "d"]⟩, by decide +kernel, b! "a", b! "b", b! "c", by decide +kernel⟩

example : determine ⟨[], [b! "mine"], [], [b! "x", b! "y", b! "z"], [], [], []⟩ 0 = [b! "mine", b! "x", b! "y"] := by decide +kernel

/-! ## The keys of the records -/

/-- `binary.LittleEndian.PutUint32`. -/
def putLE32 (n : Nat) : Bytes := [UInt8.ofNat (n % 256), UInt8.ofNat (n / 256 % 256), UInt8.ofNat (n / 65536 % 256), UInt8.ofNat (n / 16777216 % 256)]

/-- `makeLastFetchKey` (loader_helpers.go:12-18): there is room for 33 bytes; decoding more panics, decoding stops at the first wrong character. -/
def lastFetchKey (kind : Int) (pubkey : Bytes) : Out Bytes :=
  let d := hexDecPartial pubkey
  if 33 < d.length then .panic
  else .val (102 :: putLE32 (kind % 4294967296).toNat ++ d ++ List.replicate (33 - d.length) 0)

/-- `makePubkeyStreamKey` (feeds.go:19-24). -/
def streamKey (pre : UInt8) (pubkey : Bytes) : Out Bytes := match goSlice pubkey 0 16 with
  | .panic => .panic
  | .val s =>
    let d := hexDecPartial s
    .val (pre :: d ++ List.replicate (8 - d.length) 0)

/-- `encodeTimestamp` and `decodeTimestamp` (loader_helpers.go:21-30); fewer than four bytes panic. -/
def encodeTs (t : Int) : Bytes :=
  let n := (t % 4294967296).toNat
  [UInt8.ofNat (n / 16777216 % 256), UInt8.ofNat (n / 65536 % 256), UInt8.ofNat (n / 256 % 256), UInt8.ofNat (n % 256)]

/-- sdk/loader_helpers.go:21-30 -/
def decodeTs : Bytes → Out Int
  | a :: b :: c :: d :: _ => .val (a.toNat * 16777216 + b.toNat * 65536 + c.toNat * 256 + d.toNat : Nat)
  | _ => .panic

theorem hex_valid {s : Bytes} (h : isValid32ByteHex s = true) : ∃ b : Bytes, b.length = 32 ∧ s = hexEnc b ∧ hexDecPartial s = b := by
  obtain ⟨b, h1, h2⟩ := (C19_accepts_encodings s).1 h
  exact ⟨b, h1, h2, hexDecPartial_eq (by rw [h2, hexDec_hexEnc])⟩

theorem putLE32_inj {m n : Nat} (hm : m < 4294967296) (hn : n < 4294967296) (h : putLE32 m = putLE32 n) : m = n := by
  unfold putLE32 at h
  simp only [List.cons.injEq, and_true] at h
  obtain ⟨h1, h2, h3, h4⟩ := h
  have e : ∀ a b : Nat, UInt8.ofNat (a % 256) = UInt8.ofNat (b % 256) → a % 256 = b % 256 := by
    intro a b h
    have := congrArg UInt8.toNat h
    simpa using this
  have := e _ _ h1
  have := e _ _ h2
  have := e _ _ h3
  have := e _ _ h4
  omega

/-- **C141 (one record per user and kind).** For valid keys and kinds of 32 bits: the record of when a list was last fetched belongs to one kind and one user. -/
theorem C141_last_fetch (k k' : Int) (pk pk' : Bytes) (hk : 0 ≤ k ∧ k < 4294967296) (hk' : 0 ≤ k' ∧ k' < 4294967296) (hp : isValid32ByteHex pk = true) (hp' : isValid32ByteHex pk' = true) :
    (∃ key, lastFetchKey k pk = .val key ∧ key.length = 38) ∧ (lastFetchKey k pk = lastFetchKey k' pk' → k = k' ∧ pk = pk') := by
  obtain ⟨b, h1, h2, h3⟩ := hex_valid hp
  obtain ⟨b', h1', h2', h3'⟩ := hex_valid hp'
  unfold lastFetchKey
  simp only [h3, h3', h1, h1']
  rw [if_neg (by omega), if_neg (by omega)]
  refine ⟨⟨_, rfl, by simp [putLE32, h1]⟩, fun h => ?_⟩
  injection h with h
  have e : ∀ (n : Nat) (b : Bytes) (t : Bytes), (102 :: putLE32 n ++ b ++ t) = 102 :: (putLE32 n ++ (b ++ t)) := by intro n b t; simp
  rw [e, e] at h
  have hh := (List.cons.inj h).2
  obtain ⟨g1, g2⟩ := List.append_inj hh (by simp [putLE32])
  obtain ⟨g3, -⟩ := List.append_inj g2 (by rw [h1, h1'])
  have := putLE32_inj (by omega) (by omega) g1
  exact ⟨by omega, by rw [h2, h2', g3]⟩

example : lastFetchKey 10002 (hexEnc (List.replicate 32 0xab)) = .val ([102, 18, 39, 0, 0] ++ List.replicate 32 0xab ++ [0]) := by decide +kernel

/-- **C141 (records of different sorts never meet).** Whatever the users, kinds and events: the records of last fetches, of relays of events, and of the newest and oldest times of a feed have different keys. -/
theorem C141_apart (k : Int) (pk pk1 pk2 id : Bytes) : ∀ a b c d, lastFetchKey k pk = .val a → relayKey id = some b → streamKey 76 pk1 = .val c → streamKey 79 pk2 = .val d →
    a ≠ b ∧ a ≠ c ∧ a ≠ d ∧ b ≠ c ∧ b ≠ d ∧ c ≠ d := by
  intro a b c d ha hb hc hd
  have h1 : a.head? = some 102 := by
    unfold lastFetchKey at ha
    simp only at ha
    split at ha
    · cases ha
    · injection ha with ha; rw [← ha]; rfl
  have h2 : b.head? = some 114 := by
    unfold relayKey at hb
    split at hb
    · split at hb
      · cases hb
      · injection hb with hb; rw [← hb]; rfl
    · cases hb
  have hs : ∀ p q k, streamKey p q = .val k → k.head? = some p := by
    intro p q k hk
    unfold streamKey at hk
    split at hk
    · cases hk
    · injection hk with hk; rw [← hk]; rfl
  have h3 := hs _ _ _ hc
  have h4 := hs _ _ _ hd
  refine ⟨?_, ?_, ?_, ?_, ?_, ?_⟩ <;> rintro rfl <;> simp_all

theorem take_hexEnc (b : Bytes) : (hexEnc b).take 16 = hexEnc (b.take 8) := by
  have key : ∀ (n : Nat) (b : Bytes), (hexEnc b).take (2 * n) = hexEnc (b.take n) := by
    intro n
    induction n with
    | zero => intro b; simp [hexEnc]
    | succ n ih =>
      intro b
      cases b with
      | nil => simp [hexEnc]
      | cons x xs =>
        have e : ∀ x (xs : Bytes), hexEnc (x :: xs) = hexEnc [x] ++ hexEnc xs := by intro x xs; simp [hexEnc]
        have hl : (hexEnc [x]).length = 2 := by simp [hexEnc]
        rw [List.take_succ_cons, e x xs, e x (xs.take n), List.take_append, hl, show 2 * (n + 1) - 2 = 2 * n by omega, ih, List.take_of_length_le (by omega)]
  exact key 8 b

theorem streamKey_valid (pre : UInt8) {b : Bytes} (hb : b.length = 32) : streamKey pre (hexEnc b) = .val (pre :: b.take 8) := by
  unfold streamKey goSlice
  have hlen : (hexEnc b).length = 64 := by rw [length_hexEnc, hb]
  rw [if_pos (by omega)]
  simp only [Int.toNat_zero, List.drop_zero, Int.sub_zero]
  have : (Int.toNat 16) = 16 := rfl
  rw [this, take_hexEnc, hexDecPartial_eq (hexDec_hexEnc _)]
  simp [hb]

/-- **C141 (feeds: one record per beginning of a key).** For valid keys, two users have the same record of their feed's newest or oldest time exactly if the first 16 digits of their keys agree. -/
theorem C141_stream_partial (pre : UInt8) (pk pk' : Bytes) (hp : isValid32ByteHex pk = true) (hp' : isValid32ByteHex pk' = true) :
    streamKey pre pk = streamKey pre pk' ↔ pk.take 16 = pk'.take 16 := by
  obtain ⟨b, h1, h2, -⟩ := hex_valid hp
  obtain ⟨b', h1', h2', -⟩ := hex_valid hp'
  subst h2; subst h2'
  rw [streamKey_valid pre h1, streamKey_valid pre h1', take_hexEnc, take_hexEnc]
  constructor
  · intro h; injection h with h; rw [(List.cons.inj h).2]
  · intro h
    have := congrArg hexDec h
    rw [hexDec_hexEnc, hexDec_hexEnc] at this
    injection this with this
    rw [this]

/-- **C141 is false for feeds.** Two different users can have one record. -/
theorem C141_shared : ∃ pk pk' : Bytes, isValid32ByteHex pk = true ∧ isValid32ByteHex pk' = true ∧ pk ≠ pk' ∧ streamKey 76 pk = streamKey 76 pk' :=
  ⟨hexEnc (List.replicate 32 1), hexEnc (List.replicate 31 1 ++ [2]), by decide +kernel, by decide +kernel, by decide +kernel, by decide +kernel⟩

/-- **C141 (keys that are none).** A key of fewer than 16 characters crashes a feed, one of 68 or more hexadecimal digits the fetching of lists; and all names that begin with a
character that is no hexadecimal digit share one record per kind. -/
theorem C141_invalid (k : Int) : (∀ pre pk, pk.length < 16 → streamKey pre pk = .panic) ∧ (∀ b : Bytes, lastFetchKey k (hexEnc b) = .panic ↔ 34 ≤ b.length) ∧
    (∀ c c' (r r' : Bytes), hexVal c = none → hexVal c' = none → lastFetchKey k (c :: r) = lastFetchKey k (c' :: r')) := by
  refine ⟨fun pre pk h => ?_, fun b => ?_, fun c c' r r' h h' => ?_⟩
  · unfold streamKey goSlice
    rw [if_neg (by omega)]
  · unfold lastFetchKey
    simp only
    rw [hexDecPartial_eq (hexDec_hexEnc b)]
    constructor
    · intro h
      split at h
      · omega
      · cases h
    · intro h
      rw [if_pos (by omega)]
  · have e : ∀ c (r : Bytes), hexVal c = none → hexDecPartial (c :: r) = [] := by
      intro c r h
      cases r with
      | nil => rfl
      | cons d r => simp [hexDecPartial, h]
    unfold lastFetchKey
    simp only [e c r h, e c' r' h']

/-- **C141 (times).** A time is read as it was written, until 2106; from then on it is read as one long ago. -/
theorem C141_times (t : Int) : decodeTs (encodeTs t) = .val (t % 4294967296) ∧ (0 ≤ t ∧ t < 4294967296 → decodeTs (encodeTs t) = .val t) ∧ decodeTs (encodeTs 4294967296) = .val 0 := by
  have key : ∀ t : Int, decodeTs (encodeTs t) = .val (t % 4294967296) := by
    intro t
    unfold encodeTs decodeTs
    simp only [UInt8.toNat_ofNat', Out.val.injEq]
    omega
  refine ⟨key t, fun h => ?_, by rw [key]; decide⟩
  rw [key, Int.emod_eq_of_lt h.1 h.2]

end GoNostr.SdkKeys
