import Verif.Nip19.Wellformed
import Verif.Nip49.Theorems
import Verif.Nips.Nip05
import Mathlib.Data.Int.CardIntervalMod
/-!
# C142, C143: making keys (keys.go:14-42), and signers from what a user typed (keyer/lib.go:56-101, nip46/client.go:39-84, nip46/nip46.go:41-56, nip46/wellknownnostrjson.go)
-/

set_option autoImplicit false

namespace GoNostr.KeyMaking

/-! ## New keys -/

/-- The order of the curve's group (`btcec.S256().Params().N`). -/
def order : Nat := 0xFFFFFFFFFFFFFFFFFFFFFFFFFFFFFFFEBAAEDCE6AF48A03BBFD25E8CD0364141

/-- `big.Int.SetBytes`. -/
def beVal (b : Bytes) : Nat := b.foldl (fun n c => n * 256 + c.toNat) 0

/-- `big.Int.Bytes`: big-endian, without leading zeros. The first argument bounds the steps. -/
def beBytes : Nat → Nat → Bytes
  | 0, _ => []
  | f + 1, n => if n = 0 then [] else beBytes f (n / 256) ++ [UInt8.ofNat (n % 256)]

/-- `fmt.Sprintf("%064x", b)`: zeros in front up to 64 digits. -/
def hex064 (b : Bytes) : Bytes := List.replicate (64 - (hexEnc b).length) 48 ++ hexEnc b

/-- `GeneratePrivateKey` (keys.go:14-29) with the 40 random bytes, or `none` if reading them fails. -/
def generate : Option Bytes → Bytes
  | none => []
  | some b =>
    let k := beVal b % (order - 1) + 1
    hex064 (beBytes k k)

theorem beVal_append (a b : Bytes) : beVal (a ++ b) = beVal a * 256 ^ b.length + beVal b := by
  have gen : ∀ (l : Bytes) (x : Nat), l.foldl (fun n c => n * 256 + c.toNat) x = x * 256 ^ l.length + beVal l := by
    intro l
    induction l with
    | nil => intro x; simp [beVal]
    | cons c l ih =>
      intro x
      unfold beVal
      simp only [List.foldl_cons, List.length_cons]
      rw [ih, ih (0 * 256 + c.toNat), Nat.pow_succ]
      ring
  rw [beVal, List.foldl_append, gen b]
  rfl

theorem beVal_lt (b : Bytes) : beVal b < 256 ^ b.length := by
  induction b with
  | nil => simp [beVal]
  | cons c b ih =>
    have := beVal_append [c] b
    rw [List.singleton_append] at this
    rw [this, List.length_cons, Nat.pow_succ]
    have h1 : beVal [c] = c.toNat := by simp [beVal]
    have h2 := c.toNat_lt
    rw [h1]
    have : (c.toNat + 1) * 256 ^ b.length ≤ 256 * 256 ^ b.length := Nat.mul_le_mul_right _ (by omega)
    calc c.toNat * 256 ^ b.length + beVal b < c.toNat * 256 ^ b.length + 256 ^ b.length := by omega
      _ = (c.toNat + 1) * 256 ^ b.length := by ring
      _ ≤ _ := by rw [Nat.mul_comm (256 ^ b.length)]; exact this

theorem beVal_beBytes : ∀ (f n : Nat), n ≤ f → beVal (beBytes f n) = n := by
  intro f
  induction f with
  | zero => intro n h; have : n = 0 := by omega
            subst this; rfl
  | succ f ih =>
    intro n h
    unfold beBytes
    split
    · next h0 => subst h0; rfl
    · rw [beVal_append, ih (n / 256) (by omega)]
      simp [beVal]
      omega

theorem beBytes_length : ∀ (f n m : Nat), n < 256 ^ m → (beBytes f n).length ≤ m := by
  intro f
  induction f with
  | zero => intro n m _; simp [beBytes]
  | succ f ih =>
    intro n m h
    unfold beBytes
    split
    · simp
    · cases m with
      | zero => simp at h; omega
      | succ m =>
        have := ih (n / 256) m (by rw [Nat.pow_succ] at h; omega)
        simp; omega

theorem hexEnc_append (a b : Bytes) : hexEnc (a ++ b) = hexEnc a ++ hexEnc b := by
  induction a with
  | nil => rfl
  | cons x a ih => simp only [List.cons_append, hexEnc, ih]

theorem hexEnc_zeros (n : Nat) : hexEnc (List.replicate n 0) = List.replicate (2 * n) 48 := by
  induction n with
  | zero => rfl
  | succ n ih =>
    have : List.replicate (n + 1) (0 : UInt8) = [0] ++ List.replicate n 0 := rfl
    rw [this, hexEnc_append, ih, show 2 * (n + 1) = 2 + 2 * n by omega, List.replicate_add]
    rfl

theorem hex064_eq (b : Bytes) (h : b.length ≤ 32) : hex064 b = hexEnc (List.replicate (32 - b.length) 0 ++ b) := by
  unfold hex064
  rw [hexEnc_append, hexEnc_zeros, length_hexEnc]
  congr 2
  omega

theorem beVal_zeros (n : Nat) (b : Bytes) : beVal (List.replicate n 0 ++ b) = beVal b := by
  induction n with
  | zero => rfl
  | succ n ih =>
    have : List.replicate (n + 1) (0 : UInt8) ++ b = [0] ++ (List.replicate n 0 ++ b) := rfl
    rw [this, beVal_append, ih]
    simp [beVal]

/-- The key a number stands for: its 32 bytes in hexadecimal. -/
theorem generate_spec (b : Bytes) : ∃ kb : Bytes, kb.length = 32 ∧ generate (some b) = hexEnc kb ∧ beVal kb = beVal b % (order - 1) + 1 := by
  have hk : beVal b % (order - 1) + 1 < 256 ^ 32 := by
    have : beVal b % (order - 1) < order - 1 := Nat.mod_lt _ (by decide)
    have : order < 256 ^ 32 := by decide
    omega
  have hl := beBytes_length (beVal b % (order - 1) + 1) _ 32 hk
  refine ⟨_, ?_, hex064_eq _ hl, ?_⟩
  · simp; omega
  · rw [beVal_zeros, beVal_beBytes _ _ (Nat.le_refl _)]

/-- **C142 (a new key is a key).** Whatever the random bytes: 64 lower case hexadecimal digits of a number from 1 to the group's order minus one. -/
theorem C142_valid (b : Bytes) : isValid32ByteHex (generate (some b)) = true ∧ ∃ kb, hexDec (generate (some b)) = some kb ∧ 1 ≤ beVal kb ∧ beVal kb < order := by
  obtain ⟨kb, h1, h2, h3⟩ := generate_spec b
  have : beVal b % (order - 1) < order - 1 := Nat.mod_lt _ (by decide)
  refine ⟨(C19_accepts_encodings _).2 ⟨kb, h1, h2⟩, kb, by rw [h2, hexDec_hexEnc], by omega, by omega⟩

theorem beVal_inj {a b : Bytes} (hl : a.length = b.length) (h : beVal a = beVal b) : a = b := by
  induction a generalizing b with
  | nil => cases b with
    | nil => rfl
    | cons _ _ => simp at hl
  | cons x a ih => cases b with
    | nil => simp at hl
    | cons y b =>
      have hl' : a.length = b.length := by simpa using hl
      have e1 := beVal_append [x] a
      have e2 := beVal_append [y] b
      rw [List.singleton_append] at e1 e2
      rw [e1, e2, hl'] at h
      have ha := beVal_lt a
      rw [hl'] at ha
      have hb := beVal_lt b
      have hx : beVal [x] = x.toNat := by simp [beVal]
      have hy : beVal [y] = y.toNat := by simp [beVal]
      rw [hx, hy] at h
      have hxy : x.toNat = y.toNat := by
        have d1 : (x.toNat * 256 ^ b.length + beVal a) / 256 ^ b.length = x.toNat := by
          rw [Nat.mul_comm, Nat.mul_add_div (Nat.pow_pos (by decide)), Nat.div_eq_of_lt ha]; omega
        have d2 : (y.toNat * 256 ^ b.length + beVal b) / 256 ^ b.length = y.toNat := by
          rw [Nat.mul_comm, Nat.mul_add_div (Nat.pow_pos (by decide)), Nat.div_eq_of_lt hb]; omega
        rw [h, d2] at d1
        exact d1.symm
      rw [UInt8.toNat_inj.1 hxy, ih hl' (by rw [hxy] at h; omega)]

/-- `m` bytes with the number `x`. -/
def fixed (m x : Nat) : Bytes := List.replicate (m - (beBytes x x).length) 0 ++ beBytes x x

theorem fixed_spec {m x : Nat} (h : x < 256 ^ m) : (fixed m x).length = m ∧ beVal (fixed m x) = x := by
  have := beBytes_length x x m h
  refine ⟨by simp [fixed]; omega, ?_⟩
  unfold fixed
  rw [beVal_zeros, beVal_beBytes _ _ (Nat.le_refl _)]

theorem fixed_beVal (b : Bytes) : fixed b.length (beVal b) = b := by
  have := fixed_spec (beVal_lt b)
  exact beVal_inj this.1 this.2

/-- How many of the 2^320 possible random inputs lead to a key. By `fixed_spec` and `fixed_beVal` the inputs of 40 bytes are the numbers below 256^40. -/
def inputsFor (sk : Bytes) : Nat := Nat.count (fun x => generate (some (fixed 40 x)) = sk) (256 ^ 40)

theorem inputsFor_eq {kb : Bytes} (hl : kb.length = 32) (h1 : 1 ≤ beVal kb) (h2 : beVal kb < order) :
    inputsFor (hexEnc kb) = 256 ^ 40 / (order - 1) + if beVal kb - 1 < 256 ^ 40 % (order - 1) then 1 else 0 := by
  show Nat.count _ _ = _
  generalize hN : 256 ^ 40 = N
  have hcong : Nat.count (fun x => generate (some (fixed 40 x)) = hexEnc kb) N = Nat.count (· ≡ beVal kb - 1 [MOD (order - 1)]) N := by
    rw [Nat.count_eq_card_filter_range, Nat.count_eq_card_filter_range]
    congr 1
    apply Finset.filter_congr
    intro x hx
    rw [Finset.mem_range, ← hN] at hx
    obtain ⟨kb', g1, g2, g3⟩ := generate_spec (fixed 40 x)
    rw [(fixed_spec hx).2] at g3
    have hlt : x % (order - 1) < order - 1 := Nat.mod_lt _ (by decide)
    rw [g2]
    unfold Nat.ModEq
    rw [Nat.mod_eq_of_lt (show beVal kb - 1 < order - 1 by omega)]
    constructor
    · intro he
      have : kb' = kb := by
        have := congrArg hexDec he
        rw [hexDec_hexEnc, hexDec_hexEnc] at this
        exact Option.some.inj this
      subst this
      omega
    · intro he
      rw [beVal_inj (g1.trans hl.symm) (by omega)]
  rw [hcong, Nat.count_modEq_card _ (by decide), Nat.mod_eq_of_lt (show beVal kb - 1 < order - 1 by omega)]

/-- **C142 (all keys alike).** Every valid key is made from at least 2^64 of the possible random inputs, and two keys from numbers of inputs that differ by at most one. -/
theorem C142_even (sk sk' kb kb' : Bytes) (h : sk = hexEnc kb) (h' : sk' = hexEnc kb') (hl : kb.length = 32) (hl' : kb'.length = 32)
    (hk : 1 ≤ beVal kb ∧ beVal kb < order) (hk' : 1 ≤ beVal kb' ∧ beVal kb' < order) : inputsFor sk ≤ inputsFor sk' + 1 ∧ 2 ^ 64 ≤ inputsFor sk := by
  subst h; subst h'
  rw [inputsFor_eq hl hk.1 hk.2, inputsFor_eq hl' hk'.1 hk'.2]
  constructor
  · split <;> split <;> omega
  · have : 2 ^ 64 ≤ 256 ^ 40 / (order - 1) := by decide
    omega

/-- **C142 is false if there is no randomness.** Then the key is the empty text, which is none. -/
theorem C142_no_randomness : generate none = [] ∧ isValid32ByteHex (generate none) = false := ⟨rfl, by decide⟩

example : generate (some (List.replicate 39 0 ++ [6])) = List.replicate 63 48 ++ [55] := by decide +kernel
example : (1 ≤ beVal (List.replicate 32 7) ∧ beVal (List.replicate 32 7) < order) := by decide +kernel

/-! ## A signer from a text -/

/-- What `url.Parse` finds: scheme, host, raw query, and of the query the first "secret" and all of "relay". -/
structure Url where
  scheme : Bytes
  host : Bytes
  rawQuery : Bytes
  secret : Bytes
  relays : List Bytes
  deriving DecidableEq, Repr

/-- What is not modelled: `url.Parse`, `schnorr.ParsePubKey`, the primitives of NIP-49, `GetPublicKey` (empty on an error), the web server's answer (the name's key, if any, and its
relays), and whether the remote signer says yes to "connect". -/
structure Env where
  url : Bytes → Option Url
  parsePub : Bytes → Bool
  prims : Nip49.Prims
  pub : Bytes → Bytes
  wellKnown : Bytes → Option (Bytes × List Bytes)
  accepts : Bytes → List Bytes → Bytes → Bool

/-- The signer made. -/
inductive Made where
  | plain (sec pk : Bytes)
  | encrypted (code : Bytes)
  | bunker (target : Bytes) (relays : List Bytes)
  deriving DecidableEq, Repr

/-- `strings.Contains`. -/
def contains (sub : Bytes) : Bytes → Bool
  | [] => sub.isEmpty
  | c :: s => sub.isPrefixOf (c :: s) || contains sub s

/-- `IsValidBunkerURL` (nip46.go:41-56). -/
def isValidBunkerURL (env : Env) (input : Bytes) : Bool := match env.url input with
  | none => false
  | some p => decide (p.scheme = b! "bunker") && isValidPublicKey env.parsePub p.host && contains (b! "relay=") p.rawQuery

/-- `ConnectBunker` (client.go:39-84). A name without relays is no error (wellknownnostrjson.go:20-23 tests the wrong variable). -/
def connectBunker (env : Env) (input : Bytes) : Res Unit Made := match env.url input with
  | none => .err ()
  | some p =>
    let found : Option (Bytes × List Bytes) :=
      if p.scheme = [] then env.wellKnown input else if p.scheme = b! "bunker" then some (p.host, p.relays) else none
    match found with
    | none => .err ()
    | some (target, relays) =>
      if ¬ isValidPublicKey env.parsePub target then .err ()
      else if env.accepts target relays p.secret then .ok (.bunker target relays) else .err ()

/-- The zeros put in front (lib.go:95). -/
def fill (input : Bytes) : Bytes := List.replicate (64 - input.length) 48 ++ input

/-- `keyer.New` (lib.go:56-101), with a password handler or a password. -/
def new (env : Env) (handler : Bool) (password input : Bytes) : Res Unit Made :=
  if (b! "ncryptsec").isPrefixOf input then
    if handler then .ok (.encrypted input)
    else match Nip49.decrypt env.prims input password with
      | .ok sec => .ok (.plain sec (env.pub sec))
      | .err _ => .err ()
      | .panic => .panic
  else if isValidBunkerURL env input || Nip05.isValidIdentifier input then connectBunker env input
  else
    let hex : Res Unit Made := if (hexDec input).isSome ∧ input.length ≤ 64 then .ok (.plain (fill input) (env.pub (fill input))) else .err ()
    match Nip19.decode input with
    | .panic => .panic
    | .err _ => hex
    | .ok (pre, v) =>
      if pre = b! "nsec" then match v with
        | .str sec => .ok (.plain sec (env.pub sec))
        | _ => .panic
      else hex

/-- What is asked of `url.Parse`: a text without a colon has no scheme. -/
def Env.Colon (env : Env) : Prop := ∀ s u, (58 : UInt8) ∉ s → env.url s = some u → u.scheme = []

theorem split_no {sep : UInt8} : ∀ {s : Bytes}, sep ∉ s → Nip05.split sep s = [s] := by
  intro s
  induction s with
  | nil => intro _; rfl
  | cons c s ih =>
    intro h
    rw [List.mem_cons, not_or] at h
    unfold Nip05.split
    rw [if_neg (fun e => h.1 e.symm), ih h.2]

theorem split_mem {sep : UInt8} : ∀ {s p : Bytes}, p ∈ Nip05.split sep s → ∀ c ∈ p, c ∈ s := by
  intro s
  induction s with
  | nil => intro p hp c hc; simp [Nip05.split] at hp; subst hp; cases hc
  | cons x s ih =>
    intro p hp c hc
    unfold Nip05.split at hp
    split at hp
    · rcases List.mem_cons.1 hp with rfl | hp
      · cases hc
      · exact List.mem_cons_of_mem _ (ih hp c hc)
    · split at hp
      · simp only [List.mem_singleton] at hp
        subst hp
        rw [List.mem_singleton] at hc; subst hc; simp
      · next q qs he =>
        rcases List.mem_cons.1 hp with rfl | hp
        · rcases List.mem_cons.1 hc with rfl | hc
          · simp
          · exact List.mem_cons_of_mem _ (ih (by rw [he]; simp) c hc)
        · exact List.mem_cons_of_mem _ (ih (by rw [he]; exact List.mem_cons_of_mem _ hp) c hc)

/-- A text without a dot is no NIP-05 identifier. -/
theorem no_dot {s : Bytes} (h : (46 : UInt8) ∉ s) : Nip05.isValidIdentifier s = false := by
  have hd : ∀ d ∈ Nip05.split 64 s, Nip05.domainOk d = false := by
    intro d hd
    unfold Nip05.domainOk
    rw [split_no (fun hh => h (split_mem hd _ hh))]
    rfl
  unfold Nip05.isValidIdentifier Nip05.parseIdentifier
  split
  · next d he => rw [hd d (by rw [he]; simp)]; rfl
  · next n d he => rw [hd d (by rw [he]; simp)]; simp
  · rfl

theorem no_colon {env : Env} (hc : env.Colon) {s : Bytes} (h : (58 : UInt8) ∉ s) : isValidBunkerURL env s = false := by
  unfold isValidBunkerURL
  split
  · rfl
  · next p hp => rw [hc s p h hp]; rfl

theorem toChars_mem : ∀ {l : List Nat} {r : Bytes}, Nip19.toChars l = some r → ∀ c ∈ r, c ∈ Nip19.charset := by
  intro l
  induction l with
  | nil => intro r h; simp [Nip19.toChars] at h; subst h; simp
  | cons v l ih =>
    intro r h c hc
    unfold Nip19.toChars at h
    split at h
    · next x y hx hy =>
      injection h with h; subst h
      rcases List.mem_cons.1 hc with rfl | hc
      · exact List.mem_of_getElem? hx
      · exact ih hy c hc
    · cases h

/-- A code is its prefix, 1, and letters of the alphabet. -/
theorem code_shape {pre data code : Bytes} (h : Nip19.encodeData pre data = .ok code) (hp : pre.map Nip19.lowerByte = pre) :
    ∃ r, code = pre ++ 49 :: r ∧ ∀ c ∈ r, c ∈ Nip19.charset := by
  unfold Nip19.encodeData at h
  cases hb : Nip19.convertBits (Nip19.nats data) 8 5 true with
  | panic => rw [hb] at h; simp at h
  | err e => rw [hb] at h; simp at h
  | ok bits =>
    rw [hb, Res.ok_bind] at h
    unfold Nip19.bechEncode at h
    simp only [hp] at h
    split at h
    · next d s hd hs =>
      injection h with h
      refine ⟨d ++ s, by rw [← h]; simp, fun c hc => ?_⟩
      rcases List.mem_append.1 hc with hc | hc
      · exact toChars_mem hd c hc
      · exact toChars_mem hs c hc
    · cases h

theorem code_no {pre data code : Bytes} (h : Nip19.encodeData pre data = .ok code) (hp : pre.map Nip19.lowerByte = pre) {x : UInt8} (h1 : x ∉ pre) (h2 : x ≠ 49) (h3 : x ∉ Nip19.charset) :
    x ∉ code := by
  obtain ⟨r, rfl, hr⟩ := code_shape h hp
  intro hx
  rcases List.mem_append.1 hx with hx | hx
  · exact h1 hx
  · rcases List.mem_cons.1 hx with hx | hx
    · exact h2 hx
    · exact h3 (hr x hx)

/-- **C143 (nsec).** The code of a private key gives a signer with that key, and the public key that belongs to it. -/
theorem C143_nsec (env : Env) (hc : env.Colon) (handler : Bool) (password sk : Bytes) (h : Nip19.IsHex32 sk) :
    ∃ code, Nip19.encodePrivateKey sk = .ok code ∧ new env handler password code = .ok (.plain sk (env.pub sk)) := by
  obtain ⟨-, ⟨code, h1, h2⟩, -⟩ := Nip19.C52_keys_roundtrip sk h
  refine ⟨code, h1, ?_⟩
  obtain ⟨b, hb, -⟩ := h.dec
  have h1' : Nip19.encodeData (b! "nsec") b = .ok code := by
    unfold Nip19.encodePrivateKey Nip19.encodeHex at h1
    rw [hb] at h1
    exact h1
  have hlow : (b! "nsec").map Nip19.lowerByte = b! "nsec" := by decide +kernel
  have e1 : (46 : UInt8) ∉ code := code_no h1' hlow (by decide) (by decide) (by decide +kernel)
  have e2 : (58 : UInt8) ∉ code := code_no h1' hlow (by decide) (by decide) (by decide +kernel)
  have e3 : (b! "ncryptsec").isPrefixOf code = false := by
    obtain ⟨r, rfl, -⟩ := code_shape h1' hlow
    rfl
  unfold new
  rw [e3, no_colon hc e2, no_dot e1, h2]
  rfl

/-- **C143 (ncryptsec).** An encrypted key gives, with its password, a signer with that key; with a password handler, a signer that holds just the code. -/
theorem C143_ncryptsec (env : Env) (hP : env.prims.Correct) (sk password salt nonce : Bytes) (logn ksb : UInt8) (h : Nip19.IsHex32 sk)
    (hs : salt.length = 16) (hn : nonce.length = 24) (hkey : (env.prims.getKey password salt logn).isSome) :
    ∃ code, Nip49.encrypt env.prims salt nonce sk password logn ksb = .ok code ∧ new env false password code = .ok (.plain sk (env.pub sk)) ∧
      new env true password code = .ok (.encrypted code) := by
  obtain ⟨code, h1, h2⟩ := Nip49.C59_roundtrip env.prims hP sk password salt nonce logn ksb h hs hn hkey
  have e : (b! "ncryptsec").isPrefixOf code = true := by
    unfold Nip49.encrypt at h1
    split at h1
    · cases h1
    · split at h1
      · cases h1
      · unfold Nip49.encryptBytes at h1
        split at h1
        · cases h1
        · obtain ⟨r, rfl, -⟩ := code_shape h1 (by decide +kernel)
          rfl
  refine ⟨code, h1, ?_, ?_⟩
  · unfold new; rw [e, h2]; rfl
  · unfold new; rw [e]; rfl

theorem hex_chars : ∀ {s b : Bytes}, hexDec s = some b → ∀ c ∈ s, (48 ≤ c ∧ c ≤ 57) ∨ (97 ≤ c ∧ c ≤ 102) ∨ (65 ≤ c ∧ c ≤ 70)
  | [], _, _, c, hc => by cases hc
  | [_], _, h, _, _ => by simp [hexDec] at h
  | x :: y :: rest, b, h, c, hc => by
    have key : ∀ c v, hexVal c = some v → (48 ≤ c ∧ c ≤ 57) ∨ (97 ≤ c ∧ c ≤ 102) ∨ (65 ≤ c ∧ c ≤ 70) := by
      intro c v h
      unfold hexVal at h
      split at h
      · left; assumption
      · split at h
        · right; left; assumption
        · split at h
          · right; right; assumption
          · cases h
    unfold hexDec at h
    split at h
    · next vx vy r hx hy hr =>
      rcases List.mem_cons.1 hc with rfl | hc
      · exact key _ _ hx
      · rcases List.mem_cons.1 hc with rfl | hc
        · exact key _ _ hy
        · exact hex_chars hr c hc
    · cases h

theorem hex_no {s b : Bytes} (h : hexDec s = some b) {x : UInt8} (hx : ¬ ((48 ≤ x ∧ x ≤ 57) ∨ (97 ≤ x ∧ x ≤ 102) ∨ (65 ≤ x ∧ x ≤ 70))) : x ∉ s :=
  fun hm => hx (hex_chars h x hm)

theorem hexDec_zeros {s b : Bytes} (h : hexDec s = some b) : ∀ n, hexDec (List.replicate (2 * n) 48 ++ s) = some (List.replicate n 0 ++ b) := by
  intro n
  induction n with
  | zero => simpa using h
  | succ n ih =>
    have : List.replicate (2 * (n + 1)) (48 : UInt8) ++ s = 48 :: 48 :: (List.replicate (2 * n) 48 ++ s) := by
      rw [show 2 * (n + 1) = 2 * n + 1 + 1 by omega]; rfl
    rw [this, hexDec, ih]
    rfl

theorem hexDec_len : ∀ {s b : Bytes}, hexDec s = some b → s.length = 2 * b.length
  | [], b, h => by simp [hexDec] at h; subst h; rfl
  | [_], _, h => by simp [hexDec] at h
  | x :: y :: rest, b, h => by
    unfold hexDec at h
    split at h
    · next vx vy r hx hy hr =>
      injection h with h
      subst h
      have := hexDec_len hr
      simp; omega
    · cases h

/-- Hexadecimal digits are no code of another kind. -/
theorem hex_decode {s b : Bytes} (h : hexDec s = some b) : Nip19.decode s = .err () := by
  unfold Nip19.decode
  cases hb : Nip19.bechDecode s with
  | panic => exact absurd hb (Nip19.bechDecode_no_panic _)
  | err e => rfl
  | ok q =>
    obtain ⟨pre, bits⟩ := q
    rw [Res.ok_bind]
    show (Nip19.convertBits bits 5 8 false >>= fun data => Nip19.decodeData pre (Nip19.bytesOf data)) = _
    have hpre : ∀ c ∈ pre, c ≠ 110 := by
      intro c hc
      have hex : ∃ one, pre = (s.map Nip19.lowerByte).take one := by
        unfold Nip19.bechDecode at hb
        split at hb
        · cases hb
        split at hb
        · cases hb
        split at hb
        · cases hb
        simp only at hb
        split at hb
        · cases hb
        · next one _ =>
          split at hb
          · cases hb
          split at hb
          · cases hb
          split at hb
          · injection hb with hb
            exact ⟨one, (congrArg Prod.fst hb).symm⟩
          · cases hb
      obtain ⟨one, hex⟩ := hex
      rw [hex] at hc
      obtain ⟨x, hx, rfl⟩ := List.mem_map.1 (List.mem_of_mem_take hc)
      have hxr := hex_chars h x hx
      revert hxr
      have : ∀ x : UInt8, (48 ≤ x ∧ x ≤ 57) ∨ (97 ≤ x ∧ x ≤ 102) ∨ (65 ≤ x ∧ x ≤ 70) → Nip19.lowerByte x ≠ 110 := by decide +kernel
      exact this x
    cases hc : Nip19.convertBits bits 5 8 false with
    | panic =>
      unfold Nip19.convertBits at hc
      simp only at hc
      (repeat' split at hc) <;> cases hc
    | err e => rfl
    | ok data =>
      rw [Res.ok_bind]
      have : ∀ p : Bytes, (110 : UInt8) ∈ p → pre ≠ p := fun p hp he => hpre 110 (he ▸ hp) rfl
      unfold Nip19.decodeData
      rw [if_neg (by rintro (h | h | h) <;> exact this _ (by decide) h), if_neg (this _ (by decide)), if_neg (this _ (by decide)), if_neg (this _ (by decide))]

/-- **C143 (hexadecimal).** Up to 64 hexadecimal digits, in an even number, give a signer whose key are those bytes, with zeros in front. -/
theorem C143_hex (env : Env) (hc : env.Colon) (handler : Bool) (password input b : Bytes) (h : hexDec input = some b) (hl : b.length ≤ 32) :
    ∃ sec, new env handler password input = .ok (.plain sec (env.pub sec)) ∧ sec.length = 64 ∧ hexDec sec = some (List.replicate (32 - b.length) 0 ++ b) := by
  have hlen := hexDec_len h
  have e3 : (b! "ncryptsec").isPrefixOf input = false := by
    cases input with
    | nil => rfl
    | cons c s =>
      have : c ≠ 110 := fun he => hex_no h (x := 110) (by decide) (he ▸ List.mem_cons_self)
      show ((110 : UInt8) == c && _) = false
      rw [beq_false_of_ne (fun he => this he.symm)]
      rfl
  refine ⟨fill input, ?_, by simp [fill]; omega, ?_⟩
  · unfold new
    rw [e3, no_colon hc (hex_no h (by decide)), no_dot (hex_no h (by decide)), hex_decode h]
    simp only [h, Bool.false_eq_true, if_false, Bool.or_self, Option.isSome_some, true_and]
    rw [if_pos (by omega)]
  · unfold fill
    rw [show 64 - input.length = 2 * (32 - b.length) by omega]
    exact hexDec_zeros h _

/-- **C143 (remote).** The url of a remote signer gives one that talks to the key it names, over the relays it names, if that key is valid and agrees to the connection; otherwise there is an error. -/
theorem C143_bunker (env : Env) (handler : Bool) (password input : Bytes) (u : Url) (hn : (b! "ncryptsec").isPrefixOf input = false) (h : env.url input = some u)
    (hs : u.scheme = b! "bunker") (hv : isValidPublicKey env.parsePub u.host = true) (hr : contains (b! "relay=") u.rawQuery = true) :
    new env handler password input = if env.accepts u.host u.relays u.secret then .ok (.bunker u.host u.relays) else .err () := by
  unfold new
  have : isValidBunkerURL env input = true := by unfold isValidBunkerURL; rw [h]; simp [hs, hv, hr]
  rw [hn, this]
  simp only [Bool.false_eq_true, if_false, Bool.true_or, if_true]
  unfold connectBunker
  rw [h]
  simp only [hs]
  rw [if_neg (by decide), if_pos True.intro]
  simp only [hv, not_true, if_false]

/-- **C143 (names).** A name gives a signer that talks to the key the name stands for. -/
theorem C143_name_partial (env : Env) (handler : Bool) (password input : Bytes) (u : Url) (hn : (b! "ncryptsec").isPrefixOf input = false) (h : env.url input = some u)
    (hs : u.scheme = []) (hi : Nip05.isValidIdentifier input = true) (target : Bytes) (relays : List Bytes) (hw : env.wellKnown input = some (target, relays)) :
    new env handler password input = if isValidPublicKey env.parsePub target = true ∧ env.accepts target relays u.secret = true then .ok (.bunker target relays) else .err () := by
  unfold new
  rw [hn, hi]
  simp only [Bool.false_eq_true, if_false, Bool.or_true, if_true]
  unfold connectBunker
  rw [h]
  simp only [hs, if_true, hw]
  cases isValidPublicKey env.parsePub target <;> cases env.accepts target relays u.secret <;> simp

/-- **C143 (nothing else).** Every signer made is one of these, its public key is that of its private key, and a remote one has a valid key that agreed. -/
theorem C143_only (env : Env) (handler : Bool) (password input : Bytes) (m : Made) (h : new env handler password input = .ok m) :
    (∃ sec, m = .plain sec (env.pub sec) ∧ (Nip49.decrypt env.prims input password = .ok sec ∨ (Nip19.decode input = .ok (b! "nsec", .str sec) ∧ Nip19.Key64 sec) ∨
      ∃ b, hexDec input = some b ∧ b.length ≤ 32 ∧ hexDec sec = some (List.replicate (32 - b.length) 0 ++ b))) ∨
    (m = .encrypted input ∧ handler = true ∧ (b! "ncryptsec").isPrefixOf input = true) ∨
    (∃ t rs secret, m = .bunker t rs ∧ isValidPublicKey env.parsePub t = true ∧ env.accepts t rs secret = true) := by
  have hexCase : ∀ m, (if (hexDec input).isSome ∧ input.length ≤ 64 then (.ok (.plain (fill input) (env.pub (fill input))) : Res Unit Made) else .err ()) = .ok m →
      ∃ sec, m = .plain sec (env.pub sec) ∧ ∃ b, hexDec input = some b ∧ b.length ≤ 32 ∧ hexDec sec = some (List.replicate (32 - b.length) 0 ++ b) := by
    intro m h
    split at h
    · next hh =>
      injection h with h
      obtain ⟨b, hb⟩ := Option.isSome_iff_exists.1 hh.1
      have := hexDec_len hb
      refine ⟨_, h.symm, b, hb, by omega, ?_⟩
      unfold fill
      rw [show 64 - input.length = 2 * (32 - b.length) by omega]
      exact hexDec_zeros hb _
    · cases h
  unfold new at h
  split at h
  · next hp =>
    split at h
    · next hh => injection h with h; exact .inr (.inl ⟨h.symm, hh, hp⟩)
    · split at h
      · next sec hd => injection h with h; exact .inl ⟨sec, h.symm, .inl hd⟩
      · cases h
      · cases h
  · split at h
    · unfold connectBunker at h
      split at h
      · cases h
      · simp only at h
        split at h
        · cases h
        · split at h
          · cases h
          · next hv =>
            split at h
            · next ha => injection h with h; exact .inr (.inr ⟨_, _, _, h.symm, by simpa using hv, ha⟩)
            · cases h
    · simp only at h
      split at h
      · cases h
      · obtain ⟨sec, h1, h2⟩ := hexCase m h
        exact .inl ⟨sec, h1, .inr (.inr h2)⟩
      · next pre v hd =>
        split at h
        · next hpre =>
          subst hpre
          split at h
          · next sec => injection h with h; exact .inl ⟨sec, h.symm, .inr (.inl ⟨hd, (Nip19.C92_decode_wellformed _ _ _ hd).2⟩)⟩
          · cases h
        · obtain ⟨sec, h1, h2⟩ := hexCase m h
          exact .inl ⟨sec, h1, .inr (.inr h2)⟩

/-- **C143 is false.** The empty text, and zeros, give a signer with a key that is none; a single digit gives none; with a password handler any text that begins like an encrypted key
gives a signer; the name of someone at a domain beginning so gives none, though it is valid. -/
theorem C143_odd (env : Env) (hc : env.Colon) (handler : Bool) (password : Bytes) :
    (∃ sec b, new env handler password [] = .ok (.plain sec (env.pub sec)) ∧ hexDec sec = some b ∧ beVal b = 0) ∧ new env handler password (b! "1") = .err () ∧
    new env true password (b! "ncryptsec") = .ok (.encrypted (b! "ncryptsec")) ∧
    (Nip05.isValidIdentifier (b! "ncryptsec@example.com") = true ∧ new env false password (b! "ncryptsec@example.com") = .err ()) := by
  refine ⟨?_, ?_, rfl, by decide +kernel, ?_⟩
  · obtain ⟨sec, h1, -, h3⟩ := C143_hex env hc handler password [] [] rfl (by decide)
    exact ⟨sec, _, h1, h3, by decide +kernel⟩
  · unfold new
    rw [no_colon hc (by decide), no_dot (by decide)]
    have : Nip19.decode (b! "1") = .err () := by decide +kernel
    rw [this]
    rfl
  · unfold new Nip49.decrypt Nip49.decryptToBytes
    have : Nip19.bechDecode (b! "ncryptsec@example.com") = .err () := by decide +kernel
    rw [this]
    rfl

/-- **C143 (crashes).** There are texts that crash it: an address code with a short kind, and an encrypted key that is empty. -/
theorem C143_panics (env : Env) (hc : env.Colon) (password : Bytes) : (∃ code, new env false password code = .panic ∧ (b! "naddr1").isPrefixOf code = true) ∧
    ∃ code, new env false password code = .panic ∧ (b! "ncryptsec1").isPrefixOf code = true := by
  constructor
  · obtain ⟨code, h1, h2⟩ := Nip19.C54_naddr_short_kind_panics
    have hlow : (b! "naddr").map Nip19.lowerByte = b! "naddr" := by decide +kernel
    obtain ⟨r, hr, -⟩ := code_shape h1 hlow
    have hn : (b! "ncryptsec").isPrefixOf code = false := by rw [hr]; rfl
    refine ⟨code, ?_, by rw [hr]; rfl⟩
    unfold new
    rw [hn, no_colon hc (code_no h1 hlow (by decide) (by decide) (by decide +kernel)), no_dot (code_no h1 hlow (by decide) (by decide) (by decide +kernel)), h2]
    rfl
  · obtain ⟨code, h1, h2⟩ := Nip49.C59_panic_witness env.prims password
    obtain ⟨r, hr, -⟩ := code_shape h1 (by decide +kernel)
    refine ⟨code, ?_, by rw [hr]; rfl⟩
    unfold new
    rw [h2]
    have : (b! "ncryptsec").isPrefixOf code = true := by rw [hr]; rfl
    rw [this]
    rfl

/-- A concrete environment: one url, one name; the remote signer wants the secret "s". -/
def toyEnv : Env where
  url := fun s => if s = b! "bunker://abcd?relay=r1&relay=r2&secret=s" then some ⟨b! "bunker", b! "abcd", b! "relay=r1&relay=r2&secret=s", b! "s", [b! "r1", b! "r2"]⟩
    else if (58 : UInt8) ∈ s then none else some ⟨[], [], [], [], []⟩
  parsePub := fun b => decide (b.length = 2)
  prims := Nip49.samplePrims
  pub := fun s => s.reverse
  wellKnown := fun s => if s = b! "bob@example.com" then some (b! "abcd", []) else none
  accepts := fun _ rs s => s == b! "s" || rs.isEmpty

theorem toyEnv_colon : toyEnv.Colon := by
  intro s u hs h
  simp only [toyEnv] at h
  split at h
  · next he => subst he; exact absurd hs (by decide)
  · injection h with h; rw [← h]

example : new toyEnv false [] (b! "bunker://abcd?relay=r1&relay=r2&secret=s") = .ok (.bunker (b! "abcd") [b! "r1", b! "r2"]) := by decide +kernel
example : new toyEnv false [] (b! "bob@example.com") = .ok (.bunker (b! "abcd") []) := by decide +kernel
example : ∃ sec, new toyEnv false [] (b! "0A") = .ok (.plain sec sec.reverse) ∧ hexDec sec = some (List.replicate 31 0 ++ [10]) := by
  obtain ⟨sec, h1, -, h2⟩ := C143_hex toyEnv toyEnv_colon false [] (b! "0A") [10] (by decide +kernel) (by decide)
  exact ⟨sec, h1, h2⟩
example := C143_nsec toyEnv toyEnv_colon false [] (List.replicate 64 97) (by decide +kernel)
example := C143_ncryptsec toyEnv Nip49.samplePrims_correct (List.replicate 64 97) (b! "pw") (List.replicate 16 1) (List.replicate 24 2) 16 0 (by decide +kernel) rfl rfl rfl

end GoNostr.KeyMaking
