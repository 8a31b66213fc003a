import Verif.Curve.Whole
import Verif.Curve.Points
/-!
# C174: keys from seed words (nip06/nip06.go)

The package is a thin layer over `go-bip39` v1.1.0 and `go-bip32` v1.0.0, which are not in the repository: the functions it calls are modelled from their sources as published. HMAC-SHA512, SHA-256,
PBKDF2 and the word list are parameters.
-/

set_option autoImplicit false

namespace GoNostr.Curve

open KeyMaking (beVal beVal_append beVal_lt)

attribute [local irreducible] fieldP groupN toBE ser scalarOf

noncomputable section

/-! ## Words (bip39) -/

/-- ASCII white space, as `strings.Fields` sees it (white space outside ASCII is left out). -/
def isWs (c : UInt8) : Bool := c == 32 || (9 ≤ c && c ≤ 13)

/-- `strings.Fields`, with the word being read. -/
def fieldsFrom : Bytes → Bytes → List Bytes
  | cur, [] => if cur = [] then [] else [cur]
  | cur, c :: rest => if isWs c then (if cur = [] then fieldsFrom [] rest else cur :: fieldsFrom [] rest) else fieldsFrom (cur ++ [c]) rest

/-- `strings.Fields`. -/
def fields (s : Bytes) : List Bytes := fieldsFrom [] s

/-- `strings.Join(words, " ")`. -/
def joinWords : List Bytes → Bytes
  | [] => []
  | [w] => w
  | w :: ws => w ++ 32 :: joinWords ws

/-- The numbers of the words, 11 bits each, the most significant first (the loop of `NewMnemonic` that shifts by 11 bits). -/
def indices : Nat → Nat → List Nat
  | 0, _ => []
  | k + 1, n => indices k (n / 2048) ++ [n % 2048]

/-- `bip39.NewMnemonic` for the 32 bytes `GenerateSeedWords` (nip06.go:10-22) draws: 256 bits and 8 bits of checksum, 24 words. -/
def newMnemonic (sha : Bytes → Bytes) (list : List Bytes) (entropy : Bytes) : Bytes :=
  joinWords ((indices 24 (beVal entropy * 256 + (sha entropy).head!.toNat)).map (fun i => list.getD i []))

/-- The number behind words: the loop of `EntropyFromMnemonic`; `none` for a word that is not in the list. -/
def numberOf (list : List Bytes) : Nat → List Bytes → Option Nat
  | n, [] => some n
  | n, w :: ws => match list.findIdx? (· == w) with
    | none => none
    | some i => numberOf list (n * 2048 + i) ws

/-- `bip39.EntropyFromMnemonic`: 12, 15, 18, 21 or 24 words, a bit of checksum for every three words. -/
def entropyFromMnemonic (sha : Bytes → Bytes) (list : List Bytes) (s : Bytes) : Option Bytes :=
  let ws := fields s
  let l := ws.length
  if l % 3 = 0 ∧ 12 ≤ l ∧ l ≤ 24 then
    match numberOf list 0 ws with
    | none => none
    | some n =>
      let e := toBE (l / 3 * 4) (n / 2 ^ (l / 3))
      if n % 2 ^ (l / 3) = (sha e).head!.toNat / 2 ^ (8 - l / 3) then some e else none
  else none

/-- `ValidateWords` (nip06.go:53-55): `bip39.IsMnemonicValid`. -/
def validateWords (sha : Bytes → Bytes) (list : List Bytes) (s : Bytes) : Bool := (entropyFromMnemonic sha list s).isSome

/-- `SeedFromWords` (nip06.go:24-26): `bip39.NewSeed(words, "")` is PBKDF2 of the text as it is, with the salt "mnemonic". -/
def seedFromWords (kdf : Bytes → Bytes → Bytes) (words : Bytes) : Bytes := kdf words (b! "mnemonic")

/-! ## Derivation (bip32) -/

/-- `bip32.Key`: the private key and the chain code. -/
structure XKey where
  key : Bytes
  chain : Bytes

/-- `validatePrivateKey`. -/
def validKey (key : Bytes) : Bool := decide (key.length = 32 ∧ beVal key ≠ 0 ∧ beVal key < groupN)

/-- `bip32.NewMasterKey`. -/
def masterKey (hmac : Bytes → Bytes → Bytes) (seed : Bytes) : Option XKey :=
  let i := hmac (b! "Bitcoin seed") seed
  if validKey (i.take 32) then some ⟨i.take 32, i.drop 32⟩ else none

/-- `publicKeyForPrivateKey`. -/
def pubOf (key : Bytes) : Bytes := serC (beVal key • G)

/-- `FirstHardenedChild`. -/
def hardened : Nat := 0x80000000

/-- `getIntermediary`, for a private key. -/
def intermediary (hmac : Bytes → Bytes → Bytes) (k : XKey) (idx : Nat) : Bytes :=
  hmac k.chain ((if idx ≥ hardened then 0 :: k.key else pubOf k.key) ++ toBE 4 idx)

/-- `NewChildKey`, for a private key: the left half is not checked, only the sum. -/
def childKey (hmac : Bytes → Bytes → Bytes) (k : XKey) (idx : Nat) : Option XKey :=
  let i := intermediary hmac k idx
  let key := toBE 32 ((beVal (i.take 32) + beVal k.key) % groupN)
  if validKey key then some ⟨key, i.drop 32⟩ else none

/-- The loop of `PrivateKeyFromSeed` (nip06.go:42-48). -/
def derive (hmac : Bytes → Bytes → Bytes) : XKey → List Nat → Option XKey
  | k, [] => some k
  | k, idx :: rest => match childKey hmac k idx with
    | none => none
    | some k' => derive hmac k' rest

/-- `derivationPath` (nip06.go:34-40). -/
def path : List Nat := [hardened + 44, hardened + 1237, hardened + 0, 0, 0]

/-- `PrivateKeyFromSeed` (nip06.go:28-51). -/
def privateKeyFromSeed (hmac : Bytes → Bytes → Bytes) (seed : Bytes) : Option Bytes :=
  match masterKey hmac seed with
  | none => none
  | some k => match derive hmac k path with
    | none => none
    | some k' => some (hexEnc k'.key)

/-! ## Specification: BIP-32 and NIP-06 -/

/-- "Private parent key → private child key": `(k', c')` is child `i` of `(k, c)`. -/
def Ckd (hmac : Bytes → Bytes → Bytes) (k : Nat) (c : Bytes) (i : Nat) (k' : Nat) (c' : Bytes) : Prop :=
  ∃ l r, hmac c ((if 2 ^ 31 ≤ i then 0 :: toBE 32 k else serC (k • G)) ++ toBE 4 i) = l ++ r ∧ l.length = 32 ∧ beVal l < groupN ∧ k' = (beVal l + k) % groupN ∧ k' ≠ 0 ∧ c' = r

/-- The master key. -/
def IsMaster (hmac : Bytes → Bytes → Bytes) (seed : Bytes) (k : Nat) (c : Bytes) : Prop :=
  ∃ l r, hmac (b! "Bitcoin seed") seed = l ++ r ∧ l.length = 32 ∧ k = beVal l ∧ k ≠ 0 ∧ k < groupN ∧ c = r

/-- The account key `m/44'/1237'/0'`. -/
def IsAccount (hmac : Bytes → Bytes → Bytes) (seed : Bytes) (k : Nat) (c : Bytes) : Prop :=
  ∃ k0 c0 k1 c1 k2 c2, IsMaster hmac seed k0 c0 ∧ Ckd hmac k0 c0 (2 ^ 31 + 44) k1 c1 ∧ Ckd hmac k1 c1 (2 ^ 31 + 1237) k2 c2 ∧ Ckd hmac k2 c2 (2 ^ 31) k c

/-- The key of NIP-06, `m/44'/1237'/0'/0/0`. -/
def IsNip06 (hmac : Bytes → Bytes → Bytes) (seed : Bytes) (k : Nat) : Prop :=
  ∃ ka ca kb cb c, IsAccount hmac seed ka ca ∧ Ckd hmac ka ca 0 kb cb ∧ Ckd hmac kb cb 0 k c

/-- "Public parent key → public child key" for child 0: the child's point and chain code from the parent's point and chain code. -/
def watch (hmac : Bytes → Bytes → Bytes) (P : Pt) (c : Bytes) : Pt × Bytes :=
  let i := hmac c (serC P ++ toBE 4 0)
  (beVal (i.take 32) • G + P, i.drop 32)

/-- A word list: 2048 different words without white space. -/
structure WordList (list : List Bytes) : Prop where
  length : list.length = 2048
  nodup : list.Nodup
  words : ∀ w ∈ list, w ≠ [] ∧ ∀ c ∈ w, isWs c = false

/-! ## Proofs: words -/

theorem fieldsFrom_word {w : Bytes} (h : ∀ c ∈ w, isWs c = false) : ∀ (cur rest : Bytes), fieldsFrom cur (w ++ rest) = fieldsFrom (cur ++ w) rest := by
  induction w with
  | nil => intro cur rest; simp
  | cons c w ih =>
    intro cur rest
    rw [List.cons_append, fieldsFrom, h c List.mem_cons_self]
    simp only [Bool.false_eq_true, if_false]
    rw [ih (fun x hx => h x (List.mem_cons_of_mem _ hx)), List.append_assoc, List.singleton_append]

theorem fields_join : ∀ {ws : List Bytes}, (∀ w ∈ ws, w ≠ [] ∧ ∀ c ∈ w, isWs c = false) → fields (joinWords ws) = ws
  | [], _ => rfl
  | [w], h => by
    obtain ⟨h0, h1⟩ := h w List.mem_cons_self
    have := fieldsFrom_word h1 [] []
    rw [List.append_nil, List.nil_append] at this
    rw [joinWords, fields, this, fieldsFrom, if_neg h0]
  | w :: w' :: ws, h => by
    obtain ⟨h0, h1⟩ := h w List.mem_cons_self
    have ih := fields_join (ws := w' :: ws) (fun x hx => h x (List.mem_cons_of_mem _ hx))
    rw [fields] at ih
    rw [joinWords, fields, fieldsFrom_word h1, List.nil_append, fieldsFrom]
    · simp only [show isWs 32 = true from rfl, if_true]
      rw [if_neg h0, ih]
    · simp

theorem getD_lt {list : List Bytes} {i : Nat} (h : i < list.length) : list.getD i [] = list[i] := by
  rw [List.getD_eq_getElem?_getD, List.getElem?_eq_getElem h, Option.getD_some]

theorem indices_length : ∀ k n : Nat, (indices k n).length = k
  | 0, _ => rfl
  | k + 1, n => by rw [indices, List.length_append, indices_length]; rfl

theorem indices_lt : ∀ (k n : Nat), ∀ i ∈ indices k n, i < 2048
  | 0, _ => by intro i hi; cases hi
  | k + 1, n => by
    intro i hi
    rw [indices, List.mem_append, List.mem_singleton] at hi
    rcases hi with hi | rfl
    · exact indices_lt k _ i hi
    · exact Nat.mod_lt _ (by norm_num)

theorem find_get {list : List Bytes} (hn : list.Nodup) {i : Nat} (hi : i < list.length) : list.findIdx? (· == list[i]) = some i := by
  rw [List.findIdx?_eq_some_iff_getElem]
  refine ⟨hi, by simp, ?_⟩
  intro j hj
  simp only [Bool.not_eq_true, beq_eq_false_iff_ne]
  intro he
  have := (List.Nodup.getElem_inj_iff hn).1 he
  omega

theorem numberOf_append (list : List Bytes) : ∀ (a b : List Bytes) (n : Nat), numberOf list n (a ++ b) = (numberOf list n a).bind (fun m => numberOf list m b)
  | [], b, n => rfl
  | w :: a, b, n => by
    rw [List.cons_append, numberOf, numberOf]
    cases list.findIdx? (· == w) with
    | none => rfl
    | some i => exact numberOf_append list a b _

theorem numberOf_indices {list : List Bytes} (hw : WordList list) : ∀ (k n : Nat), n < 2048 ^ k → numberOf list 0 ((indices k n).map (fun i => list.getD i [])) = some n
  | 0, n, h => by
    have : n = 0 := by simpa using h
    rw [this]; rfl
  | k + 1, n, h => by
    rw [indices, List.map_append, numberOf_append, numberOf_indices hw k (n / 2048) (by rw [pow_succ] at h; exact Nat.div_lt_of_lt_mul (by omega)), Option.bind_some]
    have hi : n % 2048 < list.length := by rw [hw.length]; exact Nat.mod_lt _ (by norm_num)
    simp only [List.map_cons, List.map_nil]
    rw [getD_lt hi, numberOf, find_get hw.nodup hi]
    simp only [numberOf]
    congr 1
    omega

/-- **C174 (round trip).** The words `GenerateSeedWords` makes of any 32 random bytes are valid, and they stand for these bytes: different random bytes never give the same words. -/
theorem C174_words (sha : Bytes → Bytes) (list : List Bytes) (hw : WordList list) (entropy : Bytes) (h : entropy.length = 32) :
    validateWords sha list (newMnemonic sha list entropy) = true ∧ entropyFromMnemonic sha list (newMnemonic sha list entropy) = some entropy := by
  have hc : (sha entropy).head!.toNat < 256 := UInt8.toNat_lt _
  have he := beVal_lt entropy
  rw [h] at he
  generalize hx : (sha entropy).head!.toNat = x at hc
  have key : entropyFromMnemonic sha list (newMnemonic sha list entropy) = some entropy := by
    unfold entropyFromMnemonic newMnemonic
    rw [hx]
    have hf : fields (joinWords ((indices 24 (beVal entropy * 256 + x)).map (fun i => list.getD i []))) = (indices 24 (beVal entropy * 256 + x)).map (fun i => list.getD i []) := by
      refine fields_join ?_
      intro w hm
      obtain ⟨i, hi, rfl⟩ := List.mem_map.1 hm
      have hl : i < list.length := by rw [hw.length]; exact indices_lt _ _ i hi
      rw [getD_lt hl]
      exact hw.words _ (List.getElem_mem hl)
    simp only [hf]
    rw [List.length_map, indices_length, numberOf_indices hw 24 _ (by omega)]
    simp only [show 24 % 3 = 0 ∧ 12 ≤ 24 ∧ 24 ≤ 24 by decide, and_self, if_true]
    have e1 : (beVal entropy * 256 + x) / 2 ^ (24 / 3) = beVal entropy := by norm_num; omega
    have e2 : (beVal entropy * 256 + x) % 2 ^ (24 / 3) = x := by norm_num; omega
    have e3 : toBE (24 / 3 * 4) (beVal entropy) = entropy := by
      have := toBE_beVal entropy
      rwa [h] at this
    rw [e1, e2, e3, hx]
    norm_num
  exact ⟨by rw [validateWords, key]; rfl, key⟩

theorem indices_eq : ∀ k n : Nat, indices k n = (List.range k).map (fun j => n / 2048 ^ (k - 1 - j) % 2048)
  | 0, _ => rfl
  | k + 1, n => by
    rw [indices, indices_eq k, List.range_succ, List.map_append]
    congr 1
    · refine List.map_congr_left ?_
      intro j hj
      rw [List.mem_range] at hj
      rw [Nat.div_div_eq_div_mul, ← pow_succ', show k - 1 - j + 1 = k + 1 - 1 - j by omega]
    · simp

theorem numberOf_words {list : List Bytes} (hw : list.length = 2048) : ∀ (ws : List Bytes) (n : Nat), numberOf list 0 ws = some n →
    n < 2048 ^ ws.length ∧ ws = (indices ws.length n).map (fun i => list.getD i []) := by
  intro ws
  induction ws using List.reverseRecOn with
  | nil => intro n h; cases h; exact ⟨by simp, rfl⟩
  | append_singleton a w ih =>
    intro n h
    rw [numberOf_append] at h
    cases ha : numberOf list 0 a with
    | none => rw [ha] at h; cases h
    | some m =>
      rw [ha, Option.bind_some, numberOf] at h
      obtain ⟨h1, h2⟩ := ih m ha
      cases hf : list.findIdx? (· == w) with
      | none => rw [hf] at h; cases h
      | some i =>
        rw [hf] at h
        simp only [numberOf, Option.some.injEq] at h
        rw [List.findIdx?_eq_some_iff_getElem] at hf
        obtain ⟨hi, he, -⟩ := hf
        rw [hw] at hi
        rw [List.length_append, List.length_singleton, pow_succ, indices, ← h, show (m * 2048 + i) / 2048 = m by omega, show (m * 2048 + i) % 2048 = i by omega, List.map_append, ← h2]
        refine ⟨by omega, ?_⟩
        simp only [List.map_cons, List.map_nil]
        rw [getD_lt (by omega), eq_of_beq he]

/-- **C174 (which words are valid).** A text is valid for some random bytes exactly if it has 12, 15, 18, 21 or 24 words, four bytes for every three words, and they are those BIP-39 defines: 11 bits
each of the random bytes followed by the first bits of their hash. -/
theorem C174_valid_words (sha : Bytes → Bytes) (list : List Bytes) (hw : WordList list) (s e : Bytes) :
    entropyFromMnemonic sha list s = some e ↔ ∃ l ∈ [12, 15, 18, 21, 24], e.length = l / 3 * 4 ∧
      fields s = (List.range l).map (fun j => list.getD ((beVal e * 2 ^ (l / 3) + (sha e).head!.toNat / 2 ^ (8 - l / 3)) / 2048 ^ (l - 1 - j) % 2048) []) := by
  have hmap : ∀ l n : Nat, (List.range l).map (fun j => list.getD (n / 2048 ^ (l - 1 - j) % 2048) []) = (indices l n).map (fun i => list.getD i []) := by
    intro l n
    rw [indices_eq, List.map_map]
    rfl
  unfold entropyFromMnemonic
  simp only
  constructor
  · intro h
    split at h
    · rename_i hl
      cases hn : numberOf list 0 (fields s) with
      | none => rw [hn] at h; cases h
      | some n =>
        rw [hn] at h
        simp only at h
        split at h
        · rename_i hc
          obtain ⟨h1, h2⟩ := numberOf_words hw.length _ n hn
          obtain ⟨q, hq⟩ : ∃ q, (fields s).length = 3 * q := ⟨(fields s).length / 3, by omega⟩
          have hq3 : (fields s).length / 3 = q := by omega
          rw [hq3] at h hc
          have hlt : n / 2 ^ q < 256 ^ (q * 4) := by
            apply Nat.div_lt_of_lt_mul
            refine lt_of_lt_of_eq h1 ?_
            rw [hq, show (2048 : Nat) = 2 ^ 11 from rfl, show (256 : Nat) = 2 ^ 8 from rfl, ← pow_mul, ← pow_mul, ← pow_add]
            congr 1; omega
          have he := Option.some.inj h
          have hb : beVal e = n / 2 ^ q := by rw [← he]; exact beVal_toBE _ _ hlt
          refine ⟨(fields s).length, ?_, ?_, ?_⟩
          · have : q = 4 ∨ q = 5 ∨ q = 6 ∨ q = 7 ∨ q = 8 := by omega
            rw [hq]
            rcases this with rfl | rfl | rfl | rfl | rfl <;> simp
          · rw [← he, toBE_length, hq3]
          · rw [hmap, hq3, hb, ← he, ← hc]
            have : n / 2 ^ q * 2 ^ q + n % 2 ^ q = n := Nat.div_add_mod' n (2 ^ q)
            rw [this]
            exact h2
        · cases h
    · cases h
  · rintro ⟨l, hl, hle, hf⟩
    rw [hmap] at hf
    have hlen : (fields s).length = l := by rw [hf, List.length_map, indices_length]
    obtain ⟨q, rfl, hq4, hq8⟩ : ∃ q, l = 3 * q ∧ 4 ≤ q ∧ q ≤ 8 := by
      simp only [List.mem_cons, List.not_mem_nil, or_false] at hl
      rcases hl with rfl | rfl | rfl | rfl | rfl
      exacts [⟨4, by norm_num⟩, ⟨5, by norm_num⟩, ⟨6, by norm_num⟩, ⟨7, by norm_num⟩, ⟨8, by norm_num⟩]
    have hq3 : 3 * q / 3 = q := by omega
    rw [hq3] at hf hle
    have hc : (sha e).head!.toNat / 2 ^ (8 - q) < 2 ^ q := by
      apply Nat.div_lt_of_lt_mul
      rw [← pow_add, show 8 - q + q = 8 by omega]
      exact UInt8.toNat_lt _
    generalize hx : (sha e).head!.toNat / 2 ^ (8 - q) = x at hc hf
    have he := beVal_lt e
    rw [hle] at he
    have hn : beVal e * 2 ^ q + x < 2048 ^ (3 * q) := by
      have h1 : beVal e * 2 ^ q + x < (beVal e + 1) * 2 ^ q := by rw [Nat.add_mul, Nat.one_mul]; omega
      refine lt_of_lt_of_le h1 (le_trans (Nat.mul_le_mul_right _ he) (le_of_eq ?_))
      rw [show (2048 : Nat) = 2 ^ 11 from rfl, show (256 : Nat) = 2 ^ 8 from rfl, ← pow_mul, ← pow_mul, ← pow_add]
      congr 1; omega
    rw [hlen, if_pos ⟨by omega, by omega, by omega⟩, hf, numberOf_indices hw _ _ hn, hq3]
    simp only
    have e1 : (beVal e * 2 ^ q + x) / 2 ^ q = beVal e := by
      rw [Nat.mul_comm, Nat.mul_add_div (by positivity), Nat.div_eq_of_lt hc, Nat.add_zero]
    have e2 : (beVal e * 2 ^ q + x) % 2 ^ q = x := by rw [Nat.mul_comm, Nat.mul_add_mod, Nat.mod_eq_of_lt hc]
    have e3 : toBE (q * 4) (beVal e) = e := by have := toBE_beVal e; rwa [hle] at this
    rw [e1, e2, e3, hx, if_pos rfl]

/-- Texts with the same words. -/
theorem valid_fields (sha : Bytes → Bytes) (list : List Bytes) {s t : Bytes} (h : fields s = fields t) : validateWords sha list s = validateWords sha list t := by
  unfold validateWords entropyFromMnemonic
  rw [h]

theorem fields_lead (s : Bytes) : fields (32 :: s) = fields s := by
  rw [fields, fieldsFrom]
  rfl

/-- **C174 (refuted: the words decide the key).** Whether words are valid does not depend on the white space around them, but the seed does: with a space in front, the words are the same and as valid as
before, and the seed is that of another text: another one, unless PBKDF2 has a collision on just these two. -/
theorem C174_space_changes_seed (sha : Bytes → Bytes) (list : List Bytes) (hw : WordList list) (entropy : Bytes) (h : entropy.length = 32) (kdf : Bytes → Bytes → Bytes)
    (hk : kdf (newMnemonic sha list entropy) (b! "mnemonic") ≠ kdf (32 :: newMnemonic sha list entropy) (b! "mnemonic")) :
    ∃ s t, fields s = fields t ∧ validateWords sha list s = true ∧ validateWords sha list t = true ∧ entropyFromMnemonic sha list s = entropyFromMnemonic sha list t ∧
      seedFromWords kdf s ≠ seedFromWords kdf t := by
  have hv := (C174_words sha list hw entropy h).1
  refine ⟨newMnemonic sha list entropy, 32 :: newMnemonic sha list entropy, (fields_lead _).symm, hv, ?_, ?_, hk⟩
  · rw [valid_fields sha list (fields_lead _)]; exact hv
  · unfold entropyFromMnemonic
    rw [fields_lead]

/-! ## Proofs: derivation -/

theorem validKey_iff (k : Nat) (h : k < groupN) : validKey (toBE 32 k) = true ↔ k ≠ 0 := by
  have e := beVal_toBE 32 k (h.trans n_lt)
  rw [validKey, decide_eq_true_eq, toBE_length, e]
  exact ⟨fun h => h.2.1, fun h' => ⟨rfl, h', h⟩⟩

theorem child_key {hmac : Bytes → Bytes → Bytes} {k k' : XKey} {i : Nat} (h : childKey hmac k i = some k') : ∃ n, 1 ≤ n ∧ n < groupN ∧ k'.key = toBE 32 n := by
  unfold childKey at h
  simp only at h
  split at h
  · rename_i hv
    cases h
    have hlt : (beVal ((intermediary hmac k i).take 32) + beVal k.key) % groupN < groupN := Nat.mod_lt _ prime_order.pos
    exact ⟨_, Nat.pos_of_ne_zero ((validKey_iff _ hlt).1 hv), hlt, rfl⟩
  · cases h

theorem derive_key {hmac : Bytes → Bytes → Bytes} : ∀ {is : List Nat} {k k' : XKey}, is ≠ [] → derive hmac k is = some k' → ∃ n, 1 ≤ n ∧ n < groupN ∧ k'.key = toBE 32 n
  | [], _, _, h, _ => absurd rfl h
  | i :: is, k, k', _, h => by
    rw [derive] at h
    cases hc : childKey hmac k i with
    | none => rw [hc] at h; cases h
    | some k1 =>
      rw [hc] at h
      cases is with
      | nil => simp only [derive] at h; cases h; exact child_key hc
      | cons j js => exact derive_key (by simp) h

/-- **C174 (valid keys).** Whatever the seed and the hash: a key that is derived is a private key as it should be. With C162, C164 and C165 it has a public key, signs, and agrees on secrets. -/
theorem C174_valid (hmac : Bytes → Bytes → Bytes) (seed sk : Bytes) (h : privateKeyFromSeed hmac seed = some sk) : IsPrivateKey sk := by
  unfold privateKeyFromSeed at h
  cases hm : masterKey hmac seed with
  | none => rw [hm] at h; cases h
  | some k =>
    rw [hm] at h
    dsimp only at h
    cases hd : derive hmac k path with
    | none => rw [hd] at h; cases h
    | some k' =>
      rw [hd] at h
      dsimp only at h
      obtain ⟨n, h1, h2, e⟩ := derive_key (by simp [path]) hd
      exact ⟨n, h1, h2, by rw [← e]; exact (Option.some.inj h).symm⟩

/-- A private key of the code is the number and chain code of the specification. -/
def Repr (k : XKey) (n : Nat) (c : Bytes) : Prop := k.key = toBE 32 n ∧ n ≠ 0 ∧ n < groupN ∧ k.chain = c

theorem master_iff {hmac : Bytes → Bytes → Bytes} (hl : ∀ k m, (hmac k m).length = 64) (seed : Bytes) (x : XKey) : masterKey hmac seed = some x ↔ ∃ n c, IsMaster hmac seed n c ∧ Repr x n c := by
  unfold masterKey IsMaster Repr
  simp only
  generalize hi : hmac (b! "Bitcoin seed") seed = i
  have hlen : i.length = 64 := by rw [← hi]; exact hl _ _
  have ht : (i.take 32).length = 32 := by rw [List.length_take]; omega
  have e : toBE 32 (beVal (i.take 32)) = i.take 32 := by have := toBE_beVal (i.take 32); rwa [ht] at this
  constructor
  · intro h
    split at h
    · rename_i hv
      cases h
      rw [validKey, decide_eq_true_eq] at hv
      exact ⟨_, _, ⟨i.take 32, i.drop 32, (List.take_append_drop _ _).symm, ht, rfl, hv.2.1, hv.2.2, rfl⟩, e.symm, hv.2.1, hv.2.2, rfl⟩
    · cases h
  · rintro ⟨n, r, ⟨l, _, h1, h2, rfl, h4, h5, rfl⟩, h7, -, -, h8⟩
    have h3 : i.take 32 = l := by rw [h1, List.take_append_of_le_length h2.ge, List.take_of_length_le h2.le]
    have h3' : i.drop 32 = r := by rw [h1, List.drop_append_of_le_length h2.ge, List.drop_of_length_le h2.le, List.nil_append]
    rw [h3] at e ht ⊢
    rw [h3']
    have hv : validKey l = true := by rw [validKey, decide_eq_true_eq]; exact ⟨ht, h4, h5⟩
    rw [if_pos hv]
    obtain ⟨xk, xc⟩ := x
    simp only at h7 h8
    rw [h7, h8, e]

theorem child_iff {hmac : Bytes → Bytes → Bytes} (hl : ∀ k m, (hmac k m).length = 64) (hs : ∀ k m, beVal ((hmac k m).take 32) < groupN) {x : XKey} {n : Nat} {c : Bytes} (hx : Repr x n c)
    (i : Nat) (y : XKey) : childKey hmac x i = some y ↔ ∃ n' c', Ckd hmac n c i n' c' ∧ Repr y n' c' := by
  obtain ⟨xk, xc⟩ := x
  obtain ⟨h1, h2, h3, h4⟩ := hx
  simp only at h1 h4
  subst h1 h4
  unfold childKey Ckd Repr
  simp only
  have eb : beVal (toBE 32 n) = n := beVal_toBE 32 n (h3.trans n_lt)
  have ei : intermediary hmac ⟨toBE 32 n, xc⟩ i = hmac xc ((if 2 ^ 31 ≤ i then 0 :: toBE 32 n else serC (n • G)) ++ toBE 4 i) := by
    unfold intermediary pubOf hardened
    rw [eb]
    rfl
  rw [eb, ei]
  have hlt := hs xc ((if 2 ^ 31 ≤ i then 0 :: toBE 32 n else serC (n • G)) ++ toBE 4 i)
  have hlen := hl xc ((if 2 ^ 31 ≤ i then 0 :: toBE 32 n else serC (n • G)) ++ toBE 4 i)
  generalize hmac xc ((if 2 ^ 31 ≤ i then 0 :: toBE 32 n else serC (n • G)) ++ toBE 4 i) = I at hlt hlen ⊢
  have hml : (beVal (I.take 32) + n) % groupN < groupN := Nat.mod_lt _ prime_order.pos
  have ht : (I.take 32).length = 32 := by rw [List.length_take]; omega
  constructor
  · intro h
    split at h
    · rename_i hv
      cases h
      have h0 := (validKey_iff _ hml).1 hv
      exact ⟨_, _, ⟨I.take 32, I.drop 32, (List.take_append_drop _ _).symm, ht, hlt, rfl, h0, rfl⟩, rfl, h0, hml, rfl⟩
    · cases h
  · rintro ⟨n', r, ⟨l, _, e1, e2, -, rfl, e5, rfl⟩, e7, -, -, e8⟩
    have h3 : I.take 32 = l := by rw [e1, List.take_append_of_le_length e2.ge, List.take_of_length_le e2.le]
    have h3' : I.drop 32 = r := by rw [e1, List.drop_append_of_le_length e2.ge, List.drop_of_length_le e2.le, List.nil_append]
    rw [h3] at hml ⊢
    rw [h3', if_pos ((validKey_iff _ hml).2 e5)]
    obtain ⟨yk, yc⟩ := y
    simp only at e7 e8
    rw [e7, e8]

theorem derive_cons_iff {hmac : Bytes → Bytes → Bytes} (x y : XKey) (i : Nat) (is : List Nat) : derive hmac x (i :: is) = some y ↔ ∃ z, childKey hmac x i = some z ∧ derive hmac z is = some y := by
  rw [derive]
  cases childKey hmac x i with
  | none => simp
  | some z => simp

/-- **C174 (BIP-32).** For a hash of 64 bytes whose left halves are below the order (they are, but for one in 2^127, and BIP-32 makes the exception an error): the key is exactly the one NIP-06 and
BIP-32 say, and there is none exactly if they say there is none. -/
theorem C174_bip32 (hmac : Bytes → Bytes → Bytes) (hl : ∀ k m, (hmac k m).length = 64) (hs : ∀ k m, beVal ((hmac k m).take 32) < groupN) (seed sk : Bytes) :
    privateKeyFromSeed hmac seed = some sk ↔ ∃ k, IsNip06 hmac seed k ∧ sk = hexEnc (toBE 32 k) := by
  have step : ∀ {x : XKey} {n : Nat} {c : Bytes} (i : Nat) (is : List Nat) (y : XKey), Repr x n c →
      (derive hmac x (i :: is) = some y ↔ ∃ n' c' z, Ckd hmac n c i n' c' ∧ Repr z n' c' ∧ derive hmac z is = some y) := by
    intro x n c i is y hx
    rw [derive_cons_iff]
    constructor
    · rintro ⟨z, h1, h2⟩
      obtain ⟨n', c', h3, h4⟩ := (child_iff hl hs hx i z).1 h1
      exact ⟨n', c', z, h3, h4, h2⟩
    · rintro ⟨n', c', z, h3, h4, h2⟩
      exact ⟨z, (child_iff hl hs hx i z).2 ⟨n', c', h3, h4⟩, h2⟩
  have mk : ∀ {n : Nat} {c : Bytes} {i n' : Nat} {c' : Bytes}, Ckd hmac n c i n' c' → ∃ z, Repr z n' c' := by
    rintro n c i n' c' ⟨l, r, -, -, -, rfl, h0, rfl⟩
    exact ⟨⟨_, _⟩, rfl, h0, Nat.mod_lt _ prime_order.pos, rfl⟩
  have e : privateKeyFromSeed hmac seed = some sk ↔ ∃ x y, masterKey hmac seed = some x ∧ derive hmac x path = some y ∧ sk = hexEnc y.key := by
    unfold privateKeyFromSeed
    cases masterKey hmac seed with
    | none => simp
    | some x =>
      cases hd : derive hmac x path with
      | none => simp [hd]
      | some y => simp [hd, eq_comm]
  rw [e]
  constructor
  · rintro ⟨x, y, hm, hd, rfl⟩
    obtain ⟨k0, c0, m0, r0⟩ := (master_iff hl seed x).1 hm
    obtain ⟨k1, c1, z1, d1, r1, hd⟩ := (step _ _ _ r0).1 hd
    obtain ⟨k2, c2, z2, d2, r2, hd⟩ := (step _ _ _ r1).1 hd
    obtain ⟨k3, c3, z3, d3, r3, hd⟩ := (step _ _ _ r2).1 hd
    obtain ⟨k4, c4, z4, d4, r4, hd⟩ := (step _ _ _ r3).1 hd
    obtain ⟨k5, c5, z5, d5, r5, hd⟩ := (step _ _ _ r4).1 hd
    rw [derive] at hd
    cases hd
    exact ⟨k5, ⟨k3, c3, k4, c4, c5, ⟨k0, c0, k1, c1, k2, c2, m0, d1, d2, d3⟩, d4, d5⟩, by rw [r5.1]⟩
  · rintro ⟨k5, ⟨k3, c3, k4, c4, c5, ⟨k0, c0, k1, c1, k2, c2, m0, d1, d2, d3⟩, d4, d5⟩, rfl⟩
    have r0' : ∃ x, Repr x k0 c0 := by
      obtain ⟨l, r, -, -, h1, h2, h3, rfl⟩ := m0
      exact ⟨⟨_, _⟩, rfl, h2, h3, rfl⟩
    obtain ⟨x, r0⟩ := r0'
    obtain ⟨z1, r1⟩ := mk d1
    obtain ⟨z2, r2⟩ := mk d2
    obtain ⟨z3, r3⟩ := mk d3
    obtain ⟨z4, r4⟩ := mk d4
    obtain ⟨z5, r5⟩ := mk d5
    refine ⟨x, z5, (master_iff hl seed x).2 ⟨k0, c0, m0, r0⟩, ?_, by rw [r5.1]⟩
    exact (step _ _ _ r0).2 ⟨_, _, z1, d1, r1, (step _ _ _ r1).2 ⟨_, _, z2, d2, r2, (step _ _ _ r2).2 ⟨_, _, z3, d3, r3, (step _ _ _ r3).2 ⟨_, _, z4, d4, r4,
      (step _ _ _ r4).2 ⟨_, _, z5, d5, r5, rfl⟩⟩⟩⟩⟩

/-- One step on the public side. -/
theorem watch_step {hmac : Bytes → Bytes → Bytes} {k : Nat} {c : Bytes} {k' : Nat} {c' : Bytes} (h : Ckd hmac k c 0 k' c') : watch hmac (k • G) c = (k' • G, c') := by
  obtain ⟨l, r, e1, e2, -, rfl, -, hr⟩ := h
  rw [if_neg (by norm_num)] at e1
  unfold watch
  simp only
  have h3 : (l ++ r).take 32 = l := by rw [List.take_append_of_le_length e2.ge, List.take_of_length_le e2.le]
  have h3' : (l ++ r).drop 32 = r := by rw [List.drop_append_of_le_length e2.ge, List.drop_of_length_le e2.le, List.nil_append]
  rw [e1, h3, h3', mod_smul, add_smul, hr]

/-- **C174 (watching).** The public key of the user follows from the public key and the chain code of the account alone. -/
theorem C174_watched (hmac : Bytes → Bytes → Bytes) (hl : ∀ k m, (hmac k m).length = 64) (hs : ∀ k m, beVal ((hmac k m).take 32) < groupN) (L : Lib) (seed sk : Bytes)
    (h : privateKeyFromSeed hmac seed = some sk) : ∃ ka ca, IsAccount hmac seed ka ca ∧
      getPublicKey (bip340 L) sk = some (hexEnc (ser (watch hmac (watch hmac (ka • G) ca).1 (watch hmac (ka • G) ca).2).1)) := by
  obtain ⟨k, ⟨ka, ca, kb, cb, c, ha, d1, d2⟩, rfl⟩ := (C174_bip32 hmac hl hs seed sk).1 h
  refine ⟨ka, ca, ha, ?_⟩
  rw [watch_step d1]
  simp only
  rw [watch_step d2, pub_eq, hexDec_hexEnc]
  have hk : k < groupN := by
    obtain ⟨l, r, -, -, -, rfl, -⟩ := d2
    exact Nat.mod_lt _ prime_order.pos
  rw [Option.map_some, scalarOf_toBE hk]

/-! ## Examples -/

/-- A word list of two characters a word. -/
def list2 : List Bytes := (List.range 2048).map (fun i => [UInt8.ofNat (64 + i / 64), UInt8.ofNat (64 + i % 64)])

theorem list2_ok : WordList list2 := by
  refine ⟨by simp [list2], ?_, ?_⟩
  · unfold list2
    refine List.Nodup.map_on ?_ List.nodup_range
    intro a ha b hb h
    rw [List.mem_range] at ha hb
    simp only [List.cons.injEq, and_true] at h
    have h1 := congrArg UInt8.toNat h.1
    have h2 := congrArg UInt8.toNat h.2
    simp only [UInt8.toNat_ofNat'] at h1 h2
    omega
  · intro w hw
    obtain ⟨i, hi, rfl⟩ := List.mem_map.1 hw
    rw [List.mem_range] at hi
    refine ⟨by simp, ?_⟩
    have g : ∀ n, 64 ≤ n → n < 128 → isWs (UInt8.ofNat n) = false := by decide
    intro c hc
    simp only [List.mem_cons, List.not_mem_nil, or_false] at hc
    rcases hc with rfl | rfl
    · exact g _ (by omega) (by omega)
    · exact g _ (by omega) (by omega)

example : WordList list2 ∧ (List.replicate 32 (7 : UInt8)).length = 32 ∧ ∃ kdf : Bytes → Bytes → Bytes, ∀ w s : Bytes, kdf w s ≠ kdf (32 :: w) s :=
  ⟨list2_ok, List.length_replicate, fun w _ => w, fun w _ h => by have := congrArg List.length h; simp at this⟩

theorem n_big : 10 < groupN := by decide +kernel

/-- A hash, a seed and a key as in `C174_bip32`. -/
example : ∃ hmac : Bytes → Bytes → Bytes, (∀ k m, (hmac k m).length = 64) ∧ (∀ k m, beVal ((hmac k m).take 32) < groupN) ∧ privateKeyFromSeed hmac [1] = some (hexEnc (toBE 32 6)) := by
  have hb := n_big
  have ht : (toBE 32 1 ++ List.replicate 32 (0 : UInt8)).take 32 = toBE 32 1 := by
    rw [List.take_append_of_le_length (by rw [toBE_length]), List.take_of_length_le (by rw [toBE_length])]
  have h1 : beVal (toBE 32 1) = 1 := beVal_toBE 32 1 (by norm_num)
  have hl : ∀ k m : Bytes, ((fun _ _ => toBE 32 1 ++ List.replicate 32 (0 : UInt8) : Bytes → Bytes → Bytes) k m).length = 64 := by
    intro k m
    show (toBE 32 1 ++ List.replicate 32 (0 : UInt8)).length = 64
    rw [List.length_append, toBE_length, List.length_replicate]
  have hs : ∀ k m : Bytes, beVal (((fun _ _ => toBE 32 1 ++ List.replicate 32 (0 : UInt8) : Bytes → Bytes → Bytes) k m).take 32) < groupN := by
    intro k m
    show beVal ((toBE 32 1 ++ List.replicate 32 (0 : UInt8)).take 32) < groupN
    rw [ht, h1]; omega
  refine ⟨fun _ _ => toBE 32 1 ++ List.replicate 32 0, hl, hs, ?_⟩
  rw [C174_bip32 _ hl hs]
  have st : ∀ k i, k < 9 → Ckd (fun _ _ => toBE 32 1 ++ List.replicate 32 0) k (List.replicate 32 0) i (k + 1) (List.replicate 32 0) := by
    intro k i hk
    refine ⟨toBE 32 1, List.replicate 32 0, rfl, toBE_length _ _, by rw [h1]; omega, ?_, by omega, rfl⟩
    rw [h1, Nat.mod_eq_of_lt (by omega), Nat.add_comm]
  exact ⟨6, ⟨4, _, 5, _, _, ⟨1, _, 2, _, 3, _, ⟨toBE 32 1, List.replicate 32 0, rfl, toBE_length _ _, h1.symm, by omega, by omega, rfl⟩, st 1 _ (by omega), st 2 _ (by omega), st 3 _ (by omega)⟩,
    st 4 _ (by omega), st 5 _ (by omega)⟩, rfl⟩

end

end GoNostr.Curve
