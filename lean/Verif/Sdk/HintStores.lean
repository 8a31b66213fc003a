import Verif.Sdk.Hints
import Verif.Nip19.Theorems
/-!
# C121: the relay hints databases on disk (sdk/hints/badgerh, sdk/hints/lmdbh, sdk/hints/sqlh)

Badger and LMDB are ordered maps from byte strings to byte strings with transactions; here such a map is a list sorted by key. What the two libraries refuse is modelled from
their documentation (`Backend.accepts`); disk errors are not modelled. The score is any function of the timestamps, as in C73, and any reordering sorted by score may be what
`slices.SortFunc` leaves.
-/

set_option autoImplicit false

namespace GoNostr.HintStores

open GoNostr.Hints (Saved clamp keyIndex setTs IsNewest)

/-! ## Ordered maps -/

/-- `bytes.Compare(a, b) <= 0` -/
def lexLe : Bytes → Bytes → Bool
  | [], _ => true
  | _ :: _, [] => false
  | a :: as, b :: bs => if a < b then true else if b < a then false else lexLe as bs

/-- The contents of a database in key order. -/
abbrev KV := List (Bytes × Bytes)

/-- `txn.Get` -/
def KV.get : KV → Bytes → Option Bytes
  | [], _ => none
  | (k', v) :: s, k => if k = k' then some v else KV.get s k

/-- `txn.Set` / `txn.Put` -/
def KV.put : KV → Bytes → Bytes → KV
  | [], k, v => [(k, v)]
  | (k', v') :: s, k, v => if k = k' then (k, v) :: s else if lexLe k k' then (k, v) :: (k', v') :: s else (k', v') :: KV.put s k v

/-! ## Badger and LMDB -/

/-- Which of the two key-value backends. -/
inductive Backend
  | badger
  | lmdb
  deriving DecidableEq

/-- Which keys a write accepts. Badger (`Txn.modify`): at most 65000 bytes and not beginning with `!badger!`; LMDB (`mdb_put`): at most 511 bytes. (Keys are never empty here.) -/
def Backend.accepts : Backend → Bytes → Bool
  | .badger, k => decide (k.length ≤ 65000) && !(b! "!badger!").isPrefixOf k
  | .lmdb, k => decide (k.length ≤ 511)

/-- `encodeKey` (badgerh/keys.go:10-15, lmdbh/keys.go:10-15): `hex.Decode` writes into 32 bytes, stops at the first error, and panics when there is more to write. -/
def encodeKey (pubkey relay : Bytes) : Out Bytes :=
  let d := hexDecPartial pubkey
  if 32 < d.length then .panic else .val (d ++ List.replicate (32 - d.length) 0 ++ relay)

/-- `binary.LittleEndian.PutUint32(v, uint32(t))` -/
def put32 (t : Int) : Bytes :=
  let n := (t % 4294967296).toNat
  [UInt8.ofNat (n % 256), UInt8.ofNat (n / 256 % 256), UInt8.ofNat (n / 65536 % 256), UInt8.ofNat (n / 16777216 % 256)]

/-- `encodeValue` (keys.go:23-30) -/
def encodeValue (tss : Fin 4 → Int) : Bytes := put32 (tss 0) ++ put32 (tss 1) ++ put32 (tss 2) ++ put32 (tss 3)

/-- `nostr.Timestamp(binary.LittleEndian.Uint32(v[i:]))` -/
def get32 (v : Bytes) (i : Nat) : Int :=
  ((v.getD i 0).toNat + 256 * (v.getD (i + 1) 0).toNat + 65536 * (v.getD (i + 2) 0).toNat + 16777216 * (v.getD (i + 3) 0).toNat : Nat)

/-- `parseValue` (keys.go:32-39). On fewer than 16 bytes the code panics; the values of these databases always have 16 (`encodeValue`). -/
def parseValue (v : Bytes) : Fin 4 → Int := fun i => get32 v (4 * i.val)

/-- badgerh/db.go:39-53, lmdbh/db.go:72-80: the timestamps of a record, zeros if there is none. -/
def timestamps (s : KV) (k : Bytes) : Fin 4 → Int := match s.get k with
  | none => fun _ => 0
  | some v => parseValue v

/-- `Save` (badgerh/db.go:33-65, lmdbh/db.go:66-92) run alone. A refused write is only logged. The clock is an argument. -/
def save (b : Backend) (s : KV) (pubkey relay : Bytes) (key ts now : Int) : Out KV :=
  match encodeKey pubkey relay with
  | .panic => .panic
  | .val k => match keyIndex key with
    | none => .panic
    | some i =>
      let tss := timestamps s k
      if tss i < clamp ts now then .val (if b.accepts k then s.put k (encodeValue (setTs tss i (clamp ts now))) else s)
      else .val s

/-- The iteration of `TopN` and `GetDetailedScores` (badgerh/db.go:74-95, 123-145; lmdbh/db.go:110-121, 202-213): seek to the decoded key, go on while the records are that
key's. Badger compares prefixes, LMDB the first 32 bytes. -/
def listed (b : Backend) (s : KV) (pubkey : Bytes) : List (Bytes × (Fin 4 → Int)) :=
  let p := hexDecPartial pubkey
  let from_ := s.dropWhile (fun e => !lexLe p e.1)
  let run : KV := match b with
    | .badger => from_.takeWhile (fun e => p.isPrefixOf e.1)
    | .lmdb => from_.takeWhile (fun e => decide (32 ≤ e.1.length ∧ e.1.take 32 = p))
  run.map (fun e => (e.1.drop 32, parseValue e.2))

/-- What the sort by score may leave (badgerh/db.go:101-103 and the like). -/
def IsSortOf (score : (Fin 4 → Int) → Int) (l sorted : List (Bytes × (Fin 4 → Int))) : Prop :=
  sorted.Perm l ∧ sorted.Pairwise (fun a b => score b.2 ≤ score a.2)

/-- `TopN` when the sort left `sorted` (badgerh/db.go:67-113, lmdbh/db.go:94-144): `make` panics on a negative capacity. -/
def topN (sorted : List (Bytes × (Fin 4 → Int))) (n : Int) : Out (List Bytes) :=
  if n < 0 then .panic else .val ((sorted.take n.toNat).map (·.1))

/-- `GetDetailedScores` when the sort left `sorted` (badgerh/db.go:115-166, lmdbh/db.go:185-239). -/
def detailed (score : (Fin 4 → Int) → Int) (sorted : List (Bytes × (Fin 4 → Int))) (n : Int) : Out (List (Bytes × (Fin 4 → Int) × Int)) :=
  if n < 0 then .panic else .val ((sorted.take n.toNat).map (fun e => (e.1, e.2, score e.2)))

/-! ## Specification -/

/-- The databases that a history of `Save`s, one after the other, leads to. (The other calls do not change anything.) -/
inductive Reach (b : Backend) : List Saved → KV → Prop
  | new : Reach b [] []
  | save {h : List Saved} {s s' : KV} (sv : Saved) : Reach b h s → save b s sv.pk sv.relay (sv.key.val : Int) sv.ts sv.now = .val s' → Reach b (h ++ [sv]) s'

/-- A save the backend can hold: a lowercase hex public key, a clock that fits in 32 bits, a relay url of at most 479 bytes (LMDB), or of at most 64968 bytes with a public
key that does not begin with the bytes `!badger!` (Badger). -/
def Holds (b : Backend) (sv : Saved) : Prop :=
  Nip19.IsHex32 sv.pk ∧ sv.now < 4294967296 ∧
  match b with
  | .lmdb => sv.relay.length ≤ 479
  | .badger => sv.relay.length ≤ 64968 ∧ ¬ (b! "2162616467657221") <+: sv.pk

/-- The history saved this relay for this pubkey, with some time after 1970. -/
def KnownPos (h : List Saved) (pk relay : Bytes) : Prop := ∃ sv ∈ h, sv.pk = pk ∧ sv.relay = relay ∧ 0 < min sv.ts sv.now

/-! ## Lemmas on the order -/

theorem u8_trichotomy (a b : UInt8) : a < b ∨ a = b ∨ b < a := by
  rcases Nat.lt_trichotomy a.toNat b.toNat with h | h | h
  · exact .inl (UInt8.lt_iff_toNat_lt.2 h)
  · exact .inr (.inl (UInt8.toNat_inj.1 h))
  · exact .inr (.inr (UInt8.lt_iff_toNat_lt.2 h))

theorem u8_irrefl (a : UInt8) : ¬ a < a := fun h => Nat.lt_irrefl _ (UInt8.lt_iff_toNat_lt.1 h)
theorem u8_trans {a b c : UInt8} (h : a < b) (h' : b < c) : a < c := UInt8.lt_iff_toNat_lt.2 (Nat.lt_trans (UInt8.lt_iff_toNat_lt.1 h) (UInt8.lt_iff_toNat_lt.1 h'))

theorem lexLe_cons (a b : UInt8) (as bs : Bytes) : lexLe (a :: as) (b :: bs) = true ↔ a < b ∨ (a = b ∧ lexLe as bs = true) := by
  rw [lexLe]
  rcases u8_trichotomy a b with h | h | h
  · simp [h]
  · subst h; simp
  · have h1 : ¬ a < b := fun h' => u8_irrefl _ (u8_trans h h')
    have h2 : a ≠ b := fun e => by subst e; exact u8_irrefl _ h
    simp [h, h1, h2]

theorem lexLe_refl : ∀ a : Bytes, lexLe a a = true
  | [] => rfl
  | _ :: as => (lexLe_cons ..).2 (.inr ⟨rfl, lexLe_refl as⟩)

theorem lexLe_trans : ∀ {a b c : Bytes}, lexLe a b = true → lexLe b c = true → lexLe a c = true
  | [], _, _, _, _ => by simp [lexLe]
  | _ :: _, [], _, h, _ => by simp [lexLe] at h
  | _ :: _, _ :: _, [], _, h => by simp [lexLe] at h
  | a :: as, b :: bs, c :: cs, h, h' => by
    rw [lexLe_cons] at h h' ⊢
    rcases h with h | ⟨rfl, h⟩
    · rcases h' with h' | ⟨rfl, _⟩
      · exact .inl (u8_trans h h')
      · exact .inl h
    · rcases h' with h' | ⟨rfl, h'⟩
      · exact .inl h'
      · exact .inr ⟨rfl, lexLe_trans h h'⟩

theorem lexLe_total : ∀ a b : Bytes, lexLe a b = true ∨ lexLe b a = true
  | [], _ => by simp [lexLe]
  | _ :: _, [] => by simp [lexLe]
  | a :: as, b :: bs => by
    rw [lexLe_cons, lexLe_cons]
    rcases u8_trichotomy a b with h | h | h
    · exact .inl (.inl h)
    · subst h
      rcases lexLe_total as bs with h | h
      · exact .inl (.inr ⟨rfl, h⟩)
      · exact .inr (.inr ⟨rfl, h⟩)
    · exact .inr (.inl h)

theorem lexLe_antisymm : ∀ {a b : Bytes}, lexLe a b = true → lexLe b a = true → a = b
  | [], [], _, _ => rfl
  | [], _ :: _, _, h => by simp [lexLe] at h
  | _ :: _, [], h, _ => by simp [lexLe] at h
  | a :: as, b :: bs, h, h' => by
    rw [lexLe_cons] at h h'
    rcases h with h | ⟨rfl, h⟩
    · rcases h' with h' | ⟨rfl, _⟩
      · exact absurd (u8_trans h h') (u8_irrefl _)
      · exact absurd h (u8_irrefl _)
    · rcases h' with h' | ⟨_, h'⟩
      · exact absurd h' (u8_irrefl _)
      · rw [lexLe_antisymm h h']

theorem prefix_le : ∀ {p k : Bytes}, p <+: k → lexLe p k = true
  | [], _, _ => by simp [lexLe]
  | x :: p, k, h => by
    obtain ⟨t, rfl⟩ := h
    rw [List.cons_append, lexLe_cons]
    exact .inr ⟨rfl, prefix_le ⟨t, rfl⟩⟩

/-- The keys with a prefix are next to each other. -/
theorem prefix_convex : ∀ {p a b : Bytes}, lexLe p a = true → lexLe a b = true → p <+: b → p <+: a
  | [], _, _, _, _, _ => List.nil_prefix
  | x :: p, [], _, h, _, _ => by simp [lexLe] at h
  | x :: p, y :: a, b, h, h', hp => by
    obtain ⟨t, rfl⟩ := hp
    rw [List.cons_append, lexLe_cons] at h'
    rw [lexLe_cons] at h
    have hxy : x = y := by
      rcases h with h | ⟨rfl, _⟩
      · rcases h' with h' | ⟨rfl, _⟩
        · exact absurd (u8_trans h h') (u8_irrefl _)
        · rfl
      · rfl
    subst hxy
    have h1 : lexLe p a = true := by
      rcases h with h | ⟨_, h⟩
      · exact absurd h (u8_irrefl _)
      · exact h
    have h2 : lexLe a (p ++ t) = true := by
      rcases h' with h' | ⟨_, h'⟩
      · exact absurd h' (u8_irrefl _)
      · exact h'
    obtain ⟨u, hu⟩ := prefix_convex h1 h2 ⟨t, rfl⟩
    exact ⟨u, by rw [← hu]; rfl⟩

/-- Keys in strictly increasing order. -/
def Sorted (s : KV) : Prop := s.Pairwise (fun a b => lexLe a.1 b.1 = true ∧ a.1 ≠ b.1)

theorem get_none {s : KV} {k : Bytes} : s.get k = none ↔ ∀ e ∈ s, e.1 ≠ k := by
  induction s with
  | nil => simp [KV.get]
  | cons e s ih =>
    obtain ⟨k', v⟩ := e
    unfold KV.get
    by_cases hk : k = k'
    · rw [if_pos hk]; simp [hk]
    · rw [if_neg hk, ih]
      simp only [List.mem_cons, forall_eq_or_imp]
      exact ⟨fun h => ⟨fun e => hk e.symm, h⟩, fun h => h.2⟩

theorem get_mem {s : KV} (hs : Sorted s) {k v : Bytes} : s.get k = some v ↔ (k, v) ∈ s := by
  induction s with
  | nil => simp [KV.get]
  | cons e s ih =>
    obtain ⟨k', v'⟩ := e
    have hs' := List.pairwise_cons.1 hs
    unfold KV.get
    by_cases hk : k = k'
    · subst hk
      rw [if_pos rfl]
      constructor
      · intro h; cases h; simp
      · intro h
        rcases List.mem_cons.1 h with h | h
        · cases h; rfl
        · exact absurd rfl (hs'.1 _ h).2
    · rw [if_neg hk, ih hs'.2]
      simp [hk]

theorem put_keys {s : KV} {k v : Bytes} {e : Bytes × Bytes} (h : e ∈ s.put k v) : e = (k, v) ∨ (e ∈ s ∧ True) := by
  induction s with
  | nil => simp [KV.put] at h; exact .inl h
  | cons x s ih =>
    obtain ⟨k', v'⟩ := x
    unfold KV.put at h
    split at h
    · rcases List.mem_cons.1 h with h | h
      · exact .inl h
      · exact .inr ⟨by simp [h], trivial⟩
    · split at h
      · rcases List.mem_cons.1 h with h | h
        · exact .inl h
        · exact .inr ⟨h, trivial⟩
      · rcases List.mem_cons.1 h with h | h
        · exact .inr ⟨by simp [h], trivial⟩
        · rcases ih h with h | h
          · exact .inl h
          · exact .inr ⟨by simp [h.1], trivial⟩

theorem put_sorted {s : KV} (hs : Sorted s) (k v : Bytes) : Sorted (s.put k v) := by
  induction s with
  | nil => simp [KV.put, Sorted]
  | cons x s ih =>
    obtain ⟨k', v'⟩ := x
    have hs' := List.pairwise_cons.1 hs
    unfold KV.put
    split
    · next hk => subst hk; exact List.pairwise_cons.2 ⟨hs'.1, hs'.2⟩
    · next hk =>
      split
      · next hle =>
        refine List.pairwise_cons.2 ⟨?_, hs⟩
        intro e he
        rcases List.mem_cons.1 he with rfl | he
        · exact ⟨hle, hk⟩
        · have := hs'.1 e he
          refine ⟨lexLe_trans hle this.1, ?_⟩
          intro e'
          have e' : k = e.1 := e'
          have : k' = k := lexLe_antisymm (by rw [e']; exact this.1) hle
          exact hk this.symm
      · next hle =>
        refine List.pairwise_cons.2 ⟨?_, ih hs'.2⟩
        intro e he
        rcases put_keys he with rfl | ⟨he, _⟩
        · rcases lexLe_total k k' with h | h
          · exact absurd h hle
          · exact ⟨h, fun e => hk e.symm⟩
        · exact hs'.1 e he

theorem get_put {s : KV} (hs : Sorted s) (k v k' : Bytes) : (s.put k v).get k' = if k' = k then some v else s.get k' := by
  induction s with
  | nil => by_cases h : k' = k <;> simp [KV.put, KV.get, h]
  | cons x s ih =>
    obtain ⟨k₀, v₀⟩ := x
    have hs' := List.pairwise_cons.1 hs
    unfold KV.put
    split
    · next hk =>
      subst hk
      by_cases h : k' = k <;> simp [KV.get, h]
    · next hk =>
      split
      · by_cases h : k' = k <;> simp [KV.get, h]
      · by_cases h0 : k' = k₀
        · subst h0
          have : k' ≠ k := fun e => hk e.symm
          simp [KV.get, this]
        · simp only [KV.get, if_neg h0]
          exact ih hs'.2

/-- Going on from the first key not before `p` finds all that satisfy a condition which holds of keys after `p` only, and of no gap. -/
theorem scan_eq_filter (p : Bytes) (P : Bytes → Bool) (hP : ∀ k, P k = true → lexLe p k = true)
    (hc : ∀ a b, lexLe p a = true → lexLe a b = true → P b = true → P a = true) :
    ∀ {s : KV}, Sorted s → (s.dropWhile (fun e => !lexLe p e.1)).takeWhile (fun e => P e.1) = s.filter (fun e => P e.1) := by
  have key : ∀ {s : KV}, Sorted s → (∀ e ∈ s, lexLe p e.1 = true) → s.takeWhile (fun e => P e.1) = s.filter (fun e => P e.1) := by
    intro s
    induction s with
    | nil => intros; rfl
    | cons e s ih =>
      intro hs hge
      have hs' := List.pairwise_cons.1 hs
      by_cases hp : P e.1 = true
      · rw [List.takeWhile_cons_of_pos (p := fun e : Bytes × Bytes => P e.1) hp, List.filter_cons_of_pos (p := fun e : Bytes × Bytes => P e.1) hp, ih hs'.2 (fun x hx => hge x (by simp [hx]))]
      · rw [List.takeWhile_cons_of_neg (p := fun e : Bytes × Bytes => P e.1) hp, List.filter_cons_of_neg (p := fun e : Bytes × Bytes => P e.1) hp]
        symm
        rw [List.filter_eq_nil_iff]
        intro x hx hpx
        exact hp (hc _ _ (hge e (by simp)) (hs'.1 x hx).1 hpx)
  intro s
  induction s with
  | nil => intro _; rfl
  | cons e s ih =>
    intro hs
    have hs' := List.pairwise_cons.1 hs
    by_cases hp : lexLe p e.1 = true
    · rw [List.dropWhile_cons_of_neg (by simp [hp])]
      refine key hs ?_
      intro x hx
      rcases List.mem_cons.1 hx with rfl | hx
      · exact hp
      · exact lexLe_trans hp (hs'.1 x hx).1
    · rw [List.dropWhile_cons_of_pos (by simpa using hp), ih hs'.2]
      rw [List.filter_cons_of_neg (p := fun e : Bytes × Bytes => P e.1) (fun h => hp (hP _ h))]

/-! ## Lemmas on keys and values -/

theorem get32_put32 (t : Int) (h0 : 0 ≤ t) (h1 : t < 4294967296) (l r : Bytes) : get32 (l ++ (put32 t ++ r)) l.length = t := by
  obtain ⟨n, rfl⟩ : ∃ n : Nat, t = n := ⟨t.toNat, by omega⟩
  have hn : n < 4294967296 := by omega
  have e : ((n : Int) % 4294967296).toNat = n := by omega
  have g : ∀ (i : Nat), (l ++ (put32 (n : Int) ++ r)).getD (l.length + i) 0 = (put32 (n : Int) ++ r).getD i 0 := by
    intro i
    rw [List.getD_eq_getElem?_getD, List.getD_eq_getElem?_getD, List.getElem?_append_right (by omega), Nat.add_sub_cancel_left]
  unfold get32
  have g0 := g 0
  rw [Nat.add_zero] at g0
  rw [g0, g 1, g 2, g 3]
  unfold put32
  simp only [e, List.cons_append, List.getD_cons_zero, List.getD_cons_succ, UInt8.toNat_ofNat']
  have : n % 256 % 2 ^ 8 + 256 * (n / 256 % 256 % 2 ^ 8) + 65536 * (n / 65536 % 256 % 2 ^ 8) + 16777216 * (n / 16777216 % 256 % 2 ^ 8) = n := by omega
  exact congrArg (fun m : Nat => (m : Int)) this

theorem parse_encode (tss : Fin 4 → Int) (h : ∀ i, 0 ≤ tss i ∧ tss i < 4294967296) : parseValue (encodeValue tss) = tss := by
  have hl : ∀ t, (put32 t).length = 4 := fun t => rfl
  funext i
  unfold parseValue encodeValue
  match i with
  | 0 => simpa using get32_put32 (tss 0) (h 0).1 (h 0).2 [] (put32 (tss 1) ++ put32 (tss 2) ++ put32 (tss 3))
  | 1 => simpa [hl] using get32_put32 (tss 1) (h 1).1 (h 1).2 (put32 (tss 0)) (put32 (tss 2) ++ put32 (tss 3))
  | 2 => simpa [hl] using get32_put32 (tss 2) (h 2).1 (h 2).2 (put32 (tss 0) ++ put32 (tss 1)) (put32 (tss 3))
  | 3 => simpa [hl, show 4 * ((3 : Fin 4) : Nat) = 12 from rfl] using get32_put32 (tss 3) (h 3).1 (h 3).2 (put32 (tss 0) ++ put32 (tss 1) ++ put32 (tss 2)) []

theorem encodeKey_hex {pk b : Bytes} (hb : hexDec pk = some b) (hl : b.length = 32) (relay : Bytes) : encodeKey pk relay = .val (b ++ relay) := by
  unfold encodeKey
  simp [hexDecPartial_eq hb, hl]

theorem hexEnc_append (x y : Bytes) : hexEnc (x ++ y) = hexEnc x ++ hexEnc y := by
  induction x with
  | nil => rfl
  | cons a x ih => simp [hexEnc, ih]

theorem Holds.accepts {b : Backend} {sv : Saved} (h : Holds b sv) {d : Bytes} (hl : d.length = 32) (he : hexEnc d = sv.pk) :
    b.accepts (d ++ sv.relay) = true := by
  obtain ⟨_, _, h⟩ := h
  cases b with
  | lmdb => simp only [Backend.accepts, List.length_append, hl] at h ⊢; simpa using (by omega)
  | badger =>
    simp only at h
    simp only [Backend.accepts, List.length_append, hl, Bool.and_eq_true, decide_eq_true_eq, Bool.not_eq_true']
    refine ⟨by omega, ?_⟩
    rw [Bool.eq_false_iff]
    intro hp
    refine h.2 ?_
    obtain ⟨t, ht⟩ := List.isPrefixOf_iff_prefix.1 hp
    have h8 : d.take 8 = b! "!badger!" := by
      have := congrArg (List.take 8) ht
      rw [List.take_append_of_le_length (by simp), List.take_append_of_le_length (by omega)] at this
      rw [← this]; rfl
    rw [← he]
    refine ⟨hexEnc (d.drop 8), ?_⟩
    conv_rhs => rw [← List.take_append_drop 8 d, hexEnc_append, h8]
    rfl

/-! ## C121 -/

theorem isPrefixOf_eq_true {p k : Bytes} : p.isPrefixOf k = true ↔ p <+: k := List.isPrefixOf_iff_prefix

/-- What the iteration yields: the records of the public key, no others. -/
theorem listed_spec (b : Backend) {s : KV} (hs : Sorted s) {pk d : Bytes} (hd : hexDec pk = some d) (hl : d.length = 32) :
    (∀ (relay : Bytes) (ts : Fin 4 → Int), (relay, ts) ∈ listed b s pk ↔ ∃ v, s.get (d ++ relay) = some v ∧ parseValue v = ts) ∧
    (listed b s pk).Pairwise (fun x y => x.1 ≠ y.1) := by
  have hp := hexDecPartial_eq hd
  have hbad := scan_eq_filter d (fun k => d.isPrefixOf k) (fun k h => prefix_le (isPrefixOf_eq_true.1 h))
    (fun a b h1 h2 h3 => isPrefixOf_eq_true.2 (prefix_convex h1 h2 (isPrefixOf_eq_true.1 h3))) hs
  have heq : ∀ k : Bytes, decide (32 ≤ k.length ∧ k.take 32 = d) = d.isPrefixOf k := by
    intro k
    rw [Bool.eq_iff_iff, isPrefixOf_eq_true, decide_eq_true_eq]
    constructor
    · rintro ⟨_, h⟩; exact ⟨k.drop 32, by rw [← h]; exact List.take_append_drop 32 k⟩
    · rintro ⟨t, rfl⟩
      exact ⟨by simp [hl], by rw [← hl]; simp⟩
  have hall : listed b s pk = (s.filter (fun e => d.isPrefixOf e.1)).map (fun e => (e.1.drop 32, parseValue e.2)) := by
    unfold listed
    simp only [hp]
    cases b with
    | badger => simp only; rw [hbad]
    | lmdb => simp only [heq]; rw [hbad]
  refine ⟨?_, ?_⟩
  swap
  · rw [hall, List.pairwise_map]
    refine (List.Pairwise.sublist List.filter_sublist hs).imp_of_mem ?_
    rintro ⟨k, v⟩ ⟨k', v'⟩ he he' hne e
    obtain ⟨t, rfl⟩ := isPrefixOf_eq_true.1 (List.mem_filter.1 he).2
    obtain ⟨t', rfl⟩ := isPrefixOf_eq_true.1 (List.mem_filter.1 he').2
    simp only [← hl, List.drop_left] at e
    exact hne.2 (by rw [e])
  intro relay ts
  rw [hall, List.mem_map]
  constructor
  · rintro ⟨⟨k, v⟩, he, h⟩
    obtain ⟨he, hk⟩ := List.mem_filter.1 he
    obtain ⟨t, rfl⟩ := isPrefixOf_eq_true.1 hk
    simp only [Prod.mk.injEq] at h
    obtain ⟨h1, h2⟩ := h
    rw [← hl, List.drop_left] at h1
    subst h1
    exact ⟨v, (get_mem hs).2 he, h2⟩
  · rintro ⟨v, hv, rfl⟩
    refine ⟨(d ++ relay, v), List.mem_filter.2 ⟨(get_mem hs).1 hv, isPrefixOf_eq_true.2 ⟨relay, rfl⟩⟩, ?_⟩
    simp only [Prod.mk.injEq, and_true]
    rw [← hl, List.drop_left]

/-- What is true of a database reached by saves it can hold. -/
structure Inv (h : List Saved) (s : KV) : Prop where
  sorted : Sorted s
  absent : ∀ d relay : Bytes, d.length = 32 → s.get (d ++ relay) = none → ∀ sv ∈ h, sv.pk = hexEnc d → sv.relay = relay → min sv.ts sv.now ≤ 0
  present : ∀ d relay v : Bytes, d.length = 32 → s.get (d ++ relay) = some v → KnownPos h (hexEnc d) relay ∧
    ∀ k, IsNewest h (hexEnc d) relay k (parseValue v k) ∧ 0 ≤ parseValue v k ∧ parseValue v k < 4294967296

theorem timestamps_newest {h : List Saved} {s : KV} (hi : Inv h s) (d relay : Bytes) (hd : d.length = 32) (k : Fin 4) :
    IsNewest h (hexEnc d) relay k (timestamps s (d ++ relay) k) ∧ 0 ≤ timestamps s (d ++ relay) k ∧ timestamps s (d ++ relay) k < 4294967296 := by
  unfold timestamps
  cases hg : s.get (d ++ relay) with
  | none =>
    refine ⟨⟨fun sv hsv h1 h2 _ => hi.absent d relay hd hg sv hsv h1 h2, .inl rfl⟩, by simp, by simp⟩
  | some v => exact (hi.present d relay v hd hg).2 k

theorem newest_grows {h : List Saved} {sv : Saved} {pk relay : Bytes} {k : Fin 4} {v : Int} (hn : IsNewest h pk relay k v)
    (hsv : sv.pk = pk → sv.relay = relay → sv.key = k → min sv.ts sv.now ≤ v) : IsNewest (h ++ [sv]) pk relay k v := by
  refine ⟨fun x hx h1 h2 h3 => ?_, ?_⟩
  · rcases List.mem_append.1 hx with hx | hx
    · exact hn.1 x hx h1 h2 h3
    · rw [List.mem_singleton] at hx; subst hx; exact hsv h1 h2 h3
  · rcases hn.2 with h | ⟨x, hx, h⟩
    · exact .inl h
    · exact .inr ⟨x, List.mem_append_left _ hx, h⟩

theorem knownPos_grows {h : List Saved} {sv : Saved} {pk relay : Bytes} (hk : KnownPos h pk relay) : KnownPos (h ++ [sv]) pk relay := by
  obtain ⟨x, hx, h⟩ := hk
  exact ⟨x, List.mem_append_left _ hx, h⟩

theorem append_inj32 {d d' r r' : Bytes} (h : d.length = 32) (h' : d'.length = 32) (e : d ++ r = d' ++ r') : d = d' ∧ r = r' :=
  List.append_inj e (by rw [h, h'])

theorem inv_reach (b : Backend) {h : List Saved} {s : KV} (hr : Reach b h s) (hh : ∀ sv ∈ h, Holds b sv) : Inv h s := by
  induction hr with
  | new => exact ⟨List.Pairwise.nil, by simp, by simp [KV.get]⟩
  | @save h s s' sv hr hsave ih =>
    have hi := ih (fun x hx => hh x (List.mem_append_left _ hx))
    have hsv := hh sv (by simp)
    obtain ⟨d, hd, hdl, hde⟩ := Nip19.IsHex32.dec hsv.1
    have hacc := hsv.accepts hdl hde
    unfold save at hsave
    rw [encodeKey_hex hd hdl, Hints.keyIndex_fin] at hsave
    simp only [Hints.clamp_eq, hacc, if_true] at hsave
    have hts := timestamps_newest hi d sv.relay hdl sv.key
    by_cases hlt : timestamps s (d ++ sv.relay) sv.key < min sv.ts sv.now
    · rw [if_pos hlt] at hsave
      cases hsave
      have hpos : 0 < min sv.ts sv.now := by omega
      have hnow := hsv.2.1
      have hrange : ∀ i, 0 ≤ setTs (timestamps s (d ++ sv.relay)) sv.key (min sv.ts sv.now) i ∧ setTs (timestamps s (d ++ sv.relay)) sv.key (min sv.ts sv.now) i < 4294967296 := by
        intro i
        unfold setTs
        split
        · omega
        · exact (timestamps_newest hi d sv.relay hdl i).2
      refine ⟨put_sorted hi.sorted _ _, ?_, ?_⟩
      · intro d' r' hd' hg
        rw [get_put hi.sorted] at hg
        by_cases he : d' ++ r' = d ++ sv.relay
        · rw [if_pos he] at hg; cases hg
        · rw [if_neg he] at hg
          intro x hx h1 h2
          rcases List.mem_append.1 hx with hx | hx
          · exact hi.absent d' r' hd' hg x hx h1 h2
          · rw [List.mem_singleton] at hx; subst hx
            exact absurd (by rw [hexEnc_injective (hde.trans h1), h2]) he
      · intro d' r' v hd' hg
        rw [get_put hi.sorted] at hg
        by_cases he : d' ++ r' = d ++ sv.relay
        · rw [if_pos he] at hg; cases hg
          obtain ⟨rfl, rfl⟩ := append_inj32 hd' hdl he
          refine ⟨⟨sv, by simp, hde.symm, rfl, hpos⟩, fun k => ?_⟩
          rw [parse_encode _ hrange]
          refine ⟨?_, hrange k⟩
          by_cases hk : k = sv.key
          · subst hk
            unfold setTs
            rw [if_pos rfl]
            refine ⟨fun x hx h1 h2 h3 => ?_, .inr ⟨sv, by simp, hde.symm, rfl, rfl, rfl⟩⟩
            rcases List.mem_append.1 hx with hx | hx
            · have := hts.1.1 x hx h1 h2 h3; omega
            · rw [List.mem_singleton] at hx; subst hx; exact Int.le_refl _
          · unfold setTs
            rw [if_neg hk]
            exact newest_grows (timestamps_newest hi d' sv.relay hdl k).1 (fun _ _ h => absurd h.symm hk)
        · rw [if_neg he] at hg
          obtain ⟨hk, hn⟩ := hi.present d' r' v hd' hg
          refine ⟨knownPos_grows hk, fun k => ⟨newest_grows (hn k).1 (fun h1 h2 _ => ?_), (hn k).2⟩⟩
          exact absurd (by rw [hexEnc_injective (hde.trans h1), h2]) he
    · rw [if_neg hlt] at hsave
      cases hsave
      refine ⟨hi.sorted, ?_, ?_⟩
      · intro d' r' hd' hg x hx h1 h2
        rcases List.mem_append.1 hx with hx | hx
        · exact hi.absent d' r' hd' hg x hx h1 h2
        · rw [List.mem_singleton] at hx; subst hx
          have hdd := hexEnc_injective (hde.trans h1)
          subst hdd; subst h2
          have : timestamps s (d ++ x.relay) x.key = 0 := by unfold timestamps; rw [hg]
          omega
      · intro d' r' v hd' hg
        obtain ⟨hk, hn⟩ := hi.present d' r' v hd' hg
        refine ⟨knownPos_grows hk, fun k => ⟨newest_grows (hn k).1 (fun h1 h2 h3 => ?_), (hn k).2⟩⟩
        have hdd := hexEnc_injective (hde.trans h1)
        subst hdd; subst h2; subst h3
        have : timestamps s (d ++ sv.relay) sv.key = parseValue v sv.key := by unfold timestamps; rw [hg]
        omega

/-- **C121, timestamps on disk.** With Badger and with LMDB, after any history of saves the database can hold: a public key has a record for a relay exactly if the relay was
saved for it with some time after 1970; there is one record, and each of its timestamps is the newest one saved, cut at the clock of the save. An older timestamp saved later
changes nothing. -/
theorem C121_disk_newest (b : Backend) {h : List Saved} {s : KV} (hr : Reach b h s) (hh : ∀ sv ∈ h, Holds b sv) (pk relay : Bytes) (hpk : Nip19.IsHex32 pk) :
    ((∃ ts, (relay, ts) ∈ listed b s pk) ↔ KnownPos h pk relay) ∧
    (∀ ts ts', (relay, ts) ∈ listed b s pk → (relay, ts') ∈ listed b s pk → ts = ts') ∧
    (∀ ts, (relay, ts) ∈ listed b s pk → ∀ k, IsNewest h pk relay k (ts k)) := by
  have hi := inv_reach b hr hh
  obtain ⟨d, hd, hdl, hde⟩ := Nip19.IsHex32.dec hpk
  have hm := (listed_spec b hi.sorted hd hdl).1 relay
  refine ⟨⟨?_, ?_⟩, ?_, ?_⟩
  · rintro ⟨ts, hts⟩
    obtain ⟨v, hv, _⟩ := (hm ts).1 hts
    rw [← hde]; exact (hi.present d relay v hdl hv).1
  · rintro ⟨sv, hsv, h1, h2, h3⟩
    cases hg : s.get (d ++ relay) with
    | none => have := hi.absent d relay hdl hg sv hsv (h1.trans hde.symm) h2; omega
    | some v => exact ⟨_, (hm _).2 ⟨v, hg, rfl⟩⟩
  · intro ts ts' h1 h2
    obtain ⟨v, hv, rfl⟩ := (hm ts).1 h1
    obtain ⟨v', hv', rfl⟩ := (hm ts').1 h2
    rw [hv] at hv'; cases hv'; rfl
  · intro ts h1 k
    obtain ⟨v, hv, rfl⟩ := (hm ts).1 h1
    rw [← hde]; exact ((hi.present d relay v hdl hv).2 k).1

/-- The scores of relays `x` and `y` stored for a pubkey compare. -/
def ScoreLe (b : Backend) (s : KV) (score : (Fin 4 → Int) → Int) (pk x y : Bytes) : Prop :=
  ∀ tx ty, (x, tx) ∈ listed b s pk → (y, ty) ∈ listed b s pk → score tx ≤ score ty

/-- **C121, ranking on disk.** Whatever order the sort picks among equal scores, `TopN(pk, n)` returns the `n` best relays, all different, best first, or all of them if there
are fewer; none for `n = 0`. -/
theorem C121_disk_topn (b : Backend) {h : List Saved} {s : KV} (hr : Reach b h s) (hh : ∀ sv ∈ h, Holds b sv) (pk : Bytes) (hpk : Nip19.IsHex32 pk)
    (score : (Fin 4 → Int) → Int) {sorted : List (Bytes × (Fin 4 → Int))} (hs : IsSortOf score (listed b s pk) sorted) (n : Nat) :
    ∃ urls, topN sorted n = .val urls ∧
      urls.Nodup ∧ (∀ u ∈ urls, KnownPos h pk u) ∧ urls.length ≤ n ∧
      (urls.length < n → ∀ u, KnownPos h pk u → u ∈ urls) ∧
      urls.Pairwise (fun x y => ScoreLe b s score pk y x) ∧
      (∀ u ∈ urls, ∀ v, KnownPos h pk v → v ∉ urls → ScoreLe b s score pk v u) := by
  obtain ⟨hperm, hsort⟩ := hs
  have hi := inv_reach b hr hh
  obtain ⟨d, hd, hdl, hde⟩ := Nip19.IsHex32.dec hpk
  have hpw := (listed_spec b hi.sorted hd hdl).2
  have hnew := fun r => C121_disk_newest b hr hh pk r hpk
  have hpw' : sorted.Pairwise (fun x y => x.1 ≠ y.1) := (List.Perm.pairwise_iff (fun h => Ne.symm h) hperm).2 hpw
  have hmem : ∀ e, e ∈ sorted ↔ e ∈ listed b s pk := fun e => hperm.mem_iff
  have huniq : ∀ (x : Bytes) (t t' : Fin 4 → Int), (x, t) ∈ listed b s pk → (x, t') ∈ listed b s pk → t = t' := fun x t t' => (hnew x).2.1 t t'
  refine ⟨(sorted.take n).map (·.1), by simp [topN], ?_, ?_, ?_, ?_, ?_, ?_⟩
  · exact List.pairwise_map.2 (hpw'.sublist (List.take_sublist n sorted))
  · intro u hu
    obtain ⟨e, he, rfl⟩ := List.mem_map.1 hu
    exact (hnew e.1).1.1 ⟨e.2, (hmem e).1 (List.mem_of_mem_take he)⟩
  · rw [List.length_map, List.length_take]; omega
  · intro hlt u hu
    obtain ⟨ts, hts⟩ := (hnew u).1.2 hu
    have hlen : sorted.length ≤ n := by simp at hlt; omega
    rw [List.take_of_length_le hlen]
    exact List.mem_map.2 ⟨_, (hmem _).2 hts, rfl⟩
  · rw [List.pairwise_map]
    refine (hsort.sublist (List.take_sublist n sorted)).imp_of_mem ?_
    intro x y hx hy hle ty tx hty htx
    rw [huniq _ _ _ htx ((hmem x).1 (List.mem_of_mem_take hx)), huniq _ _ _ hty ((hmem y).1 (List.mem_of_mem_take hy))]
    exact hle
  · intro u hu v hv hnv tv tu htv htu
    obtain ⟨e, he, rfl⟩ := List.mem_map.1 hu
    have hve : (v, tv) ∈ sorted := (hmem _).2 htv
    have hvd : (v, tv) ∈ sorted.drop n := by
      rw [← List.take_append_drop n sorted] at hve
      rcases List.mem_append.1 hve with h | h
      · exact absurd (List.mem_map.2 ⟨_, h, rfl⟩) hnv
      · exact h
    have hs2 := hsort
    rw [← List.take_append_drop n sorted, List.pairwise_append] at hs2
    have := hs2.2.2 e he _ hvd
    rw [huniq _ _ _ htu ((hmem e).1 (List.mem_of_mem_take he))]
    exact this

/-- **C121, detailed scores on disk.** `GetDetailedScores` returns the same relays as `TopN`, in the same order when the sort leaves the same one, each with its timestamps and
their score. -/
theorem C121_disk_detailed (score : (Fin 4 → Int) → Int) (sorted : List (Bytes × (Fin 4 → Int))) (n : Int) :
    (n < 0 → topN sorted n = .panic ∧ detailed score sorted n = .panic) ∧
    (0 ≤ n → ∃ l, detailed score sorted n = .val l ∧ topN sorted n = .val (l.map (·.1)) ∧ ∀ x ∈ l, (x.1, x.2.1) ∈ sorted ∧ x.2.2 = score x.2.1) := by
  refine ⟨fun h => by simp [topN, detailed, h], fun h => ?_⟩
  have h' : ¬ n < 0 := by omega
  refine ⟨_, by unfold detailed; rw [if_neg h'], by simp [topN, h', Function.comp_def], ?_⟩
  intro x hx
  obtain ⟨e, he, rfl⟩ := List.mem_map.1 hx
  exact ⟨List.mem_of_mem_take he, rfl⟩

theorem newest_unique {h : List Saved} {pk relay : Bytes} {k : Fin 4} {v v' : Int} (hpos : ∀ sv ∈ h, 0 < min sv.ts sv.now) (hv : IsNewest h pk relay k v)
    (hv' : IsNewest h pk relay k v') : v = v' := by
  rcases hv.2 with h0 | ⟨x, hx, x1, x2, x3, x4⟩ <;> rcases hv'.2 with h0' | ⟨y, hy, y1, y2, y3, y4⟩
  · rw [h0, h0']
  · have := hv.1 y hy y1 y2 y3; have := hpos y hy; omega
  · have := hv'.1 x hx x1 x2 x3; have := hpos x hx; omega
  · have := hv.1 y hy y1 y2 y3; have := hv'.1 x hx x1 x2 x3; omega

/-- **C121, the disk databases agree with the one in memory**, which was given the same saves (and any queries), when all times are after 1970: for every public key the same
relays with the same timestamps. -/
theorem C121_same_as_memory (b : Backend) {h : List Saved} {s : KV} {db : Hints.DB} (hr : Reach b h s) (hm : Hints.Reach h db) (hh : ∀ sv ∈ h, Holds b sv)
    (hpos : ∀ sv ∈ h, 0 < min sv.ts sv.now) (pk : Bytes) (hpk : Nip19.IsHex32 pk) (relay : Bytes) (ts : Fin 4 → Int) :
    Hints.Stores db pk relay ts ↔ (relay, ts) ∈ listed b s pk := by
  obtain ⟨m1, m2, m3⟩ := Hints.C73_newest_kept hm pk relay
  obtain ⟨d1, d2, d3⟩ := C121_disk_newest b hr hh pk relay hpk
  constructor
  · intro hst
    obtain ⟨sv, hsv, e1, e2⟩ := m1.1 ⟨ts, hst⟩
    obtain ⟨ts', hts'⟩ := d1.2 ⟨sv, hsv, e1, e2, hpos sv hsv⟩
    have : ts = ts' := funext fun k => newest_unique hpos (m3 ts hst k) (d3 ts' hts' k)
    rw [this]; exact hts'
  · intro hts
    obtain ⟨sv, hsv, e1, e2, _⟩ := d1.1 ⟨ts, hts⟩
    obtain ⟨ts', hst⟩ := m1.2 ⟨sv, hsv, e1, e2⟩
    have : ts = ts' := funext fun k => newest_unique hpos (d3 ts hts k) (m3 ts' hst k)
    rw [this]; exact hst

/-- **C121, panics.** A public key of more than 64 hex digits, or an undeclared kind of hint, crashes the caller. -/
theorem C121_disk_panics (b : Backend) (s : KV) (pk relay : Bytes) (key ts now : Int) :
    save b s pk relay key ts now = .panic ↔ 32 < (hexDecPartial pk).length ∨ key < 0 ∨ 3 < key := by
  unfold save encodeKey
  by_cases h : 32 < (hexDecPartial pk).length
  · simp [h]
  · simp only [h, if_false, false_or]
    unfold keyIndex
    by_cases hk : 0 ≤ key ∧ key < 4
    · rw [dif_pos hk]
      simp only
      constructor
      · split <;> simp
      · intro; omega
    · rw [dif_neg hk]
      simp only [true_iff]
      omega

/-- **C121, what the disk databases refuse** is dropped without an error: nothing changes. -/
theorem C121_disk_refused (b : Backend) {s s' : KV} {pk relay k : Bytes} {key ts now : Int} (hk : encodeKey pk relay = .val k) (hacc : b.accepts k = false)
    (h : save b s pk relay key ts now = .val s') : s' = s := by
  unfold save at h
  rw [hk] at h
  simp only [hacc] at h
  split at h
  · cases h
  · split at h <;> · cases h; rfl

/-! ### Where they differ -/

/-- A relay saved with the time 0 is listed by the database in memory but not on disk. -/
theorem C121_time_zero_differs : ∃ (db : Hints.DB) (sv : Saved), Hints.Reach [sv] db ∧ Reach .lmdb [sv] [] ∧ Holds .lmdb sv ∧
    Hints.topN db.relays (db.byPk sv.pk) 5 = .val [sv.relay] ∧ listed .lmdb [] sv.pk = [] := by
  refine ⟨_, ⟨Nip19.sampleHex, b! "wss://a.b", 2, 0, 100⟩, .save _ .new rfl, .save _ .new rfl, ⟨by decide +kernel, by decide, by decide⟩, ?_, rfl⟩
  decide +kernel

/-- With Badger, asking for a shortened public key lists the relays of every public key that begins with it; LMDB lists nothing. -/
theorem C121_short_key : ∃ s, save .badger [] Nip19.sampleHex (b! "wss://a.b") 2 50 100 = .val s ∧ save .lmdb [] Nip19.sampleHex (b! "wss://a.b") 2 50 100 = .val s ∧
    (listed .badger s (Nip19.sampleHex.take 8)).map (·.1) = [b! "wss://a.b"] ∧ (listed .badger s []).map (·.1) = [b! "wss://a.b"] ∧
    (listed .lmdb s (Nip19.sampleHex.take 8)).map (·.1) = [] ∧ (listed .lmdb s []).map (·.1) = [] :=
  ⟨_, rfl, rfl, by decide +kernel, by decide +kernel, by decide +kernel, by decide +kernel⟩

/-- The hypotheses are met: two relays for one public key, one of them saved twice with the older time last. -/
example : ∃ s, Reach .badger [⟨Nip19.sampleHex, b! "wss://a.b", 2, 50, 100⟩, ⟨Nip19.sampleHex, b! "wss://c.d", 3, 900, 100⟩, ⟨Nip19.sampleHex, b! "wss://a.b", 2, 40, 100⟩] s ∧
    (listed .badger s Nip19.sampleHex).map (fun e => (e.1, e.2 2, e.2 3)) = [(b! "wss://a.b", 50, 0), (b! "wss://c.d", 0, 100)] ∧
    Holds .badger ⟨Nip19.sampleHex, b! "wss://a.b", 2, 50, 100⟩ ∧ KnownPos [⟨Nip19.sampleHex, b! "wss://a.b", 2, 50, 100⟩] Nip19.sampleHex (b! "wss://a.b") :=
  ⟨_, .save (h := [_, _]) _ (.save (h := [_]) _ (.save (h := []) _ .new rfl) rfl) rfl, by decide +kernel, ⟨by decide +kernel, by decide, by decide, by decide +kernel⟩,
    ⟨⟨Nip19.sampleHex, b! "wss://a.b", 2, 50, 100⟩, by simp, rfl, rfl, by decide⟩⟩

/-! ## Concurrent saves with Badger

`db.Update` runs the function on a snapshot and commits unless a key it read was written since (`ErrConflict`); `Save` only logs that. LMDB has one writer at a time. -/

/-- A `Save` in progress: its record, the timestamps it read, the hint, and the version it read at. -/
structure Txn where
  key : Bytes
  read : Fin 4 → Int
  i : Fin 4
  ts : Int
  at_ : Nat

/-- The database, when each key was last written, the commit counter and the saves in progress. -/
structure Conc where
  s : KV := []
  written : Bytes → Nat := fun _ => 0
  clock : Nat := 0
  txns : List Txn := []

/-- The atomic actions of the machine; its step function says which lines each of them is. -/
inductive ConcLab
  | begin (key : Bytes) (i : Fin 4) (ts : Int)
  | commit (n : Nat)

/-- badgerh/db.go:38-61 as two steps: reading the record, and setting it and committing. -/
def concStep (c : Conc) : ConcLab → Option Conc
  | .begin key i ts => some { c with txns := c.txns ++ [⟨key, timestamps c.s key, i, ts, c.clock⟩] }
  | .commit n => match c.txns[n]? with
    | none => none
    | some t =>
      let c := { c with txns := c.txns.eraseIdx n }
      if ¬ t.read t.i < t.ts then some c
      else if t.at_ < c.written t.key then some c   -- ErrConflict
      else some { c with s := c.s.put t.key (encodeValue (setTs t.read t.i t.ts)), written := fun k => if k = t.key then c.clock + 1 else c.written k, clock := c.clock + 1 }

/-- A schedule: the actions one after the other. -/
def concRun (c : Conc) : List ConcLab → Option Conc
  | [] => some c
  | l :: ls => match concStep c l with
    | none => none
    | some c' => concRun c' ls

/-- **C121, a concurrent save is lost.** Two saves at once for one record, of different kinds of hint: only the one that commits first is kept. -/
theorem C121_conflict_drops : ∃ c, concRun {} [.begin (b! "k") 1 50, .begin (b! "k") 2 60, .commit 0, .commit 0] = some c ∧
    timestamps c.s (b! "k") 1 = 50 ∧ timestamps c.s (b! "k") 2 = 0 ∧ c.txns.length = 0 :=
  ⟨_, rfl, by decide +kernel, by decide +kernel, rfl⟩

/-- What holds during concurrent saves of times that fit in 32 bits. -/
structure ConcInv (c : Conc) : Prop where
  sorted : Sorted c.s
  range : ∀ k i, 0 ≤ timestamps c.s k i ∧ timestamps c.s k i < 4294967296
  written : ∀ k, c.written k ≤ c.clock
  fresh : ∀ t ∈ c.txns, t.at_ ≤ c.clock ∧ t.ts < 4294967296 ∧ (c.written t.key ≤ t.at_ → t.read = timestamps c.s t.key)

/-- The times saved fit in 32 bits. -/
def Fits : ConcLab → Prop
  | .begin _ _ ts => ts < 4294967296
  | .commit _ => True

theorem timestamps_put {s : KV} (hs : Sorted s) (k k' : Bytes) (f : Fin 4 → Int) (hf : ∀ i, 0 ≤ f i ∧ f i < 4294967296) :
    timestamps (s.put k (encodeValue f)) k' = if k' = k then f else timestamps s k' := by
  unfold timestamps
  rw [get_put hs]
  by_cases h : k' = k
  · simp [h, parse_encode f hf]
  · simp [h]

theorem concStep_inv {c c' : Conc} {l : ConcLab} (hl : Fits l) (hi : ConcInv c) (h : concStep c l = some c') :
    ConcInv c' ∧ ∀ k i, timestamps c.s k i ≤ timestamps c'.s k i := by
  cases l with
  | begin key i ts =>
    cases h
    refine ⟨⟨hi.sorted, hi.range, hi.written, ?_⟩, fun _ _ => Int.le_refl _⟩
    intro t ht
    rcases List.mem_append.1 ht with ht | ht
    · exact hi.fresh t ht
    · rw [List.mem_singleton] at ht; subst ht
      exact ⟨Nat.le_refl _, hl, fun _ => rfl⟩
  | commit n =>
    simp only [concStep] at h
    cases hn : c.txns[n]? with
    | none => rw [hn] at h; cases h
    | some t =>
      rw [hn] at h
      have ht := List.mem_of_getElem? hn
      obtain ⟨h1, h2, h3⟩ := hi.fresh t ht
      have herase : ConcInv { c with txns := c.txns.eraseIdx n } := ⟨hi.sorted, hi.range, hi.written, fun x hx => hi.fresh x (List.mem_of_mem_eraseIdx hx)⟩
      simp only at h
      by_cases hlt : t.read t.i < t.ts
      · rw [if_neg (by simpa using hlt)] at h
        by_cases hc : t.at_ < c.written t.key
        · rw [if_pos hc] at h; cases h
          exact ⟨herase, fun _ _ => Int.le_refl _⟩
        · rw [if_neg hc] at h; cases h
          have hread := h3 (by omega)
          have hf : ∀ i, 0 ≤ setTs t.read t.i t.ts i ∧ setTs t.read t.i t.ts i < 4294967296 := by
            intro i
            have := hi.range t.key
            unfold setTs
            rw [hread] at hlt ⊢
            split
            · have := this t.i; omega
            · exact this i
          have hput := timestamps_put hi.sorted t.key (f := setTs t.read t.i t.ts) (hf := hf)
          refine ⟨⟨put_sorted hi.sorted _ _, ?_, ?_, ?_⟩, ?_⟩
          · intro k i
            simp only [hput k]
            split
            · exact hf i
            · exact hi.range k i
          · intro k
            have := hi.written k
            simp only
            split <;> omega
          · intro x hx
            obtain ⟨x1, x2, x3⟩ := hi.fresh x (List.mem_of_mem_eraseIdx hx)
            refine ⟨by simp only; omega, x2, ?_⟩
            simp only
            intro hw
            by_cases hk : x.key = t.key
            · rw [if_pos hk] at hw; omega
            · rw [if_neg hk] at hw
              rw [hput, if_neg hk]; exact x3 hw
          · intro k i
            simp only [hput k]
            split
            · next hk =>
              subst hk
              unfold setTs
              rw [hread] at hlt ⊢
              split
              · next hi' => subst hi'; omega
              · exact Int.le_refl _
            · exact Int.le_refl _
      · rw [if_pos hlt] at h; cases h
        exact ⟨herase, fun _ _ => Int.le_refl _⟩

/-- **C121, but never lowered.** However saves run at the same time, no timestamp of any record ever goes down. -/
theorem C121_concurrent_monotone {c c' : Conc} (ls : List ConcLab) (hl : ∀ l ∈ ls, Fits l) (hi : ConcInv c) (h : concRun c ls = some c') :
    ConcInv c' ∧ ∀ k i, timestamps c.s k i ≤ timestamps c'.s k i := by
  induction ls generalizing c with
  | nil => cases h; exact ⟨hi, fun _ _ => Int.le_refl _⟩
  | cons l ls ih =>
    unfold concRun at h
    cases hs : concStep c l with
    | none => rw [hs] at h; cases h
    | some c1 =>
      rw [hs] at h
      obtain ⟨i1, m1⟩ := concStep_inv (hl l (by simp)) hi hs
      obtain ⟨i2, m2⟩ := ih (fun l hl' => hl l (by simp [hl'])) i1 h
      exact ⟨i2, fun k i => Int.le_trans (m1 k i) (m2 k i)⟩

/-- The empty database meets the hypothesis. -/
example : ConcInv {} := ⟨List.Pairwise.nil, fun _ _ => by simp [timestamps, KV.get], fun _ => Nat.le_refl _, by simp⟩

/-! ## SQL -/

/-- A row of `nostr_sdk_pubkey_relays` (sqlh/db.go:59-70, 93-117): the four columns may be null. -/
structure Row where
  pk : Bytes
  relay : Bytes
  cols : Fin 4 → Option Int

/-- `max(?, coalesce(excluded.col, 0))` (sqlh/db.go:141, interop.go:15, 33): `excluded` is the row that could not be inserted, so `excluded.col` is the new value. -/
def conflictValue (ts : Int) (excluded : Option Int) : Int := max ts (excluded.getD 0)

/-- The upsert of `Save` (sqlh/db.go:138-142) with the unique index over pubkey and relay. -/
def upsert (pk relay : Bytes) (k : Fin 4) (ts : Int) : List Row → List Row
  | [] => [⟨pk, relay, fun i => if i = k then some ts else none⟩]
  | r :: rows =>
    if r.pk = pk ∧ r.relay = relay then { r with cols := fun i => if i = k then some (conflictValue ts (some ts)) else r.cols i } :: rows
    else r :: upsert pk relay k ts rows

/-- `SQLHints.Save` (sqlh/db.go:173-183): `saves` has seven places, four of them filled; the others and what is outside panic. -/
def sqlSave (rows : List Row) (pk relay : Bytes) (key ts now : Int) : Out (List Row) :=
  match keyIndex key with
  | none => .panic
  | some k => .val (upsert pk relay k (clamp ts now) rows)

/-- The databases that a history of saves leads to. -/
inductive SqlReach : List Saved → List Row → Prop
  | new : SqlReach [] []
  | save {h : List Saved} {rows rows' : List Row} (sv : Saved) : SqlReach h rows → sqlSave rows sv.pk sv.relay (sv.key.val : Int) sv.ts sv.now = .val rows' → SqlReach (h ++ [sv]) rows'

/-- The value of a column. -/
def Col (rows : List Row) (pk relay : Bytes) (k : Fin 4) (v : Option Int) : Prop := ∃ r ∈ rows, r.pk = pk ∧ r.relay = relay ∧ r.cols k = v

/-- Spec: the last save for this pubkey, relay and kind of hint, cut at its clock; nothing if there was none. -/
def lastSaved (h : List Saved) (pk relay : Bytes) (k : Fin 4) : Option Int :=
  (h.filter (fun sv => sv.pk = pk ∧ sv.relay = relay ∧ sv.key = k)).getLast?.map (fun sv => min sv.ts sv.now)

theorem upsert_spec (pk relay : Bytes) (k : Fin 4) (ts : Int) (rows : List Row) (hu : rows.Pairwise (fun a b => ¬ (a.pk = b.pk ∧ a.relay = b.relay))) :
    (upsert pk relay k ts rows).Pairwise (fun a b => ¬ (a.pk = b.pk ∧ a.relay = b.relay)) ∧
    (∀ r ∈ upsert pk relay k ts rows, (r.pk = pk ∧ r.relay = relay ∧ r.cols k = some ts ∧
        ((∃ r' ∈ rows, r'.pk = pk ∧ r'.relay = relay ∧ ∀ i, i ≠ k → r.cols i = r'.cols i) ∨ ((∀ r' ∈ rows, ¬ (r'.pk = pk ∧ r'.relay = relay)) ∧ ∀ i, i ≠ k → r.cols i = none))) ∨
      (¬ (r.pk = pk ∧ r.relay = relay) ∧ r ∈ rows)) ∧
    (∀ r ∈ rows, ¬ (r.pk = pk ∧ r.relay = relay) → r ∈ upsert pk relay k ts rows) ∧ ∃ r ∈ upsert pk relay k ts rows, r.pk = pk ∧ r.relay = relay := by
  induction rows with
  | nil =>
    refine ⟨by simp [upsert], ?_, by simp, _, List.mem_singleton.2 rfl, rfl, rfl⟩
    intro r hr
    rw [upsert, List.mem_singleton] at hr
    subst hr
    exact .inl ⟨rfl, rfl, by simp, .inr ⟨by simp, fun i hi => by simp [hi]⟩⟩
  | cons x rows ih =>
    have hu' := List.pairwise_cons.1 hu
    obtain ⟨a1, a2, a3, a4⟩ := ih hu'.2
    unfold upsert
    by_cases hx : x.pk = pk ∧ x.relay = relay
    · rw [if_pos hx]
      refine ⟨List.pairwise_cons.2 ⟨hu'.1, hu'.2⟩, ?_, ?_, _, List.mem_cons_self, hx.1, hx.2⟩
      · intro r hr
        rcases List.mem_cons.1 hr with rfl | hr
        · exact .inl ⟨hx.1, hx.2, by simp [conflictValue], .inl ⟨x, by simp, hx.1, hx.2, fun i hi => by simp [hi]⟩⟩
        · exact .inr ⟨fun h => hu'.1 r hr ⟨hx.1.trans h.1.symm, hx.2.trans h.2.symm⟩, by simp [hr]⟩
      · intro r hr hn
        rcases List.mem_cons.1 hr with rfl | hr
        · exact absurd hx hn
        · simp [hr]
    · rw [if_neg hx]
      refine ⟨List.pairwise_cons.2 ⟨?_, a1⟩, ?_, ?_, ?_⟩
      · intro r hr
        rcases a2 r hr with h | h
        · intro e; exact hx ⟨e.1.trans h.1, e.2.trans h.2.1⟩
        · exact hu'.1 r h.2
      · intro r hr
        rcases List.mem_cons.1 hr with rfl | hr
        · exact .inr ⟨hx, by simp⟩
        · rcases a2 r hr with ⟨h1, h2, h3, h4⟩ | ⟨h1, h2⟩
          · refine .inl ⟨h1, h2, h3, ?_⟩
            rcases h4 with ⟨r', hr', h4⟩ | ⟨h4, h5⟩
            · exact .inl ⟨r', by simp [hr'], h4⟩
            · refine .inr ⟨?_, h5⟩
              intro r' hr'
              rcases List.mem_cons.1 hr' with rfl | hr'
              · exact hx
              · exact h4 r' hr'
          · exact .inr ⟨h1, by simp [h2]⟩
      · intro r hr hn
        rcases List.mem_cons.1 hr with rfl | hr
        · simp
        · exact List.mem_cons_of_mem _ (a3 r hr hn)
      · obtain ⟨r, hr, h⟩ := a4
        exact ⟨r, by simp [hr], h⟩

theorem lastSaved_append (h : List Saved) (sv : Saved) (pk relay : Bytes) (k : Fin 4) :
    lastSaved (h ++ [sv]) pk relay k = if sv.pk = pk ∧ sv.relay = relay ∧ sv.key = k then some (min sv.ts sv.now) else lastSaved h pk relay k := by
  unfold lastSaved
  by_cases hc : sv.pk = pk ∧ sv.relay = relay ∧ sv.key = k
  · simp [List.filter_append, hc]
  · simp [List.filter_append, hc]

/-- **C121, SQL: the last save wins.** After any history of saves there is one row per pubkey and relay ever saved together, and each column holds the time of the *last* save of
that kind, whatever was there before. -/
theorem C121_sql_last {h : List Saved} {rows : List Row} (hr : SqlReach h rows) (pk relay : Bytes) :
    ((∃ r ∈ rows, r.pk = pk ∧ r.relay = relay) ↔ Hints.Known h pk relay) ∧
    rows.Pairwise (fun a b => ¬ (a.pk = b.pk ∧ a.relay = b.relay)) ∧
    (∀ r ∈ rows, r.pk = pk → r.relay = relay → ∀ k, r.cols k = lastSaved h pk relay k) := by
  induction hr with
  | new => exact ⟨by simp [Hints.Known], List.Pairwise.nil, by simp⟩
  | @save h rows rows' sv _ hs ih =>
    obtain ⟨i1, i2, i3⟩ := ih
    unfold sqlSave at hs
    rw [Hints.keyIndex_fin] at hs
    simp only [Hints.clamp_eq] at hs
    cases hs
    obtain ⟨u1, u2, u3, u4⟩ := upsert_spec sv.pk sv.relay sv.key (min sv.ts sv.now) rows i2
    refine ⟨?_, u1, ?_⟩
    · rw [Hints.known_append]
      constructor
      · rintro ⟨r, hr, e1, e2⟩
        rcases u2 r hr with ⟨h1, h2, _⟩ | ⟨_, h2⟩
        · exact .inr ⟨h1.symm.trans e1, h2.symm.trans e2⟩
        · exact .inl (i1.1 ⟨r, h2, e1, e2⟩)
      · rintro (hk | ⟨e1, e2⟩)
        · by_cases hsv : sv.pk = pk ∧ sv.relay = relay
          · obtain ⟨r, hr, h1, h2⟩ := u4
            exact ⟨r, hr, h1.trans hsv.1, h2.trans hsv.2⟩
          · obtain ⟨r, hr, e1, e2⟩ := i1.2 hk
            exact ⟨r, u3 r hr (fun h => hsv ⟨h.1.symm.trans e1, h.2.symm.trans e2⟩), e1, e2⟩
        · obtain ⟨r, hr, h1, h2⟩ := u4
          exact ⟨r, hr, h1.trans e1, h2.trans e2⟩
    · intro r hr e1 e2 k
      rw [lastSaved_append]
      rcases u2 r hr with ⟨h1, h2, h3, h4⟩ | ⟨h1, h2⟩
      · have p1 : sv.pk = pk := h1.symm.trans e1
        have p2 : sv.relay = relay := h2.symm.trans e2
        by_cases hk : sv.key = k
        · rw [if_pos ⟨p1, p2, hk⟩, ← hk]; exact h3
        · rw [if_neg (fun h => hk h.2.2)]
          rcases h4 with ⟨r', hr', g1, g2, g3⟩ | ⟨g1, g2⟩
          · rw [g3 k (fun e => hk e.symm)]
            exact i3 r' hr' (g1.trans p1) (g2.trans p2) k
          · rw [g2 k (fun e => hk e.symm)]
            symm
            unfold lastSaved
            have : h.filter (fun sv => sv.pk = pk ∧ sv.relay = relay ∧ sv.key = k) = [] := by
              rw [List.filter_eq_nil_iff]
              intro x hx hx'
              simp only [decide_eq_true_eq] at hx'
              obtain ⟨r', hr', q1, q2⟩ := i1.2 ⟨x, hx, hx'.1, hx'.2.1⟩
              exact g1 r' hr' ⟨q1.trans p1.symm, q2.trans p2.symm⟩
            rw [this]; rfl
      · rw [if_neg (fun h => h1 ⟨e1.trans h.1.symm, e2.trans h.2.1.symm⟩)]
        exact i3 r h2 e1 e2 k

/-- **C121 refuted for SQL: an older time replaces a newer one.** The update compares the new value with itself, not with the one stored. -/
theorem C121_sql_forgets_newer : ∃ (rows : List Row) (h : List Saved), SqlReach h rows ∧ Col rows (b! "k") (b! "r") 2 (some 40) ∧ ¬ IsNewest h (b! "k") (b! "r") 2 40 := by
  refine ⟨_, [⟨b! "k", b! "r", 2, 50, 100⟩, ⟨b! "k", b! "r", 2, 40, 100⟩], .save (h := [_]) _ (.save (h := []) _ .new rfl) rfl, ⟨_, List.mem_singleton.2 rfl, rfl, rfl, by decide⟩, ?_⟩
  intro hn
  have := hn.1 ⟨b! "k", b! "r", 2, 50, 100⟩ (by simp) rfl rfl rfl
  revert this
  decide

/-- **C121, SQL, what remains true.** When the saves of a kind for a pubkey and a relay come in the order of their times (cut at their clocks), the newest is stored. -/
theorem C121_sql_newest_partial {h : List Saved} {rows : List Row} (hr : SqlReach h rows) {pk relay : Bytes} {k : Fin 4} {v : Int}
    (hord : (h.filter (fun sv => sv.pk = pk ∧ sv.relay = relay ∧ sv.key = k)).Pairwise (fun a b => min a.ts a.now ≤ min b.ts b.now))
    (hc : Col rows pk relay k (some v)) : IsNewest h pk relay k v := by
  obtain ⟨r, hr', e1, e2, e3⟩ := hc
  have hlast := (C121_sql_last hr pk relay).2.2 r hr' e1 e2 k
  rw [e3] at hlast
  unfold lastSaved at hlast
  generalize hl : h.filter (fun sv => sv.pk = pk ∧ sv.relay = relay ∧ sv.key = k) = l at hlast hord
  have hmem : ∀ sv, sv ∈ l ↔ sv ∈ h ∧ sv.pk = pk ∧ sv.relay = relay ∧ sv.key = k := by
    intro sv; rw [← hl, List.mem_filter]; simp
  cases hg : l.getLast? with
  | none => rw [hg] at hlast; cases hlast
  | some x =>
    rw [hg] at hlast
    simp only [Option.map_some, Option.some.injEq] at hlast
    obtain ⟨ys, rfl⟩ := List.getLast?_eq_some_iff.1 hg
    refine ⟨?_, .inr ?_⟩
    · intro sv hsv h1 h2 h3
      rw [hlast]
      rcases List.mem_append.1 ((hmem sv).2 ⟨hsv, h1, h2, h3⟩) with hm | hm
      · exact (List.pairwise_append.1 hord).2.2 sv hm x (by simp)
      · rw [List.mem_singleton] at hm; subst hm; exact Int.le_refl _
    · obtain ⟨g1, g2, g3, g4⟩ := (hmem x).1 (by simp)
      exact ⟨x, g1, g2, g3, g4, hlast⟩

/-- The hypotheses are met. -/
example : ∃ rows, SqlReach [⟨b! "k", b! "r", 2, 40, 100⟩, ⟨b! "k", b! "r", 2, 500, 100⟩] rows ∧ Col rows (b! "k") (b! "r") 2 (some 100) :=
  ⟨_, .save (h := [_]) _ (.save (h := []) _ .new rfl) rfl, ⟨_, List.mem_singleton.2 rfl, rfl, rfl, by decide⟩⟩

end GoNostr.HintStores
