import Verif.Misc.Pointers
import Verif.Event.Theorems
import Verif.Tags.Theorems
/-!
# C60, C61: proof of work (nip13)
-/

set_option autoImplicit false

namespace GoNostr.Pow

/-- `bits.LeadingZeros8` (math/bits): 8 minus the length of the number in bits. -/
def leadingZeros8 (b : UInt8) : Nat :=
  if b ≥ 128 then 0 else if b ≥ 64 then 1 else if b ≥ 32 then 2 else if b ≥ 16 then 3 else if b ≥ 8 then 4
  else if b ≥ 4 then 5 else if b ≥ 2 then 6 else if b ≥ 1 then 7 else 8

/-- The loop of `Difficulty` (nip13/nip13.go:44-54); the first argument counts the rounds left. -/
def difficultyLoop (id : Bytes) : Nat → Int → Int → Out Int
  | 0, _, zeros => .val zeros
  | n + 1, i, zeros => match goSlice id i (i + 2) with
    | .panic => .panic
    | .val s => if s = b! "00" then difficultyLoop id n (i + 2) (zeros + 8)
      else match hexDec s with
        | none => .val (-1)
        | some r => .val (zeros + leadingZeros8 (r.headD 0))

/-- `Difficulty` (nip13/nip13.go:40-55). -/
def difficulty (id : Bytes) : Out Int := difficultyLoop id 32 0 0

/-- `difficultyBytes` (nip13/nip13.go:57-68). -/
def difficultyBytes : Bytes → Nat
  | [] => 0
  | b :: rest => if b = 0 then 8 + difficultyBytes rest else leadingZeros8 b

/-- `Check` (nip13/nip13.go:74-79): `true` is a nil error. -/
def check (id : Bytes) (min : Int) : Out Bool :=
  match difficulty id with
  | .val d => .val (decide (¬ d < min))
  | .panic => .panic

/-- `CommittedDifficulty` (nip13/nip13.go:25-37). -/
def committedDifficulty (evt : Event) : Out Int :=
  match Tags.find (b! "nonce") evt.tags with
  | some (_ :: _ :: t :: _) => match difficulty evt.id with
    | .panic => .panic
    | .val work => if (parseInt64 t).value ≤ work then .val (parseInt64 t).value else .val 0
  | _ => .val 0

/-! ## C60 -/

/-- Spec: the bits of a byte, most significant first; leading zero bits of a byte string. -/
def bits (b : UInt8) : List Bool := [b.toNat.testBit 7, b.toNat.testBit 6, b.toNat.testBit 5, b.toNat.testBit 4, b.toNat.testBit 3, b.toNat.testBit 2, b.toNat.testBit 1, b.toNat.testBit 0]

/-- Spec: the number of leading zero bits. -/
def leadingZeroBits (d : Bytes) : Nat := ((d.flatMap bits).takeWhile (· = false)).length

theorem lz_byte : ∀ b : UInt8, ((bits b).takeWhile (· = false)).length = leadingZeros8 b := by decide +kernel

theorem bits_zero : bits 0 = List.replicate 8 false := by decide

theorem lz_nonzero : ∀ b : UInt8, b ≠ 0 → ∃ x ∈ bits b, x = true := by decide +kernel

theorem takeWhile_append_of_stop {α : Type} {p : α → Bool} : ∀ (l m : List α), (∃ x ∈ l, p x = false) → (l ++ m).takeWhile p = l.takeWhile p
  | [], m, h => by simp at h
  | a :: l, m, h => by
    by_cases ha : p a = true
    · have : ∃ x ∈ l, p x = false := by
        obtain ⟨x, hx, hp⟩ := h
        rcases List.mem_cons.1 hx with rfl | hx
        · rw [ha] at hp; cases hp
        · exact ⟨x, hx, hp⟩
      simp [List.takeWhile_cons, ha, takeWhile_append_of_stop l m this]
    · simp [List.takeWhile_cons, ha]

/-- **C60** (bytes). The byte version counts the leading zero bits. -/
theorem C60_difficultyBytes : ∀ d : Bytes, difficultyBytes d = leadingZeroBits d
  | [] => rfl
  | b :: rest => by
    unfold difficultyBytes leadingZeroBits
    by_cases h : b = 0
    · subst h
      rw [if_pos rfl, List.flatMap_cons, bits_zero, C60_difficultyBytes rest]
      simp [leadingZeroBits, List.replicate, List.takeWhile_cons]
      omega
    · obtain ⟨x, hx, rfl⟩ := lz_nonzero b h
      rw [if_neg h, List.flatMap_cons, takeWhile_append_of_stop _ _ ⟨true, hx, rfl⟩, lz_byte]

theorem hexVal_zero : ∀ c : UInt8, hexVal c = some 0 ↔ c = 48 := by decide +kernel

theorem hexVal_small : ∀ c : UInt8, ∀ x, hexVal c = some x → x < 16 := by
  intro c x h
  have : ∀ c : UInt8, (hexVal c).all (fun x => decide (x < 16)) = true := by decide +kernel
  have := this c
  rw [h] at this
  simpa using this

theorem nibble_zero : ∀ x y : Fin 16, ((UInt8.ofNat x.val <<< 4) ||| UInt8.ofNat y.val) = 0 → x = 0 ∧ y = 0 := by decide +kernel

theorem pair_zero {a b x y : UInt8} (ha : hexVal a = some x) (hb : hexVal b = some y) (h : ((x <<< 4) ||| y) = 0) : a = 48 ∧ b = 48 := by
  have hx := hexVal_small a x ha
  have hy := hexVal_small b y hb
  have := nibble_zero ⟨x.toNat, hx⟩ ⟨y.toNat, hy⟩ (by simpa using h)
  have h0 : x = 0 := by have := congrArg Fin.val this.1; exact UInt8.toNat_inj.1 (by simpa using this)
  have h1 : y = 0 := by have := congrArg Fin.val this.2; exact UInt8.toNat_inj.1 (by simpa using this)
  subst h0 h1
  exact ⟨(hexVal_zero a).1 ha, (hexVal_zero b).1 hb⟩

theorem slice_at (pre rest : Bytes) (a b : UInt8) : goSlice (pre ++ a :: b :: rest) (pre.length : Int) ((pre.length : Int) + 2) = .val [a, b] := by
  unfold goSlice
  rw [if_pos ⟨by omega, by omega, by simp; omega⟩]
  have : ((pre.length : Int) + 2 - (pre.length : Int)).toNat = 2 := by omega
  rw [this, Int.toNat_natCast, List.drop_left]
  rfl

theorem difficultyLoop_eq : ∀ (d pre rest : Bytes) (z : Int), hexDec rest = some d →
    difficultyLoop (pre ++ rest) d.length (pre.length : Int) z = .val (z + difficultyBytes d)
  | [], pre, rest, z, h => by simp [difficultyLoop, difficultyBytes]
  | c :: d, pre, rest, z, h => by
    match rest, h with
    | [], h => simp [hexDec] at h
    | [_], h => simp [hexDec] at h
    | a :: b :: rest, h =>
      unfold hexDec at h
      cases ha : hexVal a with
      | none => simp [ha] at h
      | some x => cases hb : hexVal b with
        | none => simp [ha, hb] at h
        | some y => cases hr : hexDec rest with
          | none => simp [ha, hb, hr] at h
          | some r =>
            simp only [ha, hb, hr, Option.some.injEq, List.cons.injEq] at h
            obtain ⟨h1, rfl⟩ := h
            rw [List.length_cons, difficultyLoop, slice_at]
            simp only []
            by_cases hz : [a, b] = b! "00"
            · simp only [List.cons.injEq, and_true] at hz
              obtain ⟨rfl, rfl⟩ := hz
              have hx : x = 0 := by have := (hexVal_zero 48).2 rfl; rw [this] at ha; cases ha; rfl
              have hy : y = 0 := by have := (hexVal_zero 48).2 rfl; rw [this] at hb; cases hb; rfl
              subst hx hy
              have : c = 0 := h1.symm
              subst this
              rw [if_pos rfl]
              have e := difficultyLoop_eq r (pre ++ [48, 48]) rest (z + 8) hr
              rw [List.append_assoc] at e
              simp only [List.cons_append, List.nil_append, List.length_append, List.length_cons, List.length_nil] at e
              push_cast at e
              rw [show ((pre.length : Int) + 2) = (pre.length : Int) + 1 + 1 by omega, e]
              simp only [difficultyBytes, if_pos]
              congr 1
              push_cast
              omega
            · rw [if_neg hz]
              have hc : c ≠ 0 := by
                intro hc
                rw [← h1] at hc
                obtain ⟨rfl, rfl⟩ := pair_zero ha hb hc
                exact hz rfl
              simp only [hexDec, ha, hb, List.headD_cons, h1, difficultyBytes, if_neg hc]

/-- **C60**. For every id of 64 hex characters `Difficulty` is the number of leading zero bits of the 32 bytes it encodes, and so is the
byte version used while mining. -/
theorem C60_difficulty (id d : Bytes) (h : hexDec id = some d) (hl : id.length = 64) :
    difficulty id = .val (leadingZeroBits d) ∧ difficultyBytes d = leadingZeroBits d := by
  have hd : d.length = 32 := by have := hexDec_length h; omega
  refine ⟨?_, C60_difficultyBytes d⟩
  have := difficultyLoop_eq d [] id 0 h
  rw [hd] at this
  simpa [difficulty, C60_difficultyBytes] using this

/-- **C60** (ids computed by the library). -/
theorem C60_difficulty_getID (H : Hash32) (evt : Event) : difficulty (getID H evt) = .val (leadingZeroBits (H (serialize evt)).val) :=
  (C60_difficulty _ _ (hexDec_hexEnc _) (by simp [(H (serialize evt)).property])).1

/-- **C60** (`Check`). It accepts an id exactly when it has at least the wanted number of leading zero bits. -/
theorem C60_check (id d : Bytes) (min : Int) (h : hexDec id = some d) (hl : id.length = 64) :
    check id min = .val (decide (min ≤ (leadingZeroBits d : Int))) := by
  unfold check
  rw [(C60_difficulty id d h hl).1]
  simp only [Int.not_lt]

/-- **C60** (commitment). Without a nonce tag naming a target the committed difficulty is 0; with one (the first `nonce` tag counts) it is
the target if the id reaches it and 0 otherwise, so it never exceeds the actual difficulty. -/
theorem C60_committed (evt : Event) (d : Bytes) (h : hexDec evt.id = some d) (hl : evt.id.length = 64) :
    (∀ k v t r, Tags.find (b! "nonce") evt.tags = some (k :: v :: t :: r) →
      ((parseInt64 t).value ≤ leadingZeroBits d → committedDifficulty evt = .val (parseInt64 t).value) ∧
      (¬ (parseInt64 t).value ≤ leadingZeroBits d → committedDifficulty evt = .val 0)) ∧
    ((∀ k v t r, Tags.find (b! "nonce") evt.tags ≠ some (k :: v :: t :: r)) → committedDifficulty evt = .val 0) ∧
    ∃ w, committedDifficulty evt = .val w ∧ w ≤ leadingZeroBits d := by
  have hd := (C60_difficulty _ d h hl).1
  have key : ∀ k v t r, Tags.find (b! "nonce") evt.tags = some (k :: v :: t :: r) →
      ((parseInt64 t).value ≤ leadingZeroBits d → committedDifficulty evt = .val (parseInt64 t).value) ∧
      (¬ (parseInt64 t).value ≤ leadingZeroBits d → committedDifficulty evt = .val 0) := by
    intro k v t r ht
    unfold committedDifficulty
    rw [ht]
    simp only [hd]
    exact ⟨fun h => by rw [if_pos h], fun h => by rw [if_neg h]⟩
  have key2 : (∀ k v t r, Tags.find (b! "nonce") evt.tags ≠ some (k :: v :: t :: r)) → committedDifficulty evt = .val 0 := by
    intro hn
    unfold committedDifficulty
    split
    · rename_i k v t r ht; exact absurd ht (hn _ _ _ _)
    · rfl
  refine ⟨key, key2, ?_⟩
  by_cases hn : ∀ k v t r, Tags.find (b! "nonce") evt.tags ≠ some (k :: v :: t :: r)
  · exact ⟨0, key2 hn, by omega⟩
  · simp only [ne_eq, not_forall, not_not] at hn
    obtain ⟨k, v, t, r, ht⟩ := hn
    by_cases hc : (parseInt64 t).value ≤ leadingZeroBits d
    · exact ⟨_, (key k v t r ht).1 hc, hc⟩
    · exact ⟨0, (key k v t r ht).2 hc, by omega⟩

/-- **C60** (invalid ids). `Difficulty` of a string that is shorter than an id panics if it consists of zeros. -/
theorem C60_short_id_panics : difficulty (b! "0000") = .panic ∧ difficulty [] = .panic ∧ difficulty (b! "00z0") = .val (-1) := by
  decide +kernel

example : difficulty (hexEnc (0 :: 0 :: 0x1f :: List.replicate 29 255)) = .val 19 ∧
    leadingZeroBits (0 :: 0 :: 0x1f :: List.replicate 29 255) = 19 := by decide +kernel

/-! ## `DoWork` -/

/-- The tag a worker puts in the event (nip13/nip13.go:101, 107). -/
def nonceTag (nonce : Nat) (target : Int) : Tag := [b! "nonce", fmtNat nonce, fmtInt target]

/-- The event a worker hashes (nip13/nip13.go:102, 107). -/
def mined (evt : Event) (nonce : Nat) (target : Int) : Event := { evt with tags := evt.tags ++ [nonceTag nonce target] }

/-- The test (nip13/nip13.go:109). -/
def good (H : Hash32) (evt : Event) (target : Int) (nonce : Nat) : Bool :=
  decide (target ≤ difficultyBytes (H (serialize (mined evt nonce target))).val)

/-- Where a worker is (nip13/nip13.go:99-131). -/
inductive WPc
  | attempt | send | after | dead
  deriving DecidableEq, Repr

/-- A worker: its nonce, the iterations of the inner loop done, and how many nonces it has tried in all (history). -/
structure Worker where
  pc : WPc
  nonce : Nat
  burst : Nat
  attempts : Nat
  deriving DecidableEq, Repr

/-- Where `DoWork` is (nip13/nip13.go:134-139). -/
inductive Main
  | wait
  | got (t : Tag)
  | timeout
  deriving DecidableEq, Repr

/-- `caller`: the caller's context ended; `inner`: `cancel()` was called. `tried` lists the nonces tried, with the worker (history). -/
structure State where
  workers : List Worker
  main : Main
  caller : Bool
  inner : Bool
  tried : List (Nat × Nat)
  deriving DecidableEq, Repr

/-- `ctx.Done()` of the workers: a context derived from the caller's (nip13/nip13.go:89-90). -/
def State.cancelled (s : State) : Bool := s.caller || s.inner

/-- nip13/nip13.go:89-132: worker `i` starts at nonce `i`. -/
def init (n : Nat) : State where
  workers := (List.range n).map (fun i => { pc := .attempt, nonce := i, burst := 0, attempts := 0 })
  main := .wait
  caller := false
  inner := false
  tried := []

/-- The atomic actions of the machine; its step function says which lines each of them is. -/
inductive Lab
  /-- one round of the inner loop -/
  | attempt (i : Nat)
  /-- the check of the context between bursts -/
  | poll (i : Nat)
  /-- the tag goes to the caller / the context ended first / the worker cancels and returns -/
  | deliver (i : Nat)
  | giveUp (i : Nat)
  | after (i : Nat)
  /-- the caller's context ends -/
  | callerCancel
  /-- `DoWork` returns the timeout error / runs its deferred cancel -/
  | timeout
  | deferred
  deriving DecidableEq, Repr

/-- One atomic action of `DoWork` (nip13/nip13.go:84-140) on `n` threads. -/
def step (H : Hash32) (evt : Event) (target : Int) (n : Nat) (s : State) : Lab → Option State
  | .attempt i => match s.workers[i]? with
    | none => none
    | some w => if w.pc = .attempt ∧ w.burst < 10000 then
        (if good H evt target w.nonce then some { s with
            tried := (i, w.nonce) :: s.tried
            workers := s.workers.set i { w with pc := .send, attempts := w.attempts + 1 } }
        else some { s with
            tried := (i, w.nonce) :: s.tried
            workers := s.workers.set i { w with nonce := (w.nonce + n) % 2 ^ 64, burst := w.burst + 1, attempts := w.attempts + 1 } })
      else none
  | .poll i => match s.workers[i]? with
    | none => none
    | some w => if w.pc = .attempt ∧ w.burst = 10000 then
        (if s.cancelled then some { s with workers := s.workers.set i { w with pc := .dead } }
        else some { s with workers := s.workers.set i { w with burst := 0 } })
      else none
  | .deliver i => match s.workers[i]? with
    | none => none
    | some w => if w.pc = .send ∧ s.main = .wait then some { s with
        main := .got (nonceTag w.nonce target)
        workers := s.workers.set i { w with pc := .after } }
      else none
  | .giveUp i => match s.workers[i]? with
    | none => none
    | some w => if w.pc = .send ∧ s.cancelled = true then some { s with workers := s.workers.set i { w with pc := .after } } else none
  | .after i => match s.workers[i]? with
    | none => none
    | some w => if w.pc = .after then some { s with
        inner := true
        workers := s.workers.set i { w with pc := .dead } }
      else none
  | .callerCancel => some { s with caller := true }
  | .timeout => if s.main = .wait ∧ s.cancelled = true then some { s with main := .timeout } else none
  | .deferred => if s.main = .wait then none else some { s with inner := true }

/-- A schedule: the actions one after the other. -/
def run (H : Hash32) (evt : Event) (target : Int) (n : Nat) (s : State) : List Lab → Option State
  | [] => some s
  | l :: ls => match step H evt target n s l with
    | none => none
    | some s' => run H evt target n s' ls

/-- `DoWork` as a whole (nip13/nip13.go:84-87): an event without public key is refused before any work. -/
inductive Outcome
  | missingPubKey | timeout | tag (t : Tag)
  deriving DecidableEq, Repr

/-- `DoWork` may end with this outcome. -/
def MayReturn (H : Hash32) (evt : Event) (target : Int) (n : Nat) (o : Outcome) : Prop :=
  if evt.pubkey = [] then o = .missingPubKey
  else ∃ ls s, run H evt target n (init n) ls = some s ∧
    ((∃ t, s.main = .got t ∧ o = .tag t) ∨ (s.main = .timeout ∧ o = .timeout))

theorem run_inv {H : Hash32} {evt : Event} {target : Int} {n : Nat} {P : State → Prop} (hs : ∀ s l s', P s → step H evt target n s l = some s' → P s') :
    ∀ {ls : List Lab} {s s' : State}, P s → run H evt target n s ls = some s' → P s' := by
  intro ls
  induction ls with
  | nil => intro s s' hp h; simp only [run, Option.some.injEq] at h; exact h ▸ hp
  | cons l ls ih =>
    intro s s' hp h
    simp only [run] at h
    split at h
    · cases h
    · rename_i s1 h1
      exact ih (hs s l s1 hp h1) h

/-- The result is a good nonce; the derived context ends only through the caller or after the result. -/
structure Inv (M : Nat) (H : Hash32) (evt : Event) (target : Int) (s : State) : Prop where
  range : ∀ (i : Nat) (w : Worker), s.workers[i]? = some w → w.nonce < M
  send : ∀ (i : Nat) (w : Worker), s.workers[i]? = some w → w.pc = .send → good H evt target w.nonce = true
  after : ∀ (i : Nat) (w : Worker), s.workers[i]? = some w → w.pc = .after → s.caller = true ∨ s.main ≠ .wait
  inner : s.inner = true → s.caller = true ∨ s.main ≠ .wait
  got : ∀ t, s.main = .got t → ∃ x, x < M ∧ t = nonceTag x target ∧ good H evt target x = true
  timeout : s.main = .timeout → s.caller = true

theorem inv_step {M : Nat} (hM : 2 ^ 64 = M) {H : Hash32} {evt : Event} {target : Int} {n : Nat} {s s' : State} {l : Lab} (hi : Inv M H evt target s)
    (h : step H evt target n s l = some s') : Inv M H evt target s' := by
  obtain ⟨h1, h2, h3, h4, h5, h6⟩ := hi
  have hm : ∀ x : Nat, x % M < M := fun x => Nat.mod_lt _ (by rw [← hM]; decide)
  have hg : ∀ (i : Nat) (w : Worker), s.workers[i]? = some w → w.pc = .send → ∃ x, x < M ∧ nonceTag w.nonce target = nonceTag x target ∧ good H evt target x = true :=
    fun i w hw hp => ⟨w.nonce, h1 i w hw, rfl, h2 i w hw hp⟩
  have hcc : s.cancelled = true → s.caller = true ∨ s.inner = true := by simp [State.cancelled]
  simp only [step, hM] at h
  clear hM
  (repeat' split at h) <;> (try simp only [reduceCtorEq, Option.some.injEq] at h) <;> (try subst h)
  all_goals first
    | contradiction
    | exact ⟨h1, h2, h3, h4, h5, h6⟩
    | (constructor <;> grind)

theorem inv_init (H : Hash32) (evt : Event) (target : Int) (n : Nat) (hn : n ≤ 2 ^ 64) : Inv (2 ^ 64) H evt target (init n) := by
  have key : ∀ (i : Nat) (w : Worker), (init n).workers[i]? = some w → w.nonce < 2 ^ 64 ∧ w.pc = .attempt := by
    intro i w h
    simp only [init, List.getElem?_map, Option.map_eq_some_iff] at h
    obtain ⟨a, ha, rfl⟩ := h
    have := List.getElem?_range (n := n) (i := i)
    have hlt : i < n := by
      by_contra hc
      rw [List.getElem?_eq_none (by simp; omega)] at ha
      cases ha
    rw [List.getElem?_range hlt] at ha
    cases ha
    exact ⟨by simp only []; omega, rfl⟩
  constructor
  · exact fun i w h => (key i w h).1
  · intro i w h hc; rw [(key i w h).2] at hc; cases hc
  · intro i w h hc; rw [(key i w h).2] at hc; cases hc
  · intro h; simp [init] at h
  · intro t h; simp [init] at h
  · intro h; simp [init] at h

theorem find_append {key : Bytes} {tags : Tags} (h : Tags.find key tags = none) (t : Tag) : Tags.find key (tags ++ [t]) = Tags.find key [t] := by
  induction tags with
  | nil => rfl
  | cons x xs ih =>
    match x, h with
    | [], h => exact ih h
    | [_], h => exact ih h
    | k :: v :: r, h =>
      simp only [Tags.find] at h
      split at h
      · cases h
      · rename_i hk
        simp only [List.cons_append, Tags.find, if_neg hk]
        exact ih h

/-- **C61** (the result is a proof of work). On any number of threads and under every schedule, the tag `DoWork` returns names a 64-bit
nonce and the target, the id of the event with this tag added has at least `target` leading zero bits and `Check` accepts it; if the event
had no nonce tag before, the committed difficulty of the result is the target. -/
theorem C61_result_valid (H : Hash32) (evt : Event) (target : Int) (n : Nat) (hn : n ≤ 2 ^ 64) (t : Tag)
    (h : MayReturn H evt target n (.tag t)) :
    ∃ nonce, nonce < 2 ^ 64 ∧ t = [b! "nonce", fmtNat nonce, fmtInt target] ∧
      let e : Event := { evt with tags := evt.tags ++ [t] }
      target ≤ leadingZeroBits (H (serialize e)).val ∧
      check (getID H e) target = .val true ∧
      (Tags.find (b! "nonce") evt.tags = none → -(2 ^ 63) ≤ target → committedDifficulty { e with id := getID H e } = .val target) := by
  unfold MayReturn at h
  split at h
  · cases h
  · obtain ⟨ls, s, hr, hm⟩ := h
    have hi := run_inv (P := Inv (2 ^ 64) H evt target) (fun _ _ _ => inv_step rfl) (inv_init H evt target n hn) hr
    rcases hm with ⟨t', h1, h2⟩ | ⟨-, h2⟩
    · cases h2
      obtain ⟨x, hx, rfl, hg⟩ := hi.got t h1
      have hge : target ≤ leadingZeroBits (H (serialize (mined evt x target))).val := by
        rw [← C60_difficultyBytes]
        exact of_decide_eq_true hg
      have hid : hexDec (getID H (mined evt x target)) = some (H (serialize (mined evt x target))).val := hexDec_hexEnc _
      have hlen : (getID H (mined evt x target)).length = 64 := by simp [getID, (H (serialize (mined evt x target))).property]
      refine ⟨x, hx, rfl, hge, ?_, ?_⟩
      · show check (getID H (mined evt x target)) target = .val true
        rw [C60_check _ _ target hid hlen]
        simp [hge]
      · intro hf hlo
        have hb : leadingZeroBits (H (serialize (mined evt x target))).val ≤ 256 := by
          rw [← C60_difficultyBytes]
          have : ∀ d : Bytes, difficultyBytes d ≤ 8 * d.length := by
            intro d
            induction d with
            | nil => simp [difficultyBytes]
            | cons b d ih =>
              unfold difficultyBytes
              have hall : ∀ b : UInt8, leadingZeros8 b ≤ 8 := by decide +kernel
              have := hall b
              split <;> simp <;> omega
          have := this (H (serialize (mined evt x target))).val
          rw [(H (serialize (mined evt x target))).property] at this
          omega
        have hp : parseInt64 (fmtInt target) = .ok target := parseInt64_fmtInt hlo (by omega)
        refine ((C60_committed { mined evt x target with id := getID H (mined evt x target) } _ hid hlen).1 (b! "nonce") (fmtNat x) (fmtInt target) [] ?_).1 ?_ |>.trans ?_
        · show Tags.find (b! "nonce") (evt.tags ++ [nonceTag x target]) = _
          rw [find_append hf]
          rfl
        · rw [hp]; exact hge
        · rw [hp]; rfl
    · cases h2

/-- **C61** (errors). The timeout is reported only if the caller's context ended, and an event without public key is always refused with
its own error, without any work. -/
theorem C61_errors (H : Hash32) (evt : Event) (target : Int) (n : Nat) :
    (∀ ls s, n ≤ 2 ^ 64 → run H evt target n (init n) ls = some s → s.main = .timeout → s.caller = true ∧ Lab.callerCancel ∈ ls) ∧
    (evt.pubkey = [] → ∀ o, MayReturn H evt target n o ↔ o = .missingPubKey) ∧
    (evt.pubkey ≠ [] → ¬ MayReturn H evt target n .missingPubKey) := by
  refine ⟨?_, ?_, ?_⟩
  · intro ls s hn h hm
    have hi := run_inv (P := Inv (2 ^ 64) H evt target) (fun _ _ _ => inv_step rfl) (inv_init H evt target n hn) h
    have hc := hi.timeout hm
    refine ⟨hc, ?_⟩
    have key : ∀ (ls : List Lab) (s s' : State), run H evt target n s ls = some s' → s.caller = false → s'.caller = true → Lab.callerCancel ∈ ls := by
      intro ls
      induction ls with
      | nil => intro s s' h h1 h2; simp only [run, Option.some.injEq] at h; subst h; rw [h1] at h2; cases h2
      | cons l ls ih =>
        intro s s' h h1 h2
        simp only [run] at h
        split at h
        · cases h
        · rename_i s1 hs1
          by_cases hl : l = .callerCancel
          · subst hl; exact List.mem_cons_self
          · have h3 : s1.caller = false := by
              clear h ih
              simp only [step] at hs1
              (repeat' split at hs1) <;> (try simp only [reduceCtorEq, Option.some.injEq] at hs1) <;> (try subst hs1) <;> first | exact h1 | (exfalso; exact hl rfl) | contradiction
            exact List.mem_cons_of_mem _ (ih s1 s' h h3 h2)
    exact key ls _ s h rfl hc
  · intro hp o
    unfold MayReturn
    rw [if_pos hp]
  · intro hp
    unfold MayReturn
    rw [if_neg hp]
    rintro ⟨ls, s, -, ⟨t, -, h⟩ | ⟨-, h⟩⟩ <;> cases h

/-- Which nonces a worker has tried: its first is its number, and each next one is `n` further. -/
structure TryInv (n : Nat) (s : State) : Prop where
  len : s.workers.length = n
  pos : ∀ (i : Nat) (w : Worker), s.workers[i]? = some w → w.pc = .attempt → w.nonce = (i + w.attempts * n) % 2 ^ 64
  tried : ∀ i x, (i, x) ∈ s.tried ↔ ∃ w, s.workers[i]? = some w ∧ ∃ k, k < w.attempts ∧ x = (i + k * n) % 2 ^ 64

theorem next_nonce (i a n : Nat) : ((i + a * n) % 2 ^ 64 + n) % 2 ^ 64 = (i + (a + 1) * n) % 2 ^ 64 := by
  rw [Nat.mod_add_mod]
  congr 1
  rw [Nat.add_mul]
  omega

/-- Updating a worker without changing the number of its attempts. -/
theorem tried_same {n i : Nat} {w w' : Worker} {ws : List Worker} {tr : List (Nat × Nat)} (hw : ws[i]? = some w) (ha : w'.attempts = w.attempts)
    (h : ∀ i x, (i, x) ∈ tr ↔ ∃ w, ws[i]? = some w ∧ ∃ k, k < w.attempts ∧ x = (i + k * n) % 2 ^ 64) :
    ∀ j x, (j, x) ∈ tr ↔ ∃ v, (ws.set i w')[j]? = some v ∧ ∃ k, k < v.attempts ∧ x = (j + k * n) % 2 ^ 64 := by
  intro j x
  have hi : i < ws.length := (List.getElem?_eq_some_iff.1 hw).1
  rw [h j x]
  by_cases hj : i = j
  · subst hj
    rw [List.getElem?_set_self hi, hw]
    simp [ha]
  · rw [List.getElem?_set_ne hj]

theorem tried_more {n i : Nat} {w w' : Worker} {ws : List Worker} {tr : List (Nat × Nat)} (hw : ws[i]? = some w) (ha : w'.attempts = w.attempts + 1)
    (hn : w.nonce = (i + w.attempts * n) % 2 ^ 64)
    (h : ∀ i x, (i, x) ∈ tr ↔ ∃ w, ws[i]? = some w ∧ ∃ k, k < w.attempts ∧ x = (i + k * n) % 2 ^ 64) :
    ∀ j x, (j, x) ∈ (i, w.nonce) :: tr ↔ ∃ v, (ws.set i w')[j]? = some v ∧ ∃ k, k < v.attempts ∧ x = (j + k * n) % 2 ^ 64 := by
  intro j x
  have hi : i < ws.length := (List.getElem?_eq_some_iff.1 hw).1
  rw [List.mem_cons, h j x]
  by_cases hj : i = j
  · subst hj
    rw [List.getElem?_set_self hi, hw]
    constructor
    · rintro (h | ⟨v, h1, k, h2, h3⟩)
      · simp only [Prod.mk.injEq, true_and] at h
        exact ⟨w', rfl, w.attempts, by omega, by rw [h, hn]⟩
      · cases h1
        exact ⟨w', rfl, k, by omega, h3⟩
    · rintro ⟨v, h1, k, h2, h3⟩
      cases h1
      by_cases hk : k = w.attempts
      · left; rw [h3, hn, hk]
      · right; exact ⟨w, rfl, k, by omega, h3⟩
  · rw [List.getElem?_set_ne hj]
    constructor
    · rintro (h | h)
      · exact absurd (congrArg Prod.fst h).symm hj
      · exact h
    · exact Or.inr

theorem tryInv_step {H : Hash32} {evt : Event} {target : Int} {n : Nat} {s s' : State} {l : Lab} (hi : TryInv n s)
    (h : step H evt target n s l = some s') : TryInv n s' := by
  obtain ⟨h1, h2, h3⟩ := hi
  have hnn := fun i a => next_nonce i a n
  generalize hM : 2 ^ 64 = M at *
  simp only [step, hM] at h
  cases l with
  | attempt i =>
    simp only [] at h
    (repeat' split at h) <;> (try simp only [reduceCtorEq, Option.some.injEq] at h) <;> (try subst h)
    all_goals first | contradiction | skip
    · rename_i w hw hp hg
      subst hM
      refine ⟨by simpa using h1, ?_, tried_more hw rfl (h2 i w hw hp.1) h3⟩
      intro j v hj hv
      by_cases hij : i = j
      · subst hij
        rw [List.getElem?_set_self (List.getElem?_eq_some_iff.1 hw).1] at hj
        cases hj; cases hv
      · rw [List.getElem?_set_ne hij] at hj; exact h2 j v hj hv
    · rename_i w hw hp hg
      subst hM
      refine ⟨by simpa using h1, ?_, tried_more hw rfl (h2 i w hw hp.1) h3⟩
      intro j v hj hv
      by_cases hij : i = j
      · subst hij
        rw [List.getElem?_set_self (List.getElem?_eq_some_iff.1 hw).1] at hj
        cases hj
        simp only []
        rw [h2 i w hw hp.1, next_nonce]
      · rw [List.getElem?_set_ne hij] at hj; exact h2 j v hj hv
  | callerCancel => simp only [Option.some.injEq] at h; subst h; subst hM; exact ⟨h1, h2, h3⟩
  | timeout =>
    simp only [] at h
    split at h
    · simp only [Option.some.injEq] at h; subst h; subst hM; exact ⟨h1, h2, h3⟩
    · cases h
  | deferred =>
    simp only [] at h
    split at h
    · cases h
    · simp only [Option.some.injEq] at h; subst h; subst hM; exact ⟨h1, h2, h3⟩
  | poll i =>
    simp only [] at h
    (repeat' split at h) <;> (try simp only [reduceCtorEq, Option.some.injEq] at h) <;> (try subst h)
    all_goals first | contradiction | skip
    all_goals
      rename_i w hw hp hg
      subst hM
      refine ⟨by simpa using h1, ?_, tried_same hw rfl h3⟩
      intro j v hj hv
      by_cases hij : i = j
      · subst hij
        rw [List.getElem?_set_self (List.getElem?_eq_some_iff.1 hw).1] at hj
        cases hj
        first | (cases hv; done) | exact h2 i w hw hp.1
      · rw [List.getElem?_set_ne hij] at hj; exact h2 j v hj hv
  | deliver i =>
    simp only [] at h
    (repeat' split at h) <;> (try simp only [reduceCtorEq, Option.some.injEq] at h) <;> (try subst h)
    all_goals first | contradiction | skip
    all_goals
      rename_i w hw hp
      subst hM
      refine ⟨by simpa using h1, ?_, tried_same hw rfl h3⟩
      intro j v hj hv
      by_cases hij : i = j
      · subst hij
        rw [List.getElem?_set_self (List.getElem?_eq_some_iff.1 hw).1] at hj
        cases hj
        cases hv
      · rw [List.getElem?_set_ne hij] at hj; exact h2 j v hj hv
  | giveUp i =>
    simp only [] at h
    (repeat' split at h) <;> (try simp only [reduceCtorEq, Option.some.injEq] at h) <;> (try subst h)
    all_goals first | contradiction | skip
    all_goals
      rename_i w hw hp
      subst hM
      refine ⟨by simpa using h1, ?_, tried_same hw rfl h3⟩
      intro j v hj hv
      by_cases hij : i = j
      · subst hij
        rw [List.getElem?_set_self (List.getElem?_eq_some_iff.1 hw).1] at hj
        cases hj
        cases hv
      · rw [List.getElem?_set_ne hij] at hj; exact h2 j v hj hv
  | after i =>
    simp only [] at h
    (repeat' split at h) <;> (try simp only [reduceCtorEq, Option.some.injEq] at h) <;> (try subst h)
    all_goals first | contradiction | skip
    all_goals
      rename_i w hw hp
      subst hM
      refine ⟨by simpa using h1, ?_, tried_same hw rfl h3⟩
      intro j v hj hv
      by_cases hij : i = j
      · subst hij
        rw [List.getElem?_set_self (List.getElem?_eq_some_iff.1 hw).1] at hj
        cases hj
        cases hv
      · rw [List.getElem?_set_ne hij] at hj; exact h2 j v hj hv

theorem tryInv_init (n : Nat) (hn : n ≤ 2 ^ 64) : TryInv n (init n) := by
  have key : ∀ (i : Nat) (w : Worker), (init n).workers[i]? = some w → w.nonce = i ∧ i < n ∧ w.attempts = 0 := by
    intro i w h
    simp only [init, List.getElem?_map, Option.map_eq_some_iff] at h
    obtain ⟨a, ha, rfl⟩ := h
    have hlt : i < n := by
      by_contra hc
      rw [List.getElem?_eq_none (by simp; omega)] at ha
      cases ha
    rw [List.getElem?_range hlt] at ha
    cases ha
    exact ⟨rfl, hlt, rfl⟩
  refine ⟨by simp [init], ?_, ?_⟩
  · intro i w h _
    obtain ⟨h1, h2, h3⟩ := key i w h
    rw [h1, h3, Nat.zero_mul, Nat.add_zero, Nat.mod_eq_of_lt (by omega)]
  · intro i x
    constructor
    · intro h; simp [init] at h
    · rintro ⟨w, h1, k, h2, -⟩
      rw [(key i w h1).2.2] at h2
      omega

/-- **C61** (who tries what). At every moment the nonces worker `i` has tried are exactly `i, i + n, i + 2n, …`, as many as it made attempts
(modulo 2^64). -/
theorem C61_nonces_tried (H : Hash32) (evt : Event) (target : Int) (n : Nat) (hn : n ≤ 2 ^ 64) (ls : List Lab) (s : State)
    (h : run H evt target n (init n) ls = some s) (i x : Nat) :
    (i, x) ∈ s.tried ↔ ∃ w, s.workers[i]? = some w ∧ ∃ k, k < w.attempts ∧ x = (i + k * n) % 2 ^ 64 :=
  (run_inv (P := TryInv n) (fun _ _ _ => tryInv_step) (tryInv_init n hn) h).tried i x

/-- **C61** (nothing twice, nothing missed). Every 64-bit nonce belongs to exactly one worker, which tries it at exactly one of its attempts
before its counter wraps around. -/
theorem C61_partition (n : Nat) (hn : 0 < n) (x : Nat) (hx : x < 2 ^ 64) :
    (∃ i k, i < n ∧ x = i + k * n ∧ x = (i + k * n) % 2 ^ 64) ∧
    ∀ i j k l, i < n → j < n → i + k * n < 2 ^ 64 → j + l * n < 2 ^ 64 → (i + k * n) % 2 ^ 64 = (j + l * n) % 2 ^ 64 → i = j ∧ k = l := by
  constructor
  · refine ⟨x % n, x / n, Nat.mod_lt _ hn, ?_, ?_⟩
    · have := Nat.mod_add_div x n; rw [Nat.mul_comm]; omega
    · have h := Nat.mod_add_div x n
      rw [Nat.mul_comm, h, Nat.mod_eq_of_lt hx]
  · intro i j k l hi hj h1 h2 h
    rw [Nat.mod_eq_of_lt h1, Nat.mod_eq_of_lt h2] at h
    have h3 : i = j := by
      have := congrArg (· % n) h
      simpa [Nat.add_mul_mod_self_right, Nat.mod_eq_of_lt hi, Nat.mod_eq_of_lt hj] using this
    subst h3
    refine ⟨rfl, ?_⟩
    have : k * n = l * n := by omega
    exact Nat.eq_of_mul_eq_mul_right hn this

/-- Attempts made plus those left in the current burst. -/
def Worker.bound (w : Worker) : Nat := w.attempts + (if w.pc = .attempt then 10000 - w.burst else 0)

theorem bound_step {H : Hash32} {evt : Event} {target : Int} {n : Nat} {s s' : State} {l : Lab} (hc : s.cancelled = true)
    (h : step H evt target n s l = some s') : s'.cancelled = true ∧ ∀ (i : Nat) (w : Worker), s.workers[i]? = some w → ∃ w', s'.workers[i]? = some w' ∧ w'.bound ≤ w.bound := by
  simp only [step] at h
  (repeat' split at h) <;> (try simp only [reduceCtorEq, Option.some.injEq] at h) <;> (try subst h)
  all_goals first
    | contradiction
    | (refine ⟨by simp_all [State.cancelled], ?_⟩
       intro i w hw
       first
         | exact ⟨w, hw, Nat.le_refl _⟩
         | (simp only [List.getElem?_set]
            split
            · rename_i hij
              subst hij
              have hl := (List.getElem?_eq_some_iff.1 hw).1
              simp only [hl, if_true]
              refine ⟨_, rfl, ?_⟩
              simp only [Worker.bound]
              grind
            · exact ⟨w, hw, Nat.le_refl _⟩))

/-- **C61** (stops). Once the context has ended a worker tries at most 10000 more nonces. -/
theorem C61_stops (H : Hash32) (evt : Event) (target : Int) (n : Nat) (s : State) (hc : s.cancelled = true) (ls : List Lab) (s' : State)
    (h : run H evt target n s ls = some s') (i : Nat) (w w' : Worker) (hw : s.workers[i]? = some w) (hw' : s'.workers[i]? = some w') :
    w'.attempts ≤ w.attempts + 10000 := by
  have key : ∀ (ls : List Lab) (s : State) (w : Worker), s.cancelled = true → s.workers[i]? = some w → run H evt target n s ls = some s' →
      ∃ v, s'.workers[i]? = some v ∧ v.bound ≤ w.bound := by
    intro ls
    induction ls with
    | nil => intro s w _ hw h; simp only [run, Option.some.injEq] at h; subst h; exact ⟨w, hw, Nat.le_refl _⟩
    | cons l ls ih =>
      intro s w hc hw h
      simp only [run] at h
      split at h
      · cases h
      · rename_i s1 h1
        obtain ⟨hc1, hb⟩ := bound_step hc h1
        obtain ⟨w1, hw1, hle⟩ := hb i w hw
        obtain ⟨v, hv, hle2⟩ := ih s1 w1 hc1 hw1 h
        exact ⟨v, hv, Nat.le_trans hle2 hle⟩
  obtain ⟨v, hv, hle⟩ := key ls s w hc hw h
  rw [hw'] at hv
  cases hv
  simp only [Worker.bound] at hle
  split at hle <;> split at hle <;> omega

/-- **C61 refuted (earlier nonce tag).** `CommittedDifficulty` looks at the first nonce tag, `DoWork` appends its own at the end: on an event that
already carries one the committed difficulty of the result is not the target. -/
theorem C61_earlier_nonce_hides_result : ∃ (H : Hash32) (evt : Event) (t : Tag), MayReturn H evt 20 2 (.tag t) ∧
    let e : Event := { evt with tags := evt.tags ++ [t] }
    committedDifficulty { e with id := getID H e } = .val 5 := by
  refine ⟨fun _ => ⟨List.replicate 32 0, rfl⟩,
    { id := [], pubkey := b! "ab", createdAt := 0, kind := 1, tags := [[b! "nonce", b! "7", b! "5"]], content := [], sig := [] },
    nonceTag 1 20, ?_, by decide +kernel⟩
  unfold MayReturn
  rw [if_neg (by decide)]
  exact ⟨[.attempt 1, .attempt 0, .deliver 1, .after 1, .giveUp 0, .after 0, .deferred], _, rfl, Or.inl ⟨_, rfl, by decide +kernel⟩⟩

end GoNostr.Pow
