/-!
# Bytes, Go strings and outcomes

Shared vocabulary of the model.  A Go `string` or `[]byte` value is a list of bytes.
-/

set_option autoImplicit false

namespace GoNostr

/-- A Go `string` / `[]byte` seen as a value: the list of its bytes (Go strings are arbitrary byte strings). -/
abbrev Bytes := List UInt8

/-- `b! "abc"` is the explicit list of the UTF-8 bytes of the literal, expanded at elaboration time,
so that the kernel sees plain byte literals. -/
syntax (name := bytesLit) "b!" str : term

macro_rules
  | `(b! $s:str) => do
    let elems : Array (Lean.TSyntax `term) :=
      (s.getString.toUTF8.toList.map
        (fun c => (⟨Lean.Syntax.mkNumLit (toString c.toNat)⟩ : Lean.TSyntax `term))).toArray
    `(([$elems,*] : List UInt8))

/-- Outcome of a Go call: a value, an error value, or a run-time panic. -/
inductive Res (ε α : Type) where
  | ok (a : α)
  | err (e : ε)
  | panic
  deriving DecidableEq, Repr

/-- Outcome of a Go function without an error result: a value or a panic. -/
inductive Out (α : Type) where
  | val (a : α)
  | panic
  deriving DecidableEq, Repr

namespace Out
/-- Sequencing of calls that may panic. -/
def bind {α β : Type} : Out α → (α → Out β) → Out β
  | .val a, f => f a
  | .panic, _ => .panic
instance : Monad Out where
  pure := .val
  bind := bind
@[simp] theorem val_bind {α β : Type} (a : α) (f : α → Out β) : (Out.val a >>= f) = f a := rfl
@[simp] theorem panic_bind {α β : Type} (f : α → Out β) : ((Out.panic : Out α) >>= f) = .panic := rfl
@[simp] theorem pure_eq {α : Type} (a : α) : (pure a : Out α) = .val a := rfl
end Out

namespace Res
/-- Sequencing of calls that may fail or panic. -/
def bind {ε α β : Type} : Res ε α → (α → Res ε β) → Res ε β
  | .ok a, f => f a
  | .err e, _ => .err e
  | .panic, _ => .panic
instance {ε : Type} : Monad (Res ε) where
  pure := .ok
  bind := bind
@[simp] theorem ok_bind {ε α β : Type} (a : α) (f : α → Res ε β) : (Res.ok a >>= f) = f a := rfl
@[simp] theorem err_bind {ε α β : Type} (e : ε) (f : α → Res ε β) : ((Res.err e : Res ε α) >>= f) = .err e := rfl
@[simp] theorem panic_bind {ε α β : Type} (f : α → Res ε β) : ((Res.panic : Res ε α) >>= f) = .panic := rfl
@[simp] theorem pure_eq {ε α : Type} (a : α) : (pure a : Res ε α) = .ok a := rfl
end Res

/-! ## Deciding statements about every byte by the kernel -/

theorem forall_byte_iff {p : UInt8 → Prop} : (∀ c, p c) ↔ ∀ i : Fin 256, p (UInt8.ofNat i.val) := by
  constructor
  · intro h i; exact h _
  · intro h c
    have := h ⟨c.toNat, c.toNat_lt⟩
    simpa using this

instance instDecidableForallByte {p : UInt8 → Prop} [DecidablePred p] : Decidable (∀ c, p c) :=
  decidable_of_iff _ forall_byte_iff.symm

/-! ## Slicing -/

/-- Go `s[lo:hi]` with run-time bounds checks (`0 ≤ lo ≤ hi ≤ len s`), indices as `Int`. -/
def goSlice {α : Type} (s : List α) (lo hi : Int) : Out (List α) :=
  if 0 ≤ lo ∧ lo ≤ hi ∧ hi ≤ s.length then .val ((s.drop lo.toNat).take (hi - lo).toNat) else .panic

/-- Go `s[lo:]`. -/
def goSliceFrom {α : Type} (s : List α) (lo : Int) : Out (List α) := goSlice s lo s.length

/-- Go `s[i]` with the run-time bounds check. -/
def goIndex {α : Type} (s : List α) (i : Int) : Out α :=
  if 0 ≤ i then
    match s[i.toNat]? with
    | some a => .val a
    | none => .panic
  else .panic

/-- `strings.Index(s, sub)`: the least index at which `sub` occurs, `-1` if it does not. -/
def indexOf (sub : Bytes) : Bytes → Int
  | [] => if sub = [] then 0 else -1
  | c :: s => if sub.isPrefixOf (c :: s) then 0 else
      let r := indexOf sub s
      if r < 0 then -1 else r + 1

/-- `strings.IndexAny(s, chars)` for ASCII `chars`: least index of a byte satisfying the predicate. -/
def indexAny (q : UInt8 → Bool) : Bytes → Int
  | [] => -1
  | c :: s => if q c then 0 else
      let r := indexAny q s
      if r < 0 then -1 else r + 1

end GoNostr
