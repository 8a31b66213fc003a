import Verif.Base.Num
import Verif.Helpers.Model
/-!
# C125: the amount of a Lightning invoice (nip60)

`GetSatoshisAmountFromBolt11` (nip60/helpers.go:203-255).
-/

set_option autoImplicit false

namespace GoNostr.Nip60

/-- `strings.LastIndex` for a one byte string. -/
def lastIdx (c : UInt8) : Bytes → Option Nat
  | [] => none
  | x :: s => match lastIdx c s with
    | some i => some (i + 1)
    | none => if x = c then some 0 else none

/-- `uint64` multiplication. -/
def mulU (a b : Nat) : Nat := (a * b) % 18446744073709551616

/-- The `switch` on the last character (helpers.go:242-254). -/
def inUnit (c : UInt8) (n : Nat) : Nat :=
  if c = 0x6d then mulU n 100000
  else if c = 0x75 then mulU n 100
  else if c = 0x6e then n / 10
  else if c = 0x70 then n / 10000
  else mulU n 100000000

/-- `GetSatoshisAmountFromBolt11` (helpers.go:203-255); `none` is an error. -/
def satoshis (inv : Bytes) : Option Nat :=
  if inv.length < 50 then none
  else match lastIdx 0x31 (inv.take 50) with
    | none => none
    | some i =>
      let hrp := (inv.take 50).take i
      if hrp.take 4 ≠ b! "lnbc" then none
      else
        let amount := hrp.drop 4
        match amount.getLast? with
        | none => some 0
        | some char =>
          let num := if char - 0x30 ≤ 9 then amount else amount.dropLast
          if num = [] then some 0
          else match parseUint64 num with
            | .ok am => some (inUnit char am.toNat)
            | _ => none

/-! ## Specification -/

/-- The units of BOLT 11, in ten-thousandths of a satoshi (pico-bitcoin); no letter means whole bitcoins. -/
inductive InvUnit
  | btc | milli | micro | nano | pico
  deriving DecidableEq, Repr

/-- Specification (BOLT 11): the letter of the multiplier. -/
def InvUnit.letter : InvUnit → Bytes
  | .btc => []
  | .milli => b! "m"
  | .micro => b! "u"
  | .nano => b! "n"
  | .pico => b! "p"

/-- Specification (BOLT 11): the multiplier, in picobitcoin. -/
def InvUnit.size : InvUnit → Nat
  | .btc => 1000000000000
  | .milli => 1000000000
  | .micro => 1000000
  | .nano => 1000
  | .pico => 1

/-- An invoice: human readable part, separator, data (which in bech32 has no `1`). -/
def invoiceOf (amount unit data : Bytes) : Bytes := b! "lnbc" ++ amount ++ unit ++ b! "1" ++ data

theorem lastIdx_none {c : UInt8} : ∀ {s : Bytes}, c ∉ s → lastIdx c s = none
  | [], _ => rfl
  | x :: s, h => by
    rw [lastIdx, lastIdx_none (fun hm => h (List.mem_cons_of_mem _ hm))]
    simp only
    rw [if_neg]
    rintro rfl
    exact h List.mem_cons_self

theorem lastIdx_append {c : UInt8} : ∀ (a b : Bytes), c ∉ b → lastIdx c (a ++ c :: b) = some a.length
  | [], b, h => by
    rw [List.nil_append, lastIdx, lastIdx_none h]
    simp
  | x :: a, b, h => by
    rw [List.cons_append, lastIdx, lastIdx_append a b h]
    simp

/-- What the function does with a well-formed invoice whose separator is among the first fifty characters. -/
theorem satoshis_invoice (amount data : Bytes) (hd : (0x31 : UInt8) ∉ data) (hl : 50 ≤ 5 + amount.length + data.length)
    (ha : amount.length < 46) :
    satoshis (b! "lnbc" ++ amount ++ b! "1" ++ data) = match amount.getLast? with
      | none => some 0
      | some char =>
        let num := if char - 0x30 ≤ 9 then amount else amount.dropLast
        if num = [] then some 0
        else match parseUint64 num with
          | .ok am => some (inUnit char am.toNat)
          | _ => none := by
  have e4 : (b! "lnbc").length = 4 := rfl
  have e1 : b! "1" = [(0x31 : UInt8)] := rfl
  have elen : (b! "lnbc" ++ amount ++ b! "1" ++ data).length = 5 + amount.length + data.length := by
    simp only [List.length_append, e4, List.length_singleton]
    omega
  have et : (b! "lnbc" ++ amount ++ b! "1" ++ data).take 50 = (b! "lnbc" ++ amount) ++ (0x31 : UInt8) :: data.take (45 - amount.length) := by
    rw [e1, List.append_assoc (b! "lnbc" ++ amount), List.singleton_append, List.take_append,
      List.take_of_length_le (by simp only [List.length_append, e4]; omega)]
    congr 1
    have : 50 - (b! "lnbc" ++ amount).length = (45 - amount.length) + 1 := by simp only [List.length_append, e4]; omega
    rw [this, List.take_succ_cons]
  unfold satoshis
  rw [elen, if_neg (by omega), et, lastIdx_append _ _ (fun h => hd (List.mem_of_mem_take h))]
  simp only
  have e5 : ((b! "lnbc" ++ amount) ++ (0x31 : UInt8) :: data.take (45 - amount.length)).take (b! "lnbc" ++ amount).length =
      b! "lnbc" ++ amount := List.take_left' rfl
  have e6 : (b! "lnbc" ++ amount).take 4 = b! "lnbc" := List.take_left' rfl
  have e7 : (b! "lnbc" ++ amount).drop 4 = amount := List.drop_left' rfl
  rw [e5, e6, e7, if_neg (by simp)]

theorem digit_iff : ∀ c : UInt8, (c - 0x30 ≤ 9) ↔ IsDigitByte c := by
  intro c
  revert c
  decide +kernel

/-- The digits and what follows them, read. -/
theorem satoshis_num (n : Nat) (c : UInt8) (data : Bytes) (hn : n < 2 ^ 64) (hc : ¬ IsDigitByte c) (hd : (0x31 : UInt8) ∉ data)
    (hl : 50 ≤ (invoiceOf (fmtNat n) [c] data).length) (ha : (fmtNat n).length < 45) :
    satoshis (invoiceOf (fmtNat n) [c] data) = some (inUnit c n) := by
  have e4 : (b! "lnbc").length = 4 := rfl
  have e1 : (b! "1").length = 1 := rfl
  unfold invoiceOf at hl ⊢
  simp only [List.length_append, e4, e1, List.length_singleton] at hl
  rw [List.append_assoc (b! "lnbc") (fmtNat n) [c], satoshis_invoice _ _ hd (by simp; omega) (by simp; omega)]
  rw [List.getLast?_concat]
  simp only
  rw [if_neg (c := c - 0x30 ≤ 9) (fun h => hc ((digit_iff c).1 h)), List.dropLast_concat, if_neg (fmtNat_ne_nil n), parseUint64_fmtNat hn]
  simp

theorem satoshis_btc (n : Nat) (data : Bytes) (hn : n < 2 ^ 64) (hd : (0x31 : UInt8) ∉ data)
    (hl : 50 ≤ (invoiceOf (fmtNat n) [] data).length) (ha : (fmtNat n).length < 46) :
    satoshis (invoiceOf (fmtNat n) [] data) = some (mulU n 100000000) := by
  have e4 : (b! "lnbc").length = 4 := rfl
  have e1 : (b! "1").length = 1 := rfl
  unfold invoiceOf at hl ⊢
  simp only [List.length_append, e4, e1, List.length_nil] at hl
  rw [List.append_nil, satoshis_invoice _ _ hd (by omega) ha]
  have hne := fmtNat_ne_nil n
  rw [List.getLast?_eq_some_getLast hne]
  have hdig := fmtNat_digits n _ (List.getLast_mem hne)
  simp only
  rw [if_pos ((digit_iff _).2 hdig), if_neg hne, parseUint64_fmtNat hn]
  have hu : ∀ c : UInt8, IsDigitByte c → ∀ m, inUnit c m = mulU m 100000000 := by
    intro c hc m
    unfold IsDigitByte at hc
    unfold inUnit
    rw [if_neg, if_neg, if_neg, if_neg] <;> (rintro rfl; revert hc; decide)
  simp [hu _ hdig]

/-- **C125 (the amount).** For every amount and unit of BOLT 11, `GetSatoshisAmountFromBolt11` returns the invoice's amount in satoshis,
rounded down, as long as it fits 64 bits. -/
theorem C125_amount (n : Nat) (u : InvUnit) (data : Bytes) (hn : n < 2 ^ 64) (hd : (0x31 : UInt8) ∉ data)
    (hl : 50 ≤ (invoiceOf (fmtNat n) u.letter data).length) (ha : (fmtNat n).length < 45) (hfit : n * u.size / 10000 < 2 ^ 64) :
    satoshis (invoiceOf (fmtNat n) u.letter data) = some (n * u.size / 10000) := by
  cases u with
  | btc =>
    have h := satoshis_btc n data hn hd hl (by omega)
    simp only [InvUnit.letter, InvUnit.size] at h hfit ⊢
    rw [h, mulU, Nat.mod_eq_of_lt (by omega)]
    congr 1
    omega
  | milli =>
    have h := satoshis_num n 0x6d data hn (by decide) hd hl ha
    simp only [InvUnit.letter, InvUnit.size] at h hfit ⊢
    rw [h]
    simp only [inUnit, mulU]
    simp
    omega
  | micro =>
    have h := satoshis_num n 0x75 data hn (by decide) hd hl ha
    simp only [InvUnit.letter, InvUnit.size] at h hfit ⊢
    rw [h]
    simp only [inUnit, mulU]
    simp
    omega
  | nano =>
    have h := satoshis_num n 0x6e data hn (by decide) hd hl ha
    simp only [InvUnit.letter, InvUnit.size] at h hfit ⊢
    rw [h]
    simp only [inUnit, mulU]
    simp
    omega
  | pico =>
    have h := satoshis_num n 0x70 data hn (by decide) hd hl ha
    simp only [InvUnit.letter, InvUnit.size] at h hfit ⊢
    rw [h]
    simp only [inUnit, mulU]
    simp

/-- The hypotheses are met: 250 micro-bitcoin are 25000 satoshis, 15 nano-bitcoin one, and a two bitcoin invoice. -/
example : satoshis (b! "lnbc250u1qqqqqqqqqqqqqqqqqqqqqqqqqqqqqqqqqqqqqqqqqqqqqq") = some 25000 ∧
    satoshis (b! "lnbc15n1qqqqqqqqqqqqqqqqqqqqqqqqqqqqqqqqqqqqqqqqqqqqqqq") = some 1 ∧
    satoshis (b! "lnbc21qqqqqqqqqqqqqqqqqqqqqqqqqqqqqqqqqqqqqqqqqqqqqqqqq") = some 200000000 := by decide +kernel

/-- **C125 (no amount).** An invoice without an amount reads as zero, as does one below a satoshi. -/
theorem C125_no_amount (data : Bytes) (hd : (0x31 : UInt8) ∉ data) (hl : 45 ≤ data.length) :
    satoshis (invoiceOf [] [] data) = some 0 := by
  unfold invoiceOf
  rw [List.append_nil, satoshis_invoice _ _ hd (by simp; omega) (by simp)]
  rfl

/-- **C125 (Bitcoin main network only).** Whatever is read begins with `lnbc` and is at least fifty characters long. -/
theorem C125_only_mainnet (inv : Bytes) (n : Nat) (h : satoshis inv = some n) : inv.take 4 = b! "lnbc" ∧ 50 ≤ inv.length := by
  unfold satoshis at h
  split at h
  · cases h
  · rename_i hlen
    refine ⟨?_, by omega⟩
    split at h
    · cases h
    · rename_i i hi
      simp only at h
      split at h
      · cases h
      · rename_i hp
        rw [Decidable.not_not, List.take_take, List.take_take] at hp
        have hi4 : 4 ≤ i := by
          have := congrArg List.length hp
          rw [List.length_take] at this
          have e4 : (b! "lnbc").length = 4 := rfl
          omega
        rw [show min (min 4 i) 50 = 4 by omega] at hp
        exact hp

/-- **C125 (refuted: other units are refused).** Any other letter reads as whole bitcoins: `lnbc5x1…` is five bitcoins. -/
theorem C125_unknown_unit (n : Nat) (c : UInt8) (data : Bytes) (hn : n < 2 ^ 64) (hc : ¬ IsDigitByte c)
    (hu : c ∉ b! "munp") (hd : (0x31 : UInt8) ∉ data)
    (hl : 50 ≤ (invoiceOf (fmtNat n) [c] data).length) (ha : (fmtNat n).length < 45) :
    satoshis (invoiceOf (fmtNat n) [c] data) = some (n * 100000000 % 2 ^ 64) := by
  rw [satoshis_num n c data hn hc hd hl ha]
  have : ¬ (c = 0x6d ∨ c = 0x75 ∨ c = 0x6e ∨ c = 0x70) := by
    intro h
    apply hu
    rcases h with rfl | rfl | rfl | rfl <;> decide
  simp only [not_or] at this
  unfold inUnit mulU
  rw [if_neg this.1, if_neg this.2.1, if_neg this.2.2.1, if_neg this.2.2.2]

example : satoshis (b! "lnbc5x1qqqqqqqqqqqqqqqqqqqqqqqqqqqqqqqqqqqqqqqqqqqqqqqq") = some 500000000 := by decide +kernel

/-- **C125 (refuted: amounts never wrap).** 184467440738 bitcoins read as 90448384 satoshis; an invoice in capitals, as QR codes carry it, is refused. -/
theorem C125_wraps : satoshis (b! "lnbc1844674407381qqqqqqqqqqqqqqqqqqqqqqqqqqqqqqqqqqqqqqqqqq") = some 90448384 ∧
    satoshis (b! "LNBC250U1QQQQQQQQQQQQQQQQQQQQQQQQQQQQQQQQQQQQQQQQQQQQQQQ") = none := by decide +kernel

end GoNostr.Nip60
