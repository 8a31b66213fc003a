import Verif.Base.Bytes
/-!
# Specification: RFC 8259 string tokens

An independent decoder for one JSON string token, written from RFC 8259 section 7 and knowing nothing of the encoder.
-/

set_option autoImplicit false

namespace GoNostr.JSON

/-- Value of a hexadecimal digit character. -/
def hex (c : UInt8) : Option Nat :=
  if 48 ≤ c ∧ c ≤ 57 then some (c.toNat - 48)
  else if 97 ≤ c ∧ c ≤ 102 then some (c.toNat - 97 + 10)
  else if 65 ≤ c ∧ c ≤ 70 then some (c.toNat - 65 + 10)
  else none

/-- UTF-8 encoding of a code point below 0x10000 that is not a surrogate. -/
def utf8 (u : Nat) : Option Bytes :=
  if u < 0x80 then some [UInt8.ofNat u]
  else if u < 0x800 then some [UInt8.ofNat (0xC0 + u / 64), UInt8.ofNat (0x80 + u % 64)]
  else if 0xD800 ≤ u ∧ u < 0xE000 then none
  else some [UInt8.ofNat (0xE0 + u / 4096), UInt8.ofNat (0x80 + u / 64 % 64), UInt8.ofNat (0x80 + u % 64)]

/-- Two-character escapes of RFC 8259: the byte each one denotes. -/
def simpleEscape (c : UInt8) : Option UInt8 :=
  if c = 34 then some 34        -- \"
  else if c = 92 then some 92   -- \\
  else if c = 47 then some 47   -- \/
  else if c = 98 then some 8    -- \b
  else if c = 102 then some 12  -- \f
  else if c = 110 then some 10  -- \n
  else if c = 114 then some 13  -- \r
  else if c = 116 then some 9   -- \t
  else none

/-- Decode the characters of a string token after its opening quote: the denoted bytes and the input after the closing
quote.  Unescaped control characters are rejected.  Surrogate escapes are not supported (rejected). -/
def stringBody : Bytes → Option (Bytes × Bytes)
  | [] => none
  | 34 :: rest => some ([], rest)
  | 92 :: 117 :: a :: b :: c :: d :: rest =>
    match hex a, hex b, hex c, hex d with
    | some a, some b, some c, some d =>
      match utf8 (((a * 16 + b) * 16 + c) * 16 + d), stringBody rest with
      | some u, some (s, r) => some (u ++ s, r)
      | _, _ => none
    | _, _, _, _ => none
  | 92 :: e :: rest =>
    match simpleEscape e, stringBody rest with
    | some x, some (s, r) => some (x :: s, r)
    | _, _ => none
  | c :: rest =>
    if c < 0x20 ∨ c = 92 then none
    else match stringBody rest with
      | some (s, r) => some (c :: s, r)
      | none => none

/-- Decode one string token: the denoted bytes and the remaining input. -/
def string : Bytes → Option (Bytes × Bytes)
  | 34 :: rest => stringBody rest
  | _ => none

end GoNostr.JSON
