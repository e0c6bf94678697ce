import Verif.Spec.Utf8

set_option autoImplicit false

/-! # Specification: UTF-16 text

The encoding form UTF-16 of the Unicode standard (section 3.9, D91) and its encoding schemes UTF-16BE and UTF-16LE (section 3.10,
D96 and D97): a character is one code unit, or two (a leading and a trailing surrogate), and a code unit is two bytes. -/

namespace Ebnf.Spec

/-- The code units of a character. -/
def utf16Units (c : Char) : List Nat :=
  if c.toNat < 0x10000 then [c.toNat]
  else [0xD800 + (c.toNat - 0x10000) / 0x400, 0xDC00 + (c.toNat - 0x10000) % 0x400]

/-- The bytes of a code unit, the high one first (`big`) or last. -/
def unitBytes (big : Bool) (u : Nat) : List Byte :=
  if big then [UInt8.ofNat (u / 256), UInt8.ofNat (u % 256)] else [UInt8.ofNat (u % 256), UInt8.ofNat (u / 256)]

/-- The bytes of a text. -/
def utf16Bytes (big : Bool) (text : Str) : List Byte := (text.flatMap utf16Units).flatMap (unitBytes big)

/-- The byte order mark. -/
def utf16Mark (big : Bool) : List Byte := unitBytes big 0xFEFF

/-- Leading surrogates. -/
def leading (u : Nat) : Prop := 0xD800 ≤ u ∧ u < 0xDC00

/-- Trailing surrogates. -/
def trailing (u : Nat) : Prop := 0xDC00 ≤ u ∧ u < 0xE000

instance (u : Nat) : Decidable (leading u) := inferInstanceAs (Decidable (_ ∧ _))
instance (u : Nat) : Decidable (trailing u) := inferInstanceAs (Decidable (_ ∧ _))

/-- The characters that code units stand for, with a U+FFFD for every surrogate without a partner.  `odd` says that half a code unit
is left over; it stands for a U+FFFD, which it shares with a leading surrogate just before it. -/
def unitsText (odd : Bool) : List Nat → Str
  | [] => if odd then ['�'] else []
  | [u] =>
    if leading u then ['�'] else if trailing u then '�' :: unitsText odd []
    else Char.ofNat u :: unitsText odd []
  | u :: v :: us =>
    if leading u ∧ trailing v then Char.ofNat (0x10000 + (u - 0xD800) * 0x400 + (v - 0xDC00)) :: unitsText odd us
    else if leading u ∨ trailing u then '�' :: unitsText odd (v :: us)
    else Char.ofNat u :: unitsText odd (v :: us)

end Ebnf.Spec
