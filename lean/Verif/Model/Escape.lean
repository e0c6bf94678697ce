import Verif.Model.Basic

set_option autoImplicit false

/-! # `{:?}` of characters and strings, as the standard library writes them

`impl Debug for char` and `impl Debug for str` escape with `char::escape_debug_ext`.  Which characters are written as `\u{…}` follows
from Unicode tables of the standard library (unprintable or grapheme extending characters); the table is a parameter. -/

namespace Ebnf

/-- `char::escape_debug_ext`: `quote` is the quotation mark that is escaped, `hidden` the table. -/
def escapeChar (hidden : Char → Bool) (quote c : Char) : Str :=
  if c = '\x00' then ['\\', '0']
  else if c = '\t' then ['\\', 't']
  else if c = '\r' then ['\\', 'r']
  else if c = '\n' then ['\\', 'n']
  else if c = '\\' then ['\\', '\\']
  else if c = quote then ['\\', quote]
  else if hidden c then ['\\', 'u', '{'] ++ Nat.toDigits 16 c.toNat ++ ['}']
  else [c]

/-- `format!("{:?}", c)` of a `char`. -/
def debugChar (hidden : Char → Bool) (c : Char) : Str := '\'' :: escapeChar hidden '\'' c ++ ['\'']

/-- `format!("{:?}", s)` of a string. -/
def debugText (hidden : Char → Bool) (s : Str) : Str := '"' :: s.flatMap (escapeChar hidden '"') ++ ['"']

end Ebnf
