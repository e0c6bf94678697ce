import Verif.Spec.Utf8

set_option autoImplicit false

/-! # Specification: what malformed UTF-8 becomes (C89)

The practice the Unicode standard recommends (section 3.9, "U+FFFD Substitution of Maximal Subparts") and the WHATWG encoding standard
requires.  It is stated in terms of the encodings of characters (`String.utf8EncodeChar` of Lean's core library) only. -/

namespace Ebnf.Spec

/-- The bytes are the start of the encoding of some character. -/
def StartsChar (bytes : List Byte) : Prop := ∃ ch, bytes <+: String.utf8EncodeChar ch

/-- `bad`, followed by `rest`, is a maximal subpart that encodes nothing: as much of an encoding as there is, but not all of it; or one
byte with which no encoding starts. -/
def MaximalSubpart (bad rest : List Byte) : Prop :=
  (bad ≠ [] ∧ StartsChar bad ∧ (∀ ch, bad ≠ String.utf8EncodeChar ch) ∧ ∀ b, rest.head? = some b → ¬ StartsChar (bad ++ [b])) ∨
  ∃ b, bad = [b] ∧ ¬ StartsChar [b]

/-- `Replaced bytes text`: the text has the characters the bytes encode and, for each maximal subpart that encodes nothing, a
U+FFFD. -/
inductive Replaced : List Byte → Str → Prop
  | nil : Replaced [] []
  | char (ch) {rest text} : Replaced rest text → Replaced (String.utf8EncodeChar ch ++ rest) (ch :: text)
  | malformed {bad rest text} : MaximalSubpart bad rest → Replaced rest text → Replaced (bad ++ rest) ('�' :: text)

/-- The bytes without a byte order mark of UTF-8 at their start. -/
def withoutMarkBytes (bytes : List Byte) : List Byte :=
  if [0xEF, 0xBB, 0xBF] <+: bytes then bytes.drop 3 else bytes

end Ebnf.Spec
