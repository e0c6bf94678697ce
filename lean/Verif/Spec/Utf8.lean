import Verif.Model.Utf8
import Verif.Spec.Decoding

set_option autoImplicit false

/-! # Specification: UTF-8 text

The encoding of a text is `asBytes`: for each character, `String.utf8EncodeChar` of Lean's core library. -/

namespace Ebnf.Spec

/-- The text without a byte order mark (U+FEFF) at its start. -/
def withoutMark : Str → Str
  | [] => []
  | c :: text => if c = '\uFEFF' then text else c :: text

/-- The bytes start with a byte order mark of UTF-16. -/
def MarkedUtf16 (bytes : List Byte) : Prop := [0xFE, 0xFF] <+: bytes ∨ [0xFF, 0xFE] <+: bytes

end Ebnf.Spec
