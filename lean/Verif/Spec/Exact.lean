import Verif.Spec.Lexical
import Verif.Spec.Decoding

set_option autoImplicit false

/-! # Specification: what is certain about a text of which more may come; malformed bytes so far -/

namespace Ebnf.Spec

/-- The beginning `used` of `text` is a sequence of tokens that no continuation of `text` can change: also
the last of these tokens ends, whatever character comes next. -/
def Certain (start : Location) (text used : Str) : Prop :=
  ∃ rest ts, text = used ++ rest ∧ Lexes start used ts ∧ ∀ t c, ts.getLast? = some t → Ends t (rest ++ [c]).head?

/-- The longest such beginning. -/
def MostCertain (start : Location) (text used : Str) : Prop :=
  Certain start text used ∧ ∀ other, Certain start text other → other.length ≤ used.length

/-- Something in the bytes is malformed, whatever follows. -/
def garbledSoFar (c : Codec) : c.State → List Byte → Bool
  | _, [] => false
  | st, b :: bs => (c.feed st b).2.2 || garbledSoFar c (c.feed st b).1 bs

end Ebnf.Spec
