import Verif.Spec.Held

set_option autoImplicit false

/-! # Specification: operations for which the reader does not need its source -/

namespace Ebnf.Spec

/-- The answer to the operation lies within the first `f` characters of the text, whatever these are. -/
def Within (c : Cursor) (f : Nat) : ReaderOp → Prop
  | .read | .readChars _ | .isEof => c.pos < f
  | .readAll => False
  | .peek n | .skip n => c.pos + n ≤ f
  | .prefixMatches p => c.pos + p.length ≤ f
  | .mark | .resetToMark _ | .unmark _ | .location => True

/-- Of the pieces in which `s₀` delivers, `s` has asked for the first few, and the last of these not before the
first `f` characters comprised all that came before it. -/
def AsNeeded (s₀ s : Source) (f : Nat) : Prop :=
  ∃ asked left : List Str, s₀.rounds = (asked ++ left).map .ok ∧ s.rounds = left.map .ok ∧
    ∀ front last, asked = front ++ [last] → (s₀.pending ++ front.flatten).length ≤ f

end Ebnf.Spec
