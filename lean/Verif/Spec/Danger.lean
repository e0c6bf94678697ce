import Verif.Model.Lexer

/-! # Specification: the token pattern on which the token parser panics -/

namespace Ebnf.Spec

/-- Gaps and comments. -/
def IsBlank : Token → Prop
  | .gapSeparatorSequence _ _ | .comment _ _ => True
  | _ => False

/-- Closing brackets. -/
def IsClosingBracket : Token → Prop
  | .endOptionSymbol _ _ | .endRepeatSymbol _ _ | .endGroupSymbol _ => True
  | _ => False

/-- Somewhere an integer is followed, up to gaps and comments, by a closing bracket. -/
def IntegerBeforeClosing (ts : List Token) : Prop :=
  ∃ pre l d gaps c post, ts = pre ++ .integer l d :: (gaps ++ c :: post) ∧
    (∀ g ∈ gaps, IsBlank g) ∧ IsClosingBracket c

end Ebnf.Spec
