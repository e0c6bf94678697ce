import Verif.Spec.Lexical

set_option autoImplicit false

/-! # Specification: texts that can still become sequences of tokens -/

namespace Ebnf.Spec

/-- Some continuation makes the text a sequence of tokens. -/
def Completable (start : Location) (text : Str) : Prop := ∃ more ts, Lexes start (text ++ more) ts

/-- A sequence of tokens and then one character with which no token starts. -/
def StrayLast (start : Location) (text : Str) : Prop :=
  ∃ init c ts, text = init ++ [c] ∧ Lexes start init ts ∧ ∀ tk s, ¬ Spelled tk (c :: s)

end Ebnf.Spec
