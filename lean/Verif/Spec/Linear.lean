import Verif.Spec.Predictive

set_option autoImplicit false

/-! # Specification: grammars that are parsed in linear time -/

namespace Ebnf.Spec

/-- Exceptions do not count: `F - X` stands for all that `F` derives. -/
def regardless : Factor → Str → Prop := fun _ _ => False

/-- Every definition derives some text. -/
def Productive (E : Factor → Str → Prop) (G : Language) : Prop := ∀ d, Occurs G (.sequence d) → ∃ w, Produces E G (.sequence d) w

/-- A terminal, a special sequence or nothing. -/
def IsLeaf : Primary → Prop
  | .terminalString _ _ => True
  | .specialSequence _ _ => True
  | .empty _ => True
  | _ => False

/-- Every exception is a terminal, a special sequence or nothing, perhaps with a count. -/
def LeafExceptions (G : Language) : Prop := ∀ f k p, Occurs G (.term (.except f (.mk k p))) → IsLeaf p

end Ebnf.Spec
