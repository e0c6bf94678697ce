import Verif.Model.Ast

set_option autoImplicit false

/-! # Specification: trees whose printed form is not spoiled by `*)`

A factor `n * (empty)` prints as `n*`; directly before `)` its star would read as the end of a comment. -/

namespace Ebnf.Spec

/-- The factor is a repetition of the empty sequence. -/
def RepeatedEmpty : Factor → Prop
  | .mk n (.empty _) => n ≠ 1
  | _ => False

/-- The last factor of the term is a repetition of the empty sequence. -/
def EndsRepeatedEmptyTerm : Term → Prop
  | .plain f => RepeatedEmpty f
  | .except _ e => RepeatedEmpty e
/-- The last factor of the definition is a repetition of the empty sequence. -/
def EndsRepeatedEmptySingle : SingleDefinition → Prop
  | .nil => False
  | .cons t .nil => EndsRepeatedEmptyTerm t
  | .cons _ (.cons t r) => EndsRepeatedEmptySingle (.cons t r)
/-- The last factor of the definition list is a repetition of the empty sequence. -/
def EndsRepeatedEmpty : DefinitionList → Prop
  | .nil => False
  | .cons d .nil => EndsRepeatedEmptySingle d
  | .cons _ (.cons d r) => EndsRepeatedEmpty (.cons d r)

mutual
/-- No group, at any depth, ends in a repetition of the empty sequence. -/
def PrintablePrimary : Primary → Prop
  | .optional _ l | .repeated _ l => PrintableList l
  | .grouped _ l => ¬ EndsRepeatedEmpty l ∧ PrintableList l
  | _ => True
/-- See `PrintablePrimary`. -/
def PrintableFactor : Factor → Prop
  | .mk _ p => PrintablePrimary p
/-- See `PrintablePrimary`. -/
def PrintableTerm : Term → Prop
  | .plain f => PrintableFactor f
  | .except f e => PrintableFactor f ∧ PrintableFactor e
/-- See `PrintablePrimary`. -/
def PrintableSingle : SingleDefinition → Prop
  | .nil => True
  | .cons t d => PrintableTerm t ∧ PrintableSingle d
/-- See `PrintablePrimary`. -/
def PrintableList : DefinitionList → Prop
  | .nil => True
  | .cons d l => PrintableSingle d ∧ PrintableList l
end

end Ebnf.Spec
