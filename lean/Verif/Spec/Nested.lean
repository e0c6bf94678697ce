import Verif.Model.Nested

set_option autoImplicit false

/-! # Specification: how deep brackets are nested -/

namespace Ebnf.Spec

mutual
/-- How deep brackets (of any kind) are nested in a primary. -/
def depthOfPrimary : Primary → Nat
  | .optional _ l => depthOf l + 1
  | .repeated _ l => depthOf l + 1
  | .grouped _ l => depthOf l + 1
  | .metaIdentifier _ _ => 0
  | .specialSequence _ _ => 0
  | .terminalString _ _ => 0
  | .empty _ => 0
/-- … in a factor. -/
def depthOfFactor : Factor → Nat
  | .mk _ p => depthOfPrimary p
/-- … in a term. -/
def depthOfTerm : Term → Nat
  | .plain f => depthOfFactor f
  | .except f x => max (depthOfFactor f) (depthOfFactor x)
/-- … in a definition. -/
def depthOfSingle : SingleDefinition → Nat
  | .nil => 0
  | .cons t d => max (depthOfTerm t) (depthOfSingle d)
/-- … in a definition list. -/
def depthOf : DefinitionList → Nat
  | .nil => 0
  | .cons d l => max (depthOfSingle d) (depthOf l)
end

/-- How deep brackets are nested in some rules. -/
def depthOfRules : List SyntaxRule → Nat
  | [] => 0
  | r :: rs => max (depthOf r.definitionList) (depthOfRules rs)

/-- With room for `room` nested brackets: what `x` is with room enough, or an exhausted stack. -/
def fits {α : Type} (needed room : Nat) (x : Res α) : Res α := if needed ≤ room then x else .panic .stackOverflow

end Ebnf.Spec
