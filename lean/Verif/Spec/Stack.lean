import Verif.Model.Stack
import Verif.Spec.Running
import Verif.Spec.Shape
import Verif.Spec.Recursion

set_option autoImplicit false

/-! # Specification: how much of the call stack a parse needs -/

namespace Ebnf.Spec

/-- With room for `frames` nested calls, `parse` returns `x` (a value, an error, or a panic — for instance because the stack is exhausted). -/
def ReturnsWithin (frames : Nat) (m : Machine) (r : Reader) (x : Res (List Event)) : Prop :=
  x ≠ .diverge ∧ ∃ enough, ∀ fuel, enough ≤ fuel → (m.parseDeep frames fuel r).1 = x

mutual
/-- How deep calls are nested in a primary: one call for an option or a repetition, one for a reference (what the rule referred to needs
is not counted), up to two for a special sequence that forwards. -/
def callsOfPrimary : Primary → Nat
  | .optional _ l => callsOfList l + 1
  | .repeated _ l => callsOfList l + 1
  | .grouped _ l => callsOfList l
  | .metaIdentifier _ _ => 1
  | .specialSequence _ _ => 2
  | .terminalString _ _ => 0
  | .empty _ => 0
/-- … in a factor: one call for a count. -/
def callsOfFactor : Factor → Nat
  | .mk n p => if n = 1 then callsOfPrimary p else callsOfPrimary p + 1
/-- … in a term: one call for an exception. -/
def callsOfTerm : Term → Nat
  | .plain f => callsOfFactor f
  | .except f x => max (callsOfFactor f) (callsOfFactor x) + 1
/-- … in a sequence. -/
def callsOfSingle : SingleDefinition → Nat
  | .nil => 0
  | .cons t d => max (callsOfTerm t) (callsOfSingle d)
/-- … in the alternatives of a choice. -/
def callsOfAlternatives : DefinitionList → Nat
  | .nil => 0
  | .cons d l => max (callsOfSingle d) (callsOfAlternatives l)
/-- … in a definition list: one call for a choice. -/
def callsOfList : DefinitionList → Nat
  | .nil => 0
  | .cons d .nil => callsOfSingle d
  | .cons d (.cons d' l) => max (callsOfSingle d) (callsOfAlternatives (.cons d' l)) + 1
end

/-- The rule `r` refers to the rule `r'`, or the scanner of one of its special sequences may forward to it. -/
def RefersToRule (G : Language) (r r' : SyntaxRule) : Prop := r ∈ G.rules ∧ r' ∈ G.rules ∧
  ((∃ loc name, Primary.metaIdentifier loc name ∈ primariesOfList r.definitionList ∧ SameName r'.metaIdentifier name) ∨
   ∃ loc s here rest name n, Primary.specialSequence loc s ∈ primariesOfList r.definitionList ∧
     G.special loc s loc here rest = .forward name n ∧
     (SameName r'.metaIdentifier name ∨ SameName ('$' :: r'.metaIdentifier) name))

/-- Some rule refers to itself, directly or through others. -/
def Recursive (G : Language) : Prop := ∃ r ∈ G.rules, Relation.TransGen (RefersToRule G) r r

end Ebnf.Spec
