import Verif.Spec.Shape
import Verif.Spec.Text

set_option autoImplicit false

/-! # Specification: rules, names and references of a grammar -/

namespace Ebnf.Spec

/-- Two spellings of the same meta-identifier: they differ only in gap characters. -/
abbrev SameName (a b : Str) : Prop := DiffersInGaps a b

/-- `n` names one of the rules. -/
def Defines (rs : List SyntaxRule) (n : Str) : Prop := ∃ r ∈ rs, SameName r.metaIdentifier n

/-- The rule at index `j` repeats the name of the earlier rule at index `i`. -/
def Repeats (rs : List SyntaxRule) (i j : Nat) : Prop :=
  i < j ∧ ∃ a b, rs[i]? = some a ∧ rs[j]? = some b ∧ SameName a.metaIdentifier b.metaIdentifier

/-- No two rules have the same name. -/
def DistinctNames (rs : List SyntaxRule) : Prop := ∀ i j, ¬ Repeats rs i j

/-- Names are in normal form: words separated by single spaces. -/
def NormalNames (rs : List SyntaxRule) : Prop :=
  ∀ r ∈ rs, ∃ ws, SplitsInto r.metaIdentifier ws ∧ r.metaIdentifier = joinSpace ws

/-- The primaries of a term that are not inside brackets. -/
def topOfTerm : Term → List Primary
  | .plain f => [f.primary]
  | .except f e => [f.primary, e.primary]
/-- The primaries of a definition that are not inside brackets. -/
def topOfSingle : SingleDefinition → List Primary
  | .nil => []
  | .cons t d => topOfTerm t ++ topOfSingle d
/-- The primaries of a definition list that are not inside brackets. -/
def topOfList : DefinitionList → List Primary
  | .nil => []
  | .cons d l => topOfSingle d ++ topOfList l

/-- A bracketed sequence. -/
def IsBracket : Primary → Prop
  | .optional _ _ | .repeated _ _ | .grouped _ _ => True
  | _ => False

/-- Every meta-identifier used in the rules, at any depth, names a rule. -/
def AllDefined (rs : List SyntaxRule) : Prop :=
  ∀ r ∈ rs, ∀ l n, Primary.metaIdentifier l n ∈ primariesOfList r.definitionList → Defines rs n

/-- Every meta-identifier used outside brackets names a rule. -/
def TopDefined (rs : List SyntaxRule) : Prop :=
  ∀ r ∈ rs, ∀ l n, Primary.metaIdentifier l n ∈ topOfList r.definitionList → Defines rs n

end Ebnf.Spec
