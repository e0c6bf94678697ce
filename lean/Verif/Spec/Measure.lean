import Verif.Spec.Grammar
import Verif.Model.Graph

set_option autoImplicit false

/-! # Specification: how large a grammar and its compiled machine are -/

namespace Ebnf.Spec

mutual
/-- How many constructs there are in a primary: a pair of braces or brackets, a name, a terminal string, a special sequence and an empty primary
count one each; parentheses do not count. -/
def constructsOfPrimary : Primary → Nat
  | .optional _ l => constructsOf l + 1
  | .repeated _ l => constructsOf l + 1
  | .grouped _ l => constructsOf l
  | .metaIdentifier _ _ => 1
  | .specialSequence _ _ => 1
  | .terminalString _ _ => 1
  | .empty _ => 1
/-- … in a factor: a count other than 1 counts one. -/
def constructsOfFactor : Factor → Nat
  | .mk n p => constructsOfPrimary p + if n = 1 then 0 else 1
/-- … in a term: an exception counts one. -/
def constructsOfTerm : Term → Nat
  | .plain f => constructsOfFactor f
  | .except f x => constructsOfFactor f + constructsOfFactor x + 1
/-- … in a definition. -/
def constructsOfSingle : SingleDefinition → Nat
  | .nil => 0
  | .cons t d => constructsOfTerm t + constructsOfSingle d
/-- … in a definition list: a choice between several definitions (or between none, which cannot be written) counts one. -/
def constructsOf : DefinitionList → Nat
  | .nil => 1
  | .cons d .nil => constructsOfSingle d
  | .cons d (.cons d' l) => constructsOfSingle d + constructsOfAll (.cons d' l) + 1
/-- … in the definitions of a list, the choice not counted. -/
def constructsOfAll : DefinitionList → Nat
  | .nil => 0
  | .cons d l => constructsOfSingle d + constructsOfAll l
end

/-- How many constructs there are in some rules: each rule counts one. -/
def constructsOfRules : List SyntaxRule → Nat
  | [] => 0
  | r :: rs => constructsOf r.definitionList + 1 + constructsOfRules rs

/-- The characters of the symbols, which error messages show, in a list of instructions. -/
def symbolText (l : List Instruction) : Str := l.flatMap (·.symbol)

/-- The configured scanners have symbols no longer than a special sequence is written (the default scanner's is what is written). -/
def ShortSymbols (config : Config) : Prop := ∀ l s, (config l s).symbol.length ≤ s.length + 2

end Ebnf.Spec
