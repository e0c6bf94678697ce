import Verif.Model.Tokenizer

/-! # Syntax trees — src/lex/mod.rs:186-324

`Vec<SingleDefinition>` and `Vec<SyntacticTerm>` are cons lists of the mutual family so that functions
over trees are structurally recursive.  An absent / present exception (`Option<SyntacticFactor>`) is
expressed by the two constructors of `Term`. -/

namespace Ebnf

mutual
/-- `enum SyntacticPrimary` — lex/mod.rs:267-275. -/
inductive Primary
  | optional (loc : Location) (list : DefinitionList)
  | repeated (loc : Location) (list : DefinitionList)
  | grouped (loc : Location) (list : DefinitionList)
  | metaIdentifier (loc : Location) (name : Str)
  | terminalString (loc : Location) (s : Str)
  | specialSequence (loc : Location) (s : Str)
  | empty (loc : Location)
/-- `struct SyntacticFactor` — lex/mod.rs:252-255. -/
inductive Factor
  | mk (repetition : Nat) (primary : Primary)
/-- `struct SyntacticTerm` — lex/mod.rs:235-238. -/
inductive Term
  | plain (factor : Factor)
  | except (factor exception : Factor)
/-- `struct SingleDefinition` (`Vec<SyntacticTerm>`) — lex/mod.rs:218-220. -/
inductive SingleDefinition
  | nil
  | cons (term : Term) (rest : SingleDefinition)
/-- `struct DefinitionList` (`Vec<SingleDefinition>`) — lex/mod.rs:203. -/
inductive DefinitionList
  | nil
  | cons (definition : SingleDefinition) (rest : DefinitionList)
end

deriving instance DecidableEq for Primary, Factor, Term, SingleDefinition, DefinitionList
deriving instance Repr for Primary, Factor, Term, SingleDefinition, DefinitionList

/-- `struct SyntaxRule` — lex/mod.rs:187-191. -/
structure SyntaxRule where
  location : Location
  metaIdentifier : Str
  definitionList : DefinitionList
deriving DecidableEq, Repr

/-- `SyntacticPrimary::location` — lex/mod.rs:278-288. -/
def Primary.location : Primary → Location
  | .optional l _ | .repeated l _ | .grouped l _ | .metaIdentifier l _ | .terminalString l _
  | .specialSequence l _ | .empty l => l

/-- The field `syntactic_primary` of a factor — lex/mod.rs:252-255. -/
def Factor.primary : Factor → Primary | .mk _ p => p

/-- The definitions of a definition-list as a list. -/
def DefinitionList.toList : DefinitionList → List SingleDefinition
  | .nil => []
  | .cons d r => d :: r.toList
end Ebnf
