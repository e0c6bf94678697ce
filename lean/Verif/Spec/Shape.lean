import Verif.Spec.Lexical
import Verif.Spec.Trees

set_option autoImplicit false

/-! # Specification: shape of the rules the lexer may produce, and where their parts are in the text -/

namespace Ebnf.Spec

/-- One or more words of ASCII letters and digits starting with a letter, joined by single spaces. -/
def NameShape (n : Str) : Prop :=
  ∃ ws : List Str, ws ≠ [] ∧ n = joinSpace ws ∧
    ∀ w ∈ ws, ∃ c s, w = c :: s ∧ IsLetter c ∧ ∀ d ∈ s, IsLetter d ∨ IsDigit d

mutual
/-- Well-shaped primaries. -/
def PrimaryShape : Primary → Prop
  | .optional _ l | .repeated _ l | .grouped _ l => l ≠ .nil ∧ ListShape l
  | .metaIdentifier _ n => NameShape n
  | .terminalString _ s => s ≠ [] ∧ (∀ c ∈ s, IsPrintable c) ∧ ¬ ('\'' ∈ s ∧ '"' ∈ s)
  | .specialSequence _ s => ∀ c ∈ s, (IsPrintable c ∨ c ∈ gapChars) ∧ c ≠ '?'
  | .empty _ => True
/-- Repetition counts fit `u32`. -/
def FactorShape : Factor → Prop
  | .mk n p => n < 2 ^ 32 ∧ PrimaryShape p
/-- Well-shaped terms. -/
def TermShape : Term → Prop
  | .plain f => FactorShape f
  | .except f e => FactorShape f ∧ FactorShape e
/-- All terms are well-shaped. -/
def SingleShape : SingleDefinition → Prop
  | .nil => True
  | .cons t d => TermShape t ∧ SingleShape d
/-- All definitions have a term and are well-shaped. -/
def ListShape : DefinitionList → Prop
  | .nil => True
  | .cons d l => d ≠ .nil ∧ SingleShape d ∧ ListShape l
end

/-- A well-shaped rule. -/
def RuleShape (r : SyntaxRule) : Prop :=
  NameShape r.metaIdentifier ∧ r.definitionList ≠ .nil ∧ ListShape r.definitionList

mutual
/-- A primary and all primaries inside it. -/
def primariesIn : Primary → List Primary
  | .optional l d => .optional l d :: primariesOfList d
  | .repeated l d => .repeated l d :: primariesOfList d
  | .grouped l d => .grouped l d :: primariesOfList d
  | p => [p]
/-- All primaries in a factor. -/
def primariesOfFactor : Factor → List Primary
  | .mk _ p => primariesIn p
/-- All primaries in a term. -/
def primariesOfTerm : Term → List Primary
  | .plain f => primariesOfFactor f
  | .except f e => primariesOfFactor f ++ primariesOfFactor e
/-- All primaries in a definition. -/
def primariesOfSingle : SingleDefinition → List Primary
  | .nil => []
  | .cons t d => primariesOfTerm t ++ primariesOfSingle d
/-- All primaries in a definition list, at every depth. -/
def primariesOfList : DefinitionList → List Primary
  | .nil => []
  | .cons d l => primariesOfSingle d ++ primariesOfList l
end

/-- `StartsWith p s`: the text `s` starts with the spelling of `p` (of its opening bracket, or of its
first word). -/
def StartsWith : Primary → Str → Prop
  | .optional _ _, s => ['['] <+: s ∨ ['(', '/'] <+: s
  | .repeated _ _, s => ['{'] <+: s ∨ ['(', ':'] <+: s
  | .grouped _ _, s => ['('] <+: s
  | .metaIdentifier _ n, s => ∃ w, w ≠ [] ∧ w <+: n ∧ w <+: s
  | .terminalString _ t, s => '\'' :: t ++ ['\''] <+: s ∨ '"' :: t ++ ['"'] <+: s
  | .specialSequence _ t, s => '?' :: t ++ ['?'] <+: s
  | .empty _, _ => True

end Ebnf.Spec
