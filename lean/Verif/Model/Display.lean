import Verif.Model.Lexer

/-! # `Display` of syntax trees — src/lex/mod.rs:193-324, src/lib.rs:275-282 -/

namespace Ebnf

/-- The quote used for a terminal string — lex/mod.rs:311: single quotes unless the text contains one. -/
def displayQuote (s : Str) : Char := if s.contains '\'' then '"' else '\''

mutual
/-- `Display for SyntacticPrimary` — lex/mod.rs:291-324. -/
def Primary.display : Primary → Str
  | .optional _ l => '[' :: l.display ++ [']']
  | .repeated _ l => '{' :: l.display ++ ['}']
  | .grouped _ l => '(' :: l.display ++ [')']
  | .metaIdentifier _ s => s
  | .terminalString _ s => displayQuote s :: s ++ [displayQuote s]
  | .specialSequence _ s => '?' :: s ++ ['?']
  | .empty _ => []
/-- `Display for SyntacticFactor` — lex/mod.rs:257-264. -/
def Factor.display : Factor → Str
  | .mk r p => (if r ≠ 1 then Nat.toDigits 10 r ++ ['*'] else []) ++ p.display
/-- `Display for SyntacticTerm` — lex/mod.rs:240-249. -/
def Term.display : Term → Str
  | .plain f => f.display
  | .except f e => f.display ++ '-' :: e.display
/-- `Display for SingleDefinition` — lex/mod.rs:222-232. -/
def SingleDefinition.display : SingleDefinition → Str
  | .nil => []
  | .cons t .nil => t.display
  | .cons t (.cons t' r) => t.display ++ ',' :: SingleDefinition.display (.cons t' r)
/-- `Display for DefinitionList` — lex/mod.rs:205-215. -/
def DefinitionList.display : DefinitionList → Str
  | .nil => []
  | .cons d .nil => d.display
  | .cons d (.cons d' r) => d.display ++ '|' :: DefinitionList.display (.cons d' r)
end

/-- `Display for SyntaxRule` — lex/mod.rs:193-200. -/
def SyntaxRule.display (r : SyntaxRule) : Str :=
  r.metaIdentifier ++ '=' :: r.definitionList.display ++ [';']

end Ebnf
