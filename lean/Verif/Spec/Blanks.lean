import Verif.Spec.Grammar

set_option autoImplicit false

/-! # Specification: token sequences that differ only in blanks and positions -/

namespace Ebnf.Spec

/-- The same token at another position. -/
def moved (l : Location) : Token → Token
  | .repetitionSymbol _ => .repetitionSymbol l
  | .exceptSymbol _ => .exceptSymbol l
  | .concatenateSymbol _ => .concatenateSymbol l
  | .definitionSeparatorSymbol _ c => .definitionSeparatorSymbol l c
  | .definingSymbol _ => .definingSymbol l
  | .terminatorSymbol _ c => .terminatorSymbol l c
  | .startOptionSymbol _ s => .startOptionSymbol l s
  | .endOptionSymbol _ s => .endOptionSymbol l s
  | .startRepeatSymbol _ s => .startRepeatSymbol l s
  | .endRepeatSymbol _ s => .endRepeatSymbol l s
  | .startGroupSymbol _ => .startGroupSymbol l
  | .endGroupSymbol _ => .endGroupSymbol l
  | .eof _ => .eof l
  | .metaIdentifier _ s => .metaIdentifier l s
  | .terminalString _ s q => .terminalString l s q
  | .integer _ s => .integer l s
  | .comment _ s => .comment l s
  | .specialSequence _ s => .specialSequence l s
  | .gapSeparatorSequence _ s => .gapSeparatorSequence l s

/-- A token that is neither a blank nor a word of a name. -/
def IsSymbol : Token → Prop
  | .gapSeparatorSequence _ _ | .comment _ _ | .metaIdentifier _ _ => False
  | _ => True

/-- The tokens start with a word, possibly after gaps: directly after a word, they continue its name. -/
def StartsWithWord (ts : List Token) : Prop :=
  ∃ gs l s rest, ts = gs ++ .metaIdentifier l s :: rest ∧ ∀ t ∈ gs, IsGapToken t

/-- `SameSymbols ts us`: both consist of the same symbols and names in the same order, with any gaps and
comments between them, anywhere in the text. -/
inductive SameSymbols : List Token → List Token → Prop
  | nil {g g'} : Blanks g → Blanks g' → SameSymbols g g'
  | symbol {g g' t ts us} (l) : Blanks g → Blanks g' → IsSymbol t → SameSymbols ts us →
      SameSymbols (g ++ t :: ts) (g' ++ moved l t :: us)
  | name {g g' n n' l l' s ts us} : Blanks g → Blanks g' → Name n l s → Name n' l' s →
      ¬ StartsWithWord ts → ¬ StartsWithWord us → SameSymbols ts us →
      SameSymbols (g ++ n ++ ts) (g' ++ n' ++ us)

/-- `text` starts at `start` and is cut into `a ++ b` between two of its tokens; `ts` are the tokens of `a`
and `us` those of `b`. -/
def CutBetweenTokens (start : Location) (a b : Str) (ts us : List Token) : Prop :=
  Lexes start a ts ∧ Lexes (lineColumn start a) b us ∧ Lexes start (a ++ b) (ts ++ us)

/-- The cut between `ts` and `us` is inside a name: a word, gaps, a word. -/
def InsideName (ts us : List Token) : Prop :=
  (∃ pre l s gs, ts = pre ++ .metaIdentifier l s :: gs ∧ ∀ t ∈ gs, IsGapToken t) ∧ StartsWithWord us

end Ebnf.Spec
