import Verif.Spec.Hanging

set_option autoImplicit false

/-! # Specification: what is wrong with a malformed grammar, and how it is reported

Everything before the culprit is well formed in the sense of `Verif.Spec.Lexical` and `Verif.Spec.Grammar`; nothing is asked of what
comes after it. -/

namespace Ebnf.Spec

/-! ## Characters -/

/-- A comment that has been opened and is not closed by `s`, which may stand in a comment. -/
def InComment (s : Str) : Prop :=
  (∀ c ∈ s, IsPrintable c ∨ c ∈ gapChars) ∧ ∀ p, p <+: '*' :: s → pairCount '*' ')' p ≤ pairCount '(' '*' p

/-- `Fault here text e`: no token begins at `here`, where the text goes on with `text`; more text would not change that. -/
inductive Fault (here : Location) : Str → Error → Prop
  /-- `(*)` -/
  | ambiguousComment {rest} : Fault here ('(' :: '*' :: ')' :: rest) ⟨here, .ambiguousComment ['(', '*', ')']⟩
  /-- a colon before something other than `)` -/
  | colon {c rest} : c ≠ ')' → Fault here (':' :: c :: rest) ⟨here, .colonNotAllowed⟩
  /-- `*)` outside of comments -/
  | notOpened {rest} : Fault here ('*' :: ')' :: rest) ⟨here, .commentNotOpened⟩
  /-- a character with which no token begins -/
  | undefined {c rest} : (∀ tk s, ¬ Spelled tk (c :: s)) → rest ≠ [] → Fault here (c :: rest) ⟨here, .undefinedChar c⟩
  /-- nothing between quotation marks -/
  | emptyString {q rest} : q ∈ ['\'', '"'] → Fault here (q :: q :: rest) ⟨here, .terminalEmpty⟩
  /-- a character that cannot stand between quotation marks -/
  | stringChar {q s c rest} : q ∈ ['\'', '"'] → (∀ d ∈ s, IsPrintable d ∧ d ≠ q) → ¬ IsPrintable c →
      Fault here (q :: (s ++ c :: rest)) ⟨here, .terminalBadChar c⟩
  /-- a character that cannot stand between question marks -/
  | specialChar {s c rest} : (∀ d ∈ s, (IsPrintable d ∨ d ∈ gapChars) ∧ d ≠ '?') → ¬ IsPrintable c → c ∉ gapChars →
      Fault here ('?' :: (s ++ c :: rest)) ⟨here, .specialBadChar c⟩
  /-- a character that cannot stand in a comment; its own place is reported -/
  | commentChar {s c rest} : InComment s → ¬ IsPrintable c → c ∉ gapChars →
      Fault here ('(' :: '*' :: (s ++ c :: rest)) ⟨lineColumn here ('(' :: '*' :: s), .commentBadChar c⟩

/-- `FaultAtEnd here text e`: `text` is no token; more text might make it one, or another fault. -/
inductive FaultAtEnd (here : Location) : Str → Error → Prop
  | colon : FaultAtEnd here [':'] ⟨here, .colonNotAllowed⟩
  | undefined {c} : (∀ tk s, ¬ Spelled tk (c :: s)) → FaultAtEnd here [c] ⟨here, .undefinedChar c⟩
  | string {q s} : q ∈ ['\'', '"'] → (∀ d ∈ s, IsPrintable d ∧ d ≠ q) → FaultAtEnd here (q :: s) ⟨here, .terminalNotClosed q⟩
  | special {s} : (∀ d ∈ s, (IsPrintable d ∨ d ∈ gapChars) ∧ d ≠ '?') → FaultAtEnd here ('?' :: s) ⟨here, .specialNotClosed⟩
  | comment {s} : InComment s → FaultAtEnd here ('(' :: '*' :: s) ⟨here, .commentNotClosed⟩

/-- `text` begins with the tokens `ts`, and goes on with `rest`, which is at `there`. -/
def BeginsWith (start : Location) (text : Str) (ts : List Token) (there : Location) (rest : Str) : Prop :=
  ∃ front, text = front ++ rest ∧ Lexes start front ts ∧ (∀ t, ts.getLast? = some t → Ends t rest.head?) ∧ there = lineColumn start front

/-! ## Tokens -/

/-- The kind of a token. -/
def kindOf : Token → TokenName
  | .repetitionSymbol _ => .repetition
  | .exceptSymbol _ => .except
  | .concatenateSymbol _ => .concatenate
  | .definitionSeparatorSymbol _ _ => .definitionSeparator
  | .definingSymbol _ => .defining
  | .terminatorSymbol _ _ => .terminator
  | .startOptionSymbol _ _ => .startOption
  | .endOptionSymbol _ _ => .endOption
  | .startRepeatSymbol _ _ => .startRepeat
  | .endRepeatSymbol _ _ => .endRepeat
  | .startGroupSymbol _ => .startGroup
  | .endGroupSymbol _ => .endGroup
  | .metaIdentifier _ _ => .metaIdentifier
  | .terminalString _ _ _ => .terminalString
  | .integer _ _ => .integer
  | .comment _ _ => .comment
  | .specialSequence _ _ => .specialSequence
  | .gapSeparatorSequence _ _ => .gapSeparator
  | .eof _ => .eof

/-- An opening bracket that, together with what follows it directly, is written `(/)` or `(:)`; and how that is reported. -/
inductive Ambiguous : Token → List Token → Error → Prop
  | option {l l' rest} : Ambiguous (.startOptionSymbol l ['(', '/']) (.endGroupSymbol l' :: rest) ⟨l, .ambiguousOption⟩
  | repeat {l l' rest} : Ambiguous (.startRepeatSymbol l ['(', ':']) (.endGroupSymbol l' :: rest) ⟨l, .ambiguousRepeat⟩

mutual
/-- A factor that cannot be completed. -/
inductive FactorFault : List Token → Error → Prop
  /-- a number of repetitions that is too large -/
  | count {g l d rest} : Blanks g → (∀ c ∈ d, IsDigit c) → 2 ^ 32 ≤ decimal d →
      FactorFault (g ++ .integer l d :: rest) ⟨l, .badRepetition d⟩
  /-- a number that is not followed by `*` -/
  | noStar {g g' l d t rest} : Blanks g → Blanks g' → IsCount d → ¬ IsBlank t → kindOf t ≠ .repetition →
      FactorFault (g ++ .integer l d :: (g' ++ t :: rest)) ⟨positionOf t, .repetitionSymbolExpected (kindOf t)⟩
  /-- `(/)` or `(:)` -/
  | ambiguous {m g o rest e} : Multiplier m → Blanks g → Ambiguous o rest e → FactorFault (m ++ (g ++ o :: rest)) e
  /-- a bracket that is not closed -/
  | notClosed {m g o s rest} {k : Bracket} : Multiplier m → Blanks g → Opens k o → Spelled o s → (∀ e, ¬ Ambiguous o rest e) →
      (¬ ∃ inner c more, rest = inner ++ c :: more ∧ Paired k inner ∧ Closes k c) →
      FactorFault (m ++ (g ++ o :: rest)) ⟨positionOf o, .bracketNotClosed (kindOf o) s⟩
  /-- something wrong inside of a bracket -/
  | inside {m g o inner c rest e} {k : Bracket} : Multiplier m → Blanks g → Opens k o → (∀ e', ¬ Ambiguous o (inner ++ c :: rest) e') →
      Paired k inner → Closes k c → ListFault inner e → FactorFault (m ++ (g ++ o :: (inner ++ c :: rest))) e
/-- A term that cannot be completed. -/
inductive TermFault : List Token → Error → Prop
  | factor {ts e} : FactorFault ts e → TermFault ts e
  | exception {ts g us l f e} : FactorG ts f → Blanks g → FactorFault us e → TermFault (ts ++ g ++ .exceptSymbol l :: us) e
/-- A definition that cannot be completed: a term that cannot, or one that is followed by a token of a kind that neither goes on with
the term nor may stand after it. -/
inductive SingleFault : List Token → Error → Prop
  | term {ts e} : TermFault ts e → SingleFault ts e
  | next {ts g us l t e} : TermG ts t → Blanks g → SingleFault us e → SingleFault (ts ++ g ++ .concatenateSymbol l :: us) e
  | separator {ts g t rest tree} : TermG ts tree → Blanks g → ¬ IsBlank t → kindOf t ∉ [.concatenate, .definitionSeparator, .terminator, .eof] →
      (∀ t' more tree', kindOf t' = kindOf t → ¬ TermG (ts ++ g ++ t' :: more) tree') →
      SingleFault (ts ++ g ++ t :: rest) ⟨positionOf t, .separatorExpected (kindOf t)⟩
/-- A definition list that cannot be completed. -/
inductive ListFault : List Token → Error → Prop
  | single {ts e} : SingleFault ts e → ListFault ts e
  | next {ts g us l c d e} : SingleG ts d → Blanks g → ListFault us e → ListFault (ts ++ g ++ .definitionSeparatorSymbol l c :: us) e
end

/-- A rule that cannot be completed. -/
inductive RuleFault : List Token → Error → Prop
  /-- it does not begin with a name -/
  | name {g t rest} : Blanks g → ¬ IsBlank t → kindOf t ∉ [.metaIdentifier, .terminator, .eof] →
      RuleFault (g ++ t :: rest) ⟨positionOf t, .metaIdentifierExpected (kindOf t)⟩
  /-- its name is not followed by `=` -/
  | defining {g ts g' t rest loc name} : Blanks g → Name ts loc name → Blanks g' → ¬ IsBlank t → kindOf t ≠ .defining →
      (∀ loc' name', ¬ Name (ts ++ g' ++ [t]) loc' name') →
      RuleFault (g ++ ts ++ g' ++ t :: rest) ⟨positionOf t, .definingExpected (kindOf t)⟩
  | list {g ts g' l us loc name e} : Blanks g → Name ts loc name → Blanks g' → ListFault us e →
      RuleFault (g ++ ts ++ g' ++ .definingSymbol l :: us) e

/-- Complete rules, then a rule, up to its terminator, that cannot be completed. -/
def Malformed (ts : List Token) (e : Error) : Prop :=
  ∃ us rs vs t, ts = us ++ (vs ++ [t]) ∧ RulesG us rs ∧ (∀ x ∈ vs, ¬ IsTerminator x) ∧ IsTerminator t ∧ RuleFault (vs ++ [t]) e

end Ebnf.Spec
