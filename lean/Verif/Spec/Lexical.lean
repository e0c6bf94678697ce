import Verif.Spec.Text
import Verif.Model.Tokenizer

/-! # Specification: lexical structure of EBNF texts

What the tokens of ISO 14977 are, how each is spelled, and when a text is split into tokens.  Nothing
here refers to how the tokenizer works. -/

namespace Ebnf.Spec

/-- ASCII letters. -/
def IsLetter (c : Char) : Prop := ('a' ≤ c ∧ c ≤ 'z') ∨ ('A' ≤ c ∧ c ≤ 'Z')
/-- Decimal digits. -/
def IsDigit (c : Char) : Prop := '0' ≤ c ∧ c ≤ '9'
/-- Printable ASCII characters. -/
def IsPrintable (c : Char) : Prop := ' ' ≤ c ∧ c < '\x7F'

instance (c : Char) : Decidable (IsLetter c) := by unfold IsLetter; exact inferInstance
instance (c : Char) : Decidable (IsDigit c) := by unfold IsDigit; exact inferInstance
instance (c : Char) : Decidable (IsPrintable c) := by unfold IsPrintable; exact inferInstance

/-- Number of positions at which the two characters `a b` occur next to each other in `s`. -/
def pairCount (a b : Char) : Str → Nat
  | x :: y :: rest => (if x = a ∧ y = b then 1 else 0) + pairCount a b (y :: rest)
  | _ => 0

/-- `text` is the inside of a comment, i.e. `(*text*)` is one comment: reading from the star that opens
it, comment openings `(*` and closings `*)` balance out at the final `)` and not before. -/
def CommentText (text : Str) : Prop :=
  (∀ c ∈ text, IsPrintable c ∨ c ∈ gapChars) ∧
  pairCount '*' ')' ('*' :: text ++ ['*', ')']) = pairCount '(' '*' ('*' :: text ++ ['*', ')']) + 1 ∧
  ∀ p, p <+: '*' :: text ++ ['*'] → pairCount '*' ')' p ≤ pairCount '(' '*' p

/-- `Spelled tk s`: `tk` is a well-formed token whose source text is `s`.  The location is free. -/
inductive Spelled : Token → Str → Prop
  | repetition (l) : Spelled (.repetitionSymbol l) ['*']
  | except (l) : Spelled (.exceptSymbol l) ['-']
  | concatenate (l) : Spelled (.concatenateSymbol l) [',']
  | separator (l c) : c ∈ ['|', '/', '!'] → Spelled (.definitionSeparatorSymbol l c) [c]
  | defining (l) : Spelled (.definingSymbol l) ['=']
  | terminator (l c) : c ∈ [';', '.'] → Spelled (.terminatorSymbol l c) [c]
  | startOption (l s) : s ∈ [['['], ['(', '/']] → Spelled (.startOptionSymbol l s) s
  | endOption (l s) : s ∈ [[']'], ['/', ')']] → Spelled (.endOptionSymbol l s) s
  | startRepeat (l s) : s ∈ [['{'], ['(', ':']] → Spelled (.startRepeatSymbol l s) s
  | endRepeat (l s) : s ∈ [['}'], [':', ')']] → Spelled (.endRepeatSymbol l s) s
  | startGroup (l) : Spelled (.startGroupSymbol l) ['(']
  | endGroup (l) : Spelled (.endGroupSymbol l) [')']
  | metaIdentifier (l c s) : IsLetter c → (∀ d ∈ s, IsLetter d ∨ IsDigit d) →
      Spelled (.metaIdentifier l (c :: s)) (c :: s)
  | terminalString (l s q) : q ∈ ['\'', '"'] → s ≠ [] → (∀ c ∈ s, IsPrintable c ∧ c ≠ q) →
      Spelled (.terminalString l s q) (q :: s ++ [q])
  | integer (l c s) : IsDigit c → (∀ d ∈ s, IsDigit d) → Spelled (.integer l (c :: s)) (c :: s)
  | comment (l s) : CommentText s → Spelled (.comment l s) ('(' :: '*' :: s ++ ['*', ')'])
  | specialSequence (l s) : (∀ c ∈ s, (IsPrintable c ∨ c ∈ gapChars) ∧ c ≠ '?') →
      Spelled (.specialSequence l s) ('?' :: s ++ ['?'])
  | gapSeparator (l c s) : c ∈ gapChars → (∀ d ∈ s, d ∈ gapChars) →
      Spelled (.gapSeparatorSequence l (c :: s)) (c :: s)

/-- The position a token carries. -/
def positionOf : Token → Location
  | .repetitionSymbol l | .exceptSymbol l | .concatenateSymbol l | .definitionSeparatorSymbol l _
  | .definingSymbol l | .terminatorSymbol l _ | .startOptionSymbol l _ | .endOptionSymbol l _
  | .startRepeatSymbol l _ | .endRepeatSymbol l _ | .startGroupSymbol l | .endGroupSymbol l | .eof l
  | .metaIdentifier l _ | .terminalString l _ _ | .integer l _ | .comment l _ | .specialSequence l _
  | .gapSeparatorSequence l _ => l

/-- Maximal munch: the character that follows a token must not extend it. -/
def Ends : Token → Option Char → Prop
  | .metaIdentifier _ _, some c => ¬ IsLetter c ∧ ¬ IsDigit c
  | .integer _ _, some c => ¬ IsDigit c
  | .gapSeparatorSequence _ _, some c => c ∉ gapChars
  | .startGroupSymbol _, some c => c ≠ '*' ∧ c ≠ '/' ∧ c ≠ ':'
  | .definitionSeparatorSymbol _ '/', some c => c ≠ ')'
  | .repetitionSymbol _, some c => c ≠ ')'
  | _, _ => True

/-- `Lexes start text tks`: `text` is the concatenation of the spellings of `tks` with maximal munch at
each boundary, and each token carries the line and column of its first character (`start` being the
position of the first character of `text`). -/
inductive Lexes : Location → Str → List Token → Prop
  | nil (start) : Lexes start [] []
  | cons {start tk s rest tks} : Spelled tk s → positionOf tk = start → Ends tk rest.head? →
      Lexes (lineColumn start s) rest tks → Lexes start (s ++ rest) (tk :: tks)

end Ebnf.Spec
