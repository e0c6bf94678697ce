import Verif.Spec.Danger
import Verif.Spec.Lexical

set_option autoImplicit false

/-! # Specification: the grammar of syntax rules (ISO 14977) over tokens, with parse trees

Gaps and comments may stand before every symbol.  Nothing here refers to how the token parser works. -/

namespace Ebnf.Spec

/-- Only gaps and comments. -/
def Blanks (g : List Token) : Prop := ∀ t ∈ g, IsBlank t

/-- A gap token (not a comment). -/
def IsGapToken : Token → Prop
  | .gapSeparatorSequence _ _ => True
  | _ => False

/-- `Name ts loc name`: the tokens `ts` spell the meta-identifier `name`, which starts at `loc`: words
separated by gaps, each gap reading as one space.  (Directly adjacent words do not occur in lexed
texts; they would read as one word.) -/
inductive Name : List Token → Location → Str → Prop
  | word (l s) : Name [.metaIdentifier l s] l s
  | adjacent {ts l n} (l' s) : Name ts l n → Name (ts ++ [.metaIdentifier l' s]) l (n ++ s)
  | gap {ts l n} (gs l' s) : Name ts l n → gs ≠ [] → (∀ t ∈ gs, IsGapToken t) →
      Name (ts ++ gs ++ [.metaIdentifier l' s]) l (n ++ ' ' :: s)

/-- Decimal value of digits. -/
def decimal : Str → Nat := fun s => s.foldl (fun a c => a * 10 + (c.toNat - '0'.toNat)) 0

mutual
/-- A syntactic primary. -/
inductive PrimaryG : List Token → Primary → Prop
  | optional {g ts g' l s l' s' list} : Blanks g → Blanks g' → ListG ts list →
      PrimaryG (g ++ .startOptionSymbol l s :: (ts ++ g' ++ [.endOptionSymbol l' s'])) (.optional l list)
  | repeated {g ts g' l s l' s' list} : Blanks g → Blanks g' → ListG ts list →
      PrimaryG (g ++ .startRepeatSymbol l s :: (ts ++ g' ++ [.endRepeatSymbol l' s'])) (.repeated l list)
  | grouped {g ts g' l l' list} : Blanks g → Blanks g' → ListG ts list →
      PrimaryG (g ++ .startGroupSymbol l :: (ts ++ g' ++ [.endGroupSymbol l'])) (.grouped l list)
  | metaIdentifier {g ts l n} : Blanks g → Name ts l n → PrimaryG (g ++ ts) (.metaIdentifier l n)
  | terminalString {g l s q} : Blanks g → PrimaryG (g ++ [.terminalString l s q]) (.terminalString l s)
  | specialSequence {g l s} : Blanks g → PrimaryG (g ++ [.specialSequence l s]) (.specialSequence l s)
  /-- the location of an empty sequence is not determined -/
  | empty {g} (l) : Blanks g → PrimaryG g (.empty l)
/-- A syntactic factor: a primary, or `n * primary`. -/
inductive FactorG : List Token → Factor → Prop
  | one {ts p} : PrimaryG ts p → FactorG ts (.mk 1 p)
  | times {g g' ts l l' d p} : Blanks g → Blanks g' → (∀ c ∈ d, IsDigit c) → d ≠ [] → decimal d < 2 ^ 32 →
      PrimaryG ts p →
      FactorG (g ++ .integer l d :: (g' ++ .repetitionSymbol l' :: ts)) (.mk (decimal d) p)
/-- A syntactic term: a factor, or `factor - exception`. -/
inductive TermG : List Token → Term → Prop
  | plain {ts f} : FactorG ts f → TermG ts (.plain f)
  | except {ts g ts' l f e} : FactorG ts f → Blanks g → FactorG ts' e →
      TermG (ts ++ g ++ .exceptSymbol l :: ts') (.except f e)
/-- A single definition: terms separated by `,`. -/
inductive SingleG : List Token → SingleDefinition → Prop
  | one {ts t} : TermG ts t → SingleG ts (.cons t .nil)
  | more {ts g ts' l t d} : TermG ts t → Blanks g → SingleG ts' d →
      SingleG (ts ++ g ++ .concatenateSymbol l :: ts') (.cons t d)
/-- A definition list: single definitions separated by `|`, `/` or `!`. -/
inductive ListG : List Token → DefinitionList → Prop
  | one {ts d} : SingleG ts d → ListG ts (.cons d .nil)
  | more {ts g ts' l c d list} : SingleG ts d → Blanks g → ListG ts' list →
      ListG (ts ++ g ++ .definitionSeparatorSymbol l c :: ts') (.cons d list)
end

/-- A terminator symbol or the end of the text. -/
def IsTerminator : Token → Prop
  | .terminatorSymbol _ _ | .eof _ => True
  | _ => False

/-- A syntax rule: name, `=`, definition list, terminator. -/
inductive RuleG : List Token → SyntaxRule → Prop
  | rule {g ts g' l ts' g'' t loc name list} : Blanks g → Name ts loc name → Blanks g' → ListG ts' list →
      Blanks g'' → IsTerminator t →
      RuleG (g ++ ts ++ g' ++ .definingSymbol l :: (ts' ++ g'' ++ [t])) ⟨loc, name, list⟩

/-- A token sequence that is a sequence of syntax rules; a terminator without a rule is allowed. -/
inductive RulesG : List Token → List SyntaxRule → Prop
  | nil : RulesG [] []
  | rule {ts r us rs} : RuleG ts r → RulesG us rs → RulesG (ts ++ us) (r :: rs)
  | blank {g t us rs} : Blanks g → IsTerminator t → RulesG us rs → RulesG (g ++ t :: us) rs

/-- The three kinds of brackets. -/
inductive Bracket | option | repeat | group
deriving DecidableEq

/-- `Opens k t`: `t` is an opening bracket of kind `k`. -/
def Opens : Bracket → Token → Prop
  | .option, .startOptionSymbol _ _ | .repeat, .startRepeatSymbol _ _ | .group, .startGroupSymbol _ => True
  | _, _ => False

/-- `Closes k t`: `t` is a closing bracket of kind `k`. -/
def Closes : Bracket → Token → Prop
  | .option, .endOptionSymbol _ _ | .repeat, .endRepeatSymbol _ _ | .group, .endGroupSymbol _ => True
  | _, _ => False

/-- Properly nested brackets of three kinds. -/
inductive Nested : List Token → Prop
  | nil : Nested []
  | other {t ts} : (∀ k, ¬ Opens k t) → (∀ k, ¬ Closes k t) → Nested ts → Nested (t :: ts)
  | pair {k o c ts us} : Opens k o → Closes k c → Nested ts → Nested us → Nested (o :: (ts ++ c :: us))

end Ebnf.Spec
