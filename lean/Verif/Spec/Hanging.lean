import Verif.Spec.Grammar

set_option autoImplicit false

/-! # Specification: the token sequences on which reading a rule runs off the end of a bracket

The relations follow the grammar of `Verif.Spec.Grammar`: everything before the culprit is well formed, the
culprit is an integer with nothing but gaps and comments after it up to the end of the bracket it stands in, and
nothing is asked of what comes after that bracket. -/

namespace Ebnf.Spec

/-- Brackets of kind `k` occur in matching pairs; other tokens are not looked at. -/
inductive Paired (k : Bracket) : List Token → Prop
  | nil : Paired k []
  | other {t ts} : ¬ Opens k t → ¬ Closes k t → Paired k ts → Paired k (t :: ts)
  | pair {o c ts us} : Opens k o → Closes k c → Paired k ts → Paired k us → Paired k (o :: (ts ++ c :: us))

/-- Digits of a number below `2^32`. -/
def IsCount (d : Str) : Prop := (∀ c ∈ d, IsDigit c) ∧ d ≠ [] ∧ decimal d < 2 ^ 32

/-- Nothing, or `n *`. -/
inductive Multiplier : List Token → Prop
  | none : Multiplier []
  | times {g g' l l' d} : Blanks g → Blanks g' → IsCount d →
      Multiplier (g ++ .integer l d :: (g' ++ [.repetitionSymbol l']))

mutual
/-- A factor that is an integer at the end of the bracket, or a bracket with such a thing inside; in the second
case anything may follow. -/
inductive HangingFactor : List Token → Prop
  | integer {g g' l d} : Blanks g → Blanks g' → IsCount d → HangingFactor (g ++ .integer l d :: g')
  | inside {m g o inner c rest} {k : Bracket} : Multiplier m → Blanks g → Opens k o → Paired k inner → Closes k c →
      HangingList inner → HangingFactor (m ++ (g ++ o :: (inner ++ c :: rest)))
/-- A term whose factor or exception is such a factor. -/
inductive HangingTerm : List Token → Prop
  | factor {ts} : HangingFactor ts → HangingTerm ts
  | exception {ts g us l f} : FactorG ts f → Blanks g → HangingFactor us →
      HangingTerm (ts ++ g ++ .exceptSymbol l :: us)
/-- Terms followed by such a term. -/
inductive HangingSingle : List Token → Prop
  | term {ts} : HangingTerm ts → HangingSingle ts
  | next {ts g us l t} : TermG ts t → Blanks g → HangingSingle us →
      HangingSingle (ts ++ g ++ .concatenateSymbol l :: us)
/-- Definitions followed by such a definition. -/
inductive HangingList : List Token → Prop
  | single {ts} : HangingSingle ts → HangingList ts
  | next {ts g us l c d} : SingleG ts d → Blanks g → HangingList us →
      HangingList (ts ++ g ++ .definitionSeparatorSymbol l c :: us)
end

/-- A name, `=`, and such a definition list. -/
inductive HangingRule : List Token → Prop
  | rule {g ts g' l us loc name} : Blanks g → Name ts loc name → Blanks g' → HangingList us →
      HangingRule (g ++ ts ++ g' ++ .definingSymbol l :: us)

/-- Complete rules, then one more rule, up to its terminator, that runs off the end of a bracket. -/
def Hanging (ts : List Token) : Prop :=
  ∃ us rs vs t, ts = us ++ (vs ++ [t]) ∧ RulesG us rs ∧ (∀ x ∈ vs, ¬ IsTerminator x) ∧ IsTerminator t ∧
    HangingRule (vs ++ [t])

end Ebnf.Spec
