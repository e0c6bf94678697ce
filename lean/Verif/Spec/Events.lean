import Verif.Spec.Parsing
import Verif.Spec.Conditions

set_option autoImplicit false

/-! # Specification: lists of events -/

namespace Ebnf.Spec

/-- The texts of the token events, concatenated. -/
def tokenText : List Event → Str
  | [] => []
  | .token _ _ s :: es => s ++ tokenText es
  | _ :: es => tokenText es

/-- `Spells here events text`: the tokens are, one after another, the text, and every event carries the place in the text
where it happens. -/
inductive Spells : Location → List Event → Str → Prop
  | nil {here} : Spells here [] []
  | token {definition here s es text} : Spells (lineColumn here s) es text →
      Spells here (.token definition here s :: es) (s ++ text)
  | begin {definition here label es text} : Spells here es text → Spells here (.begin definition here label :: es) text
  | end {definition here label es text} : Spells here es text → Spells here (.end definition here label :: es) text

/-- `begin end begin end …`, at least one pair. -/
inductive EmptyPairs : List Event → Prop
  | one {b e} : IsBegin b → IsEnd e → EmptyPairs [b, e]
  | more {b e es} : IsBegin b → IsEnd e → EmptyPairs es → EmptyPairs (b :: e :: es)

/-- A begin event directly followed by an end event. -/
def HasEmptyPair (es : List Event) : Prop := ∃ pre b e post, es = pre ++ b :: e :: post ∧ IsBegin b ∧ IsEnd e

/-- A begin event, then only empty pairs (at least one), then an end event. -/
def HasNestedEmptyPair (es : List Event) : Prop :=
  ∃ pre b pairs e post, es = pre ++ b :: pairs ++ e :: post ∧ IsBegin b ∧ EmptyPairs pairs ∧ IsEnd e

/-- `out` is `es` without some adjacent pairs of a begin and an end event. -/
inductive WithoutPairs : List Event → List Event → Prop
  | nil : WithoutPairs [] []
  | keep {x es out} : WithoutPairs es out → WithoutPairs (x :: es) (x :: out)
  | drop {b e es out} : IsBegin b → IsEnd e → WithoutPairs es out → WithoutPairs (b :: e :: es) out

/-- The scanners report balanced events. -/
def ScannersBalanced (G : Language) : Prop :=
  ∀ l s d here rest evs n, G.special l s d here rest = .accept evs n → Balanced evs

/-- The scanners report what they consume, where they consume it; those that forward have consumed nothing. -/
def ScannersSpell (G : Language) : Prop := ∀ l s d here rest,
  (∀ evs n, G.special l s d here rest = .accept evs n → Spells here evs (rest.take n)) ∧
  ∀ name n, G.special l s d here rest = .forward name n → n = 0

/-- Optional and repeated bodies are choices or single terms, and scanners do not forward. -/
def spelling (G : Language) : Local :=
  { primary := fun p => quietBodies.primary p ∧ (noForwards G).primary p }

end Ebnf.Spec
