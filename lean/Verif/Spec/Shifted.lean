import Verif.Spec.Parsing

set_option autoImplicit false

/-! # Specification: the same text, beginning elsewhere -/

namespace Ebnf.Spec

/-- `l` and `l'` are the same place of the text `text`, which begins at `here` for one reader and at `here'` for another: the line and column behind
the same prefix of the text. -/
def SamePlace (here here' : Location) (text : Str) (l l' : Location) : Prop :=
  ∃ before, before <+: text ∧ l = lineColumn here before ∧ l' = lineColumn here' before

/-- The same event, at a corresponding place of the input. -/
inductive ShiftedEvent (P : Location → Location → Prop) : Event → Event → Prop
  | token {d l l' s} : P l l' → ShiftedEvent P (.token d l s) (.token d l' s)
  | begin {d l l' n} : P l l' → ShiftedEvent P (.begin d l n) (.begin d l' n)
  | end {d l l' n} : P l l' → ShiftedEvent P (.end d l n) (.end d l' n)

/-- Equally many events, the same one by one, at corresponding places of the input. -/
inductive ShiftedEvents (P : Location → Location → Prop) : List Event → List Event → Prop
  | nil : ShiftedEvents P [] []
  | cons {e e' es es'} : ShiftedEvent P e e' → ShiftedEvents P es es' → ShiftedEvents P (e :: es) (e' :: es')

/-- The same message, at a corresponding place of the input. -/
def ShiftedError (P : Location → Location → Prop) (e e' : Error) : Prop := P e.location e'.location ∧ e.msg = e'.msg

/-- The same reaction of a scanner, with corresponding places of the input. -/
inductive ShiftedReaction (P : Location → Location → Prop) : Recognition → Recognition → Prop
  | accept {evs evs' n} : ShiftedEvents P evs evs' → ShiftedReaction P (.accept evs n) (.accept evs' n)
  | unmatched : ShiftedReaction P .unmatched .unmatched
  | forward {s n} : ShiftedReaction P (.forward s n) (.forward s n)
  | error {e e'} : ShiftedError P e e' → ShiftedReaction P (.error e) (.error e')

/-- The scanners do not look at the place of the input they are called at, except for reporting places. -/
def ScannersAnywhere (G : Language) : Prop :=
  ∀ loc s here here' rest, ShiftedReaction (SamePlace here here' rest) (G.special loc s loc here rest) (G.special loc s loc here' rest)

/-- The same result of a parse, with corresponding places of the input. -/
inductive ShiftedResult (P : Location → Location → Prop) : Res (List Event) → Res (List Event) → Prop
  | ok {evs evs'} : ShiftedEvents P evs evs' → ShiftedResult P (.ok evs) (.ok evs')
  | err {e e'} : ShiftedError P e e' → ShiftedResult P (.err e) (.err e')
  | panic {p} : ShiftedResult P (.panic p) (.panic p)

end Ebnf.Spec
