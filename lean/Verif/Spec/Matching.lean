import Verif.Spec.Parsing

set_option autoImplicit false

/-! # Specification: choices and repetitions -/

namespace Ebnf.Spec

/-- The task matches, with these events, the first `n` characters. -/
abbrev Matches (q : Quirks) (G : Language) (task : Task) (here : Location) (rest : Str) (events : List Event) (n : Nat) : Prop :=
  Ev q G task here rest (.ok events n)

/-- The task does not match. -/
def Fails (q : Quirks) (G : Language) (task : Task) (here : Location) (rest : Str) : Prop :=
  ∃ e events n, Ev q G task here rest (.fail e events n)

/-- The events and the length of a match. -/
abbrev AMatch := List Event × Nat

/-- `InARow q G task here rest ms`: the task matches several times, one after another. -/
inductive InARow (q : Quirks) (G : Language) (task : Task) : Location → Str → List AMatch → Prop
  | none {here rest} : InARow q G task here rest []
  | more {here rest events n ms} : Matches q G task here rest events n →
      InARow q G task (lineColumn here (rest.take n)) (rest.drop n) ms → InARow q G task here rest ((events, n) :: ms)

/-- The characters of all matches. -/
def totalLength : List AMatch → Nat
  | [] => 0
  | m :: ms => m.2 + totalLength ms

/-- The events of all matches. -/
def allEvents : List AMatch → List Event
  | [] => []
  | m :: ms => m.1 ++ allEvents ms

end Ebnf.Spec
