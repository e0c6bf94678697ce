import Verif.Model.Machine
import Verif.Spec.Cursor
import Verif.Spec.Shape

set_option autoImplicit false

/-! # Specification: scanners that do what they like (C110) -/

namespace Ebnf.Spec

/-- Whatever the method does to a reader, it does by calling the methods of the reader: any of them, in any order, as often as it likes, with any
arguments, among them marks that are not its own.  In a release build it panics only if one of these calls does.  What it returns is up to it. -/
def ByCalls {α : Type} (f : RM Reader α) : Prop := ∀ r : Reader, ∃ ops, (f r).2 = (performAll ops r).2 ∧
  ∀ p, (f r).1 = .panic p → r.buffer.dbg = true ∨ .crash ∈ (performAll ops r).1

/-- What a scanner may do next. -/
inductive Move
  | call (op : ReaderOp)
  | finish (x : Reaction)
  | fail (e : Error)

/-- A scanner as a program: what it does next may depend on all the answers it has got.  The fuel bounds the number of its calls. -/
def follow (next : List ReaderAns → Move) : Nat → List ReaderAns → RM Reader Reaction
  | 0, _ => RM.lift .diverge
  | fuel + 1, seen => fun r =>
    match next seen with
    | .finish x => (.ok x, r)
    | .fail e => (.err e, r)
    | .call op =>
      match perform op r with
      | (.crash, r') => (.panic .debugAssert, r')
      | (a, r') => follow next fuel (seen ++ [a]) r'

/-- A parser made, with the configuration, for a rule of the syntax with these rules. -/
def MadeFrom (config : Config) (rules : List SyntaxRule) (m : Machine) : Prop :=
  (∀ r ∈ rules, RuleShape r) ∧ ∃ s g query, Syntax.new rules = .ok s ∧ Graph.compile s config = .ok g ∧ Machine.new g query = .ok (some m)

end Ebnf.Spec
