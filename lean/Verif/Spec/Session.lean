import Verif.Spec.Running

set_option autoImplicit false

/-! # Specification: parsers and other callers using one reader in turn -/

namespace Ebnf.Spec

/-- An operation of the reader, or a parse with some parser (`fuel` bounds the recursion depth, see `Returns`). -/
inductive Action
  | op (o : ReaderOp)
  | parse (m : Machine) (fuel : Nat)

/-- What it returns. -/
inductive Reply
  | op (a : ReaderAns)
  | parse (x : Res (List Event))
deriving DecidableEq

/-- A panic, or not enough fuel. -/
def Reply.IsStop : Reply → Prop
  | .op a => a = .crash
  | .parse (.ok _) => False
  | .parse (.err _) => False
  | .parse _ => True

/-- Do it. -/
def act : Action → Reader → Reply × Reader
  | .op o, r => (.op (perform o r).1, (perform o r).2)
  | .parse m fuel, r => (.parse (m.parse fuel r).1, (m.parse fuel r).2)

/-- Do a sequence of actions. -/
def actAll : List Action → Reader → List Reply × Reader
  | [], r => ([], r)
  | a :: as, r => ((act a r).1 :: (actAll as (act a r).2).1, (actAll as (act a r).2).2)

/-- What an action means for the cursor.  A parse returns what the grammar says of the text ahead; it leaves the reader somewhere in the
text, at its end if it was accepted, with all marks that were there, and maybe others above them. -/
inductive SessionStep (dbg : Bool) : Cursor → Action → Reply → Cursor → Prop
  | op {c o a c'} : CursorStep c o a c' → SessionStep dbg c (.op o) (.op a) c'
  | parse {c m fuel x pos more} : (∀ G start, ParserFor dbg G start m → Parses asBuilt G start c.location c.rest x) → pos ≤ c.text.length →
      (∀ out, x = .ok out → pos = c.text.length) →
      SessionStep dbg c (.parse m fuel) (.parse x) ⟨c.start, c.text, pos, more ++ c.marks⟩

/-- What a sequence of actions means. -/
inductive SessionSteps (dbg : Bool) : Cursor → List Action → List Reply → Cursor → Prop
  | nil {c} : SessionSteps dbg c [] [] c
  | cons {c a r c' as rs c''} : SessionStep dbg c a r c' → SessionSteps dbg c' as rs c'' → SessionSteps dbg c (a :: as) (r :: rs) c''

end Ebnf.Spec
