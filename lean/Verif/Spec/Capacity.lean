import Verif.Model.Capacity
import Verif.Spec.Cursor

set_option autoImplicit false

/-! # Specification: room asked for in advance (C111) -/

namespace Ebnf.Spec

/-- Call a method of a reader, with `peek` asking for room in advance. -/
def performRoom : ReaderOp → Reader → ReaderAns × Reader
  | .peek n, r => answer .chars (Capacity.peek n r)
  | op, r => perform op r

/-- Call a sequence of methods. -/
def performAllRoom : List ReaderOp → Reader → List ReaderAns × Reader
  | [], r => ([], r)
  | op :: ops, r =>
    let (a, r) := performRoom op r
    let (as, r) := performAllRoom ops r
    (a :: as, r)

/-- The call does not ask for a look at 2^61 characters or more. -/
def Modest : ReaderOp → Prop
  | .peek n => n < 2 ^ 61
  | _ => True

end Ebnf.Spec
