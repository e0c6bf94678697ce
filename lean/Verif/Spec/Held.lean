import Verif.Spec.Cursor

set_option autoImplicit false

/-! # Specification: what a reader keeps in memory

`Window` follows a cursor and remembers how far the text has been looked at, and where the reader last stood with
nothing to come back to. -/

namespace Ebnf.Spec

/-- The characters that the reader keeps although it has already fetched them from its source —
`UnreadBuffer::buffer`, io/mod.rs:207.  (What the source itself holds is not counted: a `CharDecodeReader`
holds the rest of one read of its byte stream.) -/
def heldBy (r : Reader) : Str := r.buffer.buffer

/-- How many characters of the text have to be looked at to see whether it begins with `p`. -/
def examined : Str → Str → Nat
  | p :: ps, x :: xs => if x = p then 1 + examined ps xs else 1
  | _, _ => 0

/-- How far into the text the operation looks that at the cursor `c` answered `a`. -/
def reach (c : Cursor) : ReaderOp → ReaderAns → Nat
  | .read, _ => c.pos + min 1 c.rest.length
  | .readChars _, .chars cs => c.pos + cs.length
  | .readAll, _ => c.pos + c.rest.length
  | .peek n, _ => c.pos + min n c.rest.length
  | .prefixMatches p, _ => c.pos + examined p c.rest
  | .isEof, _ => c.pos + min 1 c.rest.length
  | .skip n, _ => c.pos + min n c.rest.length
  | _, _ => c.pos

/-- A cursor, the furthest position looked at, and the position where the reader last had no mark and had delivered
everything it had looked at. -/
structure Window where
  cursor : Cursor
  furthest : Nat
  clean : Nat

/-- The window after an operation that answered `a` and left the cursor at `c`. -/
def Window.next (w : Window) (op : ReaderOp) (a : ReaderAns) (c : Cursor) : Window :=
  let f := max w.furthest (reach w.cursor op a)
  ⟨c, f, if c.marks = [] ∧ c.pos = f then f else w.clean⟩

/-- A sequence of steps. -/
inductive WindowSteps : Window → List ReaderOp → List ReaderAns → Window → Prop
  | nil (w) : WindowSteps w [] [] w
  | cons {w op a c ops as w'} : CursorStep w.cursor op a c → WindowSteps (w.next op a c) ops as w' →
      WindowSteps w (op :: ops) (a :: as) w'

/-- The operations that look at most one character ahead and save no position. -/
def LooksOneAhead : ReaderOp → Prop
  | .read | .readChars _ | .readAll | .isEof | .skip _ | .location => True
  | .peek n => n ≤ 1
  | .prefixMatches p => p.length ≤ 1
  | _ => False

end Ebnf.Spec
