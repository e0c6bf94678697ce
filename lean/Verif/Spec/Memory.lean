import Verif.Spec.Held

set_option autoImplicit false

/-! # Specification: what a reader keeps in memory, whatever is done with it

`Memory` is the `Window` of `Spec/Held.lean` with one more thing to remember: when the last mark is forgotten by
`unmark`, and not returned to, what was read under it is left behind in memory. -/

namespace Ebnf.Spec

/-- The operations that move forward. -/
def MovesOn : ReaderOp → Prop
  | .read | .readChars _ | .readAll | .skip _ => True
  | _ => False

instance (op : ReaderOp) : Decidable (MovesOn op) := by
  cases op <;> unfold MovesOn <;> infer_instance

/-- A cursor, the furthest position looked at, the position from which on everything up to there is kept, and what
is left behind from before. -/
structure Memory where
  cursor : Cursor
  furthest : Nat
  clean : Nat
  left : Str

/-- All that is kept: what is left behind, and the text from `clean` to `furthest`. -/
def Memory.held (w : Memory) : Str := w.left ++ (w.cursor.text.take w.furthest).drop w.clean

/-- The memory after an operation that answered `a` and left the cursor at `c`.  When no mark is live and the
operation moves on to the furthest position looked at, then what it found in memory is thrown away; but if it found
nothing there to read, what is in memory is left behind. -/
def Memory.next (w : Memory) (op : ReaderOp) (a : ReaderAns) (c : Cursor) : Memory :=
  let f := max w.furthest (reach w.cursor op a)
  if MovesOn op ∧ w.cursor.marks = [] ∧ c.pos = f then
    if w.cursor.pos < w.furthest then ⟨c, f, f, []⟩ else ⟨c, f, f, w.held⟩
  else ⟨c, f, w.clean, w.left⟩

/-- A sequence of steps. -/
inductive MemorySteps : Memory → List ReaderOp → List ReaderAns → Memory → Prop
  | nil (w) : MemorySteps w [] [] w
  | cons {w op a c ops as w'} : CursorStep w.cursor op a c → MemorySteps (w.next op a c) ops as w' →
      MemorySteps w (op :: ops) (a :: as) w'

/-- The operation takes at least one character, if there is one. -/
def TakesOne : ReaderOp → Prop
  | .read | .readAll => True
  | .readChars n | .skip n => n ≠ 0
  | _ => False

/-- The operation jams: it takes a character that has not been looked at before, while no mark is live and something is
still kept. -/
def Jams (w : Memory) (op : ReaderOp) : Prop :=
  w.cursor.marks = [] ∧ w.cursor.pos = w.furthest ∧ w.held ≠ [] ∧ w.cursor.rest ≠ [] ∧ TakesOne op

end Ebnf.Spec
