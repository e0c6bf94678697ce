import Verif.Spec.Cursor

set_option autoImplicit false

/-! # Specification: when a reader stands at a cursor -/

namespace Ebnf

open Spec

/-- The reader `r` stands at the cursor `c`. -/
structure Rep (r : Reader) (c : Cursor) : Prop where
  src : ∃ text, Delivers r.source text ∧ c.rest = r.buffer.buffer.drop r.buffer.next ++ text ∧
    ∀ m p, (m, p) ∈ c.marks → r.buffer.head ≤ m ∧ m - r.buffer.head ≤ r.buffer.next ∧
      p + (r.buffer.next - (m - r.buffer.head)) = c.pos ∧
      c.text.drop p = r.buffer.buffer.drop (m - r.buffer.head) ++ text
  pos_le : c.pos ≤ c.text.length
  next_le : r.buffer.next ≤ r.buffer.buffer.length
  loc : r.buffer.location = c.location
  stack : r.buffer.stack = c.marks.map (fun x => (x.1, lineColumn c.start (c.text.take x.2)))
  sorted : c.marks.Pairwise (fun a b => b.1 ≤ a.1)

/-- Debug builds: nothing stale is left in the buffer once the last mark is gone, or nothing more will be added to it. -/
def Idle (r : Reader) : Prop :=
  (r.buffer.buffer = [] ∧ r.buffer.next = 0) ∨
  (r.buffer.stack = [] ∧ r.buffer.next < r.buffer.buffer.length) ∨
  (∃ st m l, r.buffer.stack = st ++ [(m, l)] ∧ m - r.buffer.head < r.buffer.buffer.length) ∨
  Delivers r.source []

/-- The reader `r` stands at the cursor `c`, and a debug build may read on without a mark. -/
structure RepIdle (r : Reader) (c : Cursor) : Prop extends Rep r c where
  idle : r.buffer.dbg = true → Idle r

end Ebnf
