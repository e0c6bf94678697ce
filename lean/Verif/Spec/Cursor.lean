import Verif.Model.Io
import Verif.Spec.Text

set_option autoImplicit false

/-! # Specification: a cursor over a text with a stack of saved positions

`Cursor` and `CursorStep` say what the reader operations mean; `perform` calls the operations of the modelled
reader and records what they return. -/

namespace Ebnf.Spec

/-- The operations of a `MarkableReader`. -/
inductive ReaderOp
  | read
  | readChars (n : Nat)
  | readAll
  | peek (n : Nat)
  | prefixMatches (p : Str)
  | isEof
  | skip (n : Nat)
  | mark
  | resetToMark (m : Nat)
  | unmark (m : Nat)
  | location

/-- What an operation returns. -/
inductive ReaderAns
  | char (c : Option Char)
  | chars (s : Str)
  | bool (b : Bool)
  | num (n : Nat)
  | unit
  | location (l : Location)
  /-- an `Err` -/
  | error (e : Error)
  /-- a panic (or non-termination) -/
  | crash
deriving DecidableEq

/-- A text, a position in it, and the live marks, most recent first, as pairs of the number that was
returned for the mark and the position that was saved.  `start` is the location of the first character. -/
structure Cursor where
  start : Location
  text : Str
  pos : Nat
  marks : List (Nat × Nat)

namespace Cursor

/-- The characters not yet read. -/
def rest (c : Cursor) : Str := c.text.drop c.pos
/-- Line and column of the position. -/
def location (c : Cursor) : Location := lineColumn c.start (c.text.take c.pos)
/-- Move forward. -/
def advance (c : Cursor) (n : Nat) : Cursor := { c with pos := c.pos + n }

end Cursor

/-- `CursorStep c op a c'`: operation `op` at cursor `c` may return `a` and leave the cursor at `c'`.  Free are
only how many characters `read_chars` delivers at once, and the numbers given to marks. -/
inductive CursorStep : Cursor → ReaderOp → ReaderAns → Cursor → Prop
  | read (c) : CursorStep c .read (.char c.rest.head?) (c.advance (min 1 c.rest.length))
  | readChars (c n cs) : cs <+: c.rest → cs.length ≤ n → (cs = [] → n = 0 ∨ c.rest = []) →
      CursorStep c (.readChars n) (.chars cs) (c.advance cs.length)
  | readAll (c) : CursorStep c .readAll (.chars c.rest) (c.advance c.rest.length)
  | peek (c n) : CursorStep c (.peek n) (.chars (c.rest.take n)) c
  | prefixMatches (c p) : CursorStep c (.prefixMatches p) (.bool (decide (p <+: c.rest))) c
  | isEof (c) : CursorStep c .isEof (.bool (decide (c.rest = []))) c
  | skip (c n) : CursorStep c (.skip n) (.num (min n c.rest.length)) (c.advance (min n c.rest.length))
  /-- marks at the same position share their number, marks at different positions differ -/
  | mark (c m) : (∀ m' p, (m', p) ∈ c.marks → (m' = m ↔ p = c.pos)) →
      CursorStep c .mark (.num m) { c with marks := (m, c.pos) :: c.marks }
  /-- go back to the saved position; the mark and all newer ones are gone -/
  | reset (c m newer p older) : c.marks = newer ++ (m, p) :: older → (∀ x ∈ newer, x.1 ≠ m) →
      CursorStep c (.resetToMark m) (.num (c.pos - p)) { c with pos := p, marks := older }
  | resetInvalid (c m) : (∀ x ∈ c.marks, x.1 ≠ m) →
      CursorStep c (.resetToMark m) (.error ⟨c.location, .invalidMark m⟩) c
  /-- forget the mark and all newer ones -/
  | unmark (c m newer p older) : c.marks = newer ++ (m, p) :: older → (∀ x ∈ newer, x.1 ≠ m) →
      CursorStep c (.unmark m) .unit { c with marks := older }
  | unmarkInvalid (c m) : (∀ x ∈ c.marks, x.1 ≠ m) →
      CursorStep c (.unmark m) (.error ⟨c.location, .invalidMark m⟩) c
  | location (c) : CursorStep c .location (.location c.location) c

/-- A sequence of steps. -/
inductive CursorSteps : Cursor → List ReaderOp → List ReaderAns → Cursor → Prop
  | nil (c) : CursorSteps c [] [] c
  | cons {c op a c' ops as c''} : CursorStep c op a c' → CursorSteps c' ops as c'' → CursorSteps c (op :: ops) (a :: as) c''

/-- A sequence of steps during which at least `d` marks stay live. -/
inductive CursorStepsKeeping (d : Nat) : Cursor → List ReaderOp → List ReaderAns → Cursor → Prop
  | nil (c) : CursorStepsKeeping d c [] [] c
  | cons {c op a c' ops as c''} : CursorStep c op a c' → d ≤ c'.marks.length → CursorStepsKeeping d c' ops as c'' →
      CursorStepsKeeping d c (op :: ops) (a :: as) c''

/-- The numbers returned by the `mark` operations of a history. -/
def marksTaken : List ReaderOp → List ReaderAns → List Nat
  | .mark :: ops, .num m :: as => m :: marksTaken ops as
  | _ :: ops, _ :: as => marksTaken ops as
  | _, _ => []

/-- From the cursor `c` the operations never `unmark` the only live mark. -/
def NestedUnmarks : Cursor → List ReaderOp → Prop
  | _, [] => True
  | c, op :: ops => ∀ a c', CursorStep c op a c' →
      (∀ m, op = .unmark m → a = .unit → c'.marks ≠ []) ∧ NestedUnmarks c' ops

/-- The operations that only look ahead. -/
def IsLookahead : ReaderOp → Prop
  | .peek _ | .prefixMatches _ | .isEof | .location => True
  | _ => False

/-- Record a result. -/
def answer {α : Type} (f : α → ReaderAns) : Res α × Reader → ReaderAns × Reader
  | (.ok a, r) => (f a, r)
  | (.err e, r) => (.error e, r)
  | (.panic _, r) => (.crash, r)
  | (.diverge, r) => (.crash, r)

/-- Call the operation on the reader. -/
def perform : ReaderOp → Reader → ReaderAns × Reader
  | .read, r => answer .char (Reader.read r)
  | .readChars n, r => answer .chars (Reader.readChars n r)
  | .readAll, r => answer .chars (Reader.readAll r)
  | .peek n, r => answer .chars (Reader.peek n r)
  | .prefixMatches p, r => answer .bool (Reader.prefixMatches p r)
  | .isEof, r => answer .bool (Reader.isEof r)
  | .skip n, r => answer .num (Reader.skip n r)
  | .mark, r => answer .num (Reader.mark r)
  | .resetToMark m, r => answer .num (Reader.resetToMark m r)
  | .unmark m, r => answer (fun _ => .unit) (Reader.unmark m r)
  | .location, r => answer .location (Reader.location r)

/-- Call a sequence of operations. -/
def performAll : List ReaderOp → Reader → List ReaderAns × Reader
  | [], r => ([], r)
  | op :: ops, r =>
    let (a, r) := perform op r
    let (as, r) := performAll ops r
    (a :: as, r)

/-- The source delivers the whole text, in any pieces, without I/O error. -/
def Delivers (s : Source) (text : Str) : Prop :=
  ∃ pieces : List Str, s.rounds = pieces.map .ok ∧ text = s.pending ++ pieces.flatten

end Ebnf.Spec
