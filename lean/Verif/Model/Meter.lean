import Verif.Model.Methods

set_option autoImplicit false

/-! # `MarkableReader` with its steps counted — src/io/mod.rs:58-76, 205-370, 388-463

The functions of `Model/Io.lean` once more; beside its result each returns the number of steps it takes.  Three kinds of steps are told apart: a
character that is copied or moved in the source (or a read of the byte stream), a character that is copied out of or into the buffer of the
reader, and a mark that is made, looked at or printed.  What a constant number of operations does beside such a step (comparisons,
`Location::push`, a clone of a location) is not counted; nor is the reading and decoding of the bytes themselves. -/

namespace Ebnf.Meter

/-- The `loop` of `CharDecodeReader::read_chars` — io/mod.rs:440-461.  One step for each round; of the characters that a round brings, all are
collected, those that fit into the buffer are copied to it, and the others are copied twice, by `to_vec` and by `append`. -/
def readRounds (n : Nat) : List (Except Nat Str) → Location → (Res Str × Source) × Nat
  | [], loc => ((.ok [], ⟨[], [], loc⟩), 0)
  | .error e :: rs, loc => ((.fail loc (.streamError e), ⟨[], rs, loc⟩), 1)
  | .ok chars :: rs, loc =>
    if chars.isEmpty then ((readRounds n rs loc).1, (readRounds n rs loc).2 + 1)
    else ((.ok (chars.take n), ⟨chars.drop n, rs, loc.pushStr (chars.take n)⟩),
      1 + chars.length + (chars.take n).length + 2 * (chars.drop n).length)

/-- `read_chars` with a buffer of `n` characters — io/mod.rs:69-75 and 429-438.  The characters are copied to the buffer, and `drain` moves the others to
the front, unless nothing was taken. -/
def sourceRead (n : Nat) (s : Source) : (Res Str × Source) × Nat :=
  if !s.pending.isEmpty then
    ((.ok (s.pending.take n), ⟨s.pending.drop n, s.rounds, s.location.pushStr (s.pending.take n)⟩),
      if n = 0 then 0 else (s.pending.take n).length + (s.pending.drop n).length)
  else readRounds n s.rounds s.location

/-- `UnreadBuffer::read` — io/mod.rs:233-244. -/
def bufferRead (b : UnreadBuffer) (n : Nat) : (Str × UnreadBuffer) × Nat :=
  let chars := (b.buffer.drop b.next).take n
  let b := { b with next := b.next + chars.length }
  let b := if !b.remains then b.truncateIfStackEmpty else b
  ((chars, { b with location := b.location.pushStr chars }), chars.length)

/-- `UnreadBuffer::append` — io/mod.rs:245-256.  With a mark, the characters are copied twice, by `to_vec` and by `append`. -/
def append (b : UnreadBuffer) (buf : Str) : (Res Unit × UnreadBuffer) × Nat :=
  if !b.stack.isEmpty then
    if b.dbg && b.remains then ((.panic .debugAssert, b), 0)
    else ((.ok (), { b with buffer := b.buffer ++ buf, next := b.next + buf.length, location := b.location.pushStr buf }), 2 * buf.length)
  else
    if b.dbg && (!b.buffer.isEmpty || b.next != 0) then ((.panic .debugAssert, b), 0)
    else ((.ok (), { b with head := b.head + buf.length, location := b.location.pushStr buf }), 0)

/-- `UnreadBuffer::mark` — io/mod.rs:257-262. -/
def mark (b : UnreadBuffer) : (Res Nat × UnreadBuffer) × Nat :=
  let position := b.head + b.next
  if b.dbg && !(match b.stack with | [] => true | (p, _) :: _ => p ≤ position) then
    ((.panic .debugAssert, b), 0)
  else ((.ok position, { b with stack := (position, b.location) :: b.stack }), 1)

/-- The `for` loop of `remove_mark` — io/mod.rs:280-288: one step for each mark that is looked at. -/
def findMark (mark : Nat) : List (Nat × Location) → Option (Location × List (Nat × Location)) × Nat
  | [] => (none, 0)
  | (p, l) :: st =>
    if p = mark then (some (l, st), 1)
    else if p < mark then (none, 1)
    else ((findMark mark st).1, (findMark mark st).2 + 1)

/-- `UnreadBuffer::remove_mark` — io/mod.rs:274-290.  The message of an error has all the marks in it (297-302). -/
def removeMark (b : UnreadBuffer) (mark : Nat) : (Res Location × UnreadBuffer) × Nat :=
  if mark < b.head ∨ mark > b.head + b.buffer.length then
    ((.fail b.location (.invalidMark mark), b), b.stack.length)
  else match findMark mark b.stack with
    | (some (l, st), k) => ((.ok l, { b with stack := st }), k)
    | (none, k) => ((.fail b.location (.invalidMark mark), b), k + b.stack.length)

/-- `UnreadBuffer::revert` — io/mod.rs:263-268. -/
def revert (b : UnreadBuffer) (mark : Nat) : (Res Nat × UnreadBuffer) × Nat :=
  match removeMark b mark with
  | ((.ok l, b), k) =>
    let old := b.head + b.next
    let b := { b with location := l, next := mark - b.head }
    (if old < mark then (.panic .underflow, b) else (.ok (old - mark), b), k)
  | ((.err e, b), k) => ((.err e, b), k)
  | ((.panic p, b), k) => ((.panic p, b), k)
  | ((.diverge, b), k) => ((.diverge, b), k)

end Meter

/-- A `MarkableReader` and the steps it has taken so far: characters in the source, characters in its own buffer, marks. -/
structure Metered where
  reader : Reader
  moved : Nat
  copied : Nat
  marks : Nat
deriving Repr

namespace Metered

/-- A reader that has not taken any step. -/
def start (r : Reader) : Metered := ⟨r, 0, 0, 0⟩

/-- `MarkableReader::read_chars` with a buffer of `n` characters — io/mod.rs:337-351. -/
def readChars (n : Nat) : RM Metered Str := fun r =>
  if r.reader.buffer.remains then
    let ((chars, b), k) := Meter.bufferRead r.reader.buffer n
    (.ok chars, { r with reader := { r.reader with buffer := b }, copied := r.copied + k })
  else match Meter.sourceRead n r.reader.source with
    | ((.ok chars, s), k) =>
      if chars.isEmpty then (.ok [], { r with reader := { r.reader with source := s }, moved := r.moved + k })
      else match Meter.append r.reader.buffer chars with
        | ((.ok (), b), j) => (.ok chars, { r with reader := ⟨s, b⟩, moved := r.moved + k, copied := r.copied + j })
        | ((.err e, b), j) => (.err e, { r with reader := ⟨s, b⟩, moved := r.moved + k, copied := r.copied + j })
        | ((.panic p, b), j) => (.panic p, { r with reader := ⟨s, b⟩, moved := r.moved + k, copied := r.copied + j })
        | ((.diverge, b), j) => (.diverge, { r with reader := ⟨s, b⟩, moved := r.moved + k, copied := r.copied + j })
    | ((.err e, s), k) =>
      (.fail r.reader.buffer.location
        (.wrapped e.location (match e.msg with | .streamError c => c | _ => 0)),
        { r with reader := { r.reader with source := s }, moved := r.moved + k })
    | ((.panic p, s), k) => (.panic p, { r with reader := { r.reader with source := s }, moved := r.moved + k })
    | ((.diverge, s), k) => (.diverge, { r with reader := { r.reader with source := s }, moved := r.moved + k })

/-- `MarkableReader::mark` — io/mod.rs:359-361. -/
def mark : RM Metered Nat := fun r =>
  let ((m, b), k) := Meter.mark r.reader.buffer
  (m, { r with reader := { r.reader with buffer := b }, marks := r.marks + k })

/-- `MarkableReader::reset_to_mark` — io/mod.rs:363-365. -/
def resetToMark (m : Nat) : RM Metered Nat := fun r =>
  let ((n, b), k) := Meter.revert r.reader.buffer m
  (n, { r with reader := { r.reader with buffer := b }, marks := r.marks + k })

/-- `MarkableReader::unmark` — io/mod.rs:367-369. -/
def unmark (m : Nat) : RM Metered Unit := fun r =>
  match Meter.removeMark r.reader.buffer m with
  | ((.ok _, b), k) => (.ok (), { r with reader := { r.reader with buffer := b }, marks := r.marks + k })
  | ((.err e, b), k) => (.err e, { r with reader := { r.reader with buffer := b }, marks := r.marks + k })
  | ((.panic p, b), k) => (.panic p, { r with reader := { r.reader with buffer := b }, marks := r.marks + k })
  | ((.diverge, b), k) => (.diverge, { r with reader := { r.reader with buffer := b }, marks := r.marks + k })

/-- `impl MarkableCharReader for MarkableReader` — io/mod.rs:336-370.  The methods that the traits provide are those of `Required.methods`. -/
def required : Required Metered where
  readChars := readChars
  location r := r.reader.buffer.location
  mark := mark
  resetToMark := resetToMark
  unmark := unmark
  size r := r.reader.size
  debug r := r.reader.buffer.dbg

end Metered

end Ebnf
