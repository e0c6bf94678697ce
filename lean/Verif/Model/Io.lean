import Verif.Model.Basic

/-! # Character readers — src/io/mod.rs:1-463 -/

namespace Ebnf

/-- A `Box<dyn CharReader>` at the bottom of a `MarkableReader`.

* `BufferedCharReader` (io/mod.rs:58-76): all characters in `pending`, no rounds.
* `CharDecodeReader` (io/mod.rs:388-463): `pending` is `remaining_buffer`; each element of `rounds` is
  what one execution of `r.read(..)` + `decoder.push(..)` yields: a decoded string or an I/O error
  (the decoder itself is created with `stop_with_garbled = false` and never fails).

The rounds are arbitrary, so every delivery schedule of the underlying byte stream is covered.  After
the last round the stream is at its end. -/
structure Source where
  pending : Str
  rounds : List (Except Nat Str)
  location : Location
deriving Repr

namespace Source

/-- `BufferedCharReader::new` — io/mod.rs:63-65. -/
def buffered (chars : Str) : Source := ⟨chars, [], Location.new []⟩

/-- The `loop` of `CharDecodeReader::read_chars` — io/mod.rs:440-461. -/
def readRounds (n : Nat) : List (Except Nat Str) → Location → Res Str × Source
  | [], loc => (.ok [], ⟨[], [], loc⟩)
  | .error e :: rs, loc => (.fail loc (.streamError e), ⟨[], rs, loc⟩)
  | .ok chars :: rs, loc =>
    if chars.isEmpty then readRounds n rs loc
    else (.ok (chars.take n), ⟨chars.drop n, rs, loc.pushStr (chars.take n)⟩)

/-- `read_chars` with a buffer of `n` characters — io/mod.rs:69-75 and 429-462.  The result is the
list of characters written to the buffer (the code returns their number). -/
def readChars (n : Nat) : RM Source Str := fun s =>
  if !s.pending.isEmpty then
    (.ok (s.pending.take n),
      ⟨s.pending.drop n, s.rounds, s.location.pushStr (s.pending.take n)⟩)
  else readRounds n s.rounds s.location

end Source

/-- `struct UnreadBuffer` — io/mod.rs:205-214.  `stack` is kept with the most recent mark first (the
code pushes at the end of a `Vec`).  `dbg` tells whether debug assertions are compiled in. -/
structure UnreadBuffer where
  location : Location
  buffer : Str
  next : Nat
  head : Nat
  stack : List (Nat × Location)
  dbg : Bool
deriving Repr

namespace UnreadBuffer

/-- `UnreadBuffer::new` — io/mod.rs:218-226. -/
def new (location : Location) (dbg : Bool) : UnreadBuffer := ⟨location, [], 0, 0, [], dbg⟩

/-- `UnreadBuffer::remains` — io/mod.rs:230-232. -/
def remains (b : UnreadBuffer) : Bool := b.buffer.length > b.next

/-- `truncate_buffer_if_stack_empty` — io/mod.rs:291-296. -/
def truncateIfStackEmpty (b : UnreadBuffer) : UnreadBuffer :=
  if b.stack.isEmpty then { b with buffer := [], next := 0 } else b

/-- `UnreadBuffer::read` — io/mod.rs:233-244; returns the characters copied. -/
def read (b : UnreadBuffer) (n : Nat) : Str × UnreadBuffer :=
  let chars := (b.buffer.drop b.next).take n
  let b := { b with next := b.next + chars.length }
  let b := if !b.remains then b.truncateIfStackEmpty else b
  (chars, { b with location := b.location.pushStr chars })

/-- `UnreadBuffer::append` — io/mod.rs:245-256. -/
def append (b : UnreadBuffer) (buf : Str) : Res Unit × UnreadBuffer :=
  if !b.stack.isEmpty then
    if b.dbg && b.remains then (.panic .debugAssert, b)
    else (.ok (), { b with buffer := b.buffer ++ buf, next := b.next + buf.length,
                           location := b.location.pushStr buf })
  else
    if b.dbg && (!b.buffer.isEmpty || b.next != 0) then (.panic .debugAssert, b)
    else (.ok (), { b with head := b.head + buf.length, location := b.location.pushStr buf })

/-- `UnreadBuffer::mark` — io/mod.rs:257-262. -/
def mark (b : UnreadBuffer) : Res Nat × UnreadBuffer :=
  let position := b.head + b.next
  if b.dbg && !(match b.stack with | [] => true | (p, _) :: _ => p ≤ position) then
    (.panic .debugAssert, b)
  else (.ok position, { b with stack := (position, b.location) :: b.stack })

/-- The `for` loop of `remove_mark` — io/mod.rs:280-288: search from the most recent mark; result:
the location stored with the mark and the stack below it. -/
def findMark (mark : Nat) : List (Nat × Location) → Option (Location × List (Nat × Location))
  | [] => none
  | (p, l) :: st => if p = mark then some (l, st) else if p < mark then none else findMark mark st

/-- `UnreadBuffer::remove_mark` — io/mod.rs:274-290. -/
def removeMark (b : UnreadBuffer) (mark : Nat) : Res Location × UnreadBuffer :=
  if mark < b.head ∨ mark > b.head + b.buffer.length then
    (.fail b.location (.invalidMark mark), b)
  else match findMark mark b.stack with
    | some (l, st) => (.ok l, { b with stack := st })
    | none => (.fail b.location (.invalidMark mark), b)

/-- `UnreadBuffer::revert` — io/mod.rs:263-268.  The subtraction at line 267 underflows when the mark
lies after the current position: a panic in a debug build (a wrapped number in a release build; proved
unreachable). -/
def revert (b : UnreadBuffer) (mark : Nat) : Res Nat × UnreadBuffer :=
  match b.removeMark mark with
  | (.ok l, b) =>
    let old := b.head + b.next
    let b := { b with location := l, next := mark - b.head }
    if old < mark then (.panic .underflow, b) else (.ok (old - mark), b)
  | (.err e, b) => (.err e, b)
  | (.panic p, b) => (.panic p, b)
  | (.diverge, b) => (.diverge, b)

end UnreadBuffer

/-- `struct MarkableReader` — io/mod.rs:307-310. -/
structure Reader where
  source : Source
  buffer : UnreadBuffer
deriving Repr

namespace Reader

/-- `MarkableReader::with_location` — io/mod.rs:320-325. -/
def withLocation (location : Location) (source : Source) (dbg : Bool) : Reader :=
  ⟨source, UnreadBuffer.new location dbg⟩

/-- `MarkableReader::new` — io/mod.rs:313-318. -/
def new (name : Str) (source : Source) (dbg : Bool) : Reader :=
  withLocation (Location.new name) source dbg

/-- Number of characters the reader can still deliver, as a bound for loops (model only). -/
def size (r : Reader) : Nat :=
  r.buffer.buffer.length + r.source.pending.length
    + (r.source.rounds.map fun | .ok s => s.length | .error _ => 0).sum

/-- `MarkableReader::location` — io/mod.rs:355-357. -/
def location : RM Reader Location := fun r => (.ok r.buffer.location, r)

/-- `MarkableReader::read_chars` with a buffer of `n` characters — io/mod.rs:337-351; the result is
the list of characters delivered.  An error of the source is wrapped with the reader's location. -/
def readChars (n : Nat) : RM Reader Str := fun r =>
  if r.buffer.remains then
    let (chars, b) := r.buffer.read n
    (.ok chars, { r with buffer := b })
  else match r.source.readChars n with
    | (.ok chars, s) =>
      if chars.isEmpty then (.ok [], { r with source := s })
      else match r.buffer.append chars with
        | (.ok (), b) => (.ok chars, ⟨s, b⟩)
        | (.err e, b) => (.err e, ⟨s, b⟩)
        | (.panic p, b) => (.panic p, ⟨s, b⟩)
        | (.diverge, b) => (.diverge, ⟨s, b⟩)
    | (.err e, s) =>
      (.fail r.buffer.location
        (.wrapped e.location (match e.msg with | .streamError c => c | _ => 0)), { r with source := s })
    | (.panic p, s) => (.panic p, { r with source := s })
    | (.diverge, s) => (.diverge, { r with source := s })

/-- `CharReader::read` — io/mod.rs:21-29. -/
def read : RM Reader (Option Char) := do
  let cs ← readChars 1
  pure cs.head?

/-- `MarkableReader::mark` — io/mod.rs:359-361. -/
def mark : RM Reader Nat := fun r =>
  let (m, b) := r.buffer.mark
  (m, { r with buffer := b })

/-- `MarkableReader::reset_to_mark` — io/mod.rs:363-365. -/
def resetToMark (m : Nat) : RM Reader Nat := fun r =>
  let (n, b) := r.buffer.revert m
  (n, { r with buffer := b })

/-- `MarkableReader::unmark` — io/mod.rs:367-369: calls `remove_mark`, not `UnreadBuffer::unmark`. -/
def unmark (m : Nat) : RM Reader Unit := fun r =>
  match r.buffer.removeMark m with
  | (.ok _, b) => (.ok (), { r with buffer := b })
  | (.err e, b) => (.err e, { r with buffer := b })
  | (.panic p, b) => (.panic p, { r with buffer := b })
  | (.diverge, b) => (.diverge, { r with buffer := b })

/-- `MarkableCharReader::is_eof` — io/mod.rs:97-102. -/
def isEof : RM Reader Bool := do
  let m ← mark
  let ch ← read
  let _ ← resetToMark m
  pure ch.isNone

/-- The `for` loop of `prefix_matches` — io/mod.rs:117-123 (without the resets). -/
def prefixLoop : Str → RM Reader Bool
  | [] => pure true
  | p :: ps => do
    let ch ← read
    if ch ≠ some p then pure false else prefixLoop ps

/-- `MarkableCharReader::prefix_matches` — io/mod.rs:115-126. -/
def prefixMatches (pre : Str) : RM Reader Bool := do
  let m ← mark
  let b ← prefixLoop pre
  let _ ← resetToMark m
  pure b

/-- The `for` loop of `peek` — io/mod.rs:144-149. -/
def peekLoop : Nat → RM Reader Str
  | 0 => pure []
  | n + 1 => do
    match ← read with
    | some ch => do
      let cs ← peekLoop n
      pure (ch :: cs)
    | none => pure []

/-- `MarkableCharReader::peek` — io/mod.rs:141-152.  The allocation for `length` characters is dropped; it is in
`Model/Capacity.lean`, with the panic when it is too large. -/
def peek (length : Nat) : RM Reader Str := do
  let m ← mark
  let cs ← peekLoop length
  let _ ← resetToMark m
  pure cs

/-- The `while` loop of `skip` — io/mod.rs:166-173; returns the final `remainings`.  The first argument
is the fuel: every round consumes at least one character. -/
def skipLoop : Nat → Nat → RM Reader Nat
  | _, 0 => pure 0
  | 0, _ + 1 => RM.lift .diverge
  | fuel + 1, remainings + 1 => do
    let cs ← readChars (min (remainings + 1) 1024)
    if cs.isEmpty then pure (remainings + 1)
    else skipLoop fuel (remainings + 1 - cs.length)

/-- `MarkableCharReader::skip` — io/mod.rs:163-175. -/
def skip (length : Nat) : RM Reader Nat := do
  let remainings ← skipLoop length length
  pure (length - remainings)

/-- The `loop` of `read_all` — io/mod.rs:47-53. -/
def readAllLoop : Nat → RM Reader Str
  | 0 => RM.lift .diverge
  | fuel + 1 => do
    let cs ← readChars 1024
    if cs.isEmpty then pure []
    else do
      let more ← readAllLoop fuel
      pure (cs ++ more)

/-- `CharReader::read_all` — io/mod.rs:44-55. -/
def readAll : RM Reader Str := fun r => readAllLoop (r.size + 1) r

end Reader

namespace Source

/-- Number of characters a source can still deliver (model only). -/
def size (s : Source) : Nat :=
  s.pending.length + (s.rounds.map fun | .ok s => s.length | .error _ => 0).sum

end Source

end Ebnf
