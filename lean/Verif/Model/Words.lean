import Verif.Model.Dyn

/-! # Readers and the machine with 64-bit integers

Elsewhere in the model the `u64` fields are natural numbers.  Here they are bounded: an addition or a subtraction that
leaves the range panics in a debug build and wraps around in a release build (the default profiles switch overflow checks and
debug assertions on and off together).  Lengths and indices of a `Vec` (`usize`) stay natural numbers: they are bounded by the
memory that the `Vec` occupies. -/

namespace Ebnf.Word

/-- The number of values of a `u64`. -/
abbrev u64Size : Nat := 18446744073709551616

/-- `a + b` on `u64`. -/
def add (checks : Bool) (a b : Nat) : Res Nat :=
  if a + b < u64Size then .ok (a + b) else if checks then .panic .overflow else .ok ((a + b) % u64Size)

/-- `a - b` on `u64`. -/
def sub (checks : Bool) (a b : Nat) : Res Nat :=
  if b ≤ a then .ok (a - b) else if checks then .panic .underflow else .ok (a + u64Size - b)

/-- `Location::push` — src/lib.rs:326-333. -/
def push (checks : Bool) (l : Location) (ch : Char) : Res Location :=
  if ch = '\n' then do
    let lines ← add checks l.lines 1
    pure { l with lines := lines, columns := 1 }
  else do
    let columns ← add checks l.columns 1
    pure { l with columns := columns }

/-- `Location::push_str` and `Location::push_chars` — src/lib.rs:316-325. -/
def pushStr (checks : Bool) : Location → Str → Res Location
  | l, [] => .ok l
  | l, ch :: s => do
    let l ← push checks l ch
    pushStr checks l s

/-- Go on with a computed value, or stop; where the code stops, the state is as it was. -/
def andThen {α β σ : Type} (x : Res α) (s : σ) (f : α → Res β × σ) : Res β × σ :=
  match x with
  | .ok a => f a
  | .err e => (.err e, s)
  | .panic p => (.panic p, s)
  | .diverge => (.diverge, s)

/-! ## `UnreadBuffer` -/

/-- `UnreadBuffer::read` — io/mod.rs:233-244. -/
def bufferRead (b : UnreadBuffer) (n : Nat) : Res Str × UnreadBuffer :=
  let chars := (b.buffer.drop b.next).take n
  let b' := { b with next := b.next + chars.length }
  let b' := if !b'.remains then b'.truncateIfStackEmpty else b'
  andThen (pushStr b.dbg b.location chars) b' fun l => (.ok chars, { b' with location := l })

/-- `UnreadBuffer::append` — io/mod.rs:245-256. -/
def bufferAppend (b : UnreadBuffer) (buf : Str) : Res Unit × UnreadBuffer :=
  if !b.stack.isEmpty then
    if b.dbg && b.remains then (.panic .debugAssert, b)
    else
      andThen (pushStr b.dbg b.location buf) b fun l =>
        (.ok (), { b with buffer := b.buffer ++ buf, next := b.next + buf.length, location := l })
  else
    if b.dbg && (!b.buffer.isEmpty || b.next != 0) then (.panic .debugAssert, b)
    else
      andThen (add b.dbg b.head buf.length) b fun head =>
        andThen (pushStr b.dbg b.location buf) b fun l => (.ok (), { b with head := head, location := l })

/-- `UnreadBuffer::mark` — io/mod.rs:257-262. -/
def bufferMark (b : UnreadBuffer) : Res Nat × UnreadBuffer :=
  andThen (add b.dbg b.head b.next) b fun position =>
    if b.dbg && !(match b.stack with | [] => true | (p, _) :: _ => p ≤ position) then (.panic .debugAssert, b)
    else (.ok position, { b with stack := (position, b.location) :: b.stack })

/-- `UnreadBuffer::remove_mark` — io/mod.rs:274-290. -/
def removeMark (b : UnreadBuffer) (mark : Nat) : Res Location × UnreadBuffer :=
  if mark < b.head then (.fail b.location (.invalidMark mark), b)
  else
    andThen (add b.dbg b.head b.buffer.length) b fun last =>
      if mark > last then (.fail b.location (.invalidMark mark), b)
      else match UnreadBuffer.findMark mark b.stack with
        | some (l, st) => (.ok l, { b with stack := st })
        | none => (.fail b.location (.invalidMark mark), b)

/-- `UnreadBuffer::revert` — io/mod.rs:263-268. -/
def revert (b : UnreadBuffer) (mark : Nat) : Res Nat × UnreadBuffer :=
  match removeMark b mark with
  | (.ok l, b) =>
    andThen (add b.dbg b.head b.next) b fun old =>
      andThen (sub b.dbg mark b.head) b fun next =>
        let b := { b with location := l, next := next }
        andThen (sub b.dbg old mark) b fun n => (.ok n, b)
  | (.err e, b) => (.err e, b)
  | (.panic p, b) => (.panic p, b)
  | (.diverge, b) => (.diverge, b)

/-! ## `CharDecodeReader` and `BufferedCharReader` -/

/-- The `loop` of `CharDecodeReader::read_chars` — io/mod.rs:440-461. -/
def readRounds (checks : Bool) (n : Nat) : List (Except Nat Str) → Location → Res Str × Source
  | [], loc => (.ok [], ⟨[], [], loc⟩)
  | .error e :: rs, loc => (.fail loc (.streamError e), ⟨[], rs, loc⟩)
  | .ok chars :: rs, loc =>
    if chars.isEmpty then readRounds checks n rs loc
    else andThen (pushStr checks loc (chars.take n)) ⟨[], rs, loc⟩ fun l => (.ok (chars.take n), ⟨chars.drop n, rs, l⟩)

/-- `read_chars` — io/mod.rs:69-75 and 429-462.  (A `BufferedCharReader` has no location of its own; in the model it has one that
nobody sees, and that begins at (1, 1).) -/
def sourceRead (checks : Bool) (n : Nat) : RM Source Str := fun s =>
  if !s.pending.isEmpty then
    andThen (pushStr checks s.location (s.pending.take n)) s fun l => (.ok (s.pending.take n), ⟨s.pending.drop n, s.rounds, l⟩)
  else readRounds checks n s.rounds s.location

/-! ## `MarkableReader` -/

/-- `MarkableReader::read_chars` — io/mod.rs:337-351. -/
def readChars (n : Nat) : RM Reader Str := fun r =>
  if r.buffer.remains then
    let (chars, b) := bufferRead r.buffer n
    (chars, { r with buffer := b })
  else match sourceRead r.buffer.dbg n r.source with
    | (.ok chars, s) =>
      if chars.isEmpty then (.ok [], { r with source := s })
      else match bufferAppend r.buffer chars with
        | (.ok (), b) => (.ok chars, ⟨s, b⟩)
        | (.err e, b) => (.err e, ⟨s, b⟩)
        | (.panic p, b) => (.panic p, ⟨s, b⟩)
        | (.diverge, b) => (.diverge, ⟨s, b⟩)
    | (.err e, s) =>
      (.fail r.buffer.location
        (.wrapped e.location (match e.msg with | .streamError c => c | _ => 0)), { r with source := s })
    | (.panic p, s) => (.panic p, { r with source := s })
    | (.diverge, s) => (.diverge, { r with source := s })

/-- `MarkableReader::mark` — io/mod.rs:359-361. -/
def mark : RM Reader Nat := fun r =>
  let (m, b) := bufferMark r.buffer
  (m, { r with buffer := b })

/-- `MarkableReader::reset_to_mark` — io/mod.rs:363-365. -/
def resetToMark (m : Nat) : RM Reader Nat := fun r =>
  let (n, b) := revert r.buffer m
  (n, { r with buffer := b })

/-- `MarkableReader::unmark` — io/mod.rs:367-369. -/
def unmark (m : Nat) : RM Reader Unit := fun r =>
  match removeMark r.buffer m with
  | (.ok _, b) => (.ok (), { r with buffer := b })
  | (.err e, b) => (.err e, { r with buffer := b })
  | (.panic p, b) => (.panic p, { r with buffer := b })
  | (.diverge, b) => (.diverge, { r with buffer := b })

/-- `impl MarkableCharReader for MarkableReader` — io/mod.rs:336-370, with the methods that the trait provides. -/
def reader : Required Reader where
  readChars := readChars
  location r := r.buffer.location
  mark := mark
  resetToMark := resetToMark
  unmark := unmark
  size := Reader.size
  debug r := r.buffer.dbg

/-! ## The machine -/

/-- `TermWithExceptionScanner::scan` — machine.rs:290-335; as `Dyn.scanException`, but both readers have 64-bit integers. -/
def scanException (g : Graph) (addr : Nat) (runFactor runException : Run) : RM Reader (Prospect × List Event) := do
  let begin ← Dyn.location reader.methods
  let mark ← reader.mark
  let (prospect, temp) ← runFactor
  match prospect with
  | .proceed => do
    let endLoc ← Dyn.location reader.methods
    let _ ← reader.resetToMark mark
    let mark ← reader.mark
    let r ← RM.get
    let buffer ← Dyn.captureLoop reader.methods endLoc (r.size + 1)
    let here ← Dyn.location reader.methods
    if r.buffer.dbg && here ≠ endLoc then RM.lift (.panic .debugAssert)
    else do
      let excluded ← RM.lift
        ((do
          let (p, _) ← runException
          match p with
          | .proceed => reader.isEof
          | .notThisWay _ => pure false) (Reader.withLocation begin (.buffered buffer) r.buffer.dbg)).1
      if excluded then do
        let _ ← reader.resetToMark mark
        let e ← Dyn.errExpected reader.methods g (some addr)
        pure (.notThisWay e, [])
      else pure (.proceed, temp)
  | .notThisWay e => do
    let _ ← reader.resetToMark mark
    pure (.notThisWay e, [])

/-- One instruction — machine.rs:52-133. -/
def execStep (scan : SpecialScanner → Location → RM Reader Reaction) (g : Graph) (run : Nat → Run) (fuel addr : Nat)
    (instr : Instruction) : RM Reader (Prospect × List Event) :=
  match instr.step with
  | .scan (.exception factor exception) => scanException g addr (run factor) (run exception)
  | _ => Dyn.execStep reader.methods scan g run run fuel addr instr

/-- `parse_to_subroutine_end` — machine.rs:44-137. -/
def runFrom (scan : SpecialScanner → Location → RM Reader Reaction) (g : Graph) : Nat → Option Nat → RM Reader (Prospect × List Event)
  | 0, _ => RM.lift .diverge
  | _ + 1, none => pure (.proceed, [])
  | fuel + 1, some addr =>
    match g.instruction addr with
    | none => RM.lift (.panic .missing)
    | some instr => do
      let (prospect, evs) ← execStep scan g (fun a => runFrom scan g fuel (some a)) fuel addr instr
      match prospect with
      | .notThisWay e => pure (.notThisWay e, evs)
      | .proceed => do
        let (prospect, evs') ← runFrom scan g fuel instr.next
        pure (prospect, evs ++ evs')

/-- `LexMachine::parse` / `Parser::parse` — machine.rs:32-42, parser/mod.rs:75-77. -/
def parse (scan : SpecialScanner → Location → RM Reader Reaction) (m : Machine) (fuel : Nat) : RM Reader (List Event) := do
  let (prospect, events) ← runFrom scan m.graph fuel (some m.entry)
  match prospect with
  | .proceed => do
    if ← reader.isEof then do
      let r ← RM.get
      if r.buffer.dbg && !labelsAgree events then RM.lift (.panic .debugAssert) else pure (removeEmpty events)
    else do
      let e ← Dyn.errExpected reader.methods m.graph none
      RM.lift (.err e)
  | .notThisWay e => RM.lift (.err e)

end Ebnf.Word
