import Verif.Model.ByteReader

/-! # Readers of other makes: the traits `CharReader` and `MarkableCharReader`, and `MarkableReader` over any `CharReader` — src/io/mod.rs:13-55, 92-203, 305-386

`Model/Io.lean` has `MarkableReader` over the two readers of the library.  Here the methods of the traits are
given for any implementation, whatever its states are. -/

namespace Ebnf

variable {σ : Type}

/-- An implementation of `MarkableCharReader` whose states are the `σ`: its methods — io/mod.rs:15-55, 92-203.  An implementation may bring its own
version of the methods that the trait provides.

Two fields are not methods: `size` bounds the number of characters that are left, and is used as fuel for loops; `debug` tells
whether debug assertions are compiled in. -/
structure Methods (σ : Type) where
  readChars : Nat → RM σ Str
  read : RM σ (Option Char)
  readAll : RM σ Str
  location : σ → Location
  isEof : RM σ Bool
  prefixMatches : Str → RM σ Bool
  peek : Nat → RM σ Str
  skip : Nat → RM σ Nat
  mark : RM σ Nat
  resetToMark : Nat → RM σ Nat
  unmark : Nat → RM σ Unit
  size : σ → Nat
  debug : σ → Bool

/-- The methods an implementation has to bring along — io/mod.rs:37, 95, 185, 192, 200 (and the two model-only fields). -/
structure Required (σ : Type) where
  readChars : Nat → RM σ Str
  location : σ → Location
  mark : RM σ Nat
  resetToMark : Nat → RM σ Nat
  unmark : Nat → RM σ Unit
  size : σ → Nat
  debug : σ → Bool

namespace Required

/-- `CharReader::read` — io/mod.rs:21-29. -/
def read (I : Required σ) : RM σ (Option Char) := CharReader.read I.readChars

/-- `CharReader::read_all` — io/mod.rs:44-55. -/
def readAll (I : Required σ) : RM σ Str := fun s => CharReader.readAllLoop I.readChars (I.size s + 1) s

/-- `MarkableCharReader::is_eof` — io/mod.rs:97-102. -/
def isEof (I : Required σ) : RM σ Bool := do
  let m ← I.mark
  let ch ← I.read
  let _ ← I.resetToMark m
  pure ch.isNone

/-- The `for` loop of `prefix_matches` — io/mod.rs:117-123 (without the resets). -/
def prefixLoop (I : Required σ) : Str → RM σ Bool
  | [] => pure true
  | p :: ps => do
    let ch ← I.read
    if ch ≠ some p then pure false else I.prefixLoop ps

/-- `MarkableCharReader::prefix_matches` — io/mod.rs:115-126. -/
def prefixMatches (I : Required σ) (pre : Str) : RM σ Bool := do
  let m ← I.mark
  let b ← I.prefixLoop pre
  let _ ← I.resetToMark m
  pure b

/-- The `for` loop of `peek` — io/mod.rs:144-149. -/
def peekLoop (I : Required σ) : Nat → RM σ Str
  | 0 => pure []
  | n + 1 => do
    match ← I.read with
    | some ch => do
      let cs ← I.peekLoop n
      pure (ch :: cs)
    | none => pure []

/-- `MarkableCharReader::peek` — io/mod.rs:141-152. -/
def peek (I : Required σ) (length : Nat) : RM σ Str := do
  let m ← I.mark
  let cs ← I.peekLoop length
  let _ ← I.resetToMark m
  pure cs

/-- The `while` loop of `skip` — io/mod.rs:166-173; returns the final `remainings`.  The first argument
is the fuel: every round consumes at least one character. -/
def skipLoop (I : Required σ) : Nat → Nat → RM σ Nat
  | _, 0 => pure 0
  | 0, _ + 1 => RM.lift .diverge
  | fuel + 1, remainings + 1 => do
    let cs ← I.readChars (min (remainings + 1) 1024)
    if cs.isEmpty then pure (remainings + 1)
    else I.skipLoop fuel (remainings + 1 - cs.length)

/-- `MarkableCharReader::skip` — io/mod.rs:163-175. -/
def skip (I : Required σ) (length : Nat) : RM σ Nat := do
  let remainings ← I.skipLoop length length
  pure (length - remainings)

/-- An implementation that takes all the methods the traits provide as they are. -/
def methods (I : Required σ) : Methods σ where
  readChars := I.readChars
  read := I.read
  readAll := I.readAll
  location := I.location
  isEof := I.isEof
  prefixMatches := I.prefixMatches
  peek := I.peek
  skip := I.skip
  mark := I.mark
  resetToMark := I.resetToMark
  unmark := I.unmark
  size := I.size
  debug := I.debug

end Required

/-- `impl MarkableCharReader for MarkableReader`, over the readers of the library — io/mod.rs:336-370. -/
def Reader.required : Required Reader where
  readChars := Reader.readChars
  location r := r.buffer.location
  mark := Reader.mark
  resetToMark := Reader.resetToMark
  unmark := Reader.unmark
  size := Reader.size
  debug r := r.buffer.dbg

/-- `struct MarkableReader` over a `Box<dyn CharReader>` of any make, with the states `σ` — io/mod.rs:307-310. -/
structure AnyReader (σ : Type) where
  source : σ
  buffer : UnreadBuffer

namespace AnyReader

/-- `MarkableReader::with_location` — io/mod.rs:320-325. -/
def withLocation (location : Location) (source : σ) (dbg : Bool) : AnyReader σ := ⟨source, UnreadBuffer.new location dbg⟩

/-- `MarkableReader::read_chars` with a buffer of `n` characters — io/mod.rs:337-351.  The message of an error
of the source becomes part of a new error; of messages other than those of a stream, the text is dropped. -/
def readChars (source : Nat → RM σ Str) (n : Nat) : RM (AnyReader σ) Str := fun r =>
  if r.buffer.remains then
    let (chars, b) := r.buffer.read n
    (.ok chars, { r with buffer := b })
  else match source n r.source with
    | (.ok chars, s) =>
      if chars.isEmpty then (.ok [], { r with source := s })
      else match r.buffer.append chars with
        | (.ok (), b) => (.ok chars, ⟨s, b⟩)
        | (.err e, b) => (.err e, ⟨s, b⟩)
        | (.panic p, b) => (.panic p, ⟨s, b⟩)
        | (.diverge, b) => (.diverge, ⟨s, b⟩)
    | (.err e, s) =>
      (.fail r.buffer.location
        (.wrapped e.location (match e.msg with | .streamError c => c | _ => 0)), { r with source := s })
    | (.panic p, s) => (.panic p, { r with source := s })
    | (.diverge, s) => (.diverge, { r with source := s })

/-- `MarkableReader::mark` — io/mod.rs:359-361. -/
def mark : RM (AnyReader σ) Nat := fun r =>
  let (m, b) := r.buffer.mark
  (m, { r with buffer := b })

/-- `MarkableReader::reset_to_mark` — io/mod.rs:363-365. -/
def resetToMark (m : Nat) : RM (AnyReader σ) Nat := fun r =>
  let (n, b) := r.buffer.revert m
  (n, { r with buffer := b })

/-- `MarkableReader::unmark` — io/mod.rs:367-369. -/
def unmark (m : Nat) : RM (AnyReader σ) Unit := fun r =>
  match r.buffer.removeMark m with
  | (.ok _, b) => (.ok (), { r with buffer := b })
  | (.err e, b) => (.err e, { r with buffer := b })
  | (.panic p, b) => (.panic p, { r with buffer := b })
  | (.diverge, b) => (.diverge, { r with buffer := b })

/-- `impl MarkableCharReader for MarkableReader`, over the `read_chars` of any `CharReader` — io/mod.rs:336-370.  `left` bounds the
number of characters the `CharReader` can still deliver. -/
def required (source : Nat → RM σ Str) (left : σ → Nat) : Required (AnyReader σ) where
  readChars := readChars source
  location r := r.buffer.location
  mark := mark
  resetToMark := resetToMark
  unmark := unmark
  size r := r.buffer.buffer.length + left r.source
  debug r := r.buffer.dbg

end AnyReader

end Ebnf
