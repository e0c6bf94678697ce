import Verif.Model.Io
import Verif.Model.Syntax

/-! # Byte decoding — src/io/mod.rs:388-603, and reading grammars from byte streams — src/lex/mod.rs:53-81 -/

namespace Ebnf

abbrev Byte := UInt8

/-- An `encoding_rs` decoder as a byte-fed transducer.  `feed` gives the new state, the characters
that become known with this byte and whether a malformed sequence was replaced; `finish` is what
`last = true` adds at the end of the stream. -/
structure Codec where
  State : Type
  init : State
  feed : State → Byte → State × Str × Bool
  finish : State → Str × Bool

namespace Codec

variable (c : Codec)

/-- Feed several bytes. -/
def run : c.State → List Byte → c.State × Str × Bool
  | st, [] => (st, [], false)
  | st, b :: bs =>
    let (st, out, g) := c.feed st b
    let (st, out', g') := run st bs
    (st, out ++ out', g || g')

end Codec

/-- The life cycle of an `encoding_rs` decoder: no byte was given to it yet, it is in use, or a call with `last = true`
has consumed everything.  It must not be used any more then. -/
inductive Life
  | fresh
  | inUse
  | finished
deriving DecidableEq, Repr

/-- `struct Decoder` — io/mod.rs:483-489.  `sched` is the (arbitrary) behaviour of `encoding_rs` with
respect to its bounded output buffer: for each call of `decode_to_string`, `none` means that everything
fits, `some k` that it stops with `OutputFull` after `k + 1` bytes (or all bytes if fewer are left). -/
structure Decoder (c : Codec) where
  state : c.State
  location : Location
  stopWithGarbled : Bool
  buffer : List Byte
  sched : List (Option Nat)
  life : Life

namespace Decoder

variable {c : Codec}

/-- `Decoder::new` — io/mod.rs:505-527, for an encoding label that is known. -/
def new (c : Codec) (name : Str) (stopWithGarbled : Bool) (sched : List (Option Nat)) : Decoder c :=
  ⟨c.init, Location.new name, stopWithGarbled, [], sched, .fresh⟩

/-- `encoding_rs::Decoder::decode_to_string(src, dst, last)` with an empty `dst` — called at
io/mod.rs:565-567.  Result: `InputEmpty?`, number of bytes read, `had_errors`, output, new state.
Contract (trusted base): with an empty 256 byte output buffer a call either finishes its input or
consumes at least one byte, and consumes bytes exactly as the transducer does. -/
def decodeToString (c : Codec) (st : c.State) (src : List Byte) (last : Bool) (cut : Option Nat) :
    Bool × Nat × Bool × Str × c.State :=
  match cut, src with
  | some k, _ :: _ =>
    let n := min (k + 1) src.length
    let (st, out, g) := c.run st (src.take n)
    (false, n, g, out, st)
  | _, _ =>
    let (st, out, g) := c.run st src
    if last then
      let (out', g') := c.finish st
      (true, src.length, g || g', out ++ out', st)
    else (true, src.length, g, out, st)

/-- `Decoder::garbled_detected` — io/mod.rs:587-602. -/
def garbledDetected (d : Decoder c) (output : Str) : Res Str × Decoder c :=
  let position := (output.findIdx? (· == '�')).getD 0
  let to := d.location.pushStr output
  let d' := { d with location := d.location.pushStr (output.take (position + 1)) }
  (.fail d'.location (.garbled d.location.lines d.location.columns to.lines to.columns), d')

/-- The `loop` of `Decoder::convert` — io/mod.rs:564-579.  `rest` is `self.buffer[position..]`,
`position` the number of bytes read, `output` what was decoded so far.  The result says whether garbled bytes were
detected and whether the last call returned `InputEmpty`. -/
def convertLoop (c : Codec) (flush stop : Bool) :
    Nat → c.State → List (Option Nat) → List Byte → Nat → Str →
    Res (Bool × Bool × Nat × Str × c.State × List (Option Nat))
  | 0, _, _, _, _, _ => .diverge
  | fuel + 1, st, sched, rest, position, output =>
    let (inputEmpty, read, garbled, out, st) := decodeToString c st rest flush sched.head?.join
    let position := position + read
    let output := output ++ out
    if garbled && stop then .ok (true, inputEmpty, position, output, st, sched.tail)
    else if inputEmpty || read == 0 then .ok (false, inputEmpty, position, output, st, sched.tail)
    else convertLoop c flush stop fuel st sched.tail (rest.drop read) position output

/-- What calls of `decode_to_string` on `src`, the last of which returned `InputEmpty` or not, do to the life cycle —
`encoding_rs` (trusted base): a decoder to which no byte was given stays as it is, also with `last = true`; otherwise `last = true` and `InputEmpty`
finish it. -/
def lived (life : Life) (src : List Byte) (last inputEmpty : Bool) : Life :=
  if life = .fresh ∧ src = [] then .fresh
  else if last && inputEmpty then .finished
  else .inUse

/-- `Decoder::convert` — io/mod.rs:559-583.  The first call of `decode_to_string` panics if the decoder has finished. -/
def convert (bytes : List Byte) (flush : Bool) : RM (Decoder c) Str := fun d =>
  let d := { d with buffer := d.buffer ++ bytes }
  if d.life = .finished then (.panic .decoderFinished, d)
  else match convertLoop c flush d.stopWithGarbled (d.buffer.length + 1) d.state d.sched d.buffer 0 [] with
  | .ok (true, inputEmpty, _, output, st, sched) =>
    garbledDetected { d with state := st, sched := sched, life := lived d.life d.buffer flush inputEmpty } output
  | .ok (false, inputEmpty, position, output, st, sched) =>
    (.ok output, { d with state := st, sched := sched, life := lived d.life d.buffer flush inputEmpty,
                          location := d.location.pushStr output, buffer := d.buffer.drop position })
  | .err e => (.err e, d)
  | .panic p => (.panic p, d)
  | .diverge => (.diverge, d)

/-- `Decoder::push` — io/mod.rs:542-544. -/
def push (bytes : List Byte) : RM (Decoder c) Str := convert bytes false

/-- `Decoder::flush` — io/mod.rs:552-554. -/
def flush : RM (Decoder c) Str := convert [] true

end Decoder

/-- `CharDecodeReader::new` over a byte stream that delivers the given chunks — io/mod.rs:408-425:
the rounds of the source are the outputs of `decoder.push` on the chunks; the decoder is never flushed.
A read of zero bytes is the end of the stream (io/mod.rs:442); simplification: the end is permanent (`ByteReader` in
`Model/ByteReader.lean` does without; C97 shows that both agree until the first empty read). -/
def decodeRounds {c : Codec} : Decoder c → List (Except Nat (List Byte)) → List (Except Nat Str)
  | _, [] => []
  | d, .error e :: cs => .error e :: decodeRounds d cs
  | _, .ok [] :: _ => []
  | d, .ok bytes :: cs =>
    match Decoder.push bytes d with
    | (.ok out, d') => .ok out :: decodeRounds d' cs
    | (_, d') => .error 0 :: decodeRounds d' cs

/-- `CharDecodeReader::new` — io/mod.rs:408-421. -/
def charDecodeReader (c : Codec) (name : Str) (chunks : List (Except Nat (List Byte)))
    (sched : List (Option Nat)) : Source :=
  ⟨[], decodeRounds (Decoder.new c name false sched) chunks, Location.new name⟩

/-- The `loop` of `lex::parse` — lex/mod.rs:58-71, over the chunks the stream delivers. -/
def parseLoop {c : Codec} : Decoder c → Lexer → List (Except Nat (List Byte)) →
    Res (List SyntaxRule × Decoder c × Lexer)
  | d, l, [] => .ok ([], d, l)
  | d, l, .ok [] :: _ => .ok ([], d, l)
  | _, l, .error e :: _ => .fail l.tokenizer.location (.ioError e)
  | d, l, .ok bytes :: cs =>
    match Decoder.push bytes d with
    | (.ok input, d') =>
      match Lexer.pushStr input l with
      | (.ok rules, l') => do
        let (more, d', l') ← parseLoop d' l' cs
        pure (rules ++ more, d', l')
      | (.err e, _) => .err e
      | (.panic p, _) => .panic p
      | (.diverge, _) => .diverge
    | (.err e, _) => .err e
    | (.panic p, _) => .panic p
    | (.diverge, _) => .diverge

/-- `lex::parse` — lex/mod.rs:53-81.  `chunks` is what successive `r.read(&mut buffer)` calls deliver
until end of file. -/
def parse (c : Codec) (name : Str) (chunks : List (Except Nat (List Byte))) (maxBufferSize : Nat)
    (sched : List (Option Nat)) : Res (List SyntaxRule) := do
  let (rules, d, l) ← parseLoop (Decoder.new c name false sched) (Lexer.withCapacity name maxBufferSize) chunks
  match Decoder.flush d with
  | (.ok input, _) =>
    match Lexer.pushStr input l with
    | (.ok rules', l') =>
      match Lexer.flush l' with
      | (.ok rule, _) => .ok (rules ++ rules' ++ rule.toList)
      | (.err e, _) => .err e
      | (.panic p, _) => .panic p
      | (.diverge, _) => .diverge
    | (.err e, _) => .err e
    | (.panic p, _) => .panic p
    | (.diverge, _) => .diverge
  | (.err e, _) => .err e
  | (.panic p, _) => .panic p
  | (.diverge, _) => .diverge

/-- `Syntax::read_from` — src/lib.rs:244-246, for a known encoding label. -/
def Syntax.readFrom (c : Codec) (name : Str) (chunks : List (Except Nat (List Byte)))
    (maxBufferSize : Nat) (sched : List (Option Nat)) : Res Syntax := do
  let rules ← parse c name chunks maxBufferSize sched
  Syntax.new rules

end Ebnf
