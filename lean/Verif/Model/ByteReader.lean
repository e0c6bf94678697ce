import Verif.Model.Decoder

/-! # The default methods of `CharReader`, and `CharDecodeReader` over a stream whose end need not be final — src/io/mod.rs:15-55, 388-463 -/

namespace Ebnf

/-! ## The provided methods of the trait, over the `read_chars` of any implementation -/

namespace CharReader

variable {σ : Type}

/-- `CharReader::read` — io/mod.rs:21-29. -/
def read (readChars : Nat → RM σ Str) : RM σ (Option Char) := do
  let cs ← readChars 1
  pure cs.head?

/-- The `loop` of `CharReader::read_all` — io/mod.rs:44-55; `fuel` bounds the number of rounds. -/
def readAllLoop (readChars : Nat → RM σ Str) : Nat → RM σ Str
  | 0 => RM.lift .diverge
  | fuel + 1 => do
    let cs ← readChars 1024
    if cs.isEmpty then pure []
    else do
      let more ← readAllLoop readChars fuel
      pure (cs ++ more)

end CharReader

/-- `CharReader::read_all` on a `BufferedCharReader` — io/mod.rs:44-55, 58-76. -/
def Source.readAll : RM Source Str := fun s => CharReader.readAllLoop Source.readChars (s.size + 1) s

/-! ## `CharDecodeReader` -/

/-- `struct CharDecodeReader` — io/mod.rs:388-394.  `chunks` is what the calls of `r.read` will return, one after the other: bytes, an
I/O error, or no bytes.  Unlike in `charDecodeReader`, a read of no bytes need not be the last one: the stream may have more
later, as a file does that is still written.  After the list, every read returns no bytes.  (`read_buffer` has no content between calls.) -/
structure ByteReader (c : Codec) where
  chunks : List (Except Nat (List Byte))
  decoder : Decoder c
  pending : Str
  location : Location

namespace ByteReader

variable {c : Codec}

/-- `CharDecodeReader::new` — io/mod.rs:408-421, for an encoding label that is known. -/
def new (c : Codec) (name : Str) (chunks : List (Except Nat (List Byte))) (sched : List (Option Nat)) : ByteReader c :=
  ⟨chunks, Decoder.new c name false sched, [], Location.new name⟩

/-- The `loop` of `CharDecodeReader::read_chars` — io/mod.rs:440-461; it runs with an empty `remaining_buffer`. -/
def readLoop (n : Nat) (location : Location) : List (Except Nat (List Byte)) → Decoder c → Res Str × ByteReader c
  | [], d => (.ok [], ⟨[], d, [], location⟩)
  | .ok [] :: cs, d => (.ok [], ⟨cs, d, [], location⟩)
  | .error code :: cs, d => (.fail location (.streamError code), ⟨cs, d, [], location⟩)
  | .ok bytes :: cs, d =>
    match Decoder.push bytes d with
    | (.ok output, d') =>
      if output.isEmpty then readLoop n location cs d'
      else (.ok (output.take n), ⟨cs, d', output.drop n, location.pushStr (output.take n)⟩)
    | (.err e, d') => (.err e, ⟨cs, d', [], location⟩)
    | (.panic p, d') => (.panic p, ⟨cs, d', [], location⟩)
    | (.diverge, d') => (.diverge, ⟨cs, d', [], location⟩)

/-- `CharDecodeReader::read_chars` with a buffer of `n` characters — io/mod.rs:429-462. -/
def readChars (n : Nat) : RM (ByteReader c) Str := fun r =>
  if !r.pending.isEmpty then
    (.ok (r.pending.take n), { r with pending := r.pending.drop n, location := r.location.pushStr (r.pending.take n) })
  else readLoop n r.location r.chunks r.decoder

/-- Number of characters that can be read before the stream next has nothing (model only). -/
def size (r : ByteReader c) : Nat :=
  r.pending.length + ((decodeRounds r.decoder r.chunks).map fun | .ok s => s.length | .error _ => 0).sum

/-- `CharReader::read_all` on a `CharDecodeReader` — io/mod.rs:44-55. -/
def readAll : RM (ByteReader c) Str := fun r => CharReader.readAllLoop readChars (r.size + 1) r

end ByteReader

end Ebnf
