import Verif.Model.Decoder

set_option autoImplicit false

/-! # The decoders `Encoding::for_label(..).new_decoder()` gives — src/io/mod.rs:509-510

`encoding_rs` follows the WHATWG encoding standard (https://encoding.spec.whatwg.org).  The definitions here are the
state machines of that standard; they are part of the trusted base.  `new_decoder` is the variant with byte order mark
sniffing: a mark at the start of the stream decides the encoding, whatever the label says, and is dropped. -/

namespace Ebnf

/-- The state of the UTF-8 decoder of the standard: the bits read so far, how many bytes are still needed, and the
range the next byte has to be in. -/
structure Utf8State where
  code : Nat
  needed : Nat
  lower : Nat
  upper : Nat
deriving DecidableEq

/-- Between two characters. -/
def Utf8State.ground : Utf8State := ⟨0, 0, 0x80, 0xBF⟩

/-- The UTF-8 decoder of the standard at the first byte of a character. -/
def utf8First (b : Byte) : Utf8State × Str × Bool :=
  let n := b.toNat
  if n ≤ 0x7F then (.ground, [Char.ofNat n], false)
  else if 0xC2 ≤ n ∧ n ≤ 0xDF then (⟨n - 0xC0, 1, 0x80, 0xBF⟩, [], false)
  else if 0xE0 ≤ n ∧ n ≤ 0xEF then
    (⟨n - 0xE0, 2, if n = 0xE0 then 0xA0 else 0x80, if n = 0xED then 0x9F else 0xBF⟩, [], false)
  else if 0xF0 ≤ n ∧ n ≤ 0xF4 then
    (⟨n - 0xF0, 3, if n = 0xF0 then 0x90 else 0x80, if n = 0xF4 then 0x8F else 0xBF⟩, [], false)
  else (.ground, ['�'], true)

/-- The UTF-8 decoder of the standard: one byte.  A byte out of range ends the malformed sequence before it, and is
looked at again as the first byte of a character. -/
def utf8Feed (st : Utf8State) (b : Byte) : Utf8State × Str × Bool :=
  if st.needed = 0 then utf8First b
  else if b.toNat < st.lower ∨ st.upper < b.toNat then
    let (st', out, _) := utf8First b
    (st', '�' :: out, true)
  else
    let code := st.code * 64 + (b.toNat - 0x80)
    if st.needed = 1 then (.ground, [Char.ofNat code], false)
    else (⟨code, st.needed - 1, 0x80, 0xBF⟩, [], false)

/-- UTF-8. -/
abbrev utf8Codec : Codec where
  State := Utf8State
  init := .ground
  feed := utf8Feed
  finish st := if st.needed = 0 then ([], false) else (['�'], true)

/-- The state of the UTF-16 decoder of the standard: a byte and a leading surrogate that wait for more. -/
structure Utf16State where
  byte : Option Byte
  lead : Option Nat
deriving DecidableEq

/-- The UTF-16 decoder of the standard: a code unit that does not follow a leading surrogate. -/
def utf16Unit (u : Nat) : Utf16State × Str × Bool :=
  if 0xD800 ≤ u ∧ u ≤ 0xDBFF then (⟨none, some u⟩, [], false)
  else if 0xDC00 ≤ u ∧ u ≤ 0xDFFF then (⟨none, none⟩, ['�'], true)
  else (⟨none, none⟩, [Char.ofNat u], false)

/-- The UTF-16 decoder of the standard: one byte. -/
def utf16Feed (big : Bool) (st : Utf16State) (b : Byte) : Utf16State × Str × Bool :=
  match st.byte with
  | none => ({ st with byte := some b }, [], false)
  | some a =>
    let u := if big then a.toNat * 256 + b.toNat else b.toNat * 256 + a.toNat
    match st.lead with
    | none => utf16Unit u
    | some h =>
      if 0xDC00 ≤ u ∧ u ≤ 0xDFFF then
        (⟨none, none⟩, [Char.ofNat (0x10000 + (h - 0xD800) * 0x400 + (u - 0xDC00))], false)
      else
        let (st', out, _) := utf16Unit u
        (st', '�' :: out, true)

/-- UTF-16, big or little endian. -/
abbrev utf16Codec (big : Bool) : Codec where
  State := Utf16State
  init := ⟨none, none⟩
  feed := utf16Feed big
  finish st := if st.byte.isSome || st.lead.isSome then (['�'], true) else ([], false)

/-- The state of a decoder that looks for a byte order mark: the first bytes of a mark, or the decoder in use. -/
inductive SniffState (c : Codec)
  | start (held : List Byte)
  | label (st : c.State)
  | utf8 (st : Utf8State)
  | utf16 (big : Bool) (st : Utf16State)

/-- `Encoding::new_decoder` of `encoding_rs` for a label whose decoder is `c`: as long as the bytes are the start of a byte
order mark they are held back. -/
abbrev Codec.sniffing (c : Codec) : Codec where
  State := SniffState c
  init := .start []
  feed
    | .start held, b =>
      let bytes := held ++ [b]
      if bytes = [0xEF, 0xBB, 0xBF] then (.utf8 .ground, [], false)
      else if bytes = [0xFE, 0xFF] then (.utf16 true ⟨none, none⟩, [], false)
      else if bytes = [0xFF, 0xFE] then (.utf16 false ⟨none, none⟩, [], false)
      else if bytes = [0xEF] ∨ bytes = [0xEF, 0xBB] ∨ bytes = [0xFE] ∨ bytes = [0xFF] then (.start bytes, [], false)
      else
        let (st, out, g) := c.run c.init bytes
        (.label st, out, g)
    | .label st, b => let (st, out, g) := c.feed st b; (.label st, out, g)
    | .utf8 st, b => let (st, out, g) := utf8Feed st b; (.utf8 st, out, g)
    | .utf16 big st, b => let (st, out, g) := utf16Feed big st b; (.utf16 big st, out, g)
  finish
    | .start held =>
      let (st, out, g) := c.run c.init held
      let (out', g') := c.finish st
      (out ++ out', g || g')
    | .label st => c.finish st
    | .utf8 st => utf8Codec.finish st
    | .utf16 big st => (utf16Codec big).finish st

/-- What the label `"utf-8"` gives — src/lib.rs:249. -/
abbrev utf8Decoder : Codec := utf8Codec.sniffing

/-- The chunks `std::io::Cursor` delivers to a reader with a buffer of `size` bytes (`lex::parse` uses 4096 —
lex/mod.rs:57), at most `n` of them. -/
def cursorReads (size : Nat) : Nat → List Byte → List (List Byte)
  | 0, _ => []
  | n + 1, bytes => if bytes.isEmpty then [] else bytes.take size :: cursorReads size n (bytes.drop size)

/-- `str::as_bytes`: the UTF-8 encoding. -/
def asBytes (s : Str) : List Byte := s.flatMap String.utf8EncodeChar

/-- `Syntax::read_from_utf8` — src/lib.rs:248-250. -/
def Syntax.readFromUtf8 (name : Str) (chunks : List (Except Nat (List Byte))) (maxBufferSize : Nat)
    (sched : List (Option Nat)) : Res Syntax :=
  Syntax.readFrom utf8Decoder name chunks maxBufferSize sched

/-- `Syntax::read_from_str` — src/lib.rs:252-255. -/
def Syntax.readFromStr (name text : Str) (maxBufferSize : Nat) (sched : List (Option Nat)) : Res Syntax :=
  Syntax.readFromUtf8 name ((cursorReads 4096 (asBytes text).length (asBytes text)).map .ok) maxBufferSize sched

end Ebnf
