import Verif.Model.Decoder

set_option autoImplicit false

/-! # Specification: decoding a byte sequence as a whole -/

namespace Ebnf.Spec

variable {c : Codec}

/-- The characters of the bytes, without an end of the stream. -/
def decodeOpen (c : Codec) : c.State → List Byte → Str
  | _, [] => []
  | st, b :: bs => (c.feed st b).2.1 ++ decodeOpen c (c.feed st b).1 bs

/-- The characters of the bytes when the stream ends after them. -/
def decode (c : Codec) : c.State → List Byte → Str
  | st, [] => (c.finish st).1
  | st, b :: bs => (c.feed st b).2.1 ++ decode c (c.feed st b).1 bs

/-- Something in the bytes (or their end) is malformed. -/
def garbled (c : Codec) : c.State → List Byte → Bool
  | st, [] => (c.finish st).2
  | st, b :: bs => (c.feed st b).2.2 || garbled c (c.feed st b).1 bs

/-- The characters before the first malformed sequence (or before the end). -/
def cleanPrefix (c : Codec) : c.State → List Byte → Str
  | _, [] => []
  | st, b :: bs => if (c.feed st b).2.2 then [] else (c.feed st b).2.1 ++ cleanPrefix c (c.feed st b).1 bs

/-- Where something is malformed, a U+FFFD is put. -/
structure ReplacesMalformed (c : Codec) : Prop where
  feed : ∀ st b, (c.feed st b).2.2 = true → '\uFFFD' ∈ (c.feed st b).2.1
  finish : ∀ st, (c.finish st).2 = true → '\uFFFD' ∈ (c.finish st).1

/-- The text up to the first U+FFFD, which is included. -/
def upToReplacement (text : Str) : Str := text.takeWhile (· ≠ '\uFFFD') ++ ['\uFFFD']

/-- Call `Decoder::push` for every fragment and then `flush`, concatenating what they return. -/
def pushFragments : List (List Byte) → RM (Decoder c) Str
  | [] => Decoder.flush
  | f :: fs => do
    let a ← Decoder.push f
    let b ← pushFragments fs
    pure (a ++ b)

/-- Call `read_chars` with buffers of the given sizes until it returns 0 characters.  The result is what was
delivered and whether the 0 was seen. -/
def readSizes : List Nat → RM Source (Str × Bool)
  | [] => pure ([], false)
  | n :: ns => do
    let cs ← Source.readChars n
    if cs.isEmpty then pure ([], true)
    else do
      let (rest, done) ← readSizes ns
      pure (cs ++ rest, done)

/-- A codec for examples: two bytes make a character (high byte first), an odd last byte is malformed. -/
def twoByte : Codec where
  State := Option Byte
  init := none
  feed
    | none, b => (some b, [], false)
    | some a, b => (none, [Char.ofNat (a.toNat * 256 + b.toNat)], false)
  finish
    | none => ([], false)
    | some _ => (['�'], true)

end Ebnf.Spec
