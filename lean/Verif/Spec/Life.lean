import Verif.Spec.Decoding

set_option autoImplicit false

/-! # Specification: calls of one decoder -/

namespace Ebnf.Spec

/-- A call of `Decoder::push` or `Decoder::flush`. -/
inductive DecoderCall
  | push (bytes : List Byte)
  | flush

variable {c : Codec}

/-- Make one call. -/
def DecoderCall.make : DecoderCall → RM (Decoder c) Str
  | .push bytes => Decoder.push bytes
  | .flush => Decoder.flush

/-- Make the calls one after another, whatever they return. -/
def decoderCalls : List DecoderCall → Decoder c → List (Res Str) × Decoder c
  | [], d => ([], d)
  | k :: ks, d => ((k.make d).1 :: (decoderCalls ks (k.make d).2).1, (decoderCalls ks (k.make d).2).2)

/-- The bytes that calls give to a decoder. -/
def givenBytes : List DecoderCall → List Byte
  | [] => []
  | .push bytes :: ks => bytes ++ givenBytes ks
  | .flush :: ks => givenBytes ks

/-- What the calls of a decoder that replaces malformed sequences should return: every push the characters that become known with it,
the flush what the end of the stream adds; and after the flush of a decoder that was given any byte nothing works any more.
`st` is what the encoding remembers, `given` whether there was a byte. -/
def lifeOf (c : Codec) : (given : Bool) → c.State → List DecoderCall → List (Res Str)
  | _, _, [] => []
  | given, st, .push bytes :: ks => .ok (decodeOpen c st bytes) :: lifeOf c (given || !bytes.isEmpty) (c.run st bytes).1 ks
  | false, st, .flush :: ks => .ok (c.finish st).1 :: lifeOf c false st ks
  | true, st, .flush :: ks => .ok (c.finish st).1 :: ks.map (fun _ => .panic .decoderFinished)

end Ebnf.Spec
