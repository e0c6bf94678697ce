import Verif.Spec.Decoding

set_option autoImplicit false

/-! # What a byte stream that sometimes fails has to say (C30)

A stream delivers byte chunks with I/O errors in between.  What it has to say is one sequence of characters and errors. -/

namespace Ebnf.Spec

/-- Characters and errors, in the order in which the stream yields them: the characters are those of the decoded bytes,
each error stands where it occurred and is placed at the end of the characters before it. -/
def toSay (c : Codec) : c.State → Location → List (Except Nat (List Byte)) → List (Char ⊕ Error)
  | _, _, [] => []
  | st, here, .error code :: cs => .inr ⟨here, .streamError code⟩ :: toSay c st here cs
  | st, here, .ok bytes :: cs =>
    (decodeOpen c st bytes).map .inl ++ toSay c (c.run st bytes).1 (here.pushStr (decodeOpen c st bytes)) cs

/-- Call `read_chars` with buffers of the given sizes until it returns 0 characters, going on after errors.  The result is
everything that was returned, in order, and whether the 0 was seen; `none` after a crash. -/
def listen : List Nat → Source → Option (List (Char ⊕ Error) × Bool)
  | [], _ => some ([], false)
  | n :: ns, s =>
    match Source.readChars n s with
    | (.ok [], _) => some ([], true)
    | (.ok cs, s') => (listen ns s').map fun (heard, done) => (cs.map .inl ++ heard, done)
    | (.err e, s') => (listen ns s').map fun (heard, done) => (.inr e :: heard, done)
    | (.panic _, _) => none
    | (.diverge, _) => none

/-- The bytes of the chunks, and the codes of the I/O errors. -/
def bytesOf (chunks : List (Except Nat (List Byte))) : List Byte :=
  (chunks.filterMap fun | .ok bytes => some bytes | .error _ => none).flatten

/-- The codes of the I/O errors between the chunks. -/
def codesOf (chunks : List (Except Nat (List Byte))) : List Nat :=
  chunks.filterMap fun | .ok _ => none | .error code => some code

end Ebnf.Spec
