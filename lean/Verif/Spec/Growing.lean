import Verif.Spec.Decoding
import Verif.Model.ByteReader

set_option autoImplicit false

/-! # Reading from a stream that may have nothing for a while, or fail (specification for C96, C97) -/

namespace Ebnf.Spec

/-- What the caller of a reader hears: a character, an error, or that there is nothing to read. -/
inductive Heard
  | char (ch : Char)
  | failure (e : Error)
  | nothing

/-- What a byte stream has to tell, in its order: the characters of its bytes, its errors, each placed at the end of
the characters before it, and the reads that yield no bytes. -/
def told (c : Codec) : c.State → Location → List (Except Nat (List Byte)) → List Heard
  | _, _, [] => []
  | st, here, .error code :: cs => .failure ⟨here, .streamError code⟩ :: told c st here cs
  | st, here, .ok [] :: cs => .nothing :: told c st here cs
  | st, here, .ok bytes :: cs =>
    (decodeOpen c st bytes).map .char ++ told c (c.run st bytes).1 (here.pushStr (decodeOpen c st bytes)) cs

section Any

/-! `readChars` is the `read_chars` of any implementation of `CharReader`; its states are the `σ`. -/

variable {σ : Type}

/-- Call `read_chars` with buffers of the given sizes, going on after errors and after having got nothing. -/
def hear (readChars : Nat → RM σ Str) : List Nat → σ → Option (List Heard)
  | [], _ => some []
  | n :: ns, s =>
    match readChars n s with
    | (.ok [], s') => (hear readChars ns s').map (.nothing :: ·)
    | (.ok (x :: xs), s') => (hear readChars ns s').map ((x :: xs).map .char ++ ·)
    | (.err e, s') => (hear readChars ns s').map (.failure e :: ·)
    | (.panic _, _) => none
    | (.diverge, _) => none

/-- What calls of `read_chars` with buffers of the given sizes return, one by one. -/
def returned (readChars : Nat → RM σ Str) : List Nat → σ → List (Res Str)
  | [], _ => []
  | n :: ns, s => (readChars n s).1 :: returned readChars ns (readChars n s).2

/-- Call `read` a number of times. -/
def hearEach (read : RM σ (Option Char)) : Nat → σ → Option (List Heard)
  | 0, _ => some []
  | k + 1, s =>
    match read s with
    | (.ok none, s') => (hearEach read k s').map (.nothing :: ·)
    | (.ok (some ch), s') => (hearEach read k s').map (.char ch :: ·)
    | (.err e, s') => (hearEach read k s').map (.failure e :: ·)
    | (.panic _, _) => none
    | (.diverge, _) => none

/-- Call `read_all` a number of times. -/
def hearAll (readAll : RM σ Str) : Nat → σ → Option (List (Except Error Str))
  | 0, _ => some []
  | k + 1, s =>
    match readAll s with
    | (.ok text, s') => (hearAll readAll k s').map (.ok text :: ·)
    | (.err e, s') => (hearAll readAll k s').map (.error e :: ·)
    | (.panic _, _) => none
    | (.diverge, _) => none

/-- An implementation of `CharReader`, where `Tells s l` says that in the state `s` it has the things `l` to tell: with room for a
character or more, `read_chars` returns some of the characters that come next — how many is its own affair —, or the error
that comes next, or no characters if it has nothing, now or at all. -/
def TellsBy (readChars : Nat → RM σ Str) (Tells : σ → List Heard → Prop) : Prop :=
  ∀ n s l, 0 < n → Tells s l →
    (∃ s' l', readChars n s = (.ok [], s') ∧ Tells s' l' ∧ (l = .nothing :: l' ∨ (l = [] ∧ l' = []))) ∨
    (∃ x xs s' l', readChars n s = (.ok (x :: xs), s') ∧ Tells s' l' ∧ (x :: xs).length ≤ n ∧ l = (x :: xs).map .char ++ l') ∨
    (∃ e s' l', readChars n s = (.err e, s') ∧ Tells s' l' ∧ l = .failure e :: l')

end Any

/-- What calls of `read_all` return: the text up to the point where there is nothing to read, or the first error; the
characters in front of the error are in neither of the answers. -/
def answersOf : Str → List Heard → List (Except Error Str)
  | text, [] => [.ok text]
  | text, .char ch :: hs => answersOf (text ++ [ch]) hs
  | text, .nothing :: hs => .ok text :: answersOf [] hs
  | _, .failure e :: hs => .error e :: answersOf [] hs

end Ebnf.Spec
