import Verif.Model.Api

set_option autoImplicit false

/-! # Room asked for in advance

Two functions ask for room for as many characters as their caller has named: `Tokenizer::with_capacity` and `peek`.  The functions of the rest of the
model leave this out; here they are with it.  That the operating system has no memory left (the process is aborted) is not modelled. -/

namespace Ebnf

/-- `isize::MAX` of a 64-bit target. -/
def isizeMax : Nat := 2 ^ 63 - 1

/-- `Vec::<char>::with_capacity(n)`: the bytes allocated; panics with "capacity overflow" if they are more than `isize::MAX`. -/
def vecOfChars (n : Nat) : Res Nat := if n * 4 > isizeMax then .panic .capacityOverflow else .ok (n * 4)

namespace Capacity

/-- The size of the initial buffer — tokenizer/mod.rs:28-32. -/
def initial (initBufferSize maxBufferSize : Nat) : Nat := if maxBufferSize = 0 then initBufferSize else max initBufferSize maxBufferSize

/-- `Tokenizer::with_capacity` — tokenizer/mod.rs:27-38; the number is that of the bytes of the buffer. -/
def tokenizer (name : Str) (initBufferSize maxBufferSize : Nat) : Res (Tokenizer × Nat) := do
  let bytes ← vecOfChars (initial initBufferSize maxBufferSize)
  pure (⟨maxBufferSize, [], Location.new name⟩, bytes)

/-- `Lexer::with_capacity` — lex/mod.rs:135-140. -/
def lexer (name : Str) (initBufferSize maxBufferSize : Nat) : Res (Lexer × Nat) := do
  let (t, bytes) ← tokenizer name initBufferSize maxBufferSize
  pure (⟨t, []⟩, bytes)

/-- `DEFAULT_INIT_BUFFER_SIZE` — tokenizer/mod.rs:6. -/
def defaultInit : Nat := 254

/-- `Lexer::new` — lex/mod.rs:116-121, tokenizer/mod.rs:23-25. -/
def lexerNew (name : Str) : Res (Lexer × Nat) := do
  let (t, bytes) ← tokenizer name defaultInit 0
  pure (⟨t, []⟩, bytes)

/-- `lex::parse_str` — lex/mod.rs:35-43. -/
def parseStr (name text : Str) : Res (List SyntaxRule) := do
  let (l, _) ← lexerNew name
  ((do
    let rules ← Lexer.pushStr text
    let rule ← Lexer.flush
    pure (rules ++ rule.toList) : RM Lexer (List SyntaxRule)) l).1

/-- `lex::parse` — lex/mod.rs:53-81. -/
def parse (labels : Labels) (name : Str) (chunks : List (Except Nat (List Byte))) (label : Str) (maxBufferSize : Nat)
    (sched : List (Option Nat)) : Res (List SyntaxRule) :=
  withCodec labels name label fun c => do
    let (l, _) ← lexer name defaultInit maxBufferSize
    let (rules, d, l) ← parseLoop (Decoder.new c name false sched) l chunks
    match Decoder.flush d with
    | (.ok input, _) =>
      match Lexer.pushStr input l with
      | (.ok rules', l') =>
        match Lexer.flush l' with
        | (.ok rule, _) => .ok (rules ++ rules' ++ rule.toList)
        | (.err e, _) => .err e
        | (.panic p, _) => .panic p
        | (.diverge, _) => .diverge
      | (.err e, _) => .err e
      | (.panic p, _) => .panic p
      | (.diverge, _) => .diverge
    | (.err e, _) => .err e
    | (.panic p, _) => .panic p
    | (.diverge, _) => .diverge

/-- `lex::parse_file` — lex/mod.rs:45-48. -/
def parseFile (labels : Labels) (fileName : Str) (opened : Except Nat (List (Except Nat (List Byte)))) (label : Str) (maxBufferSize : Nat)
    (sched : List (Option Nat)) : Res (List SyntaxRule) :=
  match opened with
  | .error code => .fail (Location.new fileName) (.notOpened code)
  | .ok chunks => parse labels fileName chunks label maxBufferSize sched

/-- `Syntax::read_from` — src/lib.rs:244-246. -/
def readFrom (labels : Labels) (name : Str) (chunks : List (Except Nat (List Byte))) (label : Str) (maxBufferSize : Nat)
    (sched : List (Option Nat)) : Res Syntax := do
  let rules ← parse labels name chunks label maxBufferSize sched
  Syntax.new rules

/-- `Syntax::read_from_utf8` — src/lib.rs:248-250; `"utf-8"` is a label of the UTF-8 decoder. -/
def readFromUtf8 (name : Str) (chunks : List (Except Nat (List Byte))) (maxBufferSize : Nat) (sched : List (Option Nat)) : Res Syntax :=
  readFrom (fun _ => some utf8Decoder) name chunks "utf-8".toList maxBufferSize sched

/-- `Syntax::read_from_str` — src/lib.rs:252-255. -/
def readFromStr (name text : Str) (maxBufferSize : Nat) (sched : List (Option Nat)) : Res Syntax :=
  readFromUtf8 name ((cursorReads 4096 (asBytes text).length (asBytes text)).map .ok) maxBufferSize sched

/-- `MarkableCharReader::peek` — io/mod.rs:141-152. -/
def peek (length : Nat) : RM Reader Str := do
  let m ← Reader.mark
  let _ ← RM.lift (vecOfChars length)
  let cs ← Reader.peekLoop length
  let _ ← Reader.resetToMark m
  pure cs

end Capacity

end Ebnf
