import Verif.Model.Utf8
import Verif.Model.Machine

set_option autoImplicit false

/-! # The convenience functions of the API

What they need from outside is a parameter: `labels` is `Encoding::for_label` of `encoding_rs`, which finds the decoder for an encoding
label; `Opened` is what `File::open` and the reads of the file give. -/

namespace Ebnf

/-- `Encoding::for_label(label)` followed by `new_decoder()`. -/
abbrev Labels := Str → Option Codec

/-- The choice of the decoder in `Decoder::new`, and what is done with it — io/mod.rs:505-516; the rest of the function is `Decoder.new`. -/
def withCodec {α : Type} (labels : Labels) (name label : Str) (k : Codec → Res α) : Res α :=
  match labels label with
  | some c => k c
  | none => .fail (Location.new name) (.unknownEncoding label)

/-- `lex::parse` with an encoding label — lex/mod.rs:53-81: `Decoder::new` comes first, `parse` is the rest. -/
def parseWithLabel (labels : Labels) (name : Str) (chunks : List (Except Nat (List Byte))) (label : Str) (maxBufferSize : Nat)
    (sched : List (Option Nat)) : Res (List SyntaxRule) :=
  withCodec labels name label fun c => parse c name chunks maxBufferSize sched

/-- `lex::parse_file` — lex/mod.rs:45-48.  `opened` is the result of `File::open`: an error, or what the reads give. -/
def parseFile (labels : Labels) (fileName : Str) (opened : Except Nat (List (Except Nat (List Byte)))) (label : Str) (maxBufferSize : Nat)
    (sched : List (Option Nat)) : Res (List SyntaxRule) :=
  match opened with
  | .error code => .fail (Location.new fileName) (.notOpened code)
  | .ok chunks => parseWithLabel labels fileName chunks label maxBufferSize sched

/-- `Syntax::read_from` with an encoding label — src/lib.rs:244-246. -/
def Syntax.readFromWithLabel (labels : Labels) (name : Str) (chunks : List (Except Nat (List Byte))) (label : Str) (maxBufferSize : Nat)
    (sched : List (Option Nat)) : Res Syntax := do
  let rules ← parseWithLabel labels name chunks label maxBufferSize sched
  Syntax.new rules

/-- `CharDecodeReader::new` — io/mod.rs:408-421. -/
def charDecodeReaderNew (labels : Labels) (name : Str) (chunks : List (Except Nat (List Byte))) (label : Str)
    (sched : List (Option Nat)) : Res Source :=
  withCodec labels name label fun c => pure (charDecodeReader c name chunks sched)

/-- `CharDecodeReader::for_bytes` — io/mod.rs:423-425; the reader has a buffer of 1024 bytes. -/
def charDecodeReaderForBytes (labels : Labels) (name : Str) (bytes : List Byte) (label : Str) (sched : List (Option Nat)) : Res Source :=
  charDecodeReaderNew labels name ((cursorReads 1024 bytes.length bytes).map .ok) label sched

/-- `MarkableReader::with_encoding` — io/mod.rs:327-329. -/
def Reader.withEncoding (labels : Labels) (name : Str) (chunks : List (Except Nat (List Byte))) (label : Str)
    (sched : List (Option Nat)) (dbg : Bool) : Res Reader := do
  let source ← charDecodeReaderNew labels name chunks label sched
  pure (Reader.new name source dbg)

/-- `MarkableReader::for_bytes` — io/mod.rs:331-333. -/
def Reader.forBytes (labels : Labels) (name : Str) (bytes : List Byte) (label : Str) (sched : List (Option Nat)) (dbg : Bool) :
    Res Reader :=
  Reader.withEncoding labels name ((cursorReads 1024 bytes.length bytes).map .ok) label sched dbg

/-- `impl From<&str> for Box<dyn CharReader>`, `From<Chars>` — io/mod.rs:78-91. -/
def Source.fromStr (s : Str) : Source := Source.buffered s

/-- `Parser::name`, `LexMachine::id` — parser/mod.rs:71-73, machine.rs:28-30. -/
def Machine.name (m : Machine) : Str := m.metaIdentifier

/-- `Syntax::rules` — src/lib.rs:204-206. -/
def Syntax.allRules (s : Syntax) : List SyntaxRule := s.syntaxRules

/-- `CharsScanner::with_min` — parser/mod.rs:160-162. -/
def charsWithMin (predicator : Char → Bool) (min : Nat) : SpecialScanner := charsScanner predicator (some min) none
/-- `CharsScanner::with_max` — parser/mod.rs:163-165. -/
def charsWithMax (predicator : Char → Bool) (max : Nat) : SpecialScanner := charsScanner predicator none (some max)
/-- `CharsScanner::with_range` — parser/mod.rs:166-168. -/
def charsWithRange (predicator : Char → Bool) (min max : Nat) : SpecialScanner := charsScanner predicator (some min) (some max)
/-- `CharsScanner::with_one_of` — parser/mod.rs:151-153. -/
def charsWithOneOf (predicator : Char → Bool) : SpecialScanner := charsWithRange predicator 1 1
/-- `CharsScanner::with_one_or_more` — parser/mod.rs:154-156. -/
def charsWithOneOrMore (predicator : Char → Bool) : SpecialScanner := charsWithMin predicator 1
/-- `CharsScanner::with_zero_or_more` — parser/mod.rs:157-159. -/
def charsWithZeroOrMore (predicator : Char → Bool) : SpecialScanner := charsScanner predicator none none

/-- `RegExScanner::from_str` — parser/mod.rs:214-219.  `compile` is `Regex::new`: an error, or `Regex::find`. -/
def regexFromStr (compile : Str → Except Nat (Str → Option (Nat × Nat))) (definition : Location) (re : Str) : Res SpecialScanner :=
  match compile re with
  | .ok find => .ok (regexScanner re find)
  | .error code => .fail definition (.malformedRegex code)

end Ebnf
