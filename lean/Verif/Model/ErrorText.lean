import Verif.Model.Escape
import Verif.Model.Tree

set_option autoImplicit false

/-! # The texts of error messages, as `format!` writes them

The rest of the model keeps the data of a message (`Msg`); here is the text that `Error::new` is given at each of those places, and
that `==` on errors (derived, src/lib.rs:148) compares. -/

namespace Ebnf

/-- `Token::name` — src/lex/mod.rs:624-626, 632-651 (second component). -/
def TokenName.text : TokenName → Str
  | repetition => "repetition-symbol".toList
  | except => "except-symbol".toList
  | concatenate => "concatenate-symbol".toList
  | definitionSeparator => "definition-separator-symbol".toList
  | defining => "defining-symbol".toList
  | terminator => "terminator-symbol".toList
  | startOption => "start-option-symbol".toList
  | endOption => "end-option-symbol".toList
  | startRepeat => "start-repeat-symbol".toList
  | endRepeat => "end-repeat-symbol".toList
  | startGroup => "start-group-symbol".toList
  | endGroup => "end-group-symbol".toList
  | metaIdentifier => "meta-identifier".toList
  | terminalString => "terminal-string".toList
  | integer => "integer".toList
  | comment => "comment".toList
  | specialSequence => "special-sequence".toList
  | gapSeparator => "gap-separator-sequence".toList
  | eof => "EOF".toList

/-- Texts that come from outside the library. -/
structure Texts where
  /-- the characters the standard library writes as `\u{…}` in `{:?}` -/
  hidden : Char → Bool
  /-- an error of the underlying `Read` -/
  io : Nat → Str
  /-- an error of `File::open` -/
  open_ : Nat → Str
  /-- an error of `Regex::new` -/
  regex : Nat → Str
  /-- an error of the application -/
  custom : Nat → Str
  /-- the name of the encoding as given to `Decoder::new` -/
  encoding : Str
  /-- `{:?}` of the stack of marks when a mark is not found — src/io/mod.rs:300 -/
  marks : Nat → Str

/-- `{:04X}` of a character — used at tokenizer/mod.rs:371, 487. -/
def hex4 (c : Char) : Str :=
  let digits := (Nat.toDigits 16 c.toNat).map Char.toUpper
  List.replicate (4 - digits.length) '0' ++ digits

/-- `stream_prefix_to_string` — src/parser/machine.rs:159-171: the text put after "but". -/
def Actual.format (hidden : Char → Bool) : Actual → Str
  | .eof => "EOF".toList
  | .text s false => debugText hidden s
  | .text s true => debugText hidden (s ++ "...".toList)

/-- The text of a message; the places are those listed at `Msg` (src/lex/tokenizer/mod.rs, src/lex/mod.rs, src/validity/mod.rs,
src/io/mod.rs, src/parser/machine.rs, src/parser/mod.rs). -/
def Msg.text (T : Texts) : Msg → Str
  | .tooLong buffered added max =>
    "Token such as identifier, comment, or special sequence are too long: ".toList ++ (Nat.toDigits 10 buffered ++ (" + ".toList ++
      (Nat.toDigits 10 added ++ (" > ".toList ++ (Nat.toDigits 10 max ++ ".".toList)))))
  | .ambiguousComment s => "An ambiguous start/end-command-symbol: ".toList ++ s
  | .colonNotAllowed => "No colon ':' is allowed here.".toList
  | .commentNotOpened => "end-comment-symbol '*)' is not opened.".toList
  | .undefinedChar c =>
    "An undefined character was detected: ".toList ++ (debugChar T.hidden c ++ (" (U+".toList ++ (hex4 c ++ ")".toList)))
  | .terminalBadChar c => "terminal-string contains a character ".toList ++ (debugChar T.hidden c ++ " that cannot be used.".toList)
  | .terminalNotClosed quote => "terminal-string is not closed with ".toList ++ (debugChar T.hidden quote ++ ".".toList)
  | .terminalEmpty => "The terminal-string must contain one or more terminal-characters.".toList
  | .specialBadChar c => "special-sequence contains a character ".toList ++ (debugChar T.hidden c ++ " that cannot be used.".toList)
  | .specialNotClosed => "special-sequence is not closed with ".toList ++ (debugChar T.hidden '?' ++ ".".toList)
  | .commentNotClosed => "This start-comment-symbol '(*' is not closed.".toList
  | .commentBadChar c =>
    "This comment contains a character ".toList ++ (debugChar T.hidden c ++ (" (U+".toList ++ (hex4 c ++
      ") that cannot be used as a comment.".toList)))
  | .metaIdentifierExpected n => "meta-identifier expected, but ".toList ++ (n.text ++ " appeared.".toList)
  | .definingExpected n => "meta-identifier or defining-symbol '=' expected, but ".toList ++ (n.text ++ " appeared.".toList)
  | .separatorExpected n =>
    "concatenate-symbol ',', definition-separator-symbol '|', or terminator-symbol ';' expected, but ".toList ++
      (n.text ++ " appeared.".toList)
  -- the digits are decimal and not empty, so overflow is the only reason `parse::<u32>` can give
  | .badRepetition digits =>
    "cannot convert the number of repetitions ".toList ++ (debugText T.hidden digits ++
      " to 32-bit integer: number too large to fit in target type".toList)
  | .repetitionSymbolExpected n => "repetition-symbol '*' expected, but ".toList ++ (n.text ++ " appeared.".toList)
  | .ambiguousOption => "An ambiguous start/end-option-symbol: (/)".toList
  | .ambiguousRepeat => "An ambiguous start/end-repeat-symbol: (:)".toList
  | .bracketNotClosed n s => (n.text ++ " '".toList) ++ (s ++ "' is not closed.".toList)
  | .duplicate name lines columns =>
    "The meta-identifier ".toList ++ (name ++ (" is defined in (".toList ++ (Nat.toDigits 10 lines ++ (",".toList ++
      (Nat.toDigits 10 columns ++ ").".toList)))))
  | .notDefined name => "meta-identifier ".toList ++ (debugText T.hidden name ++ " is not defined.".toList)
  | .invalidMark mark => "The specified mark ".toList ++ (Nat.toDigits 10 mark ++ (" is invalid: ".toList ++ T.marks mark))
  | .ioError code => "Failed to load data: ".toList ++ T.io code
  | .streamError code => T.io code
  | .wrapped location code => displayError location (T.io code)
  | .garbled l c l' c' =>
    "Detected a byte sequence that cannot be changed to ".toList ++ (T.encoding ++ (": between (".toList ++ (Nat.toDigits 10 l ++
      (",".toList ++ (Nat.toDigits 10 c ++ (") and (".toList ++ (Nat.toDigits 10 l' ++ (",".toList ++ (Nat.toDigits 10 c' ++
      ").".toList)))))))))
  | .livelock => "Livelock: reading didn't proceed in repetation".toList
  | .expected symbol actual =>
    "Syntactic Error: ".toList ++ (symbol ++ (" expected, but ".toList ++ (actual.format T.hidden ++ " appeared.".toList)))
  | .forwardUndefined name symbol definition =>
    "The non-existent meta-identifier ".toList ++ (debugText T.hidden name ++ (" was directed by the special-sequence ".toList ++
      (symbol ++ (" defined in ".toList ++ definition.display))))
  | .regexTooLong max =>
    "Detect a match with more than ".toList ++ (Nat.toDigits 10 max ++
      (" characters. Regular Expression matches are limited to ".toList ++ (Nat.toDigits 10 max ++ " characters.".toList)))
  | .unknownEncoding label => "Unable to recognize the specified character encoding: ".toList ++ label
  | .notOpened code => T.open_ code
  | .malformedRegex code => "Malformed regular expression: ".toList ++ T.regex code
  | .custom code => T.custom code

/-- `Display for Error` — src/lib.rs:168-172. -/
def Error.display (T : Texts) (e : Error) : Str := displayError e.location (e.msg.text T)

/-- `PartialEq for Error`, derived — src/lib.rs:148: the location and the text are compared. -/
def Error.same (T : Texts) (e e' : Error) : Prop := e.location = e'.location ∧ e.msg.text T = e'.msg.text T

end Ebnf
