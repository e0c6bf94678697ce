import Verif.Model.ErrorText

set_option autoImplicit false

/-! # Specification: the wording of error messages

The format strings below are those of the sources, letter for letter. -/

namespace Ebnf.Spec

/-- The figures of a number, most significant first. -/
def numeral (base : Nat) (n : Nat) : Str :=
  if base < 2 then [] else if n < base then [Nat.digitChar n] else numeral base (n / base) ++ [Nat.digitChar (n % base)]
termination_by n
decreasing_by
  have : n ≠ 0 := by omega
  exact Nat.div_lt_self (by omega) (by omega)

/-- A character between quotation marks, in the way of a Rust literal. -/
def escaped (hidden : Char → Bool) (quote c : Char) : Str :=
  match [('\x00', '0'), ('\t', 't'), ('\r', 'r'), ('\n', 'n'), ('\\', '\\'), (quote, quote)].lookup c with
  | some letter => ['\\', letter]
  | none => if hidden c then "\\u{".toList ++ numeral 16 c.toNat ++ "}".toList else [c]

/-- What is put into a format string. -/
inductive Filling
  | text (s : Str)
  | number (n : Nat)
  | char (c : Char)

/-- What takes the place of `{}`. -/
def Filling.plain : Filling → Str
  | .text s => s
  | .number n => numeral 10 n
  | .char c => [c]

/-- What takes the place of `{:?}`. -/
def Filling.quoted (hidden : Char → Bool) : Filling → Str
  | .text s => ['"'] ++ s.flatMap (escaped hidden '"') ++ ['"']
  | .number n => numeral 10 n
  | .char c => ['\''] ++ escaped hidden '\'' c ++ ['\'']

/-- What takes the place of `{:04X}`. -/
def Filling.hexadecimal : Filling → Str
  | .text s => s
  | .number n => "0000".toList.drop (numeral 16 n).length ++ (numeral 16 n).map Char.toUpper
  | .char c => "0000".toList.drop (numeral 16 c.toNat).length ++ (numeral 16 c.toNat).map Char.toUpper

/-- `format!`. -/
def fill (hidden : Char → Bool) : Str → List Filling → Str
  | '{' :: '}' :: rest, a :: args => a.plain ++ fill hidden rest args
  | '{' :: ':' :: '?' :: '}' :: rest, a :: args => a.quoted hidden ++ fill hidden rest args
  | '{' :: ':' :: '0' :: '4' :: 'X' :: '}' :: rest, a :: args => a.hexadecimal ++ fill hidden rest args
  | c :: rest, args => c :: fill hidden rest args
  | [], _ => []

/-- The names of the kinds of tokens. -/
def kindName : TokenName → String
  | .repetition => "repetition-symbol"
  | .except => "except-symbol"
  | .concatenate => "concatenate-symbol"
  | .definitionSeparator => "definition-separator-symbol"
  | .defining => "defining-symbol"
  | .terminator => "terminator-symbol"
  | .startOption => "start-option-symbol"
  | .endOption => "end-option-symbol"
  | .startRepeat => "start-repeat-symbol"
  | .endRepeat => "end-repeat-symbol"
  | .startGroup => "start-group-symbol"
  | .endGroup => "end-group-symbol"
  | .metaIdentifier => "meta-identifier"
  | .terminalString => "terminal-string"
  | .integer => "integer"
  | .comment => "comment"
  | .specialSequence => "special-sequence"
  | .gapSeparator => "gap-separator-sequence"
  | .eof => "EOF"

/-- What is said to have appeared: the end of the text, or a quotation of what is ahead. -/
def appeared (hidden : Char → Bool) : Actual → Str
  | .eof => "EOF".toList
  | .text s more => (Filling.text (if more then s ++ "...".toList else s)).quoted hidden

/-- A place, as it is displayed. -/
def place (l : Location) : Str :=
  fill (fun _ => false) "{}({},{})".toList [.text l.name, .number l.lines, .number l.columns]

/-- The format string of each message and what is put into it. -/
def wording (T : Texts) : Msg → String × List Filling
  | .tooLong buffered added max =>
    ("Token such as identifier, comment, or special sequence are too long: {} + {} > {}.",
      [.number buffered, .number added, .number max])
  | .ambiguousComment s => ("An ambiguous start/end-command-symbol: {}", [.text s])
  | .colonNotAllowed => ("No colon ':' is allowed here.", [])
  | .commentNotOpened => ("end-comment-symbol '{}' is not opened.", [.text "*)".toList])
  | .undefinedChar c => ("An undefined character was detected: {:?} (U+{:04X})", [.char c, .char c])
  | .terminalBadChar c => ("terminal-string contains a character {:?} that cannot be used.", [.char c])
  | .terminalNotClosed quote => ("terminal-string is not closed with {:?}.", [.char quote])
  | .terminalEmpty => ("The terminal-string must contain one or more terminal-characters.", [])
  | .specialBadChar c => ("special-sequence contains a character {:?} that cannot be used.", [.char c])
  | .specialNotClosed => ("special-sequence is not closed with {:?}.", [.char '?'])
  | .commentNotClosed => ("This start-comment-symbol '{}' is not closed.", [.text "(*".toList])
  | .commentBadChar c => ("This comment contains a character {:?} (U+{:04X}) that cannot be used as a comment.", [.char c, .char c])
  | .metaIdentifierExpected n => ("meta-identifier expected, but {} appeared.", [.text (kindName n).toList])
  | .definingExpected n => ("meta-identifier or defining-symbol '=' expected, but {} appeared.", [.text (kindName n).toList])
  | .separatorExpected n =>
    ("concatenate-symbol ',', definition-separator-symbol '|', or terminator-symbol ';' expected, but {} appeared.",
      [.text (kindName n).toList])
  | .badRepetition digits =>
    ("cannot convert the number of repetitions {:?} to 32-bit integer: {}",
      [.text digits, .text "number too large to fit in target type".toList])
  | .repetitionSymbolExpected n => ("repetition-symbol '*' expected, but {} appeared.", [.text (kindName n).toList])
  | .ambiguousOption => ("An ambiguous start/end-option-symbol: (/)", [])
  | .ambiguousRepeat => ("An ambiguous start/end-repeat-symbol: (:)", [])
  | .bracketNotClosed n s => ("{} '{}' is not closed.", [.text (kindName n).toList, .text s])
  | .duplicate name lines columns => ("The meta-identifier {} is defined in ({},{}).", [.text name, .number lines, .number columns])
  | .notDefined name => ("meta-identifier {:?} is not defined.", [.text name])
  | .invalidMark mark => ("The specified mark {} is invalid: {}", [.number mark, .text (T.marks mark)])
  | .ioError code => ("Failed to load data: {}", [.text (T.io code)])
  | .streamError code => ("{}", [.text (T.io code)])
  | .wrapped location code => ("{} {}", [.text (place location), .text (T.io code)])
  | .garbled l c l' c' =>
    ("Detected a byte sequence that cannot be changed to {}: between ({},{}) and ({},{}).",
      [.text T.encoding, .number l, .number c, .number l', .number c'])
  | .livelock => ("Livelock: reading didn't proceed in repetation", [])
  | .expected symbol actual => ("Syntactic Error: {} expected, but {} appeared.", [.text symbol, .text (appeared T.hidden actual)])
  | .forwardUndefined name symbol definition =>
    ("The non-existent meta-identifier {:?} was directed by the special-sequence {} defined in {}",
      [.text name, .text symbol, .text (place definition)])
  | .regexTooLong max =>
    ("Detect a match with more than {} characters. Regular Expression matches are limited to {} characters.", [.number max, .number max])
  | .unknownEncoding label => ("Unable to recognize the specified character encoding: {}", [.text label])
  | .notOpened code => ("{}", [.text (T.open_ code)])
  | .malformedRegex code => ("Malformed regular expression: {}", [.text (T.regex code)])
  | .custom code => ("{}", [.text (T.custom code)])

end Ebnf.Spec
