import Verif.Conform.Lexer

set_option autoImplicit false

/-! # The loops of the lexer tests, and the tokenizer tests, run on the model — src/lex/test.rs, src/lex/tokenizer/test.rs

As in `Conform/Lexer.lean`, these are tests. -/

namespace Ebnf.Conform

/-! ## The loops of the tests -/

/-- The letters and digits — src/lex/test.rs:254. -/
def nameChars : Str :=
  "abcdefghijklmnopqrstuvwxyz".toList ++ "ABCDEFGHIJKLMNOPQRSTUVWXYZ".toList ++ "0123456789".toList

-- line 255
example : rules (nameChars ++ " = 'x';".toList)
    [rule (.mk 1 (.metaIdentifier (at_ 1 1) nameChars)) [[plain (terminal_ 1 66 "x")]]] = true := by decide +kernel

-- line 259: every character below 255 that is neither of these nor a quote, `=` or a gap is refused inside a name
example : ((List.range 255).map Char.ofNat).all (fun c =>
    nameChars.contains c || "'\"= \t\r\n\x0b\x0c".toList.contains c ||
      incorrect (['a', c] ++ "z = 'x';".toList) 1 2 []) = true := by decide +kernel

-- line 264: a name does not begin with a digit
example : "0123456789".toList.all (fun d =>
    incorrect (d :: "abc = 'x';".toList) 1 1 ["meta-identifier expected, but integer appeared."]) = true := by
  decide +kernel

-- line 282: what is not a name
example : ["'a'", "100", "[abc]", "{abc}", "(abc)", "|", ",", "?xxx?"].all (fun t =>
    incorrect (t.toList ++ " = 'A'".toList) 1 1 ["meta-identifier expected, but ", " appeared."]) = true := by decide +kernel

/-- Pushing one character until there is an error: the number of pushes before it, and the error. -/
def pushUntil (c : Char) : Nat → Nat → Lexer → Option (Nat × Error)
  | 0, _, _ => none
  | fuel + 1, i, l =>
    match Lexer.push c l with
    | (.ok _, l) => pushUntil c fuel (i + 1) l
    | (.err e, _) => some (i, e)
    | _ => none

-- line 292: the limit on the length of a token
example : (match pushUntil 'a' 1100 0 (Lexer.withCapacity "foo".toList 1024) with
    | some (i, e) => decide (i = 1024) && inOrder [" too long: 1024 + 1 > 1024.".toList] (e.msg.text plainTexts)
    | none => false) = true := by decide +kernel

/-- The characters from a code up to another, without it. -/
def chars (lo hi : Nat) : Str := (List.range (hi - lo)).map fun i => Char.ofNat (lo + i)

/-- The characters of a comment — src/lex/test.rs:447-449. -/
def commentChars : Str := chars 0x20 0x7F ++ "\t\r\n\x0b\x0c".toList

-- line 450
example : rules ("abc = 'a' (*".toList ++ commentChars ++ "*);".toList)
    [rule (id_ 1 1 "abc") [[plain (terminal_ 1 7 "a")]]] = true := by decide +kernel

-- line 456
example : (chars 0 0x100).all (fun c => commentChars.contains c ||
    incorrect ("abc = 'a' (*".toList ++ c :: "*);".toList) 1 13
      ["This comment contains a character '", "' (U+", ") that cannot be used as a comment."]) = true := by decide +kernel

/-- The characters of a special sequence — src/lex/test.rs:474. -/
def specialChars : Str := (chars 0x20 0x7F).filter (· ≠ '?')

-- line 475
example : rules ("abc = ?".toList ++ specialChars ++ "?;".toList)
    [rule (id_ 1 1 "abc") [[plain (.mk 1 (.specialSequence (at_ 1 7) specialChars))]]] = true := by decide +kernel

-- line 481
example : (chars 0 0x100).all (fun c => specialChars.contains c || "?\t\r\n\x0b\x0c".toList.contains c ||
    incorrect ("abc = ?".toList ++ c :: "?;".toList) 1 7
      ["special-sequence contains a character '", "' that cannot be used."]) = true := by decide +kernel

/-- The terms of src/lex/test.rs:536-573. -/
def repeatedTerms : List (String × Factor) :=
  let abc : List (List Term) := [[plain (terminal_ 1 13 "a"), plain (terminal_ 1 17 "b")], [plain (terminal_ 1 21 "c")]]
  [("['a','b'|'c']", option_ 1 12 99 abc), ("{'a','b'|'c'}", repeat_ 1 12 99 abc), ("xyz", id_ 1 12 "xyz" 99),
    ("'xyz'", terminal_ 1 12 "xyz" 99), ("? control code ?", special_ 1 12 " control code " 99), ("", empty_ 1 13 99)]

-- line 575
example : repeatedTerms.all (fun (s, f) =>
    rules ("abc = 99 * ".toList ++ s.toList ++ " - 'x';".toList) [rule (id_ 1 1 "abc") [[minus f (terminal_ 1 (s.toList.length + 15) "x")]]]) = true := by
  decide +kernel

-- line 589: `Display` of a rule
example : (match Lexer.pushStr
      "abc \td = abc | 'D'  (* XX *) | 3 * abc | xyz-, { abc - 'a' }, [ xyz | abc ], ('d', 'e', 'f'), ?XYZ?;".toList (Lexer.new "foo".toList) with
    | (.ok [r], _) => decide (r.display = "abc d=abc|'D'|3*abc|xyz-,{abc-'a'},[xyz|abc],('d','e','f'),?XYZ?;".toList)
    | _ => false) = true := by decide +kernel

-- line 166
example : parseStr [] "a = 'A';".toList = parseStr [] "a = 'A'".toList := by decide +kernel

/-! # src/lex/tokenizer/test.rs -/

/-- Pushing the chunks and flushing. -/
def feedTokens : List Str → RM Tokenizer (List Token)
  | [] => Tokenizer.flush
  | s :: rest => do
    let tokens ← Tokenizer.pushStr s
    let more ← feedTokens rest
    pure (tokens ++ more)

/-- `tokenize_in_various_split` — src/lex/tokenizer/test.rs:247-273. -/
def tokensFrom (text : Str) (expected : List Token) : List Nat → Tokenizer → Bool
  | [], _ => true
  | n :: ns, t =>
    match feedTokens (splitBy n text.length text) t with
    | (.ok tokens, t) => decide (tokens = expected) && tokensFrom text expected ns t.reset
    | _ => false

def tokens (text : Str) (expected : List Token) : Bool :=
  tokensFrom text expected (sizes text.length) (Tokenizer.new path)

/-- `assert_incorrect_syntax_rules` — src/lex/tokenizer/test.rs:224-245: the first size of chunks already gives the error. -/
def untokenizable (text : Str) (lines columns : Nat) (parts : List String) : Bool :=
  match feedTokens (splitBy 1 text.length text) (Tokenizer.new path) with
  | (.err e, _) => asExpected lines columns parts e
  | _ => false

/-! ## `simple_single_syntax_rule` -/

-- line 10
example : tokens "ABC = 'xyz' * 123, [option] | {repeat} (*comment*), (group)-;".toList
    [.metaIdentifier (at_ 1 1) "ABC".toList,
     .gapSeparatorSequence (at_ 1 4) " ".toList,
     .definingSymbol (at_ 1 5),
     .gapSeparatorSequence (at_ 1 6) " ".toList,
     .terminalString (at_ 1 7) "xyz".toList '\'',
     .gapSeparatorSequence (at_ 1 12) " ".toList,
     .repetitionSymbol (at_ 1 13),
     .gapSeparatorSequence (at_ 1 14) " ".toList,
     .integer (at_ 1 15) "123".toList,
     .concatenateSymbol (at_ 1 18),
     .gapSeparatorSequence (at_ 1 19) " ".toList,
     .startOptionSymbol (at_ 1 20) "[".toList,
     .metaIdentifier (at_ 1 21) "option".toList,
     .endOptionSymbol (at_ 1 27) "]".toList,
     .gapSeparatorSequence (at_ 1 28) " ".toList,
     .definitionSeparatorSymbol (at_ 1 29) '|',
     .gapSeparatorSequence (at_ 1 30) " ".toList,
     .startRepeatSymbol (at_ 1 31) "{".toList,
     .metaIdentifier (at_ 1 32) "repeat".toList,
     .endRepeatSymbol (at_ 1 38) "}".toList,
     .gapSeparatorSequence (at_ 1 39) " ".toList,
     .comment (at_ 1 40) "comment".toList,
     .concatenateSymbol (at_ 1 51),
     .gapSeparatorSequence (at_ 1 52) " ".toList,
     .startGroupSymbol (at_ 1 53),
     .metaIdentifier (at_ 1 54) "group".toList,
     .endGroupSymbol (at_ 1 59),
     .exceptSymbol (at_ 1 60),
     .terminatorSymbol (at_ 1 61) ';',
     .eof (at_ 1 62)] = true := by decide +kernel

-- line 47
example : tokens "ABC='a'/'b'!'c',(/option/),(:repeat:).".toList
    [.metaIdentifier (at_ 1 1) "ABC".toList,
     .definingSymbol (at_ 1 4),
     .terminalString (at_ 1 5) "a".toList '\'',
     .definitionSeparatorSymbol (at_ 1 8) '/',
     .terminalString (at_ 1 9) "b".toList '\'',
     .definitionSeparatorSymbol (at_ 1 12) '!',
     .terminalString (at_ 1 13) "c".toList '\'',
     .concatenateSymbol (at_ 1 16),
     .startOptionSymbol (at_ 1 17) "(/".toList,
     .metaIdentifier (at_ 1 19) "option".toList,
     .endOptionSymbol (at_ 1 25) "/)".toList,
     .concatenateSymbol (at_ 1 27),
     .startRepeatSymbol (at_ 1 28) "(:".toList,
     .metaIdentifier (at_ 1 30) "repeat".toList,
     .endRepeatSymbol (at_ 1 36) ":)".toList,
     .terminatorSymbol (at_ 1 38) '.',
     .eof (at_ 1 39)] = true := by decide +kernel

/-! ## `terminal_string` -/

-- line 74
example : tokens "A=\"a\";B='b';".toList
    [.metaIdentifier (at_ 1 1) "A".toList,
     .definingSymbol (at_ 1 2),
     .terminalString (at_ 1 3) "a".toList '"',
     .terminatorSymbol (at_ 1 6) ';',
     .metaIdentifier (at_ 1 7) "B".toList,
     .definingSymbol (at_ 1 8),
     .terminalString (at_ 1 9) "b".toList '\'',
     .terminatorSymbol (at_ 1 12) ';',
     .eof (at_ 1 13)] = true := by decide +kernel

/-! ## `special_sequence` -/

-- line 137
example : tokens "SPECIAL=? Here is special sequence. ?".toList
    [.metaIdentifier (at_ 1 1) "SPECIAL".toList,
     .definingSymbol (at_ 1 8),
     .specialSequence (at_ 1 9) " Here is special sequence. ".toList,
     .eof (at_ 1 38)] = true := by decide +kernel

-- line 148
example : tokens "??".toList
    [.specialSequence (at_ 1 1) "".toList,
     .eof (at_ 1 3)] = true := by decide +kernel

-- line 178
example : untokenizable "? not completed".toList 1 1 ["special-sequence is not closed with '?'."] = true := by decide +kernel

/-! ## `comment` -/

-- line 184
example : tokens "COMMENT=(* This is comment. *)".toList
    [.metaIdentifier (at_ 1 1) "COMMENT".toList,
     .definingSymbol (at_ 1 8),
     .comment (at_ 1 9) " This is comment. ".toList,
     .eof (at_ 1 31)] = true := by decide +kernel

-- line 195
example : tokens "(* This (* is (* comment *). *) *)".toList
    [.comment (at_ 1 1) " This (* is (* comment *). *) ".toList,
     .eof (at_ 1 35)] = true := by decide +kernel

-- line 204
example : untokenizable "(* This (* isn't *) closed comment.".toList 1 1 ["start-comment-symbol '(*' is not closed."] = true := by decide +kernel

-- line 212
example : untokenizable "(* This (* isn't *) opened comment. *) *)".toList 1 40 ["end-comment-symbol '*)' is not opened."] = true := by decide +kernel

-- line 220
example : untokenizable "(*)".toList 1 1 ["An ambiguous start/end-command-symbol: (*)"] = true := by decide +kernel

/-! ## The loops of the tests -/

-- line 92: all characters of a terminal string
example : "\"'".toList.all (fun q =>
    let text := (chars 0x20 0x7F).filter (· ≠ q)
    tokens (q :: text ++ [q]) [.terminalString (at_ 1 1) text q, .eof (at_ 1 97)]) = true := by decide +kernel

-- lines 101 and 111: the characters that cannot be in one
example : "\"'".toList.all (fun q => (chars 0 0x20 ++ chars 0x7F 0x100 ++ "にほんご中文한국".toList).all fun c =>
    untokenizable [q, c, q] 1 1 ["terminal-string contains a character '", "' that cannot be used."]) = true := by
  decide +kernel

-- line 121
example : untokenizable "\"ABC".toList 1 1 ["terminal-string is not closed with '\"'."] = true := by decide +kernel
example : untokenizable "'ABC".toList 1 1 ["terminal-string is not closed with '\\''."] = true := by decide +kernel

-- line 160
example : tokens ('?' :: specialChars ++ ['?'])
    [.specialSequence (at_ 1 1) specialChars, .eof (at_ 1 (specialChars.length + 3))] = true := by decide +kernel

-- line 172
example : (chars 0 0x20 ++ chars 0x7F 0x80).all (fun c => "\t\n\r\x0b\x0c".toList.contains c ||
    untokenizable ['?', c, '?'] 1 1 ["special-sequence contains a character"]) = true := by decide +kernel

end Ebnf.Conform
