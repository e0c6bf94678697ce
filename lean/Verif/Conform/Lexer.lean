import Verif.Model.Display
import Verif.Model.ErrorText

set_option autoImplicit false

/-! # The library's own lexer tests, run on the model — src/lex/test.rs, src/lex/tokenizer/test.rs

As in `Conform/Parser.lean`, these are tests: the assertions of the repository, restated about the model and evaluated by the kernel.
Where a test names a regular expression for a message, the literal parts of it are required to appear in the message in that order.  As in
the tests, a text is given to the same lexer again and again, with a reset in between: in chunks of one character, of two, of three, and
as a whole (the tests try every size; that the size does not matter is proved for all texts, C01, but for the errors, C03). -/

namespace Ebnf.Conform

/-- `FILE_NAME` — src/lex/test.rs:814. -/
def path : Str := "C:\\like Windows File System\\with space\\path.ebnf".toList

/-- `location` — src/lex/test.rs:816-822, src/lex/tokenizer/test.rs:277-283. -/
def at_ (lines columns : Nat) : Location := ⟨path, lines, columns⟩

/-- The texts from outside; none is used here but for the characters that are written as `\u{…}`. -/
def plainTexts : Texts where
  hidden := fun c => c.toNat < 32 || (127 ≤ c.toNat && c.toNat < 160)
  io := fun _ => []
  open_ := fun _ => []
  regex := fun _ => []
  custom := fun _ => []
  encoding := []
  marks := fun _ => []

/-- The parts appear in the text, one after another; `fuel` is at least the length of the text. -/
def inOrderFrom : Nat → List Str → Str → Bool
  | _, [], _ => true
  | 0, _ :: _, _ => false
  | fuel + 1, p :: ps, s =>
    if p.isPrefixOf s then inOrderFrom fuel ps (s.drop p.length)
    else match s with
      | [] => false
      | _ :: rest => inOrderFrom fuel (p :: ps) rest

def inOrder (parts : List Str) (s : Str) : Bool := inOrderFrom (s.length + parts.length) parts s

/-! ## How the tests write syntax trees — src/lex/test.rs:16-136 -/

def defs : List SingleDefinition → DefinitionList
  | [] => .nil
  | d :: r => .cons d (defs r)
def terms : List Term → SingleDefinition
  | [] => .nil
  | t :: r => .cons t (terms r)
def id_ (l c : Nat) (s : String) (n : Nat := 1) : Factor := .mk n (.metaIdentifier (at_ l c) s.toList)
def terminal_ (l c : Nat) (s : String) (n : Nat := 1) : Factor := .mk n (.terminalString (at_ l c) s.toList)
def special_ (l c : Nat) (s : String) (n : Nat := 1) : Factor := .mk n (.specialSequence (at_ l c) s.toList)
def empty_ (l c : Nat) (n : Nat := 1) : Factor := .mk n (.empty (at_ l c))
def option_ (l c n : Nat) (ds : List (List Term)) : Factor := .mk n (.optional (at_ l c) (defs (ds.map terms)))
def repeat_ (l c n : Nat) (ds : List (List Term)) : Factor := .mk n (.repeated (at_ l c) (defs (ds.map terms)))
def grouped_ (l c n : Nat) (ds : List (List Term)) : Factor := .mk n (.grouped (at_ l c) (defs (ds.map terms)))
def plain (f : Factor) : Term := .plain f
def minus (f e : Factor) : Term := .except f e

/-- A rule: its name and its definitions (the tests do not compare where it begins). -/
def rule (id : Factor) (ds : List (List Term)) : Str × DefinitionList :=
  ((match id.primary with | .metaIdentifier _ s => s | _ => []), defs (ds.map terms))

/-! ## How the tests run the lexer -/

/-- `split_by` — src/test.rs:24-31; `fuel` is the length of the text. -/
def splitBy (n : Nat) : Nat → Str → List Str
  | 0, _ => []
  | fuel + 1, s => if s.isEmpty then [] else s.take n :: splitBy n fuel (s.drop n)

/-- The sizes of chunks that are tried for a text of this length. -/
def sizes (n : Nat) : List Nat := if n = 0 then [] else if n < 4 then [1, n] else [1, 2, 3, n]

/-- Pushing the chunks and flushing. -/
def feedChunks : List Str → RM Lexer (List SyntaxRule)
  | [] => do
    let rule ← Lexer.flush
    pure rule.toList
  | s :: rest => do
    let rules ← Lexer.pushStr s
    let more ← feedChunks rest
    pure (rules ++ more)

/-- The same with `push`, one character at a time — src/lex/test.rs:704-716. -/
def feedChars : Str → RM Lexer (List SyntaxRule)
  | [] => do
    let rule ← Lexer.flush
    pure rule.toList
  | c :: rest => do
    let rule ← Lexer.push c
    let more ← feedChars rest
    pure (rule.toList ++ more)

/-- `assert_correct_syntax_rules` — src/lex/test.rs:679-717, for the sizes of chunks in the list, and then for single characters. -/
def rulesFrom (text : Str) (expected : List (Str × DefinitionList)) : List Nat → Lexer → Bool
  | [], l =>
    match feedChars text l.reset with
    | (.ok rules, _) => decide (rules.map (fun r => (r.metaIdentifier, r.definitionList)) = expected)
    | _ => false
  | n :: ns, l =>
    match feedChunks (splitBy n text.length text) l.reset with
    | (.ok rules, l) => decide (rules.map (fun r => (r.metaIdentifier, r.definitionList)) = expected) && rulesFrom text expected ns l
    | _ => false

def rules (text : Str) (expected : List (Str × DefinitionList)) : Bool :=
  rulesFrom text expected (sizes text.length) (Lexer.new path)

/-- `assert_incorrect_syntax_rules` — src/lex/test.rs:780-812: the test ends with the first error of `push_str`. -/
def pushAll : List Str → RM Lexer Unit
  | [] => pure ()
  | s :: rest => do
    let _ ← Lexer.pushStr s
    pushAll rest

def asExpected (lines columns : Nat) (parts : List String) (e : Error) : Bool :=
  decide (e.location.lines = lines) && decide (e.location.columns = columns) &&
    inOrder (parts.map String.toList) (e.msg.text plainTexts)

def errorFrom (text : Str) (lines columns : Nat) (parts : List String) : List Nat → Lexer → Bool
  | [], _ => true
  | n :: ns, l =>
    match pushAll (splitBy n text.length text) l.reset with
    | (.err e, _) => asExpected lines columns parts e
    | (.ok (), l) =>
      match Lexer.flush l with
      | (.err e, l) => asExpected lines columns parts e && errorFrom text lines columns parts ns l
      | _ => false
    | _ => false

def incorrect (text : Str) (lines columns : Nat) (parts : List String) : Bool :=
  errorFrom text lines columns parts (sizes text.length) (Lexer.new path)

/-! # src/lex/test.rs -/

/-! ## `syntax_doesnt_ends_with_terminator` -/

-- line 158
example : rules "a = 'A'".toList
    [rule (id_ 1 1 "a") [[plain (terminal_ 1 5 "A")]]] = true := by decide +kernel

-- line 162
example : rules "a = 'A'; b = 'B'".toList
    [rule (id_ 1 1 "a") [[plain (terminal_ 1 5 "A")]],
     rule (id_ 1 9 "b") [[plain (terminal_ 1 14 "B")]]] = true := by decide +kernel

/-! ## `syntax_that_doesnt_contain_any_rules` -/

-- line 188
example : rules "".toList
    [] = true := by decide +kernel

-- line 189
example : rules ";".toList
    [] = true := by decide +kernel

-- line 190
example : rules " ".toList
    [] = true := by decide +kernel

-- line 191
example : rules " ; ; ".toList
    [] = true := by decide +kernel

-- line 192
example : rules " (* *) \t\r\n; (* *)\t\r\n; (* *)\t\r\n(* *)".toList
    [] = true := by decide +kernel

/-! ## `symbols_in_comments_and_terminal_string_dont_affect` -/

-- line 199
example : rules "A(*;|,!/:-=[]{}()\"**)=';|,!/:-=[]{}()\"*';(*;|,!/:-=[]{}()\"**)".toList
    [rule (id_ 1 1 "A") [[plain (terminal_ 1 23 ";|,!/:-=[]{}()\"*")]]] = true := by decide +kernel

/-! ## `single_rule_placed_on_multiple_lines` -/

-- line 207
example : rules "\n  multi line\n  syntax rule =\n    { abc } - xyz,\n    [ xyz | abc ],\n    100 * (\"d\", \"e\", \"f\")\n  ;\n".toList
    [rule (id_ 2 3 "multi line syntax rule") [[minus (repeat_ 4 5 1 [[plain (id_ 4 7 "abc")]]) (id_ 4 15 "xyz"), plain (option_ 5 5 1 [[plain (id_ 5 7 "xyz")], [plain (id_ 5 13 "abc")]]), plain (grouped_ 6 11 100 [[plain (terminal_ 6 12 "d"), plain (terminal_ 6 17 "e"), plain (terminal_ 6 22 "f")]])]]] = true := by decide +kernel

/-! ## `meta_identifier` -/

-- line 245
example : rules "a b = 'ab';".toList
    [rule (id_ 1 1 "a b") [[plain (terminal_ 1 7 "ab")]]] = true := by decide +kernel

-- line 249
example : rules "  a \t\r\n  b = 'ab';".toList
    [rule (id_ 1 3 "a b") [[plain (terminal_ 2 7 "ab")]]] = true := by decide +kernel

-- line 275
example : incorrect "= 'ABC'".toList 1 1 ["meta-identifier expected, but defining-symbol appeared."] = true := by decide +kernel

/-! ## `terminal_string` -/

-- line 310
example : incorrect "a = ''".toList 1 5 ["The terminal-string must contain one or more terminal-characters."] = true := by decide +kernel

/-! ## `defining_symbol` -/

-- line 321
example : incorrect "abc".toList 1 4 [" EOF appeared."] = true := by decide +kernel

-- line 322
example : incorrect "abc;".toList 1 4 [" terminator-symbol appeared."] = true := by decide +kernel

-- line 323
example : incorrect "abc,".toList 1 4 [" concatenate-symbol appeared."] = true := by decide +kernel

-- line 326
example : incorrect "a = 'a' = 'A';".toList 1 9 [", but defining-symbol appeared."] = true := by decide +kernel

/-! ## `repetition_symbol` -/

-- line 332
example : rules "a = 12 * 'A';".toList
    [rule (id_ 1 1 "a") [[plain (terminal_ 1 10 "A" 12)]]] = true := by decide +kernel

-- line 338
example : rules "a = 12 * ('a' | 'A');".toList
    [rule (id_ 1 1 "a") [[plain (grouped_ 1 10 12 [[plain (terminal_ 1 11 "a")], [plain (terminal_ 1 17 "A")]])]]] = true := by decide +kernel

-- line 353
example : rules "a = 12 * ;".toList
    [rule (id_ 1 1 "a") [[plain (empty_ 1 10 12)]]] = true := by decide +kernel

-- line 356
example : incorrect "a = 'A' * 12;".toList 1 9 [", but repetition-symbol appeared."] = true := by decide +kernel

-- line 359
example : incorrect "a = 3.14 * 'A';".toList 1 6 ["repetition-symbol '*' expected, but terminator-symbol appeared."] = true := by decide +kernel

-- line 365
example : incorrect "a = 0x12 * 'A';".toList 1 6 ["repetition-symbol '*' expected, but meta-identifier appeared."] = true := by decide +kernel

-- line 371
example : incorrect "a = 99999999999999999999999999999999999999999999999999999 * 'A';".toList 1 5 ["cannot convert the number of repetitions \"", "\" to 32-bit integer: "] = true := by decide +kernel

/-! ## `except_symbol` -/

-- line 381
example : rules "a = ('a' | 'b') - 'b';".toList
    [rule (id_ 1 1 "a") [[minus (grouped_ 1 5 1 [[plain (terminal_ 1 6 "a")], [plain (terminal_ 1 12 "b")]]) (terminal_ 1 19 "b")]]] = true := by decide +kernel

-- line 399
example : rules "ac = abc - 'b' | axc - 'x';".toList
    [rule (id_ 1 1 "ac") [[minus (id_ 1 6 "abc") (terminal_ 1 12 "b")], [minus (id_ 1 18 "axc") (terminal_ 1 24 "x")]]] = true := by decide +kernel

-- line 409
example : rules "ac = abc - | axc - ;".toList
    [rule (id_ 1 1 "ac") [[minus (id_ 1 6 "abc") (empty_ 1 12)], [minus (id_ 1 14 "axc") (empty_ 1 20)]]] = true := by decide +kernel

/-! ## `concatenate_symbol` -/

-- line 422
example : rules "abc = 'a', 'b', 'c';".toList
    [rule (id_ 1 1 "abc") [[plain (terminal_ 1 7 "a"), plain (terminal_ 1 12 "b"), plain (terminal_ 1 17 "c")]]] = true := by decide +kernel

-- line 435
example : rules "xxx = , , ;".toList
    [rule (id_ 1 1 "xxx") [[plain (empty_ 1 7), plain (empty_ 1 9), plain (empty_ 1 11)]]] = true := by decide +kernel

/-! ## `special_sequence` -/

-- line 468
example : rules "abc = ? control code ?;".toList
    [rule (id_ 1 1 "abc") [[plain (special_ 1 7 " control code ")]]] = true := by decide +kernel

/-! ## `parentheses_pair` -/

-- line 494
example : rules "a=('A'|'B'|('C','D'))".toList
    [rule (id_ 1 1 "a") [[plain (grouped_ 1 3 1 [[plain (terminal_ 1 4 "A")], [plain (terminal_ 1 8 "B")], [plain (grouped_ 1 12 1 [[plain (terminal_ 1 13 "C"), plain (terminal_ 1 17 "D")]])]])]]] = true := by decide +kernel

-- line 515
example : incorrect "a=(*".toList 1 3 ["start-comment-symbol '(*' is not closed."] = true := by decide +kernel

-- line 516
example : incorrect "a=[".toList 1 3 ["start-option-symbol '[' is not closed."] = true := by decide +kernel

-- line 517
example : incorrect "a={".toList 1 3 ["start-repeat-symbol '{' is not closed."] = true := by decide +kernel

-- line 518
example : incorrect "a=(/".toList 1 3 ["start-option-symbol '(/' is not closed."] = true := by decide +kernel

-- line 519
example : incorrect "a=(:".toList 1 3 ["start-repeat-symbol '(:' is not closed."] = true := by decide +kernel

-- line 520
example : incorrect "a=(".toList 1 3 ["start-group-symbol '(' is not closed."] = true := by decide +kernel

-- line 523
example : incorrect "a=*)".toList 1 3 ["end-comment-symbol '*)' is not opened."] = true := by decide +kernel

-- line 524
example : incorrect "a=]".toList 1 3 [", but end-option-symbol appeared."] = true := by decide +kernel

-- line 525
example : incorrect "a=}".toList 1 3 [", but end-repeat-symbol appeared."] = true := by decide +kernel

-- line 526
example : incorrect "a=/)".toList 1 3 [", but end-option-symbol appeared."] = true := by decide +kernel

-- line 527
example : incorrect "a=:)".toList 1 3 [", but end-repeat-symbol appeared."] = true := by decide +kernel

-- line 528
example : incorrect "a=)".toList 1 3 [", but end-group-symbol appeared."] = true := by decide +kernel

-- line 531
example : incorrect "a=(*);".toList 1 3 ["An ambiguous start/end-command-symbol: (*)"] = true := by decide +kernel

-- line 532
example : incorrect "a=(:);".toList 1 3 ["An ambiguous start/end-repeat-symbol: (:)"] = true := by decide +kernel

-- line 533
example : incorrect "a=(/);".toList 1 3 ["An ambiguous start/end-option-symbol: (/)"] = true := by decide +kernel

/-! ## `syntax_rules` -/

-- line 611
example : rules "abc = \"A\" | \"B\" | \"C\" ;\nxyz = \"X\", \"Y\", \"Z\";\nabc  d = abc | \"D\"  (* The meta-identifier contains gap separators *);\n(* *) abcxyz (* *) = (* *) abc (* *) | (* *) xyz (* *) ;\nrepeat = { abc }, [ xyz | abc ], (\"d\", \"e\", \"f\") ;\n".toList
    [rule (id_ 1 1 "abc") [[plain (terminal_ 1 7 "A")], [plain (terminal_ 1 13 "B")], [plain (terminal_ 1 19 "C")]],
     rule (id_ 2 1 "xyz") [[plain (terminal_ 2 7 "X"), plain (terminal_ 2 12 "Y"), plain (terminal_ 2 17 "Z")]],
     rule (id_ 3 1 "abc d") [[plain (id_ 3 10 "abc")], [plain (terminal_ 3 16 "D")]],
     rule (id_ 4 6 "abcxyz") [[plain (id_ 4 28 "abc")], [plain (id_ 4 46 "xyz")]],
     rule (id_ 5 1 "repeat") [[plain (repeat_ 5 10 1 [[plain (id_ 5 12 "abc")]]), plain (option_ 5 19 1 [[plain (id_ 5 21 "xyz")], [plain (id_ 5 27 "abc")]]), plain (grouped_ 5 34 1 [[plain (terminal_ 5 35 "d"), plain (terminal_ 5 40 "e"), plain (terminal_ 5 45 "f")]])]]] = true := by decide +kernel

-- line 669
example : rules "abc = \"A\" | \"B\" | \"C\" ;".toList
    [rule (id_ 1 1 "abc") [[plain (terminal_ 1 7 "A")], [plain (terminal_ 1 13 "B")], [plain (terminal_ 1 19 "C")]]] = true := by decide +kernel

end Ebnf.Conform
