import Verif.Model.Api
import Verif.Model.ErrorText

set_option autoImplicit false

/-! # The library's own parser tests, run on the model — src/parser/test/mod.rs

Nothing is proved here about all inputs.  These are the assertions of the repository's tests, restated about the model and evaluated by
the kernel, so that a reader can see that the model behaves as the authors of the library say that the code does.  Each example names
the line of the test it repeats.  The grammar is read with `Syntax::read_from_utf8`, compiled, and applied by a parser whose debug
assertions are on, as in a test run. -/

namespace Ebnf.Conform

/-- The names of the grammar and of the input — src/test.rs:13-22. -/
def dl (lines columns : Nat) : Location := ⟨"definition.ebnf".toList, lines, columns⟩
def sl (lines columns : Nat) : Location := ⟨"target.txt".toList, lines, columns⟩
def began (definition location : Location) (label : String) : Event := .begin definition location label.toList
def ended (definition location : Location) (label : String) : Event := .end definition location label.toList
def token (definition location : Location) (text : String) : Event := .token definition location text.toList

/-- The texts from outside that the tests use. -/
def texts : Texts where
  hidden := fun c => c.toNat < 32 || (127 ≤ c.toNat && c.toNat < 160)
  io := fun _ => "something's wrong".toList
  open_ := fun _ => []
  regex := fun _ => []
  custom := fun _ => []
  encoding := "Shift_JIS".toList
  marks := fun _ => []

/-- Is the text inside the other one? -/
def inside (part : Str) : Str → Bool
  | [] => part.isEmpty
  | c :: rest => part.isPrefixOf (c :: rest) || inside part rest

/-- Reading the grammar, building the graph, and parsing the text from the rule named. -/
def parseWith (config : Config) (fuel : Nat) (ebnf id text : Str) : Res (List Event) := do
  let syntax_ ← Syntax.readFromStr "definition.ebnf".toList ebnf 1024 []
  let graph ← Graph.compile syntax_ config
  match ← Machine.new graph id with
  | none => .panic .missing
  | some m =>
    if m.name = id then (m.parse fuel (Reader.new "target.txt".toList (Source.fromStr text) true)).1 else .panic .missing

/-- `assert_success` — src/parser/test/mod.rs:673-680. -/
def success (ebnf id text : Str) (expected : List Event) : Bool :=
  match parseWith Config.default 2000 ebnf id text with
  | .ok events => decide (events = expected)
  | _ => false

/-- `assert_failure` — src/parser/test/mod.rs:705-712, for a message that must contain a text. -/
def failure (ebnf id text : Str) (location : Location) (message : String) : Bool :=
  match parseWith Config.default 2000 ebnf id text with
  | .err e => decide (e.location = location) && inside message.toList (e.msg.text texts)
  | _ => false

/-! ## `terminal_string` -/

-- line 64
example : success "A = 'a'; B = 'b'; XYZ = 'xyz'; e = ;".toList "A".toList "a".toList
    [began (dl 1 1) (sl 1 1) "A",
     token (dl 1 5) (sl 1 1) "a",
     ended (dl 1 1) (sl 1 2) "A"] = true := by decide +kernel

-- line 74
example : success "A = 'a'; B = 'b'; XYZ = 'xyz'; e = ;".toList "B".toList "b".toList
    [began (dl 1 10) (sl 1 1) "B",
     token (dl 1 14) (sl 1 1) "b",
     ended (dl 1 10) (sl 1 2) "B"] = true := by decide +kernel

-- line 84
example : success "A = 'a'; B = 'b'; XYZ = 'xyz'; e = ;".toList "XYZ".toList "xyz".toList
    [began (dl 1 19) (sl 1 1) "XYZ",
     token (dl 1 25) (sl 1 1) "xyz",
     ended (dl 1 19) (sl 1 4) "XYZ"] = true := by decide +kernel

-- line 94
example : success "A = 'a'; B = 'b'; XYZ = 'xyz'; e = ;".toList "e".toList "".toList
    [began (dl 1 32) (sl 1 1) "e",
     ended (dl 1 32) (sl 1 1) "e"] = true := by decide +kernel

-- line 103
example : failure "A = 'a'; B = 'b'; XYZ = 'xyz'; e = ;".toList "XYZ".toList "d".toList (sl 1 1)
    "Syntactic Error: \"xyz\" expected, but \"d\" appeared." = true := by decide +kernel

-- line 104
example : failure "A = 'a'; B = 'b'; XYZ = 'xyz'; e = ;".toList "XYZ".toList "".toList (sl 1 1)
    "Syntactic Error: \"xyz\" expected, but EOF appeared." = true := by decide +kernel

/-! ## `definition_list` -/

-- line 111
example : success "A = 'a'; B = 'b'; C = 'c'; ABC = A | B | C;".toList "ABC".toList "a".toList
    [began (dl 1 28) (sl 1 1) "ABC",
     began (dl 1 34) (sl 1 1) "A",
     token (dl 1 5) (sl 1 1) "a",
     ended (dl 1 34) (sl 1 2) "A",
     ended (dl 1 28) (sl 1 2) "ABC"] = true := by decide +kernel

-- line 123
example : success "A = 'a'; B = 'b'; C = 'c'; ABC = A | B | C;".toList "ABC".toList "b".toList
    [began (dl 1 28) (sl 1 1) "ABC",
     began (dl 1 38) (sl 1 1) "B",
     token (dl 1 14) (sl 1 1) "b",
     ended (dl 1 38) (sl 1 2) "B",
     ended (dl 1 28) (sl 1 2) "ABC"] = true := by decide +kernel

-- line 135
example : success "A = 'a'; B = 'b'; C = 'c'; ABC = A | B | C;".toList "ABC".toList "c".toList
    [began (dl 1 28) (sl 1 1) "ABC",
     began (dl 1 42) (sl 1 1) "C",
     token (dl 1 23) (sl 1 1) "c",
     ended (dl 1 42) (sl 1 2) "C",
     ended (dl 1 28) (sl 1 2) "ABC"] = true := by decide +kernel

-- line 147
example : failure "A = 'a'; B = 'b'; C = 'c'; ABC = A | B | C;".toList "ABC".toList "d".toList (sl 1 1)
    "Syntactic Error: A, B, or C expected, but \"d\" appeared." = true := by decide +kernel

-- line 148
example : failure "A = 'a'; B = 'b'; C = 'c'; ABC = A | B | C;".toList "ABC".toList "".toList (sl 1 1)
    "Syntactic Error: A, B, or C expected, but EOF appeared." = true := by decide +kernel

-- line 152
example : success "A = {'a'}; AA = 'aa'; AAA = A | AA;".toList "AAA".toList "aa".toList
    [began (dl 1 23) (sl 1 1) "AAA",
     began (dl 1 29) (sl 1 1) "A",
     token (dl 1 6) (sl 1 1) "a",
     token (dl 1 6) (sl 1 2) "a",
     ended (dl 1 29) (sl 1 3) "A",
     ended (dl 1 23) (sl 1 3) "AAA"] = true := by decide +kernel

/-! ## `single_definition` -/

-- line 171
example : success "A = 'a'; B = 'b'; ABC = A, B, 'c';".toList "ABC".toList "abc".toList
    [began (dl 1 19) (sl 1 1) "ABC",
     began (dl 1 25) (sl 1 1) "A",
     token (dl 1 5) (sl 1 1) "a",
     ended (dl 1 25) (sl 1 2) "A",
     began (dl 1 28) (sl 1 2) "B",
     token (dl 1 14) (sl 1 2) "b",
     ended (dl 1 28) (sl 1 3) "B",
     token (dl 1 31) (sl 1 3) "c",
     ended (dl 1 19) (sl 1 4) "ABC"] = true := by decide +kernel

-- line 187
example : failure "A = 'a'; B = 'b'; ABC = A, B, 'c';".toList "ABC".toList "a".toList (sl 1 2)
    "Syntactic Error: \"b\" expected, but EOF appeared." = true := by decide +kernel

-- line 188
example : failure "A = 'a'; B = 'b'; ABC = A, B, 'c';".toList "ABC".toList "ab".toList (sl 1 3)
    "Syntactic Error: \"c\" expected, but EOF appeared." = true := by decide +kernel

-- line 189
example : failure "A = 'a'; B = 'b'; ABC = A, B, 'c';".toList "ABC".toList "abcd".toList (sl 1 4)
    "Syntactic Error: EOF expected, but \"d\" appeared." = true := by decide +kernel

-- line 190
example : failure "A = 'a'; B = 'b'; ABC = A, B, 'c';".toList "ABC".toList "d".toList (sl 1 1)
    "Syntactic Error: \"a\" expected, but \"d\" appeared." = true := by decide +kernel

-- line 191
example : failure "A = 'a'; B = 'b'; ABC = A, B, 'c';".toList "ABC".toList "".toList (sl 1 1)
    "Syntactic Error: \"a\" expected, but EOF appeared." = true := by decide +kernel

/-! ## `syntactic_term_with_exception` -/

-- line 197
example : success "A = ('a' | 'b' | 'c') - ('b' | 'c');".toList "A".toList "a".toList
    [began (dl 1 1) (sl 1 1) "A",
     token (dl 1 6) (sl 1 1) "a",
     ended (dl 1 1) (sl 1 2) "A"] = true := by decide +kernel

-- line 207
example : failure "A = ('a' | 'b' | 'c') - ('b' | 'c');".toList "A".toList "b".toList (sl 1 1)
    "Syntactic Error: ('a'|'b'|'c')-('b'|'c') expected, but \"b\" appeared." = true := by decide +kernel

-- line 208
example : failure "A = ('a' | 'b' | 'c') - ('b' | 'c');".toList "A".toList "c".toList (sl 1 1)
    "Syntactic Error: ('a'|'b'|'c')-('b'|'c') expected, but \"c\" appeared." = true := by decide +kernel

-- line 209
example : failure "A = ('a' | 'b' | 'c') - ('b' | 'c');".toList "A".toList "d".toList (sl 1 1)
    "Syntactic Error: \"a\", \"b\", or \"c\" expected, but \"d\" appeared." = true := by decide +kernel

-- line 210
example : failure "A = ('a' | 'b' | 'c') - ('b' | 'c');".toList "A".toList "".toList (sl 1 1)
    "Syntactic Error: \"a\", \"b\", or \"c\" expected, but EOF appeared." = true := by decide +kernel

/-! ## `syntactic_term_excluding_empty_set` -/

-- line 241
example : success "A = ['a'] - ;".toList "A".toList "a".toList
    [began (dl 1 1) (sl 1 1) "A",
     token (dl 1 6) (sl 1 1) "a",
     ended (dl 1 1) (sl 1 2) "A"] = true := by decide +kernel

-- line 251
example : failure "A = ['a'] - ;".toList "A".toList "".toList (sl 1 1)
    "Syntactic Error: ['a']- expected, but EOF appeared." = true := by decide +kernel

-- line 254
example : success "A = {'a'} - ;".toList "A".toList "a".toList
    [began (dl 1 1) (sl 1 1) "A",
     token (dl 1 6) (sl 1 1) "a",
     ended (dl 1 1) (sl 1 2) "A"] = true := by decide +kernel

-- line 264
example : success "A = {'a'} - ;".toList "A".toList "aa".toList
    [began (dl 1 1) (sl 1 1) "A",
     token (dl 1 6) (sl 1 1) "a",
     token (dl 1 6) (sl 1 2) "a",
     ended (dl 1 1) (sl 1 3) "A"] = true := by decide +kernel

-- line 275
example : failure "A = {'a'} - ;".toList "A".toList "".toList (sl 1 1)
    "Syntactic Error: {'a'}- expected, but EOF appeared." = true := by decide +kernel

-- line 278
example : success "AB = ('a' | 'b' | ) - ;".toList "AB".toList "a".toList
    [began (dl 1 1) (sl 1 1) "AB",
     token (dl 1 7) (sl 1 1) "a",
     ended (dl 1 1) (sl 1 2) "AB"] = true := by decide +kernel

-- line 288
example : success "AB = ('a' | 'b' | ) - ;".toList "AB".toList "b".toList
    [began (dl 1 1) (sl 1 1) "AB",
     token (dl 1 13) (sl 1 1) "b",
     ended (dl 1 1) (sl 1 2) "AB"] = true := by decide +kernel

-- line 298
example : failure "AB = ('a' | 'b' | ) - ;".toList "AB".toList "".toList (sl 1 1)
    "Syntactic Error: ('a'|'b'|)- expected, but EOF appeared." = true := by decide +kernel

/-! ## `syntactic_factor_with_repetition` -/

-- line 305
example : success "A = 2 * ('a' | 'b', 'c');".toList "A".toList "aa".toList
    [began (dl 1 1) (sl 1 1) "A",
     token (dl 1 10) (sl 1 1) "a",
     token (dl 1 10) (sl 1 2) "a",
     ended (dl 1 1) (sl 1 3) "A"] = true := by decide +kernel

-- line 316
example : success "A = 2 * ('a' | 'b', 'c');".toList "A".toList "abc".toList
    [began (dl 1 1) (sl 1 1) "A",
     token (dl 1 10) (sl 1 1) "a",
     token (dl 1 16) (sl 1 2) "b",
     token (dl 1 21) (sl 1 3) "c",
     ended (dl 1 1) (sl 1 4) "A"] = true := by decide +kernel

-- line 328
example : success "A = 2 * ('a' | 'b', 'c');".toList "A".toList "bcbc".toList
    [began (dl 1 1) (sl 1 1) "A",
     token (dl 1 16) (sl 1 1) "b",
     token (dl 1 21) (sl 1 2) "c",
     token (dl 1 16) (sl 1 3) "b",
     token (dl 1 21) (sl 1 4) "c",
     ended (dl 1 1) (sl 1 5) "A"] = true := by decide +kernel

-- line 341
example : success "A = 2 * ('a' | 'b', 'c');".toList "A".toList "bca".toList
    [began (dl 1 1) (sl 1 1) "A",
     token (dl 1 16) (sl 1 1) "b",
     token (dl 1 21) (sl 1 2) "c",
     token (dl 1 10) (sl 1 3) "a",
     ended (dl 1 1) (sl 1 4) "A"] = true := by decide +kernel

-- line 353
example : failure "A = 2 * ('a' | 'b', 'c');".toList "A".toList "".toList (sl 1 1)
    "Syntactic Error: \"a\" or \"b\" expected, but EOF appeared." = true := by decide +kernel

-- line 354
example : failure "A = 2 * ('a' | 'b', 'c');".toList "A".toList "x".toList (sl 1 1)
    "Syntactic Error: \"a\" or \"b\" expected, but \"x\" appeared." = true := by decide +kernel

-- line 355
example : failure "A = 2 * ('a' | 'b', 'c');".toList "A".toList "a".toList (sl 1 2)
    "Syntactic Error: \"a\" or \"b\" expected, but EOF appeared." = true := by decide +kernel

-- line 356
example : failure "A = 2 * ('a' | 'b', 'c');".toList "A".toList "ax".toList (sl 1 2)
    "Syntactic Error: \"a\" or \"b\" expected, but \"x\" appeared." = true := by decide +kernel

-- line 357
example : failure "A = 2 * ('a' | 'b', 'c');".toList "A".toList "ab".toList (sl 1 3)
    "Syntactic Error: \"c\" expected, but EOF appeared." = true := by decide +kernel

-- line 358
example : failure "A = 2 * ('a' | 'b', 'c');".toList "A".toList "aaa".toList (sl 1 3)
    "Syntactic Error: EOF expected, but \"a\" appeared." = true := by decide +kernel

-- line 359
example : failure "A = 2 * ('a' | 'b', 'c');".toList "A".toList "aab".toList (sl 1 3)
    "Syntactic Error: EOF expected, but \"b\" appeared." = true := by decide +kernel

-- line 360
example : failure "A = 2 * ('a' | 'b', 'c');".toList "A".toList "aax".toList (sl 1 3)
    "Syntactic Error: EOF expected, but \"x\" appeared." = true := by decide +kernel

-- line 361
example : failure "A = 2 * ('a' | 'b', 'c');".toList "A".toList "b".toList (sl 1 2)
    "Syntactic Error: \"c\" expected, but EOF appeared." = true := by decide +kernel

-- line 362
example : failure "A = 2 * ('a' | 'b', 'c');".toList "A".toList "bx".toList (sl 1 2)
    "Syntactic Error: \"c\" expected, but \"x\" appeared." = true := by decide +kernel

-- line 363
example : failure "A = 2 * ('a' | 'b', 'c');".toList "A".toList "bc".toList (sl 1 3)
    "Syntactic Error: \"a\" or \"b\" expected, but EOF appeared." = true := by decide +kernel

-- line 364
example : failure "A = 2 * ('a' | 'b', 'c');".toList "A".toList "bcb".toList (sl 1 4)
    "Syntactic Error: \"c\" expected, but EOF appeared." = true := by decide +kernel

-- line 365
example : failure "A = 2 * ('a' | 'b', 'c');".toList "A".toList "bcbx".toList (sl 1 4)
    "Syntactic Error: \"c\" expected, but \"x\" appeared." = true := by decide +kernel

-- line 366
example : failure "A = 2 * ('a' | 'b', 'c');".toList "A".toList "bcbca".toList (sl 1 5)
    "Syntactic Error: EOF expected, but \"a\" appeared." = true := by decide +kernel

-- line 367
example : failure "A = 2 * ('a' | 'b', 'c');".toList "A".toList "bcbcb".toList (sl 1 5)
    "Syntactic Error: EOF expected, but \"b\" appeared." = true := by decide +kernel

-- line 368
example : failure "A = 2 * ('a' | 'b', 'c');".toList "A".toList "bcbcx".toList (sl 1 5)
    "Syntactic Error: EOF expected, but \"x\" appeared." = true := by decide +kernel

/-! ## `syntactic_factor_zero_repetition` -/

-- line 375
example : success "A = 0 * 'a';".toList "A".toList "".toList
    [began (dl 1 1) (sl 1 1) "A",
     ended (dl 1 1) (sl 1 1) "A"] = true := by decide +kernel

-- line 384
example : failure "A = 0 * 'a';".toList "A".toList "a".toList (sl 1 1)
    "Syntactic Error: EOF expected, but \"a\" appeared." = true := by decide +kernel

/-! ## `syntactic_primary_optimal_sequence` -/

-- line 391
example : success "A = ['a'];".toList "A".toList "".toList
    [began (dl 1 1) (sl 1 1) "A",
     ended (dl 1 1) (sl 1 1) "A"] = true := by decide +kernel

-- line 400
example : success "A = ['a'];".toList "A".toList "a".toList
    [began (dl 1 1) (sl 1 1) "A",
     token (dl 1 6) (sl 1 1) "a",
     ended (dl 1 1) (sl 1 2) "A"] = true := by decide +kernel

-- line 410
example : failure "A = ['a'];".toList "A".toList "aa".toList (sl 1 2)
    "Syntactic Error: EOF expected, but \"a\" appeared." = true := by decide +kernel

/-! ## `syntactic_primary_optimal_sequence_nested` -/

-- line 417
example : success "AB = ['a', ['b']];".toList "AB".toList "".toList
    [began (dl 1 1) (sl 1 1) "AB",
     ended (dl 1 1) (sl 1 1) "AB"] = true := by decide +kernel

-- line 426
example : success "AB = ['a', ['b']];".toList "AB".toList "a".toList
    [began (dl 1 1) (sl 1 1) "AB",
     token (dl 1 7) (sl 1 1) "a",
     ended (dl 1 1) (sl 1 2) "AB"] = true := by decide +kernel

-- line 436
example : success "AB = ['a', ['b']];".toList "AB".toList "ab".toList
    [began (dl 1 1) (sl 1 1) "AB",
     token (dl 1 7) (sl 1 1) "a",
     token (dl 1 13) (sl 1 2) "b",
     ended (dl 1 1) (sl 1 3) "AB"] = true := by decide +kernel

-- line 447
example : failure "AB = ['a', ['b']];".toList "AB".toList "b".toList (sl 1 1)
    "Syntactic Error: EOF expected, but \"b\" appeared." = true := by decide +kernel

-- line 448
example : failure "AB = ['a', ['b']];".toList "AB".toList "ac".toList (sl 1 2)
    "Syntactic Error: EOF expected, but \"c\" appeared." = true := by decide +kernel

/-! ## `syntactic_primary_repeated_sequence_with_enclosures` -/

-- line 507
example : success "A = '(', {'a'}, ')';".toList "A".toList "(a)".toList
    [began (dl 1 1) (sl 1 1) "A",
     token (dl 1 5) (sl 1 1) "(",
     token (dl 1 11) (sl 1 2) "a",
     token (dl 1 17) (sl 1 3) ")",
     ended (dl 1 1) (sl 1 4) "A"] = true := by decide +kernel

-- line 519
example : success "A = '(', {'a'}, ')';".toList "A".toList "(aa)".toList
    [began (dl 1 1) (sl 1 1) "A",
     token (dl 1 5) (sl 1 1) "(",
     token (dl 1 11) (sl 1 2) "a",
     token (dl 1 11) (sl 1 3) "a",
     token (dl 1 17) (sl 1 4) ")",
     ended (dl 1 1) (sl 1 5) "A"] = true := by decide +kernel

-- line 533
example : success "A = '(', {'a'}, ')';".toList "A".toList "()".toList
    [began (dl 1 1) (sl 1 1) "A",
     token (dl 1 5) (sl 1 1) "(",
     token (dl 1 17) (sl 1 2) ")",
     ended (dl 1 1) (sl 1 3) "A"] = true := by decide +kernel

/-! ## `syntactic_primary_grouped_sequence` -/

-- line 550
example : success "ABC = ('a' | 'b', 'c');".toList "ABC".toList "a".toList
    [began (dl 1 1) (sl 1 1) "ABC",
     token (dl 1 8) (sl 1 1) "a",
     ended (dl 1 1) (sl 1 2) "ABC"] = true := by decide +kernel

-- line 560
example : success "ABC = ('a' | 'b', 'c');".toList "ABC".toList "bc".toList
    [began (dl 1 1) (sl 1 1) "ABC",
     token (dl 1 14) (sl 1 1) "b",
     token (dl 1 19) (sl 1 2) "c",
     ended (dl 1 1) (sl 1 3) "ABC"] = true := by decide +kernel

-- line 571
example : failure "ABC = ('a' | 'b', 'c');".toList "ABC".toList "".toList (sl 1 1)
    "Syntactic Error: \"a\" or \"b\" expected, but EOF appeared." = true := by decide +kernel

/-! ## `syntactic_primary_meta_identifier` -/

-- line 577
example : success "A = 'a'; B = 'b'; C = 'c'; ABC = A, [B], {C};".toList "ABC".toList "a".toList
    [began (dl 1 28) (sl 1 1) "ABC",
     began (dl 1 34) (sl 1 1) "A",
     token (dl 1 5) (sl 1 1) "a",
     ended (dl 1 34) (sl 1 2) "A",
     ended (dl 1 28) (sl 1 2) "ABC"] = true := by decide +kernel

/-! ## `syntactic_primary_terminal_string` -/

-- line 594
example : success "AB = 'a', ['b'];".toList "AB".toList "a".toList
    [began (dl 1 1) (sl 1 1) "AB",
     token (dl 1 6) (sl 1 1) "a",
     ended (dl 1 1) (sl 1 2) "AB"] = true := by decide +kernel

/-! ## `syntactic_primary_empty` -/

-- line 608
example : success "E = ;".toList "E".toList "".toList
    [began (dl 1 1) (sl 1 1) "E",
     ended (dl 1 1) (sl 1 1) "E"] = true := by decide +kernel

-- line 617
example : success "E = ; AB = (E | 'a' | 'b');".toList "AB".toList "".toList
    [began (dl 1 7) (sl 1 1) "AB",
     ended (dl 1 7) (sl 1 1) "AB"] = true := by decide +kernel

-- line 626
example : success "E = ; AB = ('a' | E | 'b');".toList "AB".toList "".toList
    [began (dl 1 7) (sl 1 1) "AB",
     ended (dl 1 7) (sl 1 1) "AB"] = true := by decide +kernel

-- line 635
example : success "E = ; AB = ('a' | 'b' | E);".toList "AB".toList "".toList
    [began (dl 1 7) (sl 1 1) "AB",
     ended (dl 1 7) (sl 1 1) "AB"] = true := by decide +kernel

-- line 644
example : success "E = ; AB = ('a' | E | 'b');".toList "AB".toList "".toList
    [began (dl 1 7) (sl 1 1) "AB",
     ended (dl 1 7) (sl 1 1) "AB"] = true := by decide +kernel

-- line 653
example : success "E = ; AB = ('a' | 'b' | E);".toList "AB".toList "".toList
    [began (dl 1 7) (sl 1 1) "AB",
     ended (dl 1 7) (sl 1 1) "AB"] = true := by decide +kernel

/-! ## `livelock` -/

-- line 666
example : failure "E = {}".toList "E".toList "abc".toList (sl 1 1)
    "Livelock: " = true := by decide +kernel

/-! ## The loops of `syntactic_primary_repeated_sequence` -/

-- line 456: the tests go up to 100 characters
example : (List.range 21).all (fun i => success "A = {'a'};".toList "A".toList ((List.replicate i 'a'))
    (began (dl 1 1) (sl 1 1) "A" :: (List.range i).map (fun j => token (dl 1 6) (sl 1 (j + 1)) "a") ++ [ended (dl 1 1) (sl 1 (i + 1)) "A"])) =
    true := by decide +kernel

-- line 467
example : (List.range 21).all (fun i => failure "A = {'a'};".toList "A".toList ((List.replicate i 'a' ++ ['b'])) (sl 1 (i + 1))
    "Syntactic Error: EOF expected, but \"b\" appeared.") = true := by decide +kernel

/-! ## `getting_started` -/

-- line 26
example : success "A = 'a'; B = 'b'; AB = A, B;".toList "A".toList "a".toList
    [began (dl 1 1) (sl 1 1) "A",
     token (dl 1 5) (sl 1 1) "a",
     ended (dl 1 1) (sl 1 2) "A"] = true := by decide +kernel

-- line 42
example : success "A = 'a'; B = 'b'; AB = A, B;".toList "AB".toList "ab".toList
    [began (dl 1 19) (sl 1 1) "AB",
     began (dl 1 24) (sl 1 1) "A",
     token (dl 1 5) (sl 1 1) "a",
     ended (dl 1 24) (sl 1 2) "A",
     began (dl 1 27) (sl 1 2) "B",
     token (dl 1 14) (sl 1 2) "b",
     ended (dl 1 27) (sl 1 3) "B",
     ended (dl 1 19) (sl 1 3) "AB"] = true := by decide +kernel

/-! ## The test that is switched off, `syntactic_term_with_exception_when_there_is_a_other_item_to_select`

Its comment, lines 213-219, says that an input whose best candidate is excluded does not match.  The code has no best candidate: the first
alternative that matches is taken (machine.rs:82-95), here `'/'`, which is not excluded.  So the input of the test does match, with the
events it lists, but for the column of `'*'` in the grammar, which is 26 and not 28.  What the comment says is so when the longer
alternative is written first. -/

-- line 225, with the column corrected
example : success "A = ('/' | '/*') - '/*', '*';".toList "A".toList "/*".toList
    [began (dl 1 1) (sl 1 1) "A",
     token (dl 1 6) (sl 1 1) "/",
     token (dl 1 26) (sl 1 2) "*",
     ended (dl 1 1) (sl 1 3) "A"] = true := by decide +kernel

-- not in the repository: the alternatives the other way round
example : failure "A = ('/*' | '/') - '/*', '*';".toList "A".toList "/*".toList (sl 1 1) " expected, but \"/*\" appeared." = true := by
  decide +kernel

/-! ## `syntax_io_error_in_reading` — src/lex/test.rs:177-184, in UTF-8 instead of US-ASCII -/

example : (match Ebnf.parse utf8Decoder "path".toList [.ok (asBytes "a = '".toList), .error 7] 1024 [] with
    | .err e => decide (e.location = (⟨"path".toList, 1, 5⟩ : Location)) && inside "something's wrong".toList (e.msg.text texts)
    | _ => false) = true := by decide +kernel

end Ebnf.Conform
