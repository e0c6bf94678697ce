import Verif.Model.Api
import Verif.Model.ErrorText

set_option autoImplicit false

/-! # The library's own tests of the readers and scanners, run on the model — src/io/test.rs, src/parser/test/special_sequence.rs

As in `Conform/Parser.lean`, these are tests: the assertions of the repository, restated about the model and evaluated by the kernel.
The tests encode their texts in Shift_JIS, whose tables belong to `encoding_rs` and are a parameter of the model; here the same texts are
encoded in UTF-8, whose decoder is modelled. -/

namespace Ebnf.Conform

/-- `assert!` inside a sequence of calls. -/
def check (b : Bool) : RM Reader Unit := if b then pure () else RM.lift (.panic .missing)

/-- The next character is this one. -/
def reads (c : Char) : RM Reader Unit := do check (decide ((← Reader.read) = some c))

/-- There is no next character. -/
def readsNone : RM Reader Unit := do check (decide ((← Reader.read) = none))

/-- The place is on the first line of a source without a name, in this column. -/
def column (n : Nat) : RM Reader Unit := do check (decide ((← Reader.location) = ⟨[], 1, n⟩))

/-- Going back to the mark gives this number of characters. -/
def resets (n mark : Nat) : RM Reader Unit := do check (decide ((← Reader.resetToMark mark) = n))

/-- Going back to the mark is an error; the reader is used afterwards. -/
def refused (mark : Nat) : RM Reader Unit := fun r =>
  match Reader.resetToMark mark r with
  | (.err _, r) => (.ok (), r)
  | (_, r) => (.panic .missing, r)

/-- `encoding_rs`'s table of labels, as far as the tests use it. -/
def labels : Labels := fun label => if label = "UTF-8".toList ∨ label = "utf-8".toList then some utf8Decoder else none

/-- All calls are successful on a reader of this text. -/
def passes (text : String) (calls : RM Reader Unit) : Bool :=
  match Reader.forBytes labels [] (asBytes text.toList) "utf-8".toList [] true with
  | .ok r => match calls r with
    | (.ok (), _) => true
    | _ => false
  | _ => false

/-- `makable_reader_mark_reset` — src/io/test.rs:71-119. -/
example : passes "零壱弐参四五六七八九" (do
    reads '零'; reads '壱'
    let marker1 ← Reader.mark
    reads '弐'; reads '参'
    let marker2 ← Reader.mark
    reads '四'
    let marker3 ← Reader.mark
    reads '五'; column 7
    resets 2 marker2; column 5
    reads '四'; column 6
    refused marker3; column 6
    reads '五'; reads '六'; column 8
    resets 5 marker1; column 3
    reads '弐'; reads '参'
    let marker4 ← Reader.mark
    reads '四'
    let marker5 ← Reader.mark
    reads '五'; column 7
    Reader.unmark marker4; column 7
    refused marker4; refused marker5
    reads '六'; reads '七'
    refused marker1; refused marker2
    let marker5 ← Reader.mark
    reads '八'; reads '九'; readsNone
    resets 2 marker5
    reads '八'; reads '九'; readsNone) = true := by decide +kernel

/-- The same test, second part — src/io/test.rs:121-137. -/
example : passes "零壱弐参四五六七八九" (do
    reads '零'; reads '壱'
    let marker1 ← Reader.mark
    reads '弐'; reads '参'
    let marker2 ← Reader.mark
    reads '四'; reads '五'
    Reader.unmark marker2
    reads '六'; reads '七'
    refused marker2
    resets 6 marker1
    reads '弐'; reads '参') = true := by decide +kernel

/-- `makable_reader_peek_skip` — src/io/test.rs:140-156. -/
example : passes "零壱弐参四五六七八九" (do
    reads '零'
    check (decide ((← Reader.peek 3) = "壱弐参".toList))
    reads '壱'; column 3
    check (decide ((← Reader.skip 3) = 3)); column 6
    reads '五'
    check (decide ((← Reader.peek 100) = "六七八九".toList))
    reads '六'
    check (decide ((← Reader.skip 100) = 3))
    readsNone; column 11) = true := by decide +kernel

/-- `makable_reader_prefix_match` — src/io/test.rs:158-162. -/
example : (Reader.prefixMatches "hello".toList (Reader.new [] (Source.fromStr "\nhello, world".toList) true)).1 = .ok false := by
  decide +kernel

/-- `makable_reader_read_error` — src/io/test.rs:164-173: the error of the stream comes after the characters before it, and its text is
in the message. -/
example : (match Reader.withEncoding labels [] [.ok (asBytes "零壱弐".toList), .error 7] "utf-8".toList [] true with
    | .ok r => match (do reads '零'; reads '壱'; reads '弐'; Reader.read : RM Reader (Option Char)) r with
      | (.err e, _) => match e.msg with
        | .wrapped _ code => decide (code = 7)
        | _ => false
      | _ => false
    | _ => false) = true := by decide +kernel

/-- `char_decode_reader_decoding`, an encoding that does not exist — src/io/test.rs:186-192. -/
example : (match charDecodeReaderForBytes labels [] (asBytes "零壱弐".toList) "UNDEFINED_ENCODING".toList [] with
    | .err e => decide (e.msg = .unknownEncoding "UNDEFINED_ENCODING".toList)
    | _ => false) = true := by decide +kernel

/-- The text cut into chunks of `n` bytes. -/
def cut (n : Nat) : Nat → List Byte → List (List Byte)
  | 0, _ => []
  | fuel + 1, bs => if bs.isEmpty then [] else bs.take n :: cut n fuel (bs.drop n)

/-- Pushing chunks to a decoder and flushing it. -/
def decodes : List (List Byte) → RM (Decoder utf8Decoder) Str
  | [] => Decoder.flush
  | b :: rest => do
    let s ← Decoder.push b
    let more ← decodes rest
    pure (s ++ more)

/-- `assert_restore` — src/io/test.rs:231-255: the bytes of the text in UTF-8, and decoding them in chunks of every length. -/
def restores (text : String) (bytes : List Nat) : Bool :=
  let encoded := asBytes text.toList
  decide (encoded.map (·.toNat) = bytes) && ((List.range bytes.length).map (· + 1)).all fun n =>
    match decodes (cut n encoded.length encoded) (Decoder.new utf8Decoder [] true []) with
    | (.ok s, _) => decide (s = text.toList)
    | _ => false

/-- `decode_expected_encoding_bytes` — src/io/test.rs:195-215. -/
example : restores "hello, world" [104, 101, 108, 108, 111, 44, 32, 119, 111, 114, 108, 100] = true := by decide +kernel
example : restores "あいうえお"
    [0xE3, 0x81, 0x82, 0xE3, 0x81, 0x84, 0xE3, 0x81, 0x86, 0xE3, 0x81, 0x88, 0xE3, 0x81, 0x8A] = true := by decide +kernel

/-- `encoder_encounter_garbled_text` — src/io/test.rs:217-233, with the second character of the UTF-8 text damaged. -/
example : (match (Decoder.push ((asBytes "零壱弐".toList).set 3 0xFF) (Decoder.new utf8Decoder [] true [])).1 with
    | .err e => match e.msg with
      | .garbled .. => decide (e.location.lines = 1)
      | _ => false
    | _ => false) = true := by decide +kernel

/-! ## `unread_buffer` — src/io/test.rs:10-68 -/

/-- The next character of the buffer is this one. -/
def bufReads (c : Char) (b : UnreadBuffer) : Option UnreadBuffer :=
  match b.read 1 with
  | ([d], b) => if c = d then some b else none
  | _ => none

def bufEnd (b : UnreadBuffer) : Option UnreadBuffer :=
  if b.remains then none else match b.read 1 with
    | ([], b) => some b
    | _ => none

def bufAppend (s : String) (b : UnreadBuffer) : Option UnreadBuffer :=
  match b.append s.toList with
  | (.ok (), b) => some b
  | _ => none

def bufMark (b : UnreadBuffer) : Option (Nat × UnreadBuffer) :=
  match b.mark with
  | (.ok m, b) => some (m, b)
  | _ => none

def bufRevert (n m : Nat) (b : UnreadBuffer) : Option UnreadBuffer :=
  match b.revert m with
  | (.ok k, b) => if k = n then some b else none
  | _ => none

def bufRemains (yes : Bool) (b : UnreadBuffer) : Option UnreadBuffer := if b.remains = yes then some b else none

example : ((do
    let b ← bufRemains false (UnreadBuffer.new (Location.new "foo.txt".toList) true)
    let b ← bufAppend "零壱" b
    let b ← bufRemains false b
    let (mark1, b) ← bufMark b
    let b ← bufAppend "弐参" b
    let b ← bufRemains false b
    let b ← bufRevert 2 mark1 b
    let b ← bufRemains true b
    let b ← bufReads '弐' b
    let b ← bufRemains true b
    let b ← bufReads '参' b
    let b ← bufEnd b
    let (mark1, b) ← bufMark b
    let b ← bufAppend "零壱" b
    let (mark2, b) ← bufMark b
    let b ← bufAppend "弐参" b
    let (_, b) ← bufMark b
    let b ← bufAppend "四五" b
    let (mark4, b) ← bufMark b
    let b ← bufRemains false b
    let b ← bufRevert 0 mark4 b
    let b ← bufRemains false b
    let b ← bufRevert 4 mark2 b
    let b ← bufRemains true b
    let b ← bufReads '弐' b
    let b ← bufReads '参' b
    let b ← bufReads '四' b
    let b ← bufReads '五' b
    let b ← bufEnd b
    let b ← bufRevert 6 mark1 b
    let b ← bufRemains true b
    let b ← bufReads '零' b
    let b ← bufReads '壱' b
    let b ← bufReads '弐' b
    let b ← bufReads '参' b
    let b ← bufReads '四' b
    let b ← bufReads '五' b
    bufEnd b).isSome) = true := by decide +kernel

/-! ## src/parser/test/special_sequence.rs -/

def defAt (lines columns : Nat) : Location := ⟨"definition.ebnf".toList, lines, columns⟩
def srcAt (lines columns : Nat) : Location := ⟨"target.txt".toList, lines, columns⟩

/-- A scanner applied to a text: its reaction, and where the reader is afterwards. -/
def scans (s : SpecialScanner) (text : Str) : Res (Reaction × Location) :=
  ((do
    let reaction ← s.scan (defAt 1 1)
    pure (reaction, ← Reader.location)) (Reader.new "target.txt".toList (Source.fromStr text) true)).1

/-- The scanner matches this text and stops at this column. -/
def matched (s : SpecialScanner) (text found : String) (columns : Nat) : Bool :=
  match scans s text.toList with
  | .ok (.match events, l) => decide (events = [.token (defAt 1 1) (srcAt 1 1) found.toList]) && decide (l = srcAt 1 columns)
  | _ => false

/-- The scanner does not match and moves nothing. -/
def unmatched (s : SpecialScanner) (text : String) : Bool :=
  match scans s text.toList with
  | .ok (.unmatch, l) => decide (l = srcAt 1 1)
  | _ => false

/-- `default` — lines 14-23. -/
example : (defaultScanner "default scanner".toList).symbol = "?default scanner?".toList := by decide +kernel
example : (match scans (defaultScanner "default scanner".toList) "\x00".toList with
    | .ok (.match [], _) => true
    | _ => false) = true := by decide +kernel

/-- `hex` — lines 121-123. -/
def hex (c : Char) : Bool := ('0' ≤ c && c ≤ '9') || ('a' ≤ c && c ≤ 'f') || ('A' ≤ c && c ≤ 'F')

/-- `char_scanner` — lines 119-154. -/
example : matched (charsWithMax hex 2) "" "" 1 = true := by decide +kernel
example : matched (charsWithMax hex 2) "a" "a" 2 = true := by decide +kernel
example : matched (charsWithMax hex 2) "aa" "aa" 3 = true := by decide +kernel
example : matched (charsWithMax hex 2) "aaa" "aa" 3 = true := by decide +kernel
example : unmatched (charsWithRange hex 1 2) "" = true := by decide +kernel
example : matched (charsWithRange hex 1 2) "a" "a" 2 = true := by decide +kernel
example : matched (charsWithRange hex 1 2) "aa" "aa" 3 = true := by decide +kernel
example : matched (charsWithRange hex 1 2) "aaa" "aa" 3 = true := by decide +kernel

/-- The regular expression `[あ-お]+`: where the first run of these characters begins and how long it is. -/
def aiueoFrom : Nat → Str → Option (Nat × Nat)
  | _, [] => none
  | i, c :: rest =>
    if 'あ' ≤ c ∧ c ≤ 'お' then some (i, ((c :: rest).takeWhile fun c => 'あ' ≤ c && c ≤ 'お').length) else aiueoFrom (i + 1) rest
def aiueo : SpecialScanner := regexScanner "[あ-お]+".toList (aiueoFrom 0)

/-- `regex_scanner` — lines 60-117. -/
example : aiueo.symbol = "?[あ-お]+?".toList := by decide +kernel
example : matched aiueo "あいうえお" "あいうえお" 6 = true := by decide +kernel
example : matched aiueo "あい卯" "あい" 3 = true := by decide +kernel
example : unmatched aiueo "" = true := by decide +kernel
example : unmatched aiueo "亜いう" = true := by decide +kernel
example : (match scans aiueo (List.replicate 1000 'あ') with
    | .err e => decide (e.msg = .regexTooLong 256)
    | _ => false) = true := by decide +kernel

/-- Reading a grammar, and parsing a text from a rule of it with the scanners of a configuration. -/
def parsesWith (config : Config) (ebnf id text : String) : Res (List Event) := do
  let syntax_ ← Syntax.readFromStr "definition.ebnf".toList ebnf.toList 0 []
  let graph ← Graph.compile syntax_ config
  match ← Machine.new graph id.toList with
  | none => .panic .missing
  | some m => do
    let r ← Reader.forBytes labels "target.txt".toList (asBytes text.toList) "UTF-8".toList [] true
    (m.parse 100 r).1

def parses (config : Config) (ebnf id text : String) (expected : List Event) : Bool :=
  match parsesWith config ebnf id text with
  | .ok events => decide (events = expected)
  | _ => false

-- lines 91-109
example : parses (fun _ _ => aiueo) "SS = ? aiueo ?" "SS" "あいうえお"
    [.begin (defAt 1 1) (srcAt 1 1) "SS".toList, .token (defAt 1 6) (srcAt 1 1) "あいうえお".toList,
      .end (defAt 1 1) (srcAt 1 6) "SS".toList] = true := by decide +kernel

-- lines 111-113
example : (match parsesWith (fun _ _ => aiueo) "SS = ? aiueo ?" "SS" "壱弐参" with
    | .err _ => true
    | _ => false) = true := by decide +kernel

/-- `non_ascii_unicode_characters` — lines 25-58. -/
example : parses (fun _ _ => charsWithZeroOrMore fun c => decide (0x80 ≤ c.toNat)) "SS = '[', ? non-ascii ?, ']'" "SS" "[あいうえお]"
    [.begin (defAt 1 1) (srcAt 1 1) "SS".toList, .token (defAt 1 6) (srcAt 1 1) "[".toList,
      .token (defAt 1 11) (srcAt 1 2) "あいうえお".toList, .token (defAt 1 26) (srcAt 1 7) "]".toList,
      .end (defAt 1 1) (srcAt 1 8) "SS".toList] = true := by decide +kernel

/-- The scanner that sends the parser to another rule — lines 158-173. -/
def forwarder : Config := fun _ label => ⟨'?' :: label ++ ['?'], fun _ => pure (.forward label)⟩

/-- `forward` — lines 156-209. -/
example : parses forwarder "A = 'a'; FA = ?A?; FB = ?B?;" "FA" "a"
    [.begin (defAt 1 10) (srcAt 1 1) "FA".toList, .token (defAt 1 5) (srcAt 1 1) "a".toList,
      .end (defAt 1 10) (srcAt 1 2) "FA".toList] = true := by decide +kernel
example : (match parsesWith forwarder "A = 'a'; FA = ?A?; FB = ?B?;" "FB" "a" with
    | .err e => decide (e.msg = .forwardUndefined "B".toList "?B?".toList (defAt 1 25))
    | _ => false) = true := by decide +kernel

end Ebnf.Conform
