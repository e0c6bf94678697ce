import Verif.Model.Ident

/-! # The tokenizer — src/lex/tokenizer/mod.rs -/

namespace Ebnf

/-- `enum Token` — src/lex/tokenizer/mod.rs:148-204.  The `&'static str` of the bracket symbols is a
string. -/
inductive Token
  | repetitionSymbol (loc : Location)
  | exceptSymbol (loc : Location)
  | concatenateSymbol (loc : Location)
  | definitionSeparatorSymbol (loc : Location) (c : Char)
  | definingSymbol (loc : Location)
  | terminatorSymbol (loc : Location) (c : Char)
  | startOptionSymbol (loc : Location) (s : Str)
  | endOptionSymbol (loc : Location) (s : Str)
  | startRepeatSymbol (loc : Location) (s : Str)
  | endRepeatSymbol (loc : Location) (s : Str)
  | startGroupSymbol (loc : Location)
  | endGroupSymbol (loc : Location)
  | eof (loc : Location)
  | metaIdentifier (loc : Location) (s : Str)
  | terminalString (loc : Location) (s : Str) (quote : Char)
  | integer (loc : Location) (s : Str)
  | comment (loc : Location) (s : Str)
  | specialSequence (loc : Location) (s : Str)
  | gapSeparatorSequence (loc : Location) (s : Str)
deriving DecidableEq, Repr

/-- `is_letter_char` — tokenizer/mod.rs:207-209. -/
def isLetterChar (ch : Char) : Bool :=
  (decide ('a' ≤ ch) && decide (ch ≤ 'z')) || (decide ('A' ≤ ch) && decide (ch ≤ 'Z'))

/-- `is_decimal_digit_char` — tokenizer/mod.rs:212-214. -/
def isDecimalDigitChar (ch : Char) : Bool := decide ('0' ≤ ch) && decide (ch ≤ '9')

/-- `is_terminal_char` — tokenizer/mod.rs:217-221. -/
def isTerminalChar (ch : Char) : Bool := decide (' ' ≤ ch) && decide (ch < '\x7F')

/-- `is_other_char` — tokenizer/mod.rs:224-227. -/
def isOtherChar (ch : Char) : Bool := " .:!+_%@&#$<>/\\^`~".toList.contains ch

/-- `is_meta_identifier_first_char` — tokenizer/mod.rs:230-232. -/
def isMetaIdentifierFirstChar (ch : Char) : Bool := isLetterChar ch

/-- `is_meta_identifier_char` — tokenizer/mod.rs:235-237. -/
def isMetaIdentifierChar (ch : Char) : Bool := isMetaIdentifierFirstChar ch || isDecimalDigitChar ch

/-- `is_special_sequence_char` — tokenizer/mod.rs:240-242. -/
def isSpecialSequenceChar (ch : Char) : Bool :=
  (isTerminalChar ch && ch != '?') || isOtherChar ch || isGapChar ch

/-- Result type of the reading functions: `Result<Option<(Token, usize)>>`. -/
abbrev ReadRes := Res (Option (Token × Nat))

/-- `read_while` — tokenizer/mod.rs:497-507.  `rest` is `buffer[position..]`; the result is the number
of characters read (the code returns the absolute end position). -/
def readWhile (rest : Str) (eval : Char → Bool) (flush : Bool) : Option Nat :=
  let n := (rest.takeWhile eval).length
  if !flush && n == rest.length then none else some n

/-- The `while` loop of `terminal_string` / `special_sequence` (tokenizer/mod.rs:384-396, 424-436):
advance until the closing character, stop with the offending character when one is not allowed.
`rest` starts after the opening quote; result: number of characters before the closing character or
the end of the buffer. -/
def scanQuoted (close : Char) (allowed : Char → Bool) : Str → Except Char Nat
  | [] => .ok 0
  | c :: cs =>
    if c = close then .ok 0
    else if !allowed c then .error c
    else match scanQuoted close allowed cs with
      | .ok n => .ok (n + 1)
      | .error d => .error d

/-- `terminal_string` — tokenizer/mod.rs:380-416.  `quote :: rest` is `buffer[position..]`. -/
def terminalString (loc : Location) (quote : Char) (rest : Str) (flush : Bool) : ReadRes :=
  match scanQuoted quote isTerminalChar rest with
  | .error c => .fail loc (.terminalBadChar c)
  | .ok n =>
    if n == rest.length then
      if flush then .fail loc (.terminalNotClosed quote) else .ok none
    else if n == 0 then .fail loc .terminalEmpty
    else .ok (some (.terminalString loc (rest.take n) quote, n + 2))

/-- `special_sequence` — tokenizer/mod.rs:420-451.  `'?' :: rest` is `buffer[position..]`. -/
def specialSequence (loc : Location) (rest : Str) (flush : Bool) : ReadRes :=
  match scanQuoted '?' isSpecialSequenceChar rest with
  | .error c => .fail loc (.specialBadChar c)
  | .ok n =>
    if n == rest.length then
      if flush then .fail loc .specialNotClosed else .ok none
    else .ok (some (.specialSequence loc (rest.take n), n + 2))

/-- Outcome of the comment loop. -/
inductive CommentScan
  /-- the buffer ended inside the comment -/
  | open
  /-- closed; number of characters from the start of the loop to the final `)` (exclusive) -/
  | closed (n : Nat)
  /-- a character that is not allowed, with its location -/
  | bad (loc : Location) (c : Char)
deriving DecidableEq, Repr

/-- The `loop` of `comment` — tokenizer/mod.rs:464-494.  `prev` is `buffer[end-1]`, the list is
`buffer[end..]`, `location` the running location, `depth` is `nested_depth`. -/
def commentLoop (location : Location) (depth : Nat) (prev : Char) : Str → CommentScan
  | [] => .open
  | c :: cs =>
    let next (depth : Nat) : CommentScan :=
      match commentLoop (location.push c) depth c cs with
      | .closed n => .closed (n + 1)
      | r => r
    if prev = '*' ∧ c = ')' then
      if depth = 0 then .closed 0 else next (depth - 1)
    else if prev = '(' ∧ c = '*' then next (depth + 1)
    else if !isGapChar c && !isTerminalChar c then .bad location c
    else next depth

/-- `comment` — tokenizer/mod.rs:458-495.  `'(' :: '*' :: rest` is `buffer[position..]`.  The comment
text is `buffer[position+2 .. end-1]`, i.e. without the final `*`. -/
def commentToken (loc : Location) (rest : Str) (flush : Bool) : ReadRes :=
  match commentLoop (loc.pushStr ['(', '*']) 0 '*' rest with
  | .open => if flush then .fail loc .commentNotClosed else .ok none
  | .closed n => .ok (some (.comment loc (rest.take (n - 1)), n + 3))
  | .bad l c => .fail l (.commentBadChar c)

/-- `read_next` — tokenizer/mod.rs:263-376.  `rest` is `buffer[position..]`. -/
def readNext (loc : Location) (rest : Str) (flush : Bool) : ReadRes :=
  match rest with
  | [] => .ok none
  | c :: cs =>
    if c = ',' then .ok (some (.concatenateSymbol loc, 1))
    else if c = '=' then .ok (some (.definingSymbol loc, 1))
    else if c = '|' ∨ c = '!' then .ok (some (.definitionSeparatorSymbol loc c, 1))
    else if c = ';' ∨ c = '.' then .ok (some (.terminatorSymbol loc c, 1))
    else if c = '-' then .ok (some (.exceptSymbol loc, 1))
    else if c = ')' then .ok (some (.endGroupSymbol loc, 1))
    else if c = '[' then .ok (some (.startOptionSymbol loc ['['], 1))
    else if c = ']' then .ok (some (.endOptionSymbol loc [']'], 1))
    else if c = '{' then .ok (some (.startRepeatSymbol loc ['{'], 1))
    else if c = '}' then .ok (some (.endRepeatSymbol loc ['}'], 1))
    else if !flush && cs.isEmpty then .ok none
    else if c = '\'' ∨ c = '"' then terminalString loc c cs flush
    else if c = '(' then
      match cs with
      | [] => .ok (some (.startGroupSymbol loc, 1))
      | d :: ds =>
        if d = '*' then
          if ds.head? = some ')' then .fail loc (.ambiguousComment ['(', '*', ')'])
          else commentToken loc ds flush
        else if d = '/' then .ok (some (.startOptionSymbol loc ['(', '/'], 2))
        else if d = ':' then .ok (some (.startRepeatSymbol loc ['(', ':'], 2))
        else .ok (some (.startGroupSymbol loc, 1))
    else if c = '/' then
      if !flush && cs.head? = some ')' then .ok (some (.endOptionSymbol loc ['/', ')'], 2))
      else .ok (some (.definitionSeparatorSymbol loc '/', 1))
    else if c = ':' then
      if !flush && cs.head? = some ')' then .ok (some (.endRepeatSymbol loc [':', ')'], 2))
      else .fail loc .colonNotAllowed
    else if c = '*' then
      if !flush && cs.head? = some ')' then .fail loc .commentNotOpened
      else .ok (some (.repetitionSymbol loc, 1))
    else if c = '?' then specialSequence loc cs flush
    else if isMetaIdentifierFirstChar c then
      .ok ((readWhile cs isMetaIdentifierChar flush).map fun n =>
        (.metaIdentifier loc (c :: cs.take n), n + 1))
    else if isDecimalDigitChar c then
      .ok ((readWhile cs isDecimalDigitChar flush).map fun n =>
        (.integer loc (c :: cs.take n), n + 1))
    else if isGapChar c then
      .ok ((readWhile cs isGapChar flush).map fun n =>
        (.gapSeparatorSequence loc (c :: cs.take n), n + 1))
    else .fail loc (.undefinedChar c)

/-- `struct Tokenizer` — tokenizer/mod.rs:11-20. -/
structure Tokenizer where
  maxBufferSize : Nat
  buffer : Str
  location : Location
deriving DecidableEq, Repr

namespace Tokenizer

/-- `Tokenizer::with_capacity` — tokenizer/mod.rs:27-38.  The initial allocation is dropped;
it is in `Model/Capacity.lean`, with the panic when it is too large. -/
def withCapacity (name : Str) (maxBufferSize : Nat) : Tokenizer :=
  ⟨maxBufferSize, [], Location.new name⟩

/-- `Tokenizer::new` — tokenizer/mod.rs:23-25. -/
def new (name : Str) : Tokenizer := withCapacity name 0

/-- `Tokenizer::reset` — tokenizer/mod.rs:41-44. -/
def reset (t : Tokenizer) : Tokenizer := { t with buffer := [], location := t.location.reset }

/-- `Tokenizer::ensure_capacity` — tokenizer/mod.rs:127-139. -/
def ensureCapacity (t : Tokenizer) (additive : Nat) : Res Unit :=
  if t.maxBufferSize > 0 ∧ t.buffer.length + additive > t.maxBufferSize then
    .fail t.location (.tooLong t.buffer.length additive t.maxBufferSize)
  else .ok ()

/-- The `while` loop of `tokenize` with `read_next_token` and `move_location` inlined —
tokenizer/mod.rs:81-125.  `rest` is `buffer[position..]`.  Result: the outcome, the running location
and the characters not consumed.  Fuel bounds the number of rounds. -/
def tokenizeLoop : Nat → Location → Str → Res (List Token) × Location × Str
  | 0, loc, rest => (if rest.isEmpty then .ok [] else .diverge, loc, rest)
  | fuel + 1, loc, rest =>
    if rest.isEmpty then (.ok [], loc, rest)
    else match readNext loc rest false with
      | .ok none => (.ok [], loc, rest)
      | .ok (some (tk, offset)) =>
        match tokenizeLoop fuel (loc.pushStr (rest.take offset)) (rest.drop offset) with
        | (.ok tks, loc', rest') => (.ok (tk :: tks), loc', rest')
        | r => r
      | .err e => (.err e, loc, rest)
      | .panic p => (.panic p, loc, rest)
      | .diverge => (.diverge, loc, rest)

/-- `Tokenizer::tokenize` — tokenizer/mod.rs:81-102.  On an error the buffer is not drained, but the
location has been advanced over the tokens read. -/
def tokenize : RM Tokenizer (List Token) := fun t =>
  match tokenizeLoop t.buffer.length t.location t.buffer with
  | (.ok tks, loc, rest) => (.ok tks, { t with location := loc, buffer := rest })
  | (r, loc, _) => (r, { t with location := loc })

/-- `Tokenizer::push_str` — tokenizer/mod.rs:52-57. -/
def pushStr (s : Str) : RM Tokenizer (List Token) := fun t =>
  match t.ensureCapacity s.length with
  | .ok () => tokenize { t with buffer := t.buffer ++ s }
  | .err e => (.err e, t)
  | .panic p => (.panic p, t)
  | .diverge => (.diverge, t)

/-- `Tokenizer::push` — tokenizer/mod.rs:46-50. -/
def push (ch : Char) : RM Tokenizer (List Token) := fun t =>
  match t.ensureCapacity 1 with
  | .ok () => tokenize { t with buffer := t.buffer ++ [ch] }
  | .err e => (.err e, t)
  | .panic p => (.panic p, t)
  | .diverge => (.diverge, t)

/-- `Tokenizer::flush` — tokenizer/mod.rs:64-79. -/
def flush : RM Tokenizer (List Token) := fun t =>
  match readNext t.location t.buffer true with
  | .ok none =>
    if t.buffer.isEmpty then (.ok [.eof t.location], t) else (.panic .flushNotEmpty, t)
  | .ok (some (tk, offset)) =>
    let t' := { t with location := t.location.pushStr (t.buffer.take offset),
                       buffer := t.buffer.drop offset }
    if t'.buffer.isEmpty then (.ok [tk, .eof t'.location], t') else (.panic .flushNotEmpty, t')
  | .err e => (.err e, t)
  | .panic p => (.panic p, t)
  | .diverge => (.diverge, t)

end Tokenizer

end Ebnf
