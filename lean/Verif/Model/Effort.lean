import Verif.Model.Lexer

set_option autoImplicit false

/-! # The lexer with its steps counted

The functions of `Model/Tokenizer.lean` and `Model/Lexer.lean` once more; beside its result each returns the number of steps it takes.  A step
of the tokenizer is one character that is looked at, copied or moved; a step of the token parser is one token that is looked at or moved.
What a constant number of operations does beside such a step (comparisons, `Location::push`, a clone of a location, a copy of the text of one token) is
not counted, nor is the wording of an error. -/

namespace Ebnf.Effort

/-- A result with the number of steps it took. -/
def Work (α : Type) : Type := Res α × Nat

namespace Work

variable {α β : Type}

/-- The `?` operator. -/
def bind (x : Work α) (f : α → Work β) : Work β :=
  match x with
  | (.ok a, n) => ((f a).1, n + (f a).2)
  | (.err e, n) => (.err e, n)
  | (.panic p, n) => (.panic p, n)
  | (.diverge, n) => (.diverge, n)

instance : Monad Work where
  pure a := (.ok a, 0)
  bind := bind

/-- Some steps without a result. -/
def steps (n : Nat) : Work Unit := (.ok (), n)

/-- What cannot fail. -/
def of (x : α × Nat) : Work α := (.ok x.1, x.2)

/-- A result after some steps. -/
def after (n : Nat) (x : Res α) : Work α := (x, n)

/-- What takes no step. -/
def free (x : Res α) : Work α := (x, 0)

end Work

open Work

/-! ## The tokenizer -/

/-- The loop of `read_while` — tokenizer/mod.rs:498-501: the number of characters read, and one step for each character looked at. -/
def countWhile (eval : Char → Bool) : Str → Nat × Nat
  | [] => (0, 0)
  | c :: cs => if eval c then ((countWhile eval cs).1 + 1, (countWhile eval cs).2 + 1) else (0, 1)

/-- `read_while` — tokenizer/mod.rs:497-507. -/
def readWhile (rest : Str) (eval : Char → Bool) (flush : Bool) : Option Nat × Nat :=
  (if !flush && (countWhile eval rest).1 == rest.length then none else some (countWhile eval rest).1, (countWhile eval rest).2)

/-- The `while` loop of `terminal_string` / `special_sequence` — tokenizer/mod.rs:384-396, 424-436. -/
def scanQuoted (close : Char) (allowed : Char → Bool) : Str → Except Char Nat × Nat
  | [] => (.ok 0, 0)
  | c :: cs =>
    if c = close then (.ok 0, 1)
    else if !allowed c then (.error c, 1)
    else match scanQuoted close allowed cs with
      | (.ok n, k) => (.ok (n + 1), k + 1)
      | (.error d, k) => (.error d, k + 1)

/-- `terminal_string` — tokenizer/mod.rs:380-416.  The string is copied. -/
def terminalString (loc : Location) (quote : Char) (rest : Str) (flush : Bool) : ReadRes × Nat :=
  match scanQuoted quote isTerminalChar rest with
  | (.error c, k) => (.fail loc (.terminalBadChar c), k)
  | (.ok n, k) =>
    if n == rest.length then (if flush then .fail loc (.terminalNotClosed quote) else .ok none, k)
    else if n == 0 then (.fail loc .terminalEmpty, k)
    else (.ok (some (.terminalString loc (rest.take n) quote, n + 2)), k + n)

/-- `special_sequence` — tokenizer/mod.rs:420-451.  The text is copied. -/
def specialSequence (loc : Location) (rest : Str) (flush : Bool) : ReadRes × Nat :=
  match scanQuoted '?' isSpecialSequenceChar rest with
  | (.error c, k) => (.fail loc (.specialBadChar c), k)
  | (.ok n, k) =>
    if n == rest.length then (if flush then .fail loc .specialNotClosed else .ok none, k)
    else (.ok (some (.specialSequence loc (rest.take n), n + 2)), k + n)

/-- The `loop` of `comment` — tokenizer/mod.rs:464-494. -/
def commentLoop (location : Location) (depth : Nat) (prev : Char) : Str → CommentScan × Nat
  | [] => (.open, 0)
  | c :: cs =>
    let next (depth : Nat) : CommentScan × Nat :=
      match commentLoop (location.push c) depth c cs with
      | (.closed n, k) => (.closed (n + 1), k + 1)
      | (r, k) => (r, k + 1)
    if prev = '*' ∧ c = ')' then
      if depth = 0 then (.closed 0, 1) else next (depth - 1)
    else if prev = '(' ∧ c = '*' then next (depth + 1)
    else if !isGapChar c && !isTerminalChar c then (.bad location c, 1)
    else next depth

/-- `comment` — tokenizer/mod.rs:458-495.  The text is copied. -/
def commentToken (loc : Location) (rest : Str) (flush : Bool) : ReadRes × Nat :=
  match commentLoop (loc.pushStr ['(', '*']) 0 '*' rest with
  | (.open, k) => (if flush then .fail loc .commentNotClosed else .ok none, k)
  | (.closed n, k) => (.ok (some (.comment loc (rest.take (n - 1)), n + 3)), k + (n - 1))
  | (.bad l c, k) => (.fail l (.commentBadChar c), k)

/-- `read_next` — tokenizer/mod.rs:263-376.  One step for the first character, one for the second if it is looked at, and those of the rest of the
token; the text of an identifier, integer or gap is copied. -/
def readNext (loc : Location) (rest : Str) (flush : Bool) : ReadRes × Nat :=
  match rest with
  | [] => (.ok none, 0)
  | c :: cs =>
    if c = ',' then (.ok (some (.concatenateSymbol loc, 1)), 1)
    else if c = '=' then (.ok (some (.definingSymbol loc, 1)), 1)
    else if c = '|' ∨ c = '!' then (.ok (some (.definitionSeparatorSymbol loc c, 1)), 1)
    else if c = ';' ∨ c = '.' then (.ok (some (.terminatorSymbol loc c, 1)), 1)
    else if c = '-' then (.ok (some (.exceptSymbol loc, 1)), 1)
    else if c = ')' then (.ok (some (.endGroupSymbol loc, 1)), 1)
    else if c = '[' then (.ok (some (.startOptionSymbol loc ['['], 1)), 1)
    else if c = ']' then (.ok (some (.endOptionSymbol loc [']'], 1)), 1)
    else if c = '{' then (.ok (some (.startRepeatSymbol loc ['{'], 1)), 1)
    else if c = '}' then (.ok (some (.endRepeatSymbol loc ['}'], 1)), 1)
    else if !flush && cs.isEmpty then (.ok none, 1)
    else if c = '\'' ∨ c = '"' then
      match terminalString loc c cs flush with
      | (r, k) => (r, k + 1)
    else if c = '(' then
      match cs with
      | [] => (.ok (some (.startGroupSymbol loc, 1)), 1)
      | d :: ds =>
        if d = '*' then
          if ds.head? = some ')' then (.fail loc (.ambiguousComment ['(', '*', ')']), 3)
          else match commentToken loc ds flush with
            | (r, k) => (r, k + 2)
        else if d = '/' then (.ok (some (.startOptionSymbol loc ['(', '/'], 2)), 2)
        else if d = ':' then (.ok (some (.startRepeatSymbol loc ['(', ':'], 2)), 2)
        else (.ok (some (.startGroupSymbol loc, 1)), 2)
    else if c = '/' then
      if !flush && cs.head? = some ')' then (.ok (some (.endOptionSymbol loc ['/', ')'], 2)), 2)
      else (.ok (some (.definitionSeparatorSymbol loc '/', 1)), 2)
    else if c = ':' then
      if !flush && cs.head? = some ')' then (.ok (some (.endRepeatSymbol loc [':', ')'], 2)), 2)
      else (.fail loc .colonNotAllowed, 2)
    else if c = '*' then
      if !flush && cs.head? = some ')' then (.fail loc .commentNotOpened, 2)
      else (.ok (some (.repetitionSymbol loc, 1)), 2)
    else if c = '?' then
      match specialSequence loc cs flush with
      | (r, k) => (r, k + 1)
    else if isMetaIdentifierFirstChar c then
      match readWhile cs isMetaIdentifierChar flush with
      | (some n, k) => (.ok (some (.metaIdentifier loc (c :: cs.take n), n + 1)), k + 1 + (n + 1))
      | (none, k) => (.ok none, k + 1)
    else if isDecimalDigitChar c then
      match readWhile cs isDecimalDigitChar flush with
      | (some n, k) => (.ok (some (.integer loc (c :: cs.take n), n + 1)), k + 1 + (n + 1))
      | (none, k) => (.ok none, k + 1)
    else if isGapChar c then
      match readWhile cs isGapChar flush with
      | (some n, k) => (.ok (some (.gapSeparatorSequence loc (c :: cs.take n), n + 1)), k + 1 + (n + 1))
      | (none, k) => (.ok none, k + 1)
    else (.fail loc (.undefinedChar c), 1)

/-- The `while` loop of `tokenize` with `read_next_token` and `move_location` — tokenizer/mod.rs:81-125.  `move_location` looks at the characters
of the token once more. -/
def tokenizeLoop : Nat → Location → Str → (Res (List Token) × Location × Str) × Nat
  | 0, loc, rest => ((if rest.isEmpty then .ok [] else .diverge, loc, rest), 0)
  | fuel + 1, loc, rest =>
    if rest.isEmpty then ((.ok [], loc, rest), 0)
    else match readNext loc rest false with
      | (.ok none, k) => ((.ok [], loc, rest), k)
      | (.ok (some (tk, offset)), k) =>
        match tokenizeLoop fuel (loc.pushStr (rest.take offset)) (rest.drop offset) with
        | ((.ok tks, loc', rest'), m) => ((.ok (tk :: tks), loc', rest'), k + offset + m)
        | (r, m) => (r, k + offset + m)
      | (.err e, k) => ((.err e, loc, rest), k)
      | (.panic p, k) => ((.panic p, loc, rest), k)
      | (.diverge, k) => ((.diverge, loc, rest), k)

/-- `Tokenizer::tokenize` — tokenizer/mod.rs:81-102.  If there is a token, `drain` moves the characters that are left. -/
def tokenize (t : Tokenizer) : (Res (List Token) × Tokenizer) × Nat :=
  match tokenizeLoop t.buffer.length t.location t.buffer with
  | ((.ok tks, loc, rest), k) => ((.ok tks, { t with location := loc, buffer := rest }), k + if tks.isEmpty then 0 else rest.length)
  | ((r, loc, _), k) => ((r, { t with location := loc }), k)

/-- `Tokenizer::push_str` — tokenizer/mod.rs:52-57.  The characters are collected, and appended. -/
def tokenizerPushStr (s : Str) (t : Tokenizer) : (Res (List Token) × Tokenizer) × Nat :=
  match t.ensureCapacity s.length with
  | .ok () =>
    match tokenize { t with buffer := t.buffer ++ s } with
    | (r, k) => (r, 2 * s.length + k)
  | .err e => ((.err e, t), s.length)
  | .panic p => ((.panic p, t), s.length)
  | .diverge => ((.diverge, t), s.length)

/-- `Tokenizer::push` — tokenizer/mod.rs:46-50. -/
def tokenizerPush (ch : Char) (t : Tokenizer) : (Res (List Token) × Tokenizer) × Nat :=
  match t.ensureCapacity 1 with
  | .ok () =>
    match tokenize { t with buffer := t.buffer ++ [ch] } with
    | (r, k) => (r, 1 + k)
  | .err e => ((.err e, t), 0)
  | .panic p => ((.panic p, t), 0)
  | .diverge => ((.diverge, t), 0)

/-- `Tokenizer::flush` — tokenizer/mod.rs:64-79. -/
def tokenizerFlush (t : Tokenizer) : (Res (List Token) × Tokenizer) × Nat :=
  match readNext t.location t.buffer true with
  | (.ok none, k) => ((if t.buffer.isEmpty then .ok [.eof t.location] else .panic .flushNotEmpty, t), k)
  | (.ok (some (tk, offset)), k) =>
    let t' := { t with location := t.location.pushStr (t.buffer.take offset), buffer := t.buffer.drop offset }
    ((if t'.buffer.isEmpty then .ok [tk, .eof t'.location] else .panic .flushNotEmpty, t'), k + offset + t'.buffer.length)
  | (.err e, k) => ((.err e, t), k)
  | (.panic p, k) => ((.panic p, t), k)
  | (.diverge, k) => ((.diverge, t), k)

/-! ## The token parser -/

/-- `skip_comment_or_gap_separator` — lex/mod.rs:612-618: one step for each token looked at. -/
def skipGaps : List Token → List Token × Nat
  | [] => ([], 0)
  | t :: ts => if t.isSkippable then ((skipGaps ts).1, (skipGaps ts).2 + 1) else (t :: ts, 1)

/-- The `while` loop of `read_meta_identifier` — lex/mod.rs:592-608. -/
def readMetaLoop : List Token → Str → Option Location → (Str × Option Location × List Token) × Nat
  | .metaIdentifier l s :: ts, acc, loc =>
    let r := readMetaLoop ts (acc ++ s) (if loc.isNone then some l else loc)
    (r.1, r.2 + 1)
  | .gapSeparatorSequence _ _ :: ts, acc, loc =>
    let r := readMetaLoop ts (if acc.getLast? = some ' ' then acc else acc ++ [' ']) loc
    (r.1, r.2 + 1)
  | [], acc, loc => ((acc, loc, []), 0)
  | ts, acc, loc => ((acc, loc, ts), 1)

/-- `read_meta_identifier` — lex/mod.rs:587-610. -/
def readMetaIdentifier (ts : List Token) : (Str × Option Location × List Token) × Nat :=
  match skipGaps ts with
  | (ts, k) =>
    match readMetaLoop ts [] none with
    | ((s, loc, rest), m) => ((trimSpaces s, loc, rest), k + m)

/-- The `for` loop of `read_enclosed_definition_list` — lex/mod.rs:554-567: one step for each token looked at. -/
def findClose (isOpen isClose : Token → Bool) : Nat → List Token → Option (List Token × List Token) × Nat
  | _, [] => (none, 0)
  | depth, t :: ts =>
    let next (depth : Nat) : Option (List Token × List Token) × Nat :=
      match findClose isOpen isClose depth ts with
      | (r, k) => (r.map fun (i, r) => (t :: i, r), k + 1)
    if isOpen t then next (depth + 1)
    else if isClose t then
      if depth = 0 then (some ([], ts), 1) else next (depth - 1)
    else next depth

section readers

-- The recursive call `read_definition_list(subtokens, 0)` on a sub-slice.
variable (recur : List Token → Work DefinitionList)
-- `lastLocation` of the slice being read.
variable (last : Location)

/-- `read_enclosed_definition_list` — lex/mod.rs:547-576. -/
def readEnclosed (start : Token) (ts : List Token) (isOpen isClose : Token → Bool) : Work (DefinitionList × List Token) :=
  match findClose isOpen isClose 0 ts with
  | (some (inner, rest), k) => do
    steps k
    let list ← recur inner
    pure (list, rest)
  | (none, k) => after k (.fail start.location (.bracketNotClosed start.name (start.debug fun _ => false)))

/-- `read_syntactic_primary` — lex/mod.rs:464-542, at the token that is found: one step for that token, one for the next if it is looked at. -/
def readPrimaryAt : List Token → Work (Primary × List Token)
  | [] => pure (.empty last, [])
  | t :: rest =>
    match t with
    | .startOptionSymbol loc sym =>
      if sym = ['(', '/'] ∧ (rest.head?.map Token.isEndGroupSymbol).getD false then after 2 (.fail loc .ambiguousOption)
      else do
        steps 2
        let (list, next) ← readEnclosed recur t rest Token.isStartOptionSymbol Token.isEndOptionSymbol
        pure (.optional loc list, next)
    | .startRepeatSymbol loc sym =>
      if sym = ['(', ':'] ∧ (rest.head?.map Token.isEndGroupSymbol).getD false then after 2 (.fail loc .ambiguousRepeat)
      else do
        steps 2
        let (list, next) ← readEnclosed recur t rest Token.isStartRepeatSymbol Token.isEndRepeatSymbol
        pure (.repeated loc list, next)
    | .startGroupSymbol loc => do
        steps 1
        let (list, next) ← readEnclosed recur t rest Token.isStartGroupSymbol Token.isEndGroupSymbol
        pure (.grouped loc list, next)
    | .metaIdentifier loc _ => do
        steps 1
        let (name, _, next) ← of (readMetaIdentifier (t :: rest))
        pure (.metaIdentifier loc name, next)
    | .terminalString loc s _ => after 1 (.ok (.terminalString loc s, rest))
    | .specialSequence loc s => after 1 (.ok (.specialSequence loc s, rest))
    | t => after 1 (.ok (.empty t.location, t :: rest))

/-- `read_syntactic_primary` — lex/mod.rs:464-542. -/
def readPrimary (ts : List Token) : Work (Primary × List Token) := do
  let ts ← of (skipGaps ts)
  readPrimaryAt recur last ts

/-- The repetition of `read_syntactic_factor` — lex/mod.rs:428-455: one step for the token found, one for the token after an integer. -/
def readRepetition : List Token → Work (Nat × List Token)
  | .integer loc digits :: rest =>
    match parseU32 digits with
    | none => after 1 (.fail loc (.badRepetition digits))
    | some n => do
      steps 2
      let ts ← of (skipGaps rest)
      match ts with
      | [] => after 0 (.panic .indexOutOfBounds)
      | t :: rest' =>
        if t.isRepetitionSymbol then do
          let ts ← of (skipGaps rest')
          pure (n, ts)
        else after 0 (.fail t.location (.repetitionSymbolExpected t.name))
  | ts => after 1 (.ok (1, ts))

/-- `read_syntactic_factor` — lex/mod.rs:426-462. -/
def readFactor (ts : List Token) : Work (Factor × List Token) := do
  let ts ← of (skipGaps ts)
  let (repetition, ts) ← readRepetition ts
  let (primary, next) ← readPrimary recur last ts
  pure (.mk repetition primary, next)

/-- `read_syntactic_term` — lex/mod.rs:408-424. -/
def readTerm (ts : List Token) : Work (Term × List Token) := do
  let (factor, next) ← readFactor recur last ts
  let ts ← of (skipGaps next)
  steps 1
  match ts with
  | t :: rest =>
    if t.isExceptSymbol then do
      let (exception, next) ← readFactor recur last rest
      pure (.except factor exception, next)
    else pure (.plain factor, t :: rest)
  | [] => pure (.plain factor, [])

/-- `read_single_definition` — lex/mod.rs:384-406.  Fuel bounds the rounds of the loop. -/
def readSingle : Nat → List Token → Work (SingleDefinition × List Token)
  | 0, _ => free .diverge
  | fuel + 1, ts => do
    let (term, next) ← readTerm recur last ts
    let ts ← of (skipGaps next)
    steps 1
    match ts with
    | [] => pure (.cons term .nil, [])
    | .concatenateSymbol _ :: rest => do
      let (more, next) ← readSingle fuel rest
      pure (.cons term more, next)
    | .definitionSeparatorSymbol l c :: rest => pure (.cons term .nil, .definitionSeparatorSymbol l c :: rest)
    | t :: rest =>
      if t.isTerminator then pure (.cons term .nil, t :: rest)
      else free (.fail t.location (.separatorExpected t.name))

/-- The loop of `read_definition_list` — lex/mod.rs:370-380.  Fuel bounds the rounds. -/
def readDefinitions : Nat → List Token → Work DefinitionList
  | 0, _ => free .diverge
  | fuel + 1, ts => do
    let (single, next) ← readSingle recur last (ts.length + 1) ts
    let ts ← of (skipGaps next)
    steps 1
    match ts with
    | [] => pure (.cons single .nil)
    | t :: rest =>
      if t.isTerminator then pure (.cons single .nil)
      else do
        let more ← readDefinitions fuel (match t with | .definitionSeparatorSymbol _ _ => rest | t => t :: rest)
        pure (.cons single more)

end readers

/-- `read_definition_list(tokens, 0)` — lex/mod.rs:367-382.  The first argument bounds the nesting depth of slices. -/
def readDefinitionList : Nat → List Token → Work DefinitionList
  | 0, _ => free .diverge
  | fuel + 1, ts => readDefinitions (readDefinitionList fuel) (lastLocation ts) (ts.length + 1) ts

/-- `build_syntax_rule` — lex/mod.rs:326-365. -/
def buildSyntaxRule (tokens : List Token) : Work (Option SyntaxRule) := do
  let (name, location, next) ← of (readMetaIdentifier tokens)
  let ts ← of (skipGaps next)
  steps 1
  match location, ts with
  | _, [] => free (.panic .indexOutOfBounds)
  | none, t :: _ =>
    if t.isTerminator then pure none
    else free (.fail t.location (.metaIdentifierExpected t.name))
  | some loc, t :: rest =>
    if !t.isDefiningSymbol then free (.fail t.location (.definingExpected t.name))
    else if name.isEmpty then free (.panic .emptyMetaIdentifier)
    else do
      let list ← readDefinitions (readDefinitionList tokens.length) (lastLocation tokens) (rest.length + 1) rest
      pure (some ⟨loc, name, list⟩)

/-! ## The lexer -/

/-- What a call costs: steps of the tokenizer, over characters; tokens moved inside the list of new tokens; and steps of the token parser, over
tokens. -/
structure Effort where
  chars : Nat
  moves : Nat
  tokens : Nat
deriving DecidableEq, Repr

/-- Of two calls. -/
def Effort.add (a b : Effort) : Effort := ⟨a.chars + b.chars, a.moves + b.moves, a.tokens + b.tokens⟩

/-- `Lexer::append` — lex/mod.rs:169-183, on the field `tokens`.  `new_tokens.remove(0)` takes the first token, one step, and moves those after it. -/
def append : List Token → List Token → (Res (List SyntaxRule) × List Token) × Effort
  | tokens, [] => ((.ok [], tokens), ⟨0, 0, 0⟩)
  | tokens, t :: ts =>
    let tokens := tokens ++ [t]
    if t.isTerminator then
      match buildSyntaxRule tokens with
      | (.ok r, k) =>
        match append [] ts with
        | ((.ok rules, tokens'), e) => ((.ok (r.toList ++ rules), tokens'), .add ⟨0, ts.length, 1 + k⟩ e)
        | ((x, tokens'), e) => ((x, tokens'), .add ⟨0, ts.length, 1 + k⟩ e)
      | (.err x, k) => ((.err x, tokens), ⟨0, ts.length, 1 + k⟩)
      | (.panic p, k) => ((.panic p, tokens), ⟨0, ts.length, 1 + k⟩)
      | (.diverge, k) => ((.diverge, tokens), ⟨0, ts.length, 1 + k⟩)
    else
      match append tokens ts with
      | (r, e) => (r, .add ⟨0, ts.length, 1⟩ e)

/-- A tokenizer method, then `append` — the common part of `push`, `push_str`, `flush` (lex/mod.rs:142-162). -/
def feed (m : Tokenizer → (Res (List Token) × Tokenizer) × Nat) (l : Lexer) : (Res (List SyntaxRule) × Lexer) × Effort :=
  match m l.tokenizer with
  | ((.ok tks, tz), k) =>
    match append l.tokens tks with
    | ((r, tokens), e) => ((r, ⟨tz, tokens⟩), .add ⟨k, 0, 0⟩ e)
  | ((.err e, tz), k) => ((.err e, ⟨tz, l.tokens⟩), ⟨k, 0, 0⟩)
  | ((.panic p, tz), k) => ((.panic p, ⟨tz, l.tokens⟩), ⟨k, 0, 0⟩)
  | ((.diverge, tz), k) => ((.diverge, ⟨tz, l.tokens⟩), ⟨k, 0, 0⟩)

/-- `if r.is_empty() { None } else { Some(r.remove(0)) }` — lex/mod.rs:145, 161.  (The rules moved here are not
counted.) -/
def first (x : (Res (List SyntaxRule) × Lexer) × Effort) : (Res (Option SyntaxRule) × Lexer) × Effort :=
  match x with
  | ((.ok r, l), e) => ((.ok r.head?, l), e)
  | ((.err e', l), e) => ((.err e', l), e)
  | ((.panic p, l), e) => ((.panic p, l), e)
  | ((.diverge, l), e) => ((.diverge, l), e)

/-- `Lexer::push` — lex/mod.rs:142-146. -/
def push (ch : Char) (l : Lexer) : (Res (Option SyntaxRule) × Lexer) × Effort := first (feed (tokenizerPush ch) l)

/-- `Lexer::push_str` — lex/mod.rs:153-156. -/
def pushStr (s : Str) (l : Lexer) : (Res (List SyntaxRule) × Lexer) × Effort := feed (tokenizerPushStr s) l

/-- `Lexer::flush` — lex/mod.rs:158-162. -/
def flush (l : Lexer) : (Res (Option SyntaxRule) × Lexer) × Effort := first (feed tokenizerFlush l)

/-- `lex::parse_str` — lex/mod.rs:35-43. -/
def parseStr (name s : Str) : Res (List SyntaxRule) × Effort :=
  match pushStr s (Lexer.new name) with
  | ((.ok rules, l), e) =>
    match flush l with
    | ((.ok rule, _), e') => (.ok (rules ++ rule.toList), e.add e')
    | ((.err x, _), e') => (.err x, e.add e')
    | ((.panic p, _), e') => (.panic p, e.add e')
    | ((.diverge, _), e') => (.diverge, e.add e')
  | ((.err x, _), e) => (.err x, e)
  | ((.panic p, _), e) => (.panic p, e)
  | ((.diverge, _), e) => (.diverge, e)

end Ebnf.Effort
