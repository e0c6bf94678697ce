import Verif.Model.Words
import Verif.Model.Lexer

set_option autoImplicit false

/-! # The lexer with the integers of the code — src/lex/tokenizer/mod.rs, src/lex/mod.rs

Elsewhere in the model the lexer counts with natural numbers.  Here lines and columns are `u64`, and the two counters of nested brackets
are `i32` — `nested_depth` of `comment` and `depth` of `read_enclosed_definition_list`, whose types are not written in the code, so that they are
`i32`, the default.  `checks` says whether overflow checks are on: an operation that leaves the range then panics; otherwise it wraps around.
Functions without arithmetic of this kind are those of the other model. -/

namespace Ebnf.WordLex

/-- `i32::MAX` -/
abbrev i32Max : Int := 2147483647
/-- `i32::MIN` -/
abbrev i32Min : Int := -2147483648

/-- `d += 1` on `i32` — tokenizer/mod.rs:482, lex/mod.rs:557. -/
def inc (checks : Bool) (d : Int) : Res Int :=
  if d < i32Max then .ok (d + 1) else if checks then .panic .overflow else .ok i32Min

/-- `d -= 1` on `i32` — tokenizer/mod.rs:480, lex/mod.rs:564. -/
def dec (checks : Bool) (d : Int) : Res Int :=
  if d > i32Min then .ok (d - 1) else if checks then .panic .underflow else .ok i32Max

/-- One more character in the comment. -/
def oneMore : CommentScan → CommentScan
  | .closed n => .closed (n + 1)
  | r => r

/-- The `loop` of `comment` — tokenizer/mod.rs:464-494; see `Ebnf.commentLoop`. -/
def commentLoop (checks : Bool) (location : Location) (depth : Int) (prev : Char) : Str → Res CommentScan
  | [] => .ok .open
  | c :: cs =>
    let next (depth : Int) : Res CommentScan := do
      let location ← Word.push checks location c
      let r ← commentLoop checks location depth c cs
      pure (oneMore r)
    if prev = '*' ∧ c = ')' then
      if depth = 0 then .ok (.closed 0)
      else do
        let depth ← dec checks depth
        next depth
    else if prev = '(' ∧ c = '*' then do
      let depth ← inc checks depth
      next depth
    else if !isGapChar c && !isTerminalChar c then .ok (.bad location c)
    else next depth

/-- `comment` — tokenizer/mod.rs:458-495; see `Ebnf.commentToken`. -/
def commentToken (checks : Bool) (loc : Location) (rest : Str) (flush : Bool) : ReadRes := do
  let location ← Word.pushStr checks loc ['(', '*']
  match ← commentLoop checks location 0 '*' rest with
  | .open => if flush then .fail loc .commentNotClosed else .ok none
  | .closed n => .ok (some (.comment loc (rest.take (n - 1)), n + 3))
  | .bad l c => .fail l (.commentBadChar c)

/-- `read_next` — tokenizer/mod.rs:263-376: only a comment needs arithmetic. -/
def readNext (checks : Bool) (loc : Location) (rest : Str) (flush : Bool) : ReadRes :=
  match rest with
  | '(' :: '*' :: ds =>
    if ds.head? = some ')' then .fail loc (.ambiguousComment ['(', '*', ')'])
    else commentToken checks loc ds flush
  | rest => Ebnf.readNext loc rest flush

/-- `read_next_token` — tokenizer/mod.rs:104-125, with `move_location`: the token, the location behind it and the characters behind it.
Where `move_location` panics, the location is left in between; the model leaves it as it was. -/
def readToken (checks : Bool) (loc : Location) (rest : Str) (flush : Bool) : Res (Option (Token × Location × Str)) := do
  match ← readNext checks loc rest flush with
  | none => pure none
  | some (tk, offset) =>
    let loc ← Word.pushStr checks loc (rest.take offset)
    pure (some (tk, loc, rest.drop offset))

/-- The `while` loop of `tokenize` — tokenizer/mod.rs:84-95; see `Ebnf.Tokenizer.tokenizeLoop`. -/
def tokenizeLoop (checks : Bool) : Nat → Location → Str → Res (List Token) × Location × Str
  | 0, loc, rest => (if rest.isEmpty then .ok [] else .diverge, loc, rest)
  | fuel + 1, loc, rest =>
    if rest.isEmpty then (.ok [], loc, rest)
    else match readToken checks loc rest false with
      | .ok none => (.ok [], loc, rest)
      | .ok (some (tk, loc, rest)) =>
        match tokenizeLoop checks fuel loc rest with
        | (.ok tks, loc', rest') => (.ok (tk :: tks), loc', rest')
        | r => r
      | .err e => (.err e, loc, rest)
      | .panic p => (.panic p, loc, rest)
      | .diverge => (.diverge, loc, rest)

/-- `Tokenizer::tokenize` — tokenizer/mod.rs:81-102. -/
def tokenize (checks : Bool) : RM Tokenizer (List Token) := fun t =>
  match tokenizeLoop checks t.buffer.length t.location t.buffer with
  | (.ok tks, loc, rest) => (.ok tks, { t with location := loc, buffer := rest })
  | (r, loc, _) => (r, { t with location := loc })

/-- `Tokenizer::push_str` — tokenizer/mod.rs:52-57; `Tokenizer::push` — tokenizer/mod.rs:46-50 — is the same with one character. -/
def tokenizerPush (checks : Bool) (s : Str) : RM Tokenizer (List Token) := fun t =>
  match t.ensureCapacity s.length with
  | .ok () => tokenize checks { t with buffer := t.buffer ++ s }
  | .err e => (.err e, t)
  | .panic p => (.panic p, t)
  | .diverge => (.diverge, t)

/-- `Tokenizer::flush` — tokenizer/mod.rs:64-79. -/
def tokenizerFlush (checks : Bool) : RM Tokenizer (List Token) := fun t =>
  match readToken checks t.location t.buffer true with
  | .ok none => if t.buffer.isEmpty then (.ok [.eof t.location], t) else (.panic .flushNotEmpty, t)
  | .ok (some (tk, loc, rest)) =>
    let t' := { t with location := loc, buffer := rest }
    if t'.buffer.isEmpty then (.ok [tk, .eof t'.location], t') else (.panic .flushNotEmpty, t')
  | .err e => (.err e, t)
  | .panic p => (.panic p, t)
  | .diverge => (.diverge, t)

/-- The `for` loop of `read_enclosed_definition_list` — lex/mod.rs:554-567; see `Ebnf.findClose`. -/
def findClose (checks : Bool) (isOpen isClose : Token → Bool) : Int → List Token → Res (Option (List Token × List Token))
  | _, [] => .ok none
  | depth, t :: ts =>
    let next (depth : Int) : Res (Option (List Token × List Token)) := do
      let r ← findClose checks isOpen isClose depth ts
      pure (r.map fun (i, r) => (t :: i, r))
    if isOpen t then do
      let depth ← inc checks depth
      next depth
    else if isClose t then
      if depth = 0 then .ok (some ([], ts))
      else do
        let depth ← dec checks depth
        next depth
    else next depth

section readers

-- Whether overflow is checked.
variable (checks : Bool)
-- The recursive call `read_definition_list(subtokens, 0)` on a sub-slice.
variable (recur : List Token → Res DefinitionList)
-- `lastLocation` of the slice being read.
variable (last : Location)

/-- `read_enclosed_definition_list` — lex/mod.rs:547-576; see `Ebnf.readEnclosed`. -/
def readEnclosed (start : Token) (ts : List Token) (isOpen isClose : Token → Bool) : Res (DefinitionList × List Token) := do
  match ← findClose checks isOpen isClose 0 ts with
  | some (inner, rest) =>
    let list ← recur inner
    pure (list, rest)
  | none => .fail start.location (.bracketNotClosed start.name (start.debug fun _ => false))

/-- `read_syntactic_primary` — lex/mod.rs:464-542. -/
def readPrimary (ts : List Token) : Res (Primary × List Token) :=
  match skipGaps ts with
  | [] => .ok (.empty last, [])
  | t :: rest =>
    match t with
    | .startOptionSymbol loc sym =>
      if sym = ['(', '/'] ∧ (rest.head?.map Token.isEndGroupSymbol).getD false then
        .fail loc .ambiguousOption
      else do
        let (list, next) ← readEnclosed checks recur t rest Token.isStartOptionSymbol Token.isEndOptionSymbol
        pure (.optional loc list, next)
    | .startRepeatSymbol loc sym =>
      if sym = ['(', ':'] ∧ (rest.head?.map Token.isEndGroupSymbol).getD false then
        .fail loc .ambiguousRepeat
      else do
        let (list, next) ← readEnclosed checks recur t rest Token.isStartRepeatSymbol Token.isEndRepeatSymbol
        pure (.repeated loc list, next)
    | .startGroupSymbol loc => do
        let (list, next) ← readEnclosed checks recur t rest Token.isStartGroupSymbol Token.isEndGroupSymbol
        pure (.grouped loc list, next)
    | .metaIdentifier loc _ =>
      let (name, _, next) := readMetaIdentifier (t :: rest)
      .ok (.metaIdentifier loc name, next)
    | .terminalString loc s _ => .ok (.terminalString loc s, rest)
    | .specialSequence loc s => .ok (.specialSequence loc s, rest)
    | t => .ok (.empty t.location, t :: rest)

/-- `read_syntactic_factor` — lex/mod.rs:426-462. -/
def readFactor (ts : List Token) : Res (Factor × List Token) := do
  let ts := skipGaps ts
  let (repetition, ts) ←
    match ts with
    | .integer loc digits :: rest =>
      match parseU32 digits with
      | none => .fail loc (.badRepetition digits)
      | some n =>
        match skipGaps rest with
        | [] => .panic .indexOutOfBounds
        | t :: rest' =>
          if t.isRepetitionSymbol then .ok (n, skipGaps rest')
          else .fail t.location (.repetitionSymbolExpected t.name)
    | ts => .ok (1, ts)
  let (primary, next) ← readPrimary checks recur last ts
  pure (.mk repetition primary, next)

/-- `read_syntactic_term` — lex/mod.rs:408-424. -/
def readTerm (ts : List Token) : Res (Term × List Token) := do
  let (factor, next) ← readFactor checks recur last ts
  match skipGaps next with
  | t :: rest =>
    if t.isExceptSymbol then do
      let (exception, next) ← readFactor checks recur last rest
      pure (.except factor exception, next)
    else pure (.plain factor, t :: rest)
  | [] => pure (.plain factor, [])

/-- `read_single_definition` — lex/mod.rs:384-406. -/
def readSingle : Nat → List Token → Res (SingleDefinition × List Token)
  | 0, _ => .diverge
  | fuel + 1, ts => do
    let (term, next) ← readTerm checks recur last ts
    match skipGaps next with
    | [] => pure (.cons term .nil, [])
    | .concatenateSymbol _ :: rest => do
      let (more, next) ← readSingle fuel rest
      pure (.cons term more, next)
    | .definitionSeparatorSymbol l c :: rest =>
      pure (.cons term .nil, .definitionSeparatorSymbol l c :: rest)
    | t :: rest =>
      if t.isTerminator then pure (.cons term .nil, t :: rest)
      else .fail t.location (.separatorExpected t.name)

/-- The loop of `read_definition_list` — lex/mod.rs:370-380. -/
def readDefinitions : Nat → List Token → Res DefinitionList
  | 0, _ => .diverge
  | fuel + 1, ts => do
    let (single, next) ← readSingle checks recur last (ts.length + 1) ts
    match skipGaps next with
    | [] => pure (.cons single .nil)
    | t :: rest =>
      if t.isTerminator then pure (.cons single .nil)
      else do
        let more ← readDefinitions fuel
          (match t with | .definitionSeparatorSymbol _ _ => rest | t => t :: rest)
        pure (.cons single more)

end readers

/-- `read_definition_list(tokens, 0)` — lex/mod.rs:367-382. -/
def readDefinitionList (checks : Bool) : Nat → List Token → Res DefinitionList
  | 0, _ => .diverge
  | fuel + 1, ts => readDefinitions checks (readDefinitionList checks fuel) (lastLocation ts) (ts.length + 1) ts

/-- `build_syntax_rule` — lex/mod.rs:326-365. -/
def buildSyntaxRule (checks : Bool) (tokens : List Token) : Res (Option SyntaxRule) :=
  let (name, location, next) := readMetaIdentifier tokens
  match location, skipGaps next with
  | _, [] => .panic .indexOutOfBounds
  | none, t :: _ =>
    if t.isTerminator then .ok none
    else .fail t.location (.metaIdentifierExpected t.name)
  | some loc, t :: rest =>
    if !t.isDefiningSymbol then .fail t.location (.definingExpected t.name)
    else if name.isEmpty then .panic .emptyMetaIdentifier
    else do
      let list ← readDefinitions checks (readDefinitionList checks tokens.length) (lastLocation tokens) (rest.length + 1) rest
      pure (some ⟨loc, name, list⟩)

/-- `Lexer::append` — lex/mod.rs:169-183. -/
def append (checks : Bool) : List Token → List Token → Res (List SyntaxRule) × List Token
  | tokens, [] => (.ok [], tokens)
  | tokens, t :: ts =>
    let tokens := tokens ++ [t]
    if t.isTerminator then
      match buildSyntaxRule checks tokens with
      | .ok r =>
        match append checks [] ts with
        | (.ok rules, tokens') => (.ok (r.toList ++ rules), tokens')
        | (e, tokens') => (e, tokens')
      | .err e => (.err e, tokens)
      | .panic p => (.panic p, tokens)
      | .diverge => (.diverge, tokens)
    else append checks tokens ts

/-- See `Lexer.feed`. -/
def feed (checks : Bool) (m : RM Tokenizer (List Token)) : RM Lexer (List SyntaxRule) := fun l =>
  match m l.tokenizer with
  | (.ok tks, tz) =>
    match append checks l.tokens tks with
    | (r, tokens) => (r, ⟨tz, tokens⟩)
  | (.err e, tz) => (.err e, ⟨tz, l.tokens⟩)
  | (.panic p, tz) => (.panic p, ⟨tz, l.tokens⟩)
  | (.diverge, tz) => (.diverge, ⟨tz, l.tokens⟩)

/-- `Lexer::push` — lex/mod.rs:142-146. -/
def push (checks : Bool) (ch : Char) : RM Lexer (Option SyntaxRule) := Lexer.first (feed checks (tokenizerPush checks [ch]))

/-- `Lexer::push_str` — lex/mod.rs:153-156. -/
def pushStr (checks : Bool) (s : Str) : RM Lexer (List SyntaxRule) := feed checks (tokenizerPush checks s)

/-- `Lexer::flush` — lex/mod.rs:158-162. -/
def flush (checks : Bool) : RM Lexer (Option SyntaxRule) := Lexer.first (feed checks (tokenizerFlush checks))

/-- `lex::parse_str` — lex/mod.rs:35-43. -/
def parseStr (checks : Bool) (name s : Str) : Res (List SyntaxRule) :=
  ((do
    let rules ← pushStr checks s
    let rule ← flush checks
    pure (rules ++ rule.toList)) (Lexer.new name)).1

end Ebnf.WordLex
