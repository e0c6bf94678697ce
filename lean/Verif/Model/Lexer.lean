import Verif.Model.Ast
import Verif.Model.Escape

/-! # The token parser and the streaming lexer — src/lex/mod.rs -/

namespace Ebnf

namespace Token

/-- `Token::info().0` / `Token::location` — lex/mod.rs:621-652. -/
def location : Token → Location
  | repetitionSymbol l | exceptSymbol l | concatenateSymbol l | definitionSeparatorSymbol l _
  | definingSymbol l | terminatorSymbol l _ | startOptionSymbol l _ | endOptionSymbol l _
  | startRepeatSymbol l _ | endRepeatSymbol l _ | startGroupSymbol l | endGroupSymbol l | eof l
  | metaIdentifier l _ | terminalString l _ _ | integer l _ | comment l _ | specialSequence l _
  | gapSeparatorSequence l _ => l

/-- `Token::info().1` / `Token::name` — lex/mod.rs:624-652. -/
def name : Token → TokenName
  | repetitionSymbol _ => .repetition
  | exceptSymbol _ => .except
  | concatenateSymbol _ => .concatenate
  | definitionSeparatorSymbol _ _ => .definitionSeparator
  | definingSymbol _ => .defining
  | terminatorSymbol _ _ => .terminator
  | startOptionSymbol _ _ => .startOption
  | endOptionSymbol _ _ => .endOption
  | startRepeatSymbol _ _ => .startRepeat
  | endRepeatSymbol _ _ => .endRepeat
  | startGroupSymbol _ => .startGroup
  | endGroupSymbol _ => .endGroup
  | eof _ => .eof
  | metaIdentifier _ _ => .metaIdentifier
  | terminalString _ _ _ => .terminalString
  | integer _ _ => .integer
  | comment _ _ => .comment
  | specialSequence _ _ => .specialSequence
  | gapSeparatorSequence _ _ => .gapSeparator

/-- `Token::info().2` / `Token::debug` — lex/mod.rs:627-652.  `hidden` is the table `{:?}` uses. -/
def debug (hidden : Char → Bool) : Token → Str
  | repetitionSymbol _ => ['*']
  | exceptSymbol _ => ['-']
  | concatenateSymbol _ => [',']
  | definitionSeparatorSymbol _ c => debugChar hidden c
  | definingSymbol _ => ['=']
  | terminatorSymbol _ c => [c]
  | startOptionSymbol _ s | endOptionSymbol _ s | startRepeatSymbol _ s | endRepeatSymbol _ s => s
  | startGroupSymbol _ => ['(']
  | endGroupSymbol _ => [')']
  | metaIdentifier _ s | terminalString _ s _ | integer _ s => s
  | comment _ s => ['(', '*'] ++ s ++ ['*', ')']
  | specialSequence _ s => s
  | gapSeparatorSequence _ s => debugText hidden s
  | eof _ => []

/-- lex/mod.rs:653-658 -/
def isDefiningSymbol : Token → Bool | definingSymbol _ => true | _ => false
/-- lex/mod.rs:659-665 -/
def isRepetitionSymbol : Token → Bool | repetitionSymbol _ => true | _ => false
/-- lex/mod.rs:666-672 -/
def isExceptSymbol : Token → Bool | exceptSymbol _ => true | _ => false
/-- lex/mod.rs:673-679 -/
def isStartOptionSymbol : Token → Bool | startOptionSymbol _ _ => true | _ => false
/-- lex/mod.rs:680-686 -/
def isEndOptionSymbol : Token → Bool | endOptionSymbol _ _ => true | _ => false
/-- lex/mod.rs:687-693 -/
def isStartRepeatSymbol : Token → Bool | startRepeatSymbol _ _ => true | _ => false
/-- lex/mod.rs:694-700 -/
def isEndRepeatSymbol : Token → Bool | endRepeatSymbol _ _ => true | _ => false
/-- lex/mod.rs:701-707 -/
def isStartGroupSymbol : Token → Bool | startGroupSymbol _ => true | _ => false
/-- lex/mod.rs:708-714 -/
def isEndGroupSymbol : Token → Bool | endGroupSymbol _ => true | _ => false
/-- lex/mod.rs:715-720 -/
def isGapSeparatorSequence : Token → Bool | gapSeparatorSequence _ _ => true | _ => false
/-- lex/mod.rs:721-727 -/
def isTerminator : Token → Bool | terminatorSymbol _ _ => true | eof _ => true | _ => false
/-- lex/mod.rs:728-733 -/
def isComment : Token → Bool | comment _ _ => true | _ => false

/-- The condition of the loop in `skip_comment_or_gap_separator` — lex/mod.rs:614. -/
def isSkippable (t : Token) : Bool := t.isGapSeparatorSequence || t.isComment

end Token

/-- `skip_comment_or_gap_separator` — lex/mod.rs:612-618, on the suffix `tokens[position..]`. -/
def skipGaps (ts : List Token) : List Token := ts.dropWhile Token.isSkippable

/-- `str::trim` — lex/mod.rs:609.  The trimmed string contains only identifier characters and `' '`,
so stripping spaces is all that `trim` can do. -/
def trimSpaces (s : Str) : Str :=
  ((s.dropWhile (· == ' ')).reverse.dropWhile (· == ' ')).reverse

/-- The `while` loop of `read_meta_identifier` — lex/mod.rs:592-608. -/
def readMetaLoop : List Token → Str → Option Location → Str × Option Location × List Token
  | .metaIdentifier l s :: ts, acc, loc => readMetaLoop ts (acc ++ s) (if loc.isNone then some l else loc)
  | .gapSeparatorSequence _ _ :: ts, acc, loc =>
    readMetaLoop ts (if acc.getLast? = some ' ' then acc else acc ++ [' ']) loc
  | ts, acc, loc => (acc, loc, ts)

/-- `read_meta_identifier` — lex/mod.rs:587-610. -/
def readMetaIdentifier (ts : List Token) : Str × Option Location × List Token :=
  let (s, loc, rest) := readMetaLoop (skipGaps ts) [] none
  (trimSpaces s, loc, rest)

/-- Value of a digit character. -/
def digitVal (c : Char) : Nat := c.toNat - '0'.toNat

/-- `str::parse::<u32>` on the text of an integer token — lex/mod.rs:431: `none` stands for the error
(empty, not a number, or not below `2^32`).  A leading `+`, which Rust accepts, cannot occur in an
integer token. -/
def parseU32 (s : Str) : Option Nat :=
  if s.isEmpty || !s.all isDecimalDigitChar then none
  else
    let v := s.foldl (fun a c => a * 10 + digitVal c) 0
    if v < 4294967296 then some v else none

/-- The `for` loop of `read_enclosed_definition_list` — lex/mod.rs:554-567: find the closing symbol by
counting symbols of the same kind.  Result: the tokens in between and the tokens after the closing
symbol. -/
def findClose (isOpen isClose : Token → Bool) : Nat → List Token → Option (List Token × List Token)
  | _, [] => none
  | depth, t :: ts =>
    if isOpen t then
      (findClose isOpen isClose (depth + 1) ts).map fun (i, r) => (t :: i, r)
    else if isClose t then
      if depth = 0 then some ([], ts)
      else (findClose isOpen isClose (depth - 1) ts).map fun (i, r) => (t :: i, r)
    else (findClose isOpen isClose depth ts).map fun (i, r) => (t :: i, r)

/-- Location used for an empty sequence at the end of a slice: `tokens.last()` or `<unknown>` —
lex/mod.rs:467-471. -/
def lastLocation (ts : List Token) : Location :=
  match ts.getLast? with
  | some t => t.location
  | none => Location.new "<unknown>".toList

section readers

-- The recursive call `read_definition_list(subtokens, 0)` on a sub-slice.
variable (recur : List Token → Res DefinitionList)
-- `lastLocation` of the slice being read.
variable (last : Location)

/-- `read_enclosed_definition_list` — lex/mod.rs:547-576.  `start` is `tokens[position]`, an opening
bracket, so that `{:?}` is not used in `Token::debug`; `ts` is `tokens[position+1..]`. -/
def readEnclosed (start : Token) (ts : List Token) (isOpen isClose : Token → Bool) :
    Res (DefinitionList × List Token) :=
  match findClose isOpen isClose 0 ts with
  | some (inner, rest) => do
    let list ← recur inner
    pure (list, rest)
  | none => .fail start.location (.bracketNotClosed start.name (start.debug fun _ => false))

/-- `read_syntactic_primary` — lex/mod.rs:464-542. -/
def readPrimary (ts : List Token) : Res (Primary × List Token) :=
  match skipGaps ts with
  | [] => .ok (.empty last, [])
  | t :: rest =>
    match t with
    | .startOptionSymbol loc sym =>
      if sym = ['(', '/'] ∧ (rest.head?.map Token.isEndGroupSymbol).getD false then
        .fail loc .ambiguousOption
      else do
        let (list, next) ← readEnclosed recur t rest Token.isStartOptionSymbol Token.isEndOptionSymbol
        pure (.optional loc list, next)
    | .startRepeatSymbol loc sym =>
      if sym = ['(', ':'] ∧ (rest.head?.map Token.isEndGroupSymbol).getD false then
        .fail loc .ambiguousRepeat
      else do
        let (list, next) ← readEnclosed recur t rest Token.isStartRepeatSymbol Token.isEndRepeatSymbol
        pure (.repeated loc list, next)
    | .startGroupSymbol loc => do
        let (list, next) ← readEnclosed recur t rest Token.isStartGroupSymbol Token.isEndGroupSymbol
        pure (.grouped loc list, next)
    | .metaIdentifier loc _ =>
      let (name, _, next) := readMetaIdentifier (t :: rest)
      .ok (.metaIdentifier loc name, next)
    | .terminalString loc s _ => .ok (.terminalString loc s, rest)
    | .specialSequence loc s => .ok (.specialSequence loc s, rest)
    | t => .ok (.empty t.location, t :: rest)

/-- `read_syntactic_factor` — lex/mod.rs:426-462.  The index `tokens[i]` at line 444 is out of bounds
when nothing follows the integer: a panic. -/
def readFactor (ts : List Token) : Res (Factor × List Token) := do
  let ts := skipGaps ts
  let (repetition, ts) ←
    match ts with
    | .integer loc digits :: rest =>
      match parseU32 digits with
      | none => .fail loc (.badRepetition digits)
      | some n =>
        match skipGaps rest with
        | [] => .panic .indexOutOfBounds
        | t :: rest' =>
          if t.isRepetitionSymbol then .ok (n, skipGaps rest')
          else .fail t.location (.repetitionSymbolExpected t.name)
    | ts => .ok (1, ts)
  let (primary, next) ← readPrimary recur last ts
  pure (.mk repetition primary, next)

/-- `read_syntactic_term` — lex/mod.rs:408-424. -/
def readTerm (ts : List Token) : Res (Term × List Token) := do
  let (factor, next) ← readFactor recur last ts
  match skipGaps next with
  | t :: rest =>
    if t.isExceptSymbol then do
      let (exception, next) ← readFactor recur last rest
      pure (.except factor exception, next)
    else pure (.plain factor, t :: rest)
  | [] => pure (.plain factor, [])

/-- `read_single_definition` — lex/mod.rs:384-406.  Fuel bounds the rounds of the loop. -/
def readSingle : Nat → List Token → Res (SingleDefinition × List Token)
  | 0, _ => .diverge
  | fuel + 1, ts => do
    let (term, next) ← readTerm recur last ts
    match skipGaps next with
    | [] => pure (.cons term .nil, [])
    | .concatenateSymbol _ :: rest => do
      let (more, next) ← readSingle fuel rest
      pure (.cons term more, next)
    | .definitionSeparatorSymbol l c :: rest =>
      pure (.cons term .nil, .definitionSeparatorSymbol l c :: rest)
    | t :: rest =>
      if t.isTerminator then pure (.cons term .nil, t :: rest)
      else .fail t.location (.separatorExpected t.name)

/-- The loop of `read_definition_list` — lex/mod.rs:370-380.  Fuel bounds the rounds. -/
def readDefinitions : Nat → List Token → Res DefinitionList
  | 0, _ => .diverge
  | fuel + 1, ts => do
    let (single, next) ← readSingle recur last (ts.length + 1) ts
    match skipGaps next with
    | [] => pure (.cons single .nil)
    | t :: rest =>
      if t.isTerminator then pure (.cons single .nil)
      else do
        let more ← readDefinitions fuel
          (match t with | .definitionSeparatorSymbol _ _ => rest | t => t :: rest)
        pure (.cons single more)

end readers

/-- `read_definition_list(tokens, 0)` — lex/mod.rs:367-382.  The first argument bounds the nesting
depth of slices. -/
def readDefinitionList : Nat → List Token → Res DefinitionList
  | 0, _ => .diverge
  | fuel + 1, ts => readDefinitions (readDefinitionList fuel) (lastLocation ts) (ts.length + 1) ts

/-- `build_syntax_rule` — lex/mod.rs:326-365. -/
def buildSyntaxRule (tokens : List Token) : Res (Option SyntaxRule) :=
  let (name, location, next) := readMetaIdentifier tokens
  match location, skipGaps next with
  | _, [] => .panic .indexOutOfBounds
  | none, t :: _ =>
    if t.isTerminator then .ok none
    else .fail t.location (.metaIdentifierExpected t.name)
  | some loc, t :: rest =>
    if !t.isDefiningSymbol then .fail t.location (.definingExpected t.name)
    else if name.isEmpty then .panic .emptyMetaIdentifier
    else do
      let list ← readDefinitions (readDefinitionList tokens.length) (lastLocation tokens)
        (rest.length + 1) rest
      pure (some ⟨loc, name, list⟩)

/-- `struct Lexer` — lex/mod.rs:102-105. -/
structure Lexer where
  tokenizer : Tokenizer
  tokens : List Token
deriving DecidableEq, Repr

namespace Lexer

/-- `Lexer::with_capacity` — lex/mod.rs:135-140. -/
def withCapacity (name : Str) (maxBufferSize : Nat) : Lexer :=
  ⟨Tokenizer.withCapacity name maxBufferSize, []⟩

/-- `Lexer::new` — lex/mod.rs:116-121. -/
def new (name : Str) : Lexer := ⟨Tokenizer.new name, []⟩

/-- `Lexer::append` — lex/mod.rs:169-183, on the field `tokens`. -/
def append : List Token → List Token → Res (List SyntaxRule) × List Token
  | tokens, [] => (.ok [], tokens)
  | tokens, t :: ts =>
    let tokens := tokens ++ [t]
    if t.isTerminator then
      match buildSyntaxRule tokens with
      | .ok r =>
        match append [] ts with
        | (.ok rules, tokens') => (.ok (r.toList ++ rules), tokens')
        | (e, tokens') => (e, tokens')
      | .err e => (.err e, tokens)
      | .panic p => (.panic p, tokens)
      | .diverge => (.diverge, tokens)
    else append tokens ts

/-- Run a tokenizer method, then `append` its tokens: the common part of `push`, `push_str`, `flush`. -/
def feed (m : RM Tokenizer (List Token)) : RM Lexer (List SyntaxRule) := fun l =>
  match m l.tokenizer with
  | (.ok tks, tz) =>
    match append l.tokens tks with
    | (r, tokens) => (r, ⟨tz, tokens⟩)
  | (.err e, tz) => (.err e, ⟨tz, l.tokens⟩)
  | (.panic p, tz) => (.panic p, ⟨tz, l.tokens⟩)
  | (.diverge, tz) => (.diverge, ⟨tz, l.tokens⟩)

/-- `if r.is_empty() { None } else { Some(r.remove(0)) }` — lex/mod.rs:145, 161. -/
def first (m : RM Lexer (List SyntaxRule)) : RM Lexer (Option SyntaxRule) := do
  let r ← m
  pure r.head?

/-- `Lexer::push` — lex/mod.rs:142-146. -/
def push (ch : Char) : RM Lexer (Option SyntaxRule) := first (feed (Tokenizer.push ch))

/-- `Lexer::push_str` — lex/mod.rs:153-156. -/
def pushStr (s : Str) : RM Lexer (List SyntaxRule) := feed (Tokenizer.pushStr s)

/-- `Lexer::flush` — lex/mod.rs:158-162. -/
def flush : RM Lexer (Option SyntaxRule) := first (feed Tokenizer.flush)

/-- `Lexer::reset` — lex/mod.rs:164-167. -/
def reset (l : Lexer) : Lexer := ⟨l.tokenizer.reset, []⟩

end Lexer

/-- `lex::parse_str` — lex/mod.rs:35-43. -/
def parseStr (name s : Str) : Res (List SyntaxRule) :=
  ((do
    let rules ← Lexer.pushStr s
    let rule ← Lexer.flush
    pure (rules ++ rule.toList)) (Lexer.new name)).1

end Ebnf
