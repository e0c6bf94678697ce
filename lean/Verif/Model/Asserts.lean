import Verif.Model.Lexer

set_option autoImplicit false

/-! # The lexer of a debug build — src/lex/mod.rs:142-183, src/lex/tokenizer/mod.rs:46-116

The same functions as in `Model/Tokenizer` and `Model/Lexer`, with the debug assertions that can fire.  Two assertions are left out because their conditions
are built into the model: `position <= buffer.len()` (tokenizer/mod.rs:270; a position is a suffix of the buffer) and
`is_open(&tokens[position])` (lex/mod.rs:553; each caller has just matched that token). -/

namespace Ebnf.Debug

/-- The `while` loop of `tokenize` — tokenizer/mod.rs:81-118, with the assertions in lines 87-90 and 108-111 that the position moves. -/
def tokenizeLoop : Nat → Location → Str → Res (List Token) × Location × Str
  | 0, loc, rest => (if rest.isEmpty then .ok [] else .diverge, loc, rest)
  | fuel + 1, loc, rest =>
    if rest.isEmpty then (.ok [], loc, rest)
    else match readNext loc rest false with
      | .ok none => (.ok [], loc, rest)
      | .ok (some (tk, offset)) =>
        if offset = 0 then (.panic .debugAssert, loc, rest)
        else match tokenizeLoop fuel (loc.pushStr (rest.take offset)) (rest.drop offset) with
        | (.ok tks, loc', rest') => (.ok (tk :: tks), loc', rest')
        | r => r
      | .err e => (.err e, loc, rest)
      | .panic p => (.panic p, loc, rest)
      | .diverge => (.diverge, loc, rest)

/-- `Tokenizer::tokenize` — tokenizer/mod.rs:81-102. -/
def tokenize : RM Tokenizer (List Token) := fun t =>
  match tokenizeLoop t.buffer.length t.location t.buffer with
  | (.ok tks, loc, rest) => (.ok tks, { t with location := loc, buffer := rest })
  | (r, loc, _) => (r, { t with location := loc })

/-- `Tokenizer::push_str` — tokenizer/mod.rs:52-57; with a single character also `Tokenizer::push` — tokenizer/mod.rs:46-50. -/
def tokenizerPushStr (s : Str) : RM Tokenizer (List Token) := fun t =>
  match t.ensureCapacity s.length with
  | .ok () => tokenize { t with buffer := t.buffer ++ s }
  | .err e => (.err e, t)
  | .panic p => (.panic p, t)
  | .diverge => (.diverge, t)

/-- `Tokenizer::flush` — tokenizer/mod.rs:64-79, with the assertion in lines 108-111. -/
def tokenizerFlush : RM Tokenizer (List Token) := fun t =>
  match readNext t.location t.buffer true with
  | .ok (some (_, 0)) => (.panic .debugAssert, t)
  | _ => Tokenizer.flush t

/-- `build_syntax_rule` — lex/mod.rs:326-366, with the assertion in lines 329-333: the tokens end with the only terminator among them. -/
def buildSyntaxRule (tokens : List Token) : Res (Option SyntaxRule) :=
  if (tokens.getLast?.map Token.isTerminator).getD false && (tokens.filter Token.isTerminator).length == 1 then
    Ebnf.buildSyntaxRule tokens
  else .panic .debugAssert

/-- `Lexer::append` — lex/mod.rs:169-183, on the field `tokens`. -/
def append : List Token → List Token → Res (List SyntaxRule) × List Token
  | tokens, [] => (.ok [], tokens)
  | tokens, t :: ts =>
    let tokens := tokens ++ [t]
    if t.isTerminator then
      match buildSyntaxRule tokens with
      | .ok r =>
        match append [] ts with
        | (.ok rules, tokens') => (.ok (r.toList ++ rules), tokens')
        | (e, tokens') => (e, tokens')
      | .err e => (.err e, tokens)
      | .panic p => (.panic p, tokens)
      | .diverge => (.diverge, tokens)
    else append tokens ts

/-- Run a tokenizer method, then `append` its tokens: the common part of `push`, `push_str`, `flush` — lex/mod.rs:142-162. -/
def feed (m : RM Tokenizer (List Token)) : RM Lexer (List SyntaxRule) := fun l =>
  match m l.tokenizer with
  | (.ok tks, tz) =>
    match append l.tokens tks with
    | (r, tokens) => (r, ⟨tz, tokens⟩)
  | (.err e, tz) => (.err e, ⟨tz, l.tokens⟩)
  | (.panic p, tz) => (.panic p, ⟨tz, l.tokens⟩)
  | (.diverge, tz) => (.diverge, ⟨tz, l.tokens⟩)

/-- `Lexer::push` — lex/mod.rs:142-146. -/
def push (ch : Char) : RM Lexer (Option SyntaxRule) := Lexer.first (feed (tokenizerPushStr [ch]))

/-- `Lexer::push_str` — lex/mod.rs:153-156. -/
def pushStr (s : Str) : RM Lexer (List SyntaxRule) := feed (tokenizerPushStr s)

/-- `Lexer::flush` — lex/mod.rs:158-162. -/
def flush : RM Lexer (Option SyntaxRule) := Lexer.first (feed tokenizerFlush)

end Ebnf.Debug
