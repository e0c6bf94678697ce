import Verif.Spec.Words
import Verif.Spec.Driver
import Verif.Model.WordsLexer

set_option autoImplicit false

/-! # Specification: texts within the range of the counters of the lexer -/

namespace Ebnf.Spec

/-- The number of characters that a call adds. -/
def Op.chars : Op → Nat
  | .push _ => 1
  | .pushStr s => s.length
  | .flush | .reset => 0

/-- At this call the location is far from `u64::MAX`, and the tokens of the unfinished rule and the characters that are not yet a token are, together, fewer
than `2 ^ 31 - 1`. -/
def Op.Within (op : Op) (l : Lexer) : Prop :=
  Fits l.tokenizer.location (l.tokenizer.buffer.length + op.chars) ∧
    l.tokens.length + l.tokenizer.buffer.length + op.chars + 1 < 2 ^ 31

/-- So it is at each call of a history. -/
def AllWithin : List Op → Lexer → Prop
  | [], _ => True
  | op :: ops, l => op.Within l ∧ AllWithin ops (op.next l)

/-- The state after one call, with the integers of the code. -/
def Op.wordNext (checks : Bool) : Op → Lexer → Lexer
  | .push c, l => (WordLex.push checks c l).2
  | .pushStr s, l => (WordLex.pushStr checks s l).2
  | .flush, l => (WordLex.flush checks l).2
  | .reset, l => l.reset

/-- The answer of one call, with the integers of the code. -/
def Op.wordAnswer (checks : Bool) : Op → Lexer → Answer
  | .push c, l => .rule (WordLex.push checks c l).1
  | .pushStr s, l => .rules (WordLex.pushStr checks s l).1
  | .flush, l => .rule (WordLex.flush checks l).1
  | .reset, _ => .nothing

/-- The answers of a history of calls, with the integers of the code. -/
def wordAnswers (checks : Bool) : List Op → Lexer → List Answer
  | [], _ => []
  | op :: ops, l => op.wordAnswer checks l :: wordAnswers checks ops (op.wordNext checks l)

/-- See `pushAll`. -/
def wordPushAll (checks : Bool) : List Str → RM Lexer (List SyntaxRule)
  | [] => pure []
  | c :: cs => do
    let r ← WordLex.pushStr checks c
    let rs ← wordPushAll checks cs
    pure (r ++ rs)

/-- See `feedAll`. -/
def wordFeedAll (checks : Bool) (chunks : List Str) : RM Lexer (List SyntaxRule) := do
  let rs ← wordPushAll checks chunks
  let r ← WordLex.flush checks
  pure (rs ++ r.toList)

/-- `s` written `n` times. -/
def times (n : Nat) (s : Str) : Str := (List.replicate n s).flatten

end Ebnf.Spec
