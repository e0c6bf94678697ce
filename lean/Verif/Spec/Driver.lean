import Verif.Model.Lexer

/-! # Specification: driving a `Lexer` through its public API -/

namespace Ebnf

/-- Messages of the token parser. -/
def Msg.ofParser : Msg → Bool
  | .metaIdentifierExpected _ | .definingExpected _ | .separatorExpected _ | .badRepetition _
  | .repetitionSymbolExpected _ | .ambiguousOption | .ambiguousRepeat | .bracketNotClosed _ _ => true
  | _ => false

/-- Messages of the character level. -/
def Msg.ofTokenizer : Msg → Bool
  | .ambiguousComment _ | .colonNotAllowed | .commentNotOpened | .undefinedChar _ | .terminalBadChar _
  | .terminalNotClosed _ | .terminalEmpty | .specialBadChar _ | .specialNotClosed | .commentNotClosed
  | .commentBadChar _ => true
  | _ => false

namespace Spec

/-- Call `push_str` for each piece in turn, collecting the rules; stop at the first error. -/
def pushAll : List Str → RM Lexer (List SyntaxRule)
  | [] => pure []
  | c :: cs => do
    let r ← Lexer.pushStr c
    let rs ← pushAll cs
    pure (r ++ rs)

/-- Feed all pieces and then flush. -/
def feedAll (chunks : List Str) : RM Lexer (List SyntaxRule) := do
  let rs ← pushAll chunks
  let r ← Lexer.flush
  pure (rs ++ r.toList)

/-- Call `push` for each character in turn, collecting the rules. -/
def pushChars : Str → RM Lexer (List SyntaxRule)
  | [] => pure []
  | c :: cs => do
    let r ← Lexer.push c
    let rs ← pushChars cs
    pure (r.toList ++ rs)

/-- Feed character by character and then flush. -/
def feedChars (text : Str) : RM Lexer (List SyntaxRule) := do
  let rs ← pushChars text
  let r ← Lexer.flush
  pure (rs ++ r.toList)

/-- One call of a method of `Lexer`. -/
inductive Op
  | push (c : Char)
  | pushStr (s : Str)
  | flush
  | reset

/-- The state after one call, whatever it returned. -/
def Op.next : Op → Lexer → Lexer
  | .push c, l => (Lexer.push c l).2
  | .pushStr s, l => (Lexer.pushStr s l).2
  | .flush, l => (Lexer.flush l).2
  | .reset, l => l.reset

/-- The state after a history of calls. -/
def after : List Op → Lexer → Lexer
  | [], l => l
  | op :: ops, l => after ops (op.next l)

/-- What a call returned. -/
inductive Answer
  | rule (r : Res (Option SyntaxRule))
  | rules (r : Res (List SyntaxRule))
  | nothing
deriving DecidableEq

/-- The answer of one call. -/
def Op.answer : Op → Lexer → Answer
  | .push c, l => .rule (Lexer.push c l).1
  | .pushStr s, l => .rules (Lexer.pushStr s l).1
  | .flush, l => .rule (Lexer.flush l).1
  | .reset, _ => .nothing

/-- The error "too long". -/
def Error.isTooLong (e : Error) : Bool := match e.msg with
  | .tooLong _ _ _ => true
  | _ => false

/-- The call was rejected because of the limit. -/
def Answer.isTooLong : Answer → Bool
  | .rule (.err e) => Error.isTooLong e
  | .rules (.err e) => Error.isTooLong e
  | _ => false

/-- The answers of a history of calls. -/
def answers : List Op → Lexer → List Answer
  | [], _ => []
  | op :: ops, l => op.answer l :: answers ops (op.next l)

/-- The calls that were not rejected because of the limit. -/
def unrejected : List Op → Lexer → List Op
  | [], _ => []
  | op :: ops, l => if (op.answer l).isTooLong then unrejected ops (op.next l) else op :: unrejected ops (op.next l)

/-- States reached from a new lexer by calls of `push`, `push_str` and `flush` that all succeeded. -/
inductive Accepted (name : Str) (limit : Nat) : Lexer → Prop
  | new : Accepted name limit (Lexer.withCapacity name limit)
  | push {l l' : Lexer} {c : Char} {r : Option SyntaxRule} :
      Accepted name limit l → Lexer.push c l = (.ok r, l') → Accepted name limit l'
  | pushStr {l l' : Lexer} {s : Str} {r : List SyntaxRule} :
      Accepted name limit l → Lexer.pushStr s l = (.ok r, l') → Accepted name limit l'
  | flush {l l' : Lexer} {r : Option SyntaxRule} :
      Accepted name limit l → Lexer.flush l = (.ok r, l') → Accepted name limit l'

/-- Call the tokenizer's `push_str` for each piece in turn and then `flush`, collecting the tokens. -/
def tokenizeAll : List Str → RM Tokenizer (List Token)
  | [] => Tokenizer.flush
  | c :: cs => do
    let a ← Tokenizer.pushStr c
    let b ← tokenizeAll cs
    pure (a ++ b)

end Spec

end Ebnf
