import Verif.Model.Asserts
import Verif.Spec.Driver

set_option autoImplicit false

/-! # Specification: histories of lexer calls in a debug build and in a release build -/

namespace Ebnf.Spec

/-- The answer of one call in a debug build. -/
def Op.debugAnswer : Op → Lexer → Answer
  | .push c, l => .rule (Debug.push c l).1
  | .pushStr s, l => .rules (Debug.pushStr s l).1
  | .flush, l => .rule (Debug.flush l).1
  | .reset, _ => .nothing

/-- The state after one call in a debug build. -/
def Op.debugNext : Op → Lexer → Lexer
  | .push c, l => (Debug.push c l).2
  | .pushStr s, l => (Debug.pushStr s l).2
  | .flush, l => (Debug.flush l).2
  | .reset, l => l.reset

/-- The answers of a history of calls in a debug build. -/
def debugAnswers : List Op → Lexer → List Answer
  | [], _ => []
  | op :: ops, l => op.debugAnswer l :: debugAnswers ops (op.debugNext l)

/-- The state after a history of calls in a debug build. -/
def debugAfter : List Op → Lexer → Lexer
  | [], l => l
  | op :: ops, l => debugAfter ops (op.debugNext l)

/-- The call ended with an error of the token parser or a panic. -/
def spoils {α : Type} : Res α → Bool
  | .ok _ => false
  | .err e => e.msg.ofParser
  | _ => true

/-- The call ended with an error of the token parser (not one at the level of characters, and not that of the limit), or with a panic. -/
def Answer.spoils : Answer → Bool
  | .rule r => Spec.spoils r
  | .rules r => Spec.spoils r
  | .nothing => false

/-- After such a failure the next call, if any, is `reset`. -/
def Careful : List Op → Lexer → Prop
  | [], _ => True
  | op :: ops, l => ((op.answer l).spoils = true → ops = [] ∨ ∃ more, ops = .reset :: more) ∧ Careful ops (op.next l)

/-- The error a call ended with. -/
def Answer.error? : Answer → Option Error
  | .rule (.err e) => some e
  | .rules (.err e) => some e
  | _ => none

/-- The panic a call ended with. -/
def Answer.panic? : Answer → Option Panic
  | .rule (.panic p) => some p
  | .rules (.panic p) => some p
  | _ => none

/-- The call did not return. -/
def Answer.hangs : Answer → Bool
  | .rule .diverge => true
  | .rules .diverge => true
  | _ => false

/-- The call returned a rule. -/
def Answer.hasRule : Answer → Bool
  | .rule (.ok (some _)) => true
  | .rules (.ok (_ :: _)) => true
  | _ => false

end Ebnf.Spec
