import Verif.Model.Effort
import Verif.Spec.WordsLexer

set_option autoImplicit false

/-! # Specification: what a history of calls costs -/

namespace Ebnf.Spec

/-- What one call costs. -/
def Op.effort : Op → Lexer → Effort.Effort
  | .push c, l => (Effort.push c l).2
  | .pushStr s, l => (Effort.pushStr s l).2
  | .flush, l => (Effort.flush l).2
  | .reset, _ => ⟨0, 0, 0⟩

/-- The call did not fail. -/
def Answer.fine : Answer → Bool
  | .rule (.ok _) => true
  | .rules (.ok _) => true
  | .nothing => true
  | _ => false

/-- What the calls cost together, up to the first one that fails (which is included). -/
def effort : List Op → Lexer → Effort.Effort
  | [], _ => ⟨0, 0, 0⟩
  | op :: ops, l => (op.effort l).add (if (op.answer l).fine then effort ops (op.next l) else ⟨0, 0, 0⟩)

/-- The number of characters that the calls add. -/
def charsOf : List Op → Nat
  | [] => 0
  | op :: ops => op.chars + charsOf ops

/-- How often `flush` is called. -/
def flushesOf : List Op → Nat
  | [] => 0
  | .flush :: ops => flushesOf ops + 1
  | _ :: ops => flushesOf ops

end Ebnf.Spec
