import Verif.Proofs.Asserts

set_option autoImplicit false

/-! # C79: the lexer in debug and release builds, and after errors -/

namespace Ebnf.Props

open Ebnf Ebnf.Spec

/-- C79: as long as `reset` is called after every error of the token parser (errors of the character level and of the limit need no reset for
this) no debug assertion fires: every call returns the same in both builds. -/
theorem c79_same_in_both_builds (name : Str) (limit : Nat) (ops : List Op) (h : Careful ops (Lexer.withCapacity name limit)) :
    debugAnswers ops (Lexer.withCapacity name limit) = answers ops (Lexer.withCapacity name limit) :=
  debug_answers ops (.inl (fun x hx => by cases hx)) h

/-- C79: a call that ends with an error of the token parser makes the lexer of a debug build useless until `reset`: whatever happened before, and whatever is called
afterwards, no rule is returned any more. -/
theorem c79_no_rule_after_error (name : Str) (limit : Nat) (before after : List Op) (op : Op) (e : Error)
    (h : (op.debugAnswer (debugAfter before (Lexer.withCapacity name limit))).error? = some e) (he : e.msg.ofParser = true)
    (hr : ∀ o ∈ after, o ≠ .reset) :
    ∀ a ∈ debugAnswers after (op.debugNext (debugAfter before (Lexer.withCapacity name limit))), a.hasRule = false :=
  answers_spoiled (op_spoils h he) after hr

/-- C79: without `reset` the builds differ.  After the error about `a=(b;` the call with `c=d);` panics in a debug build, and returns a rule `a=(b)` in a
release build, which is in none of the two texts. -/
theorem c79_after_error :
    ∃ e r, answers [.pushStr "a=(b;".toList, .pushStr "c=d);".toList] (Lexer.new []) = [.rules (.err e), .rules (.ok [r])] ∧
      r.display = "a=(b);".toList ∧
      debugAnswers [.pushStr "a=(b;".toList, .pushStr "c=d);".toList] (Lexer.new []) = [.rules (.err e), .rules (.panic .debugAssert)] := by
  refine ⟨_, _, rfl, ?_, ?_⟩ <;> decide +kernel

/-- C79: in every history, with errors and with or without `reset` after them, each call of a release build returns, or panics in one of two ways: the assertion of
`flush` that its buffer is empty, or an index out of bounds. -/
theorem c79_any_history (name : Str) (limit : Nat) (ops : List Op) :
    ∀ a ∈ answers ops (Lexer.withCapacity name limit),
      a.hangs = false ∧ ∀ p, a.panic? = some p → p = .flushNotEmpty ∨ p = .indexOutOfBounds :=
  answers_any ops (fun x hx => by cases hx)

/-- C79: both do happen; the first only after an error (C04). -/
theorem c79_flush_panics : ∃ e, answers [.pushStr "a=:b".toList, .flush] (Lexer.new []) = [.rules (.err e), .rule (.panic .flushNotEmpty)] ∧
    answers [.pushStr "a=(1);".toList] (Lexer.new []) = [.rules (.panic .indexOutOfBounds)] := by
  refine ⟨_, rfl, ?_⟩
  decide +kernel

/-- The hypotheses of `c79_no_rule_after_error`. -/
example : ∃ e, ((Op.pushStr "a=(b;".toList).debugAnswer (debugAfter [.pushStr "c='d';".toList] (Lexer.withCapacity [] 0))).error? = some e ∧
    e.msg.ofParser = true := ⟨_, rfl, rfl⟩

/-- A careful history with a lexical error, an error of the token parser and rules. -/
example : Careful [.pushStr "a=b;c=(".toList, .pushStr "\u0001".toList, .reset, .pushStr "d=(;".toList, .reset, .pushStr "e=".toList, .push 'f', .flush]
      (Lexer.withCapacity [] 0) := by
  refine ⟨fun h => absurd h ?_, fun h => absurd h ?_, fun h => absurd h ?_, fun _ => .inr ⟨_, rfl⟩, fun h => absurd h ?_,
    fun h => absurd h ?_, fun h => absurd h ?_, fun _ => .inl rfl, trivial⟩ <;> decide +kernel

end Ebnf.Props
