import Verif.Proofs.WordsLexerWrap

set_option autoImplicit false

/-! # C102 — the lexer and the integers it counts with -/

namespace Ebnf.Props

open Ebnf Ebnf.Spec

/-- A text of fewer than `2 ^ 31 - 1` characters is read the same, with or without overflow checks, as if all counters were unbounded. -/
theorem c102_parse_str (checks : Bool) (name text : Str) (h : text.length + 1 < 2 ^ 31) :
    WordLex.parseStr checks name text = parseStr name text :=
  WordLex.parse_small h

/-- So is a text that comes in pieces, with any limit on the length of a token. -/
theorem c102_pieces (checks : Bool) (name : Str) (limit : Nat) (pieces : List Str) (h : pieces.flatten.length + 1 < 2 ^ 31) :
    wordFeedAll checks pieces (Lexer.withCapacity name limit) = feedAll pieces (Lexer.withCapacity name limit) :=
  WordLex.feedAll_small (WordLex.new_within h)

/-- A text may be of any length, if at each call the unfinished rule is short: the answers to a history of calls are those with unbounded counters as long
as, at each call, the location is far from `u64::MAX` and the tokens of the unfinished rule and the characters not yet read as tokens are few. -/
theorem c102_calls (checks : Bool) (ops : List Op) (l : Lexer) (h : AllWithin ops l) : wordAnswers checks ops l = answers ops l := by
  induction ops generalizing l with
  | nil => rfl
  | cons op ops ih =>
    obtain ⟨h1, h2⟩ := h
    have hn : op.wordNext checks l = op.next l ∧ op.wordAnswer checks l = op.answer l := by
      cases op with
      | push c =>
        have e := WordLex.lexer_push (checks := checks) (c := c) h1
        exact ⟨congrArg Prod.snd e, congrArg Answer.rule (congrArg Prod.fst e)⟩
      | pushStr s =>
        have e := WordLex.lexer_pushStr (checks := checks) (s := s) h1
        exact ⟨congrArg Prod.snd e, congrArg Answer.rules (congrArg Prod.fst e)⟩
      | flush =>
        have e := WordLex.lexer_flush (checks := checks) h1
        exact ⟨congrArg Prod.snd e, congrArg Answer.rule (congrArg Prod.fst e)⟩
      | reset => exact ⟨rfl, rfl⟩
    show op.wordAnswer checks l :: wordAnswers checks ops (op.wordNext checks l) = op.answer l :: answers ops (op.next l)
    rw [hn.1, hn.2, ih _ h2]

/-- Without overflow checks, one closing symbol closes `n + 1` nested comments when `n` is a multiple of `2 ^ 32`: the text is read as an empty grammar … -/
theorem c102_comment_wraps (name : Str) (n : Nat) (h : n % 2 ^ 32 = 0) (hpos : 0 < n) :
    WordLex.parseStr false name (times (n + 1) ['(', '*'] ++ ['*', ')']) = .ok [] :=
  WordLex.parse_wraps h hpos name

/-- … although the comment is not closed: with unbounded counters it is an error. -/
theorem c102_comment_open (name : Str) (n : Nat) (hpos : 0 < n) :
    parseStr name (times (n + 1) ['(', '*'] ++ ['*', ')']) = .err ⟨Location.new name, .commentNotClosed⟩ :=
  WordLex.parse_open hpos name

/-- With overflow checks, comments nested more than `2 ^ 31` deep are a panic. -/
theorem c102_comment_panics (name tail : Str) (n : Nat) (h : 2 ^ 31 ≤ n) :
    WordLex.parseStr true name (times (n + 1) ['(', '*'] ++ tail) = .panic .overflow :=
  WordLex.parse_panics h name tail

/-- So are brackets nested that deep: the rule `a=[[…[;`. -/
theorem c102_brackets_panic (name : Str) (n : Nat) (h : 2 ^ 31 < n) (hle : n < 2 ^ 63) :
    WordLex.parseStr true name (['a', '='] ++ List.replicate n '[' ++ [';']) = .panic .overflow :=
  WordLex.brackets_panic h hle name

/-- … also inside other brackets: the rule `a=([[…[);`. -/
theorem c102_inner_brackets_panic (name : Str) (n : Nat) (h : 2 ^ 31 < n) (hle : n < 2 ^ 63) :
    WordLex.parseStr true name (['a', '=', '('] ++ List.replicate n '[' ++ [')', ';']) = .panic .overflow :=
  WordLex.inner_brackets_panic h hle name

/-! ## Examples -/

example (checks : Bool) : WordLex.parseStr checks ['n'] "(* (* x *) *) a = 2 * [(b)], {'c'};".toList =
    parseStr ['n'] "(* (* x *) *) a = 2 * [(b)], {'c'};".toList :=
  c102_parse_str checks _ _ (by decide +kernel)

example : (match WordLex.parseStr true ['n'] "(* (* x *) *) a = 2 * [(b)], {'c'};".toList with | .ok rs => rs.length | _ => 0) = 1 := by
  decide +kernel

example : AllWithin [.pushStr "(* (* x".toList, .push '*', .pushStr ") *) a = [".toList, .flush, .reset, .push 'b'] (Lexer.withCapacity ['n'] 100) := by
  simp only [AllWithin, Op.Within, Fits]
  decide +kernel

example : (4294967296 : Nat) % 2 ^ 32 = 0 ∧ 0 < 4294967296 := by decide

example : times 3 ['(', '*'] ++ ['*', ')'] = "(*(*(**)".toList := by decide

example : ['a', '='] ++ List.replicate 3 '[' ++ [';'] = "a=[[[;".toList := by decide

example : ['a', '=', '('] ++ List.replicate 3 '[' ++ [')', ';'] = "a=([[[);".toList := by decide

end Ebnf.Props
