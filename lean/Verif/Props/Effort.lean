import Verif.Proofs.EffortLexer
import Verif.Props.Nested

set_option autoImplicit false

/-! # C103: how much work reading a grammar takes -/

namespace Ebnf.Props

open Ebnf Ebnf.Spec

/-- C103: the program whose steps are counted is the program: it returns the same and leaves the lexer in the same state. -/
theorem c103_same (name text : Str) (c : Char) (l : Lexer) : (Effort.parseStr name text).1 = parseStr name text ∧
    (Effort.push c l).1 = Lexer.push c l ∧ (Effort.pushStr text l).1 = Lexer.pushStr text l ∧ (Effort.flush l).1 = Lexer.flush l :=
  ⟨Effort.parseStr_same name text, (Effort.push_fed c l).same, (Effort.pushStr_fed text l).same, (Effort.flush_fed l).same⟩

/-- C103: `parse_str`, on any text, takes a number of steps over characters that is linear in the length of the text, and a number of moves
and steps over tokens that is at most quadratic. -/
theorem c103_parse_str (name text : Str) :
    (Effort.parseStr name text).2.chars ≤ 8 * text.length + 2 ∧
    2 * (Effort.parseStr name text).2.moves ≤ (text.length + 1) * (text.length + 1) ∧
    (Effort.parseStr name text).2.tokens ≤ 38 * ((text.length + 1) * (text.length + 2)) + (text.length + 1) :=
  Effort.parseStr_work name text

example : Effort.parseStr [] "a = [ (* c *) 'x' ], b; c = 2 * d;".toList =
    (parseStr [] "a = [ (* c *) 'x' ], b; c = 2 * d;".toList, ⟨173, 325, 104⟩) := by decide +kernel

/-- C103: one call, in any state of a lexer: what it costs is bounded by what is pending (the characters of the last token, the tokens of the last
rule) and by what the call adds. -/
theorem c103_call (op : Op) (l : Lexer) : (op.effort l).chars ≤ 4 * l.tokenizer.buffer.length + 6 * op.chars + 1 ∧
    2 * (op.effort l).moves ≤ (l.tokenizer.buffer.length + op.chars + 1) * (l.tokenizer.buffer.length + op.chars + 1) ∧
    (op.effort l).tokens ≤ 39 * ((l.tokens.length + l.tokenizer.buffer.length + op.chars + 1) *
      (l.tokens.length + l.tokenizer.buffer.length + op.chars + 2)) := by
  obtain ⟨h1, h2⟩ := Effort.op_step op l
  obtain ⟨h3, h4, _⟩ := h2 _ rfl
  have hf : flushesOf [op] ≤ 1 := by cases op <;> simp [flushesOf]
  generalize flushesOf [op] = f at h3 h4 hf
  have hle : l.tokenizer.buffer.length + op.chars + f ≤ l.tokenizer.buffer.length + op.chars + 1 := by omega
  refine ⟨h1, Nat.le_trans h3 (Nat.mul_le_mul hle hle), ?_⟩
  have h5 := Effort.rent_mono (show l.tokens.length + (l.tokenizer.buffer.length + op.chars + f) ≤
    l.tokens.length + l.tokenizer.buffer.length + op.chars + 1 by omega)
  unfold Effort.rent at h4 h5
  rw [show l.tokens.length + l.tokenizer.buffer.length + op.chars + 1 + 1 = l.tokens.length + l.tokenizer.buffer.length + op.chars + 2 by omega] at h5
  have h6 : (l.tokens.length + l.tokenizer.buffer.length + op.chars + 1) * 1 ≤ (l.tokens.length + l.tokenizer.buffer.length + op.chars + 1) *
      (l.tokens.length + l.tokenizer.buffer.length + op.chars + 2) := Nat.mul_le_mul_left _ (by omega)
  omega

/-- C103: a history of calls of `push`, `push_str`, `flush` and `reset`, up to the first that fails: the steps over characters grow with the number
of calls times the length of the text; moves and steps over tokens are quadratic in the length of the text however it is cut into pieces. -/
theorem c103_calls (name : Str) (limit : Nat) (ops : List Op) :
    (effort ops (Lexer.withCapacity name limit)).chars ≤ ops.length * (4 * (charsOf ops + flushesOf ops) + 1) + 6 * charsOf ops ∧
    2 * (effort ops (Lexer.withCapacity name limit)).moves ≤ (charsOf ops + flushesOf ops) * (charsOf ops + flushesOf ops) ∧
    (effort ops (Lexer.withCapacity name limit)).tokens ≤
      38 * ((charsOf ops + flushesOf ops) * (charsOf ops + flushesOf ops + 1)) + (charsOf ops + flushesOf ops) := by
  have h := Effort.effort_bound ops (Lexer.withCapacity name limit) _ rfl
  have hb : (Lexer.withCapacity name limit).tokenizer.buffer.length = 0 := rfl
  have ht : (Lexer.withCapacity name limit).tokens.length = 0 := rfl
  rw [hb, ht] at h
  simp only [Nat.zero_add] at h
  exact h

example : effort [.pushStr "a = 'x".toList, .push '\'', .flush] (Lexer.new []) = ⟨38, 6, 23⟩ ∧
    effort [.pushStr "a = 'x".toList, .push '%', .reset, .pushStr "b".toList, .flush] (Lexer.new []) = ⟨40, 7, 11⟩ := by decide +kernel

/-! ## The quadratic steps are needed -/

/-- C103: whatever grammar `parse_str` reads, if it has `r` rules it takes at least `(r - 1) * (r - 2) / 2` moves of tokens. -/
theorem c103_rules_slow (name text : Str) (rules : List SyntaxRule) (h : parseStr name text = .ok rules) :
    (rules.length - 1) * (rules.length - 2) ≤ 2 * (Effort.parseStr name text).2.moves :=
  (Effort.parseStr_needs name text rules h).1

/-- C103: whatever grammar `parse_str` reads, if its brackets are nested `d` deep it takes at least `d * d` steps over tokens. -/
theorem c103_brackets_slow (name text : Str) (rules : List SyntaxRule) (h : parseStr name text = .ok rules) :
    depthOfRules rules * depthOfRules rules ≤ (Effort.parseStr name text).2.tokens :=
  (Effort.parseStr_needs name text rules h).2

example : ∃ rules, parseStr [] "a=b;b='c';c=[(a)];d=d;".toList = .ok rules ∧ rules.length = 4 ∧ depthOfRules rules = 2 := by
  have h : (match parseStr [] "a=b;b='c';c=[(a)];d=d;".toList with
    | .ok rules => (rules.length, depthOfRules rules)
    | _ => (0, 0)) = (4, 2) := by decide +kernel
  revert h
  cases parseStr [] "a=b;b='c';c=[(a)];d=d;".toList with
  | ok rules => intro h; exact ⟨rules, rfl, congrArg Prod.fst h, congrArg Prod.snd h⟩
  | err e => nofun
  | panic e => nofun
  | diverge => nofun

/-- C103: so that `a=((…'x'…));`, with `n` pairs of parentheses, takes at least `n * n`. -/
theorem c103_deep_grammar_slow (name : Str) (n : Nat) :
    n * n ≤ (Effort.parseStr name ("a=".toList ++ List.replicate n '(' ++ "'x'".toList ++ List.replicate n ')' ++ ";".toList)).2.tokens := by
  obtain ⟨rule, s, h1, _, h3⟩ := c80_deep_grammar name n
  have h4 := c103_brackets_slow _ _ _ h1
  have hd : n ≤ depthOfRules [rule] := by
    by_cases hd : n ≤ depthOfRules [rule]
    · exact hd
    · have h5 := (h3 (depthOfRules [rule]) (by omega)).1
      rw [c80_read _ _ _ h1, Nested.fits_pos (Nat.le_refl _)] at h5
      cases h5
  exact Nat.le_trans (Nat.mul_le_mul hd hd) h4

/-- C103: a terminal string of `n` characters that arrives one character at a time takes at least `n * n / 2` steps over characters before it is
complete; in one piece it takes `c103_calls`, a number linear in `n`. -/
theorem c103_pieces_slow (name : Str) (q : Char) (hq : q = '\'' ∨ q = '"') (s : Str) (h : ∀ c ∈ s, c ≠ q ∧ isTerminalChar c = true) :
    s.length * s.length ≤ 2 * (effort ((q :: s).map .push) (Lexer.new name)).chars ∧
    (effort [.pushStr (q :: s)] (Lexer.new name)).chars ≤ 10 * s.length + 11 := by
  refine ⟨Effort.pieces_slow name hq s h, ?_⟩
  have := (c103_calls name 0 [.pushStr (q :: s)]).1
  simp only [charsOf, flushesOf, Op.chars, List.length_cons, List.length_nil] at this
  have e : Lexer.new name = Lexer.withCapacity name 0 := rfl
  rw [e]
  omega

example : (effort ("'abcdefgh".toList.map .push) (Lexer.new [])).chars = 54 ∧ (effort [.pushStr "'abcdefgh".toList] (Lexer.new [])).chars = 27 ∧
    (∀ c ∈ "abcdefgh".toList, c ≠ '\'' ∧ isTerminalChar c = true) := by decide +kernel

end Ebnf.Props
