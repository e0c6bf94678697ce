import Verif.Proofs.Terminator

set_option autoImplicit false

/-! # Properties of the rule parser: the end of the text terminates the last rule (C17) -/

namespace Ebnf.Props

open Ebnf Ebnf.Spec

/-- C17: appending `;` to a text changes nothing about its acceptance nor its rules. -/
theorem c17_semicolon (name text : Str) (rs : List SyntaxRule) :
    parseStr name text = .ok rs ↔ parseStr name (text ++ [';']) = .ok rs := parseStr_semicolon name text rs

example : parseStr [] "a = 'x' |".toList = parseStr [] "a = 'x' |;".toList ∧
    ∃ rs, parseStr [] "a = 'x' |".toList = .ok rs ∧ rs ≠ [] := by
  refine ⟨by decide +kernel, [⟨⟨[], 1, 1⟩, ['a'], .cons (.cons (.plain (.mk 1 (.terminalString ⟨[], 1, 5⟩ ['x']))) .nil)
    (.cons (.cons (.plain (.mk 1 (.empty ⟨[], 1, 10⟩))) .nil) .nil)⟩], by decide +kernel, by simp⟩

/-- C17: when the tokens of the text end in a terminator symbol, up to blanks, `flush` returns no rule,
whatever the pieces in which the text was pushed. -/
theorem c17_no_extra_rule (name : Str) (chunks : List Str) (ts g : List Token) (l : Location) (c : Char)
    (hl : Lexes (Location.new name) chunks.flatten (ts ++ .terminatorSymbol l c :: g)) (hg : Blanks g)
    (rs : List SyntaxRule) (lx : Lexer) (hp : pushAll chunks (Lexer.new name) = (.ok rs, lx)) :
    (Lexer.flush lx).1 = .ok none :=
  flush_after_terminator hl hg ((pushAll_flatten (new_unlimited name) (new_inv name)).mp hp)

example : ∃ ts l c g rs lx, Lexes (Location.new []) ["a".toList, "=; ".toList].flatten (ts ++ .terminatorSymbol l c :: g) ∧
    Blanks g ∧ g ≠ [] ∧ pushAll ["a".toList, "=; ".toList] (Lexer.new []) = (.ok rs, lx) ∧ rs ≠ [] := by
  refine ⟨[.metaIdentifier ⟨[], 1, 1⟩ ['a'], .definingSymbol ⟨[], 1, 2⟩], ⟨[], 1, 3⟩, ';',
    [.gapSeparatorSequence ⟨[], 1, 4⟩ [' ']],
    [⟨⟨[], 1, 1⟩, ['a'], .cons (.cons (.plain (.mk 1 (.empty ⟨[], 1, 3⟩))) .nil) .nil⟩],
    (pushAll ["a".toList, "=; ".toList] (Lexer.new [])).2, ?_, by simp [Blanks, IsBlank], by simp, ?_, by simp⟩
  · exact .cons (s := ['a']) (.metaIdentifier _ 'a' [] (by decide) (by simp)) rfl
      (show ¬ IsLetter '=' ∧ ¬ IsDigit '=' by decide)
      (.cons (s := ['=']) (.defining _) rfl trivial
        (.cons (s := [';']) (.terminator _ ';' (by simp)) rfl trivial
          (.cons (s := [' ']) (.gapSeparator _ ' ' [] (by decide) (by simp)) rfl trivial (.nil _))))
  · refine Prod.ext ?_ rfl
    decide +kernel

end Ebnf.Props
