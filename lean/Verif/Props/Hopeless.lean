import Verif.Proofs.PanicExact

set_option autoImplicit false

/-! # When reading a grammar panics, and when a text is rejected for its characters -/

namespace Ebnf.Props

open Ebnf Ebnf.Spec

/-- C05, exactly: feeding a text in pieces panics iff complete rules are followed by a rule in which a bracket
ends after an integer (`Hanging`), and this is met: either by a call whose piece does not also make the text so
far hopeless at the level of characters (then that error is returned first), or by the end of the text. -/
theorem c05_panics_iff (name : Str) (chunks : List Str) (p : Panic) :
    (feedAll chunks (Lexer.new name)).1 = .panic p ↔ p = .indexOutOfBounds ∧
      ((∃ k pre ts, pre <+: (chunks.take k).flatten ∧ Lexes (Location.new name) pre ts ∧ Hanging ts ∧
          (Completable (Location.new name) (chunks.take k).flatten ∨
            StrayLast (Location.new name) (chunks.take k).flatten)) ∨
        ∃ ts, Lexes (Location.new name) chunks.flatten ts ∧
          Hanging (ts ++ [.eof (lineColumn (Location.new name) chunks.flatten)])) :=
  feedAll_panic_iff

/-- C05, exactly, for `parse_str`. -/
theorem c05_parse_str_panics_iff (name text : Str) (p : Panic) :
    parseStr name text = .panic p ↔ p = .indexOutOfBounds ∧
      ((∃ pre ts, pre <+: text ∧ Lexes (Location.new name) pre ts ∧ Hanging ts ∧
          (Completable (Location.new name) text ∨ StrayLast (Location.new name) text)) ∨
        ∃ ts, Lexes (Location.new name) text ts ∧ Hanging (ts ++ [.eof (lineColumn (Location.new name) text)])) := by
  rw [parseStr_eq_feedAll, c05_panics_iff]
  have hn : ∀ {ts : List Token}, Lexes (Location.new name) [] ts → ¬ Hanging ts := by
    rintro ts hl ⟨us, rs, vs, t, rfl, _⟩
    have := scanAll_complete hl
    simp [scanAll, tokLoop_none (loc := Location.new name) (rest := []) (pending_nil _), flushTok, Res.bind] at this
    have := congrArg List.length this
    simp at this
    omega
  simp only [List.flatten_cons, List.flatten_nil, List.append_nil]
  constructor
  · rintro ⟨rfl, ⟨k, pre, ts, h1, h2, h3, h4⟩ | h⟩
    · refine ⟨rfl, .inl ?_⟩
      cases k with
      | zero =>
        rw [List.take_zero, List.flatten_nil, List.prefix_nil] at h1
        subst h1
        exact absurd h3 (hn h2)
      | succ k =>
        rw [List.take_succ_cons, List.take_nil, List.flatten_cons, List.flatten_nil, List.append_nil] at h1 h4
        exact ⟨pre, ts, h1, h2, h3, h4⟩
    · exact ⟨rfl, .inr h⟩
  · rintro ⟨rfl, ⟨pre, ts, h1, h2, h3, h4⟩ | h⟩
    · exact ⟨rfl, .inl ⟨1, pre, ts, by simpa using h1, h2, h3, by simpa using h4⟩⟩
    · exact ⟨rfl, .inr h⟩

/-- `a=(1);` is such a text. -/
example : ∃ ts, Lexes (Location.new []) ['a', '=', '(', '1', ')', ';'] ts ∧ Hanging ts := by
  refine ⟨_, .cons (s := ['a']) (.metaIdentifier ⟨[], 1, 1⟩ 'a' [] (by decide) (by simp)) rfl
      (by rw [List.head?_cons]; unfold Ends; decide)
    (.cons (s := ['=']) (.defining ⟨[], 1, 2⟩) rfl trivial
    (.cons (s := ['(']) (.startGroup ⟨[], 1, 3⟩) rfl (by simp [Ends])
    (.cons (s := ['1']) (.integer ⟨[], 1, 4⟩ '1' [] (by decide) (by simp)) rfl
      (by rw [List.head?_cons]; unfold Ends; decide)
    (.cons (s := [')']) (.endGroup ⟨[], 1, 5⟩) rfl trivial
    (.cons (s := [';']) (.terminator ⟨[], 1, 6⟩ ';' (by simp)) rfl trivial (.nil _)))))), ?_⟩
  refine ⟨[], [], [.metaIdentifier ⟨[], 1, 1⟩ ['a'], .definingSymbol ⟨[], 1, 2⟩, .startGroupSymbol ⟨[], 1, 3⟩,
    .integer ⟨[], 1, 4⟩ ['1'], .endGroupSymbol ⟨[], 1, 5⟩], _, rfl, .nil, by simp [IsTerminator], trivial, ?_⟩
  exact .rule (g := []) (g' := []) (ts := [_]) (by simp [Blanks]) (.word _ _) (by simp [Blanks])
    (.single (.term (.factor (.inside (m := []) (g := []) (inner := [_]) (rest := [_]) (k := .group) .none (by simp [Blanks])
      trivial (.other (by simp [Opens]) (by simp [Closes]) .nil) trivial
      (.single (.term (.factor (.integer (g := []) (g' := []) (by simp [Blanks]) (by simp [Blanks])
        ⟨by simp; decide, by simp, by decide⟩))))))))

/-- The same text panics or is an error, depending on where it is cut. -/
example : (feedAll ["a=(1); :x".toList] (Lexer.new [])).1 = .err ⟨⟨[], 1, 8⟩, .colonNotAllowed⟩ ∧
    (feedAll ["a=(1);".toList, " :x".toList] (Lexer.new [])).1 = .panic .indexOutOfBounds ∧
    parseStr [] "b='x'; c=[d|2*e-{3 (* x *) } f,]".toList = .panic .indexOutOfBounds ∧
    (∃ e, parseStr [] "b='x'; c=[d|2*e-{3 ]} f,]".toList = .err e) ∧
    (∃ e, parseStr [] "=x; a=(1);".toList = .err e) := by
  refine ⟨by decide +kernel, by decide +kernel, by decide +kernel, ⟨_, rfl⟩, ⟨_, rfl⟩⟩

/-- C83: after accepted pieces, `push_str` returns an error of the character level exactly when no continuation
makes all the text so far a sequence of tokens, except that a stray last character is not yet looked at. -/
theorem c83_push_rejects_iff (name : Str) (chunks : List Str) (rs : List SyntaxRule) (l : Lexer)
    (h : pushAll chunks (Lexer.new name) = (.ok rs, l)) (s : Str) :
    (∃ e, (Lexer.pushStr s l).1 = .err e ∧ e.msg.ofTokenizer = true) ↔
      ¬ Completable (Location.new name) (chunks.flatten ++ s) ∧ ¬ StrayLast (Location.new name) (chunks.flatten ++ s) :=
  push_rejects_iff h s

/-- C83: after accepted pieces, `flush` returns an error of the character level exactly when the text is not a
sequence of tokens. -/
theorem c83_flush_rejects_iff (name : Str) (chunks : List Str) (rs : List SyntaxRule) (l : Lexer)
    (h : pushAll chunks (Lexer.new name) = (.ok rs, l)) :
    (∃ e, (Lexer.flush l).1 = .err e ∧ e.msg.ofTokenizer = true) ↔
      ¬ ∃ ts, Lexes (Location.new name) chunks.flatten ts :=
  flush_rejects_iff h

/-- C83: the exception is a real one, and costs one character: a stray last character makes the text hopeless,
and hopeless text is rejected at the latest when a further character arrives, whichever it is. -/
theorem c83_one_character_late (name : Str) (chunks : List Str) (rs : List SyntaxRule) (l : Lexer)
    (h : pushAll chunks (Lexer.new name) = (.ok rs, l)) (s : Str) (hs : s ≠ [])
    (hh : ¬ Completable (Location.new name) chunks.flatten) :
    ∃ e, (Lexer.pushStr s l).1 = .err e ∧ e.msg.ofTokenizer = true :=
  (push_rejects_iff h s).mpr (hopeless_extend hh hs)

/-- C83: a text that ends in a stray character cannot be completed. -/
theorem c83_stray_is_hopeless (start : Location) (text : Str) (h : StrayLast start text) : ¬ Completable start text :=
  stray_not_completable h

/-- `a$` is accepted, `a$b` is not; an unclosed comment or text in quotes can be completed. -/
example : ∃ l, pushAll [['a'], ['$']] (Lexer.new []) = (.ok [], l) ∧
    StrayLast (Location.new []) ['a', '$'] ∧
    (∃ e, (Lexer.pushStr ['b'] l).1 = .err e ∧ e.msg.ofTokenizer = true) ∧
    (∃ e, (Lexer.flush l).1 = .err e ∧ e.msg.ofTokenizer = true) := by
  refine ⟨_, rfl, ⟨['a'], '$', _, rfl, .cons (s := ['a']) (.metaIdentifier ⟨[], 1, 1⟩ 'a' [] (by decide) (by simp))
    rfl trivial (.nil _), stray_of (by decide) (by decide) (by decide) (by decide)⟩, ⟨_, rfl, rfl⟩, ⟨_, rfl, rfl⟩⟩

example : Completable (Location.new []) ['\'', 'x'] :=
  ⟨['\''], _, .cons (s := ['\'', 'x', '\'']) (.terminalString ⟨[], 1, 1⟩ ['x'] '\'' (by simp) (by simp)
    (by intro c hc; simp at hc; subst hc; unfold IsPrintable; decide)) rfl trivial (.nil _)⟩

end Ebnf.Props
