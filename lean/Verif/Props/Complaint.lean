import Verif.Proofs.FaultParse

set_option autoImplicit false

/-! # C87: exactly which error a malformed grammar is answered with -/

namespace Ebnf.Props

open Ebnf Ebnf.Spec

/-- C87 for `parse_str`: an error is reported exactly when there is the corresponding fault, and it is the error of that fault:
a fault of the characters; then, if there is none, one of a complete rule; then one of the characters at the end of the text; and then
one of the rule at the end of the text. -/
theorem c87_parse (name text : Str) (e : Error) :
    parseStr name text = .err e ↔
      (∃ ts there rest, BeginsWith (Location.new name) text ts there rest ∧ Fault there rest e) ∨
      ((Completable (Location.new name) text ∨ StrayLast (Location.new name) text) ∧
        ∃ pre ts, pre <+: text ∧ Lexes (Location.new name) pre ts ∧ Malformed ts e) ∨
      (∃ us rs vs there rest, BeginsWith (Location.new name) text (us ++ vs) there rest ∧ FaultAtEnd there rest e ∧
        RulesG us rs ∧ ∀ x ∈ vs, ¬ IsTerminator x) ∨
      (∃ ts, Lexes (Location.new name) text ts ∧ Malformed (ts ++ [.eof (lineColumn (Location.new name) text)]) e) :=
  parseStr_err_iff name text e

/-- C87 for the first piece of text pushed into a lexer. -/
theorem c87_push (name text : Str) (e : Error) :
    (Lexer.pushStr text (Lexer.new name)).1 = .err e ↔
      (∃ ts there rest, BeginsWith (Location.new name) text ts there rest ∧ Fault there rest e) ∨
      ((Completable (Location.new name) text ∨ StrayLast (Location.new name) text) ∧
        ∃ pre ts, pre <+: text ∧ Lexes (Location.new name) pre ts ∧ Malformed ts e) :=
  pushStr_err_iff name text e

/-- C87 for pieces of text: the error of pushing, as one piece, the shortest sequence of pieces that has one; or, if there is none, that
of the whole text. -/
theorem c87_pieces (name : Str) (chunks : List Str) (e : Error) :
    (feedAll chunks (Lexer.new name)).1 = .err e ↔
      (∃ k, k < chunks.length ∧ (∀ j, j ≤ k → ∃ rules, (Lexer.pushStr (chunks.take j).flatten (Lexer.new name)).1 = .ok rules) ∧
        (Lexer.pushStr (chunks.take (k + 1)).flatten (Lexer.new name)).1 = .err e) ∨
      ((∀ j, ∃ rules, (Lexer.pushStr (chunks.take j).flatten (Lexer.new name)).1 = .ok rules) ∧
        parseStr name chunks.flatten = .err e) := by
  have hf := feedAll_first (chunks := chunks) (new_unlimited name) (new_inv name)
  rw [← parseStr_eq_feedAll] at hf
  constructor
  · intro h
    rcases hf with ⟨k, hk, h1, _, h3⟩ | ⟨h1, h2⟩
    · exact .inl ⟨k, hk, h1, h3.symm.trans h⟩
    · exact .inr ⟨h1, h2.symm.trans h⟩
  · rintro (⟨k, hk, h1, h2⟩ | ⟨h1, h2⟩)
    · rcases hf with ⟨k', hk', h1', h2', h3'⟩ | ⟨h1', _⟩
      · have : k = k' := by
          rcases Nat.lt_trichotomy k k' with hlt | he | hlt
          · obtain ⟨rs, hr⟩ := h1' (k + 1) hlt
            rw [h2] at hr
            cases hr
          · exact he
          · obtain ⟨rs, hr⟩ := h1 (k' + 1) hlt
            exact absurd hr (h2' rs)
        subst this
        exact h3'.trans h2
      · obtain ⟨rs, hr⟩ := h1' (k + 1)
        rw [h2] at hr
        cases hr
    · rcases hf with ⟨k', hk', h1', h2', h3'⟩ | ⟨_, h3⟩
      · obtain ⟨rs, hr⟩ := h1 (k' + 1)
        exact absurd hr (h2' rs)
      · exact h3.trans h2

/-! ### Each way in which a grammar is malformed does occur -/

/-- `a:b`: the tokens `a`, then a fault. -/
example : BeginsWith (Location.new []) ['a', ':', 'b'] [.metaIdentifier ⟨[], 1, 1⟩ ['a']] ⟨[], 1, 2⟩ [':', 'b'] ∧
    Fault ⟨[], 1, 2⟩ [':', 'b'] ⟨⟨[], 1, 2⟩, .colonNotAllowed⟩ := by
  refine ⟨⟨['a'], rfl, .cons (s := ['a']) (.metaIdentifier ⟨[], 1, 1⟩ 'a' [] (by decide) (by simp)) rfl (ends_none _) (.nil _), ?_, rfl⟩,
    .colon (by decide)⟩
  intro t ht
  simp at ht
  subst ht
  rw [List.head?_cons]; unfold Ends; decide

/-- Faults of each kind. -/
example (here : Location) : Fault here "(*) *)".toList ⟨here, .ambiguousComment "(*)".toList⟩ ∧
    Fault here "*)".toList ⟨here, .commentNotOpened⟩ ∧ Fault here ['\'', '\'', ';'] ⟨here, .terminalEmpty⟩ ∧
    Fault here ['\'', 'a', '\t', '\''] ⟨here, .terminalBadChar '\t'⟩ ∧ Fault here "?a\x7F?".toList ⟨here, .specialBadChar '\x7F'⟩ ∧
    Fault here "#;".toList ⟨here, .undefinedChar '#'⟩ ∧
    Fault here "(*\n\x7F*)".toList ⟨⟨here.name, here.lines + 1, 1⟩, .commentBadChar '\x7F'⟩ := by
  have hp : ¬ IsPrintable '\x7F' := by unfold IsPrintable; decide
  have ha : IsPrintable 'a' := by unfold IsPrintable; decide
  have hg : ('\x7F' : Char) ∉ gapChars := by decide
  refine ⟨.ambiguousComment, .notOpened, .emptyString (by simp), ?_, ?_, ?_, ?_⟩
  · refine .stringChar (s := ['a']) (by simp) ?_ (by unfold IsPrintable; decide)
    intro d hd; simp at hd; subst hd; exact ⟨ha, by decide⟩
  · refine .specialChar (s := ['a']) ?_ hp hg
    intro d hd; simp at hd; subst hd; exact ⟨.inl ha, by decide⟩
  · refine .undefined ((stray_iff '#').mpr ?_) (by simp)
    unfold IsLetter IsDigit
    decide
  · refine .commentChar (s := ['\n']) ?_ hp hg
    rw [inComment_iff, ← commentLoop_open_iff here 0 '*']
    rw [commentLoop_cons]
    simp [depthStep, gapChars, commentLoop]

/-- `=x;` is a complete rule that does not begin with a name; it is found in `=x; :`, which can be completed by `)`. -/
example : Malformed [.definingSymbol ⟨[], 1, 1⟩, .metaIdentifier ⟨[], 1, 2⟩ ['x'], .terminatorSymbol ⟨[], 1, 3⟩ ';']
      ⟨⟨[], 1, 1⟩, .metaIdentifierExpected .defining⟩ ∧
    (∃ ts, Lexes (Location.new []) ['=', 'x', ';'] ts ∧ Malformed ts ⟨⟨[], 1, 1⟩, .metaIdentifierExpected .defining⟩) ∧
    Completable (Location.new []) ['=', 'x', ';'] ∧
    parseStr [] "=x; :".toList = .err ⟨⟨[], 1, 1⟩, .metaIdentifierExpected .defining⟩ := by
  have hm : Malformed [.definingSymbol ⟨[], 1, 1⟩, .metaIdentifier ⟨[], 1, 2⟩ ['x'], .terminatorSymbol ⟨[], 1, 3⟩ ';']
      ⟨⟨[], 1, 1⟩, .metaIdentifierExpected .defining⟩ :=
    ⟨[], [], [.definingSymbol ⟨[], 1, 1⟩, .metaIdentifier ⟨[], 1, 2⟩ ['x']], .terminatorSymbol ⟨[], 1, 3⟩ ';', rfl, .nil,
      by simp [IsTerminator], trivial, RuleFault.name (g := []) (by simp [Blanks]) (by simp [IsBlank]) (by simp [kindOf])⟩
  have hl : Lexes (Location.new []) ['=', 'x', ';']
      [.definingSymbol ⟨[], 1, 1⟩, .metaIdentifier ⟨[], 1, 2⟩ ['x'], .terminatorSymbol ⟨[], 1, 3⟩ ';'] :=
    .cons (s := ['=']) (.defining ⟨[], 1, 1⟩) rfl trivial
      (.cons (s := ['x']) (.metaIdentifier ⟨[], 1, 2⟩ 'x' [] (by decide) (by simp)) rfl
        (by rw [List.head?_cons]; unfold Ends; decide)
        (.cons (s := [';']) (.terminator ⟨[], 1, 3⟩ ';' (by simp)) rfl trivial (.nil _)))
  refine ⟨hm, ⟨_, hl, hm⟩, ⟨[], _, by simpa using hl⟩, ?_⟩
  decide +kernel

/-- A quotation mark that is not closed at the end of the text; a bracket that is not closed at the end of the text. -/
example (here : Location) : FaultAtEnd here ['\'', 'x'] ⟨here, .terminalNotClosed '\''⟩ ∧ FaultAtEnd here [':'] ⟨here, .colonNotAllowed⟩ ∧
    RuleFault [.metaIdentifier here ['a'], .definingSymbol here, .startGroupSymbol here, .metaIdentifier here ['b'], .eof here]
      ⟨here, .bracketNotClosed .startGroup ['(']⟩ := by
  refine ⟨.string (s := ['x']) (by simp) ?_, .colon, ?_⟩
  · intro d hd; simp at hd; subst hd; unfold IsPrintable; decide
  · refine .list (g := []) (g' := []) (by simp [Blanks]) (.word here ['a']) (by simp [Blanks]) (.single (.term (.factor
      (.notClosed (m := []) (g := []) (k := .group) .none (by simp [Blanks]) trivial (.startGroup here) ?_ ?_))))
    · intro e h; generalize hx : Token.startGroupSymbol here = x at h; cases h <;> cases hx
    · rintro ⟨inner, c, more, h, _, hc⟩
      have : c ∈ [Token.metaIdentifier here ['b'], .eof here] := by rw [h]; simp
      simp at this
      rcases this with rfl | rfl <;> exact hc

/-- The other messages about rules. -/
example : parseStr [] "a 'x'=b;".toList = .err ⟨⟨[], 1, 3⟩, .definingExpected .terminalString⟩ ∧
    parseStr [] "a=b 'c';".toList = .err ⟨⟨[], 1, 5⟩, .separatorExpected .terminalString⟩ ∧
    parseStr [] "a=2 b;".toList = .err ⟨⟨[], 1, 5⟩, .repetitionSymbolExpected .metaIdentifier⟩ ∧
    parseStr [] "a=4294967296*b;".toList = .err ⟨⟨[], 1, 3⟩, .badRepetition "4294967296".toList⟩ ∧
    parseStr [] "a=(/);".toList = .err ⟨⟨[], 1, 3⟩, .ambiguousOption⟩ ∧
    parseStr [] "a=(:);".toList = .err ⟨⟨[], 1, 3⟩, .ambiguousRepeat⟩ ∧
    parseStr [] "a=[b,c d;".toList = .err ⟨⟨[], 1, 3⟩, .bracketNotClosed .startOption ['[']⟩ := by decide +kernel

end Ebnf.Props
