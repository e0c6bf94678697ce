import Verif.Proofs.GrammarFacts

set_option autoImplicit false

/-! # Properties of the rule parser: C08 (rules), C09–C12 -/

namespace Ebnf.Props

open Ebnf Ebnf.Spec

/-- C08 for rules: every rule and every primary in it, at any depth, except empty sequences, carries the
line and column of a place of the text where its own spelling starts. -/
theorem c08_rule_positions (name text : Str) (rs : List SyntaxRule) (h : parseStr name text = .ok rs)
    (r : SyntaxRule) (hr : r ∈ rs) :
    (∃ pre post w, text = pre ++ post ∧ r.location = lineColumn (Location.new name) pre ∧
      w ≠ [] ∧ w <+: r.metaIdentifier ∧ w <+: post) ∧
    ∀ p ∈ primariesOfList r.definitionList, (∀ l, p ≠ .empty l) →
      ∃ pre post, text = pre ++ post ∧ p.location = lineColumn (Location.new name) pre ∧ StartsWith p post := by
  obtain ⟨ts, h1, h2⟩ := parseStr_sound h
  obtain ⟨us, h3, h4⟩ := rulesG_forall h2 r hr
  obtain ⟨⟨w, h5, h6⟩, h7⟩ := located_rule h4
  have key : ∀ t ∈ us, (∀ l, t ≠ .eof l) → t ∈ ts := by
    intro t ht he
    rcases List.mem_append.mp (h3 t ht) with h | h
    · exact h
    · simp at h; exact absurd h (he _)
  constructor
  · obtain ⟨pre, s, post, h8, h9, h10⟩ := lexes_mem h1 _ (key _ h6 (by simp))
    refine ⟨pre, s ++ post, w, h8, h10, ?_, h5, ?_⟩
    · cases h9; simp
    · cases h9; exact List.prefix_append _ _
  · intro p hp hne
    obtain ⟨t, h8, h9⟩ := h7 p hp hne
    have hneof : ∀ l, t ≠ .eof l := by
      rintro l rfl
      cases p <;> simp [StartToken] at h9
    obtain ⟨pre, s, post, h10, h11, h12⟩ := lexes_mem h1 _ (key _ h8 hneof)
    obtain ⟨h13, h14⟩ := startToken_startsWith (post := post) h9 h11
    exact ⟨pre, s ++ post, h10, by rw [← h13, h12], h14⟩

example : ∃ r, parseStr [] "\n a b = ( \n['x'] );".toList = .ok [r] ∧ r.location = ⟨[], 2, 2⟩ ∧
    (primariesOfList r.definitionList).map Primary.location = [⟨[], 2, 8⟩, ⟨[], 3, 1⟩, ⟨[], 3, 2⟩] := by
  refine ⟨⟨⟨[], 2, 2⟩, "a b".toList, .cons (.cons (.plain (.mk 1 (.grouped ⟨[], 2, 8⟩ (.cons (.cons (.plain
    (.mk 1 (.optional ⟨[], 3, 1⟩ (.cons (.cons (.plain (.mk 1 (.terminalString ⟨[], 3, 2⟩ ['x']))) .nil)
    .nil)))) .nil) .nil)))) .nil) .nil⟩, ?_, ?_, ?_⟩ <;> decide +kernel

/-- C09: whatever `parse_str` returns is the parse tree, in the ISO 14977 grammar, of the tokens of the
text. -/
theorem c09_sound (name text : Str) (rs : List SyntaxRule) (h : parseStr name text = .ok rs) :
    ∃ ts, Lexes (Location.new name) text ts ∧
      RulesG (ts ++ [.eof (lineColumn (Location.new name) text)]) rs := parseStr_sound h

/-- C09 for the token parser itself, on the tokens up to a terminator: a rule is returned only for the
tokens of that rule, no rule only for blanks. -/
theorem c09_rule_sound (ts : List Token) (t : Token) (r : Option SyntaxRule) (ht : IsTerminator t)
    (hts : ∀ u ∈ ts, (∃ s, Spelled u s) ∧ ¬ IsTerminator u) (h : buildSyntaxRule (ts ++ [t]) = .ok r) :
    (∀ x, r = some x → RuleG (ts ++ [t]) x) ∧ (r = none → Blanks ts) := by
  refine buildSyntaxRule_sound ((isTerminator_iff t).mp ht) ?_ ?_ h
  · intro u hu
    have := (hts u hu).2
    rw [isTerminator_iff] at this
    simpa using this
  · intro l s hm
    rcases List.mem_append.mp hm with h | h
    · exact spelled_named (ts := ts) (fun u hu => .inl (hts u hu).1) l s h
    · simp at h; subst h
      simp [IsTerminator] at ht

example : parseStr [] "a = 3 * 'x' - [b], ?s? | {c};".toList = .ok [⟨⟨[], 1, 1⟩, ['a'],
    .cons (.cons (.except (.mk 3 (.terminalString ⟨[], 1, 9⟩ ['x']))
        (.mk 1 (.optional ⟨[], 1, 15⟩ (.cons (.cons (.plain (.mk 1 (.metaIdentifier ⟨[], 1, 16⟩ ['b']))) .nil) .nil))))
      (.cons (.plain (.mk 1 (.specialSequence ⟨[], 1, 20⟩ ['s']))) .nil))
    (.cons (.cons (.plain (.mk 1 (.repeated ⟨[], 1, 26⟩
      (.cons (.cons (.plain (.mk 1 (.metaIdentifier ⟨[], 1, 27⟩ ['c']))) .nil) .nil)))) .nil) .nil)⟩] := by
  decide +kernel

/-- C10: every text whose tokens derive from the grammar is accepted, with its parse tree as the result,
up to the location attached to empty sequences. -/
theorem c10_complete (name text : Str) (ts : List Token) (rs : List SyntaxRule)
    (hl : Lexes (Location.new name) text ts)
    (hr : RulesG (ts ++ [.eof (lineColumn (Location.new name) text)]) rs) :
    ∃ rs', parseStr name text = .ok rs' ∧ rs'.map forgetEmpty = rs.map forgetEmpty :=
  parseStr_complete hl hr rfl

/-- C10: the grammar is unambiguous on texts. -/
theorem c10_unambiguous (name text : Str) (ts : List Token) (l : Location) (rs rs' : List SyntaxRule)
    (hl : Lexes (Location.new name) text ts) (h : RulesG (ts ++ [.eof l]) rs) (h' : RulesG (ts ++ [.eof l]) rs') :
    rs.map forgetEmpty = rs'.map forgetEmpty := rulesG_unique (lexes_named hl) h h'

example : ∃ ts rs, Lexes (Location.new []) "a=;".toList ts ∧ RulesG (ts ++ [.eof ⟨[], 1, 4⟩]) rs ∧ rs.length = 1 := by
  refine ⟨[.metaIdentifier ⟨[], 1, 1⟩ ['a'], .definingSymbol ⟨[], 1, 2⟩, .terminatorSymbol ⟨[], 1, 3⟩ ';'],
    [⟨⟨[], 1, 1⟩, ['a'], .cons (.cons (.plain (.mk 1 (.empty nowhere))) .nil) .nil⟩], ?_, ?_, rfl⟩
  · exact .cons (s := ['a']) (.metaIdentifier _ 'a' [] (by decide) (by simp)) rfl (by show ¬ IsLetter '=' ∧ ¬ IsDigit '='; decide)
      (.cons (s := ['=']) (.defining _) rfl trivial
        (.cons (s := [';']) (.terminator _ ';' (by simp)) rfl trivial (.nil _)))
  · exact .rule (ts := [.metaIdentifier ⟨[], 1, 1⟩ ['a'], .definingSymbol ⟨[], 1, 2⟩,
        .terminatorSymbol ⟨[], 1, 3⟩ ';'])
      (.rule (g := []) (g' := []) (ts' := []) (g'' := []) blanks_nil (.word _ _) blanks_nil
        (.one (.one (.plain (.one (.empty _ blanks_nil))))) blanks_nil trivial)
      (.blank (g := []) blanks_nil trivial .nil)

/-- C11: in an accepted text the brackets of all three kinds are balanced and properly nested. -/
theorem c11_brackets_nested (name text : Str) (rs : List SyntaxRule) (h : parseStr name text = .ok rs)
    (ts : List Token) (hl : Lexes (Location.new name) text ts) : Nested ts := by
  obtain ⟨us, h1, h2⟩ := parseStr_sound h
  rw [lexes_unique hl h1]
  exact nested_drop_last (nested_rules h2) (by intro k; cases k <;> simp [Closes]) rfl

/-- Counting each kind separately would accept this text. -/
example : (∀ rs, parseStr [] "a=([)];".toList ≠ .ok rs) ∧ ∃ r, parseStr [] "a=([]);".toList = .ok [r] := by
  constructor
  · have : parseStr [] "a=([)];".toList = .err ⟨⟨[], 1, 4⟩, .bracketNotClosed .startOption ['[']⟩ := by decide +kernel
    intro rs h; rw [this] at h; simp at h
  · exact ⟨⟨⟨[], 1, 1⟩, ['a'], .cons (.cons (.plain (.mk 1 (.grouped ⟨[], 1, 3⟩ (.cons (.cons (.plain
      (.mk 1 (.optional ⟨[], 1, 4⟩ (.cons (.cons (.plain (.mk 1 (.empty (Location.new "<unknown>".toList)))) .nil) .nil)))) .nil) .nil)))) .nil) .nil⟩, by
      decide +kernel⟩

/-- C12: the shape of every rule that `parse_str` returns. -/
theorem c12_shape (name text : Str) (rs : List SyntaxRule) (h : parseStr name text = .ok rs)
    (r : SyntaxRule) (hr : r ∈ rs) :
    RuleShape r ∧ r.metaIdentifier ≠ [] ∧ normalizedMetaIdentifier r.metaIdentifier = r.metaIdentifier := by
  obtain ⟨ts, h1, h2⟩ := parseStr_sound h
  obtain ⟨us, h3, h4⟩ := rulesG_forall h2 r hr
  have hs := shape_rule h4 (by
    intro t ht
    rcases List.mem_append.mp (h3 t ht) with h | h
    · exact .inl (lexes_spelled h1 t h)
    · simp at h; exact .inr ⟨_, h⟩)
  exact ⟨hs, nameShape_ne_nil hs.1, nameShape_normal hs.1⟩

example : ∃ r, parseStr [] "a \t b = 7*{ \"'\" };".toList = .ok [r] ∧ r.metaIdentifier = "a b".toList := by
  refine ⟨⟨⟨[], 1, 1⟩, "a b".toList, .cons (.cons (.plain (.mk 7 (.repeated ⟨[], 1, 11⟩ (.cons (.cons (.plain
    (.mk 1 (.terminalString ⟨[], 1, 13⟩ ['\'']))) .nil) .nil)))) .nil) .nil⟩, ?_, ?_⟩ <;> decide +kernel

end Ebnf.Props
