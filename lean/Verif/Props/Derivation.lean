import Verif.Proofs.Derivation

set_option autoImplicit false

/-! # C41: accepted inputs belong to the language of the grammar -/

namespace Ebnf.Props

open Ebnf Ebnf.Spec

variable {dbg : Bool}

/-- C41: in a grammar in which nothing follows a bare group and whose scanners do not forward, every accepted text is
derived from the start rule in the context-free reading. -/
theorem c41_accepted_derived {G : Language} {start : SyntaxRule} {m : Machine} (hp : ParserFor dbg G start m)
    (hg : Everywhere (straight G) G) {r : Reader} {here : Location} {text : Str} (hi : InputAt dbg r here text) {out : List Event}
    (h : Returns m r (.ok out)) : Derives G (.list start.definitionList) text := by
  obtain ⟨inner, h1, _⟩ := (returns_ok_iff hp hi out).mp h
  have H : Hides (straight G) G asBuilt { asBuilt with dropAfterGroup := false, ignoreForward := false } (text.length + 1) :=
    ⟨hg, by intro l n _ _ h; simp at h, .inr fun _ _ h => h, .inl rfl, .inr fun _ h => h, .inl rfl⟩
  have h2 := transfer H (parser_bounded hp) h1 (hg _ hp.start) (Nat.lt_succ_self _) trivial
  have h3 := ev_derives rfl rfl h2 trivial _ _ rfl
  rw [List.take_length] at h3
  exact h3

/-- The rule `A='a',[A]|'b';`. -/
private def nested : SyntaxRule :=
  ⟨⟨[], 1, 1⟩, ['A'], .cons (.cons (.plain (.mk 1 (.terminalString ⟨[], 1, 3⟩ ['a'])))
    (.cons (.plain (.mk 1 (.optional ⟨[], 1, 7⟩ (.cons (.cons (.plain (.mk 1 (.metaIdentifier ⟨[], 1, 8⟩ ['A']))) .nil) .nil))))
      .nil)) (.cons (.cons (.plain (.mk 1 (.terminalString ⟨[], 1, 11⟩ ['b']))) .nil) .nil)⟩

example : ∃ m out, ParserFor false (plainLanguage [nested]) nested m ∧
    Everywhere (straight (plainLanguage [nested])) (plainLanguage [nested]) ∧
    InputAt false (readerOn "aab") (Location.new []) "aab".toList ∧ Returns m (readerOn "aab") (.ok out) := by
  obtain ⟨m, h1, h2, _⟩ := samplePlainOf "A='a',[A]|'b';" nested [] (by decide +kernel) (by decide +kernel)
  refine ⟨m, _, h1, ?_, input_readerOn _, h2 "aab" 100 (.ok [.begin ⟨[], 1, 1⟩ ⟨[], 1, 1⟩ ['A'],
    .token ⟨[], 1, 3⟩ ⟨[], 1, 1⟩ ['a'], .begin ⟨[], 1, 8⟩ ⟨[], 1, 2⟩ ['A'],
    .token ⟨[], 1, 3⟩ ⟨[], 1, 2⟩ ['a'], .begin ⟨[], 1, 8⟩ ⟨[], 1, 3⟩ ['A'], .token ⟨[], 1, 11⟩ ⟨[], 1, 3⟩ ['b'],
    .end ⟨[], 1, 8⟩ ⟨[], 1, 4⟩ ['A'], .end ⟨[], 1, 8⟩ ⟨[], 1, 4⟩ ['A'], .end ⟨[], 1, 1⟩ ⟨[], 1, 4⟩ ['A']])
    (by decide +kernel) (by simp)⟩
  intro r hr
  simp [plainLanguage] at hr
  subst hr
  simp [nested, EveryList, EverySingle, EveryTerm, EveryFactor, EveryPrimary, straight, groupsLast, noForwards, IsBareGroup]

/-- The rule `A='a'|'a','b';`. -/
private def prefixed : SyntaxRule :=
  ⟨⟨[], 1, 1⟩, ['A'], .cons (.cons (.plain (.mk 1 (.terminalString ⟨[], 1, 3⟩ ['a']))) .nil)
    (.cons (.cons (.plain (.mk 1 (.terminalString ⟨[], 1, 7⟩ ['a'])))
      (.cons (.plain (.mk 1 (.terminalString ⟨[], 1, 11⟩ ['b']))) .nil)) .nil)⟩

/-- The converse of C41 does not hold: `A='a'|'a','b';` derives `ab`, and the parser rejects it. -/
theorem c41_converse_fails :
    ∃ m, ParserFor false (plainLanguage [prefixed]) prefixed m ∧
      Derives (plainLanguage [prefixed]) (.list prefixed.definitionList) "ab".toList ∧
      ∃ e, Returns m (readerOn "ab") (.err e) := by
  obtain ⟨m, h1, h2, _⟩ := samplePlainOf "A='a'|'a','b';" prefixed [] (by decide +kernel) (by decide +kernel)
  refine ⟨m, h1, ?_, _, h2 "ab" 100 (.err ⟨⟨[], 1, 2⟩, .expected "EOF".toList (.text ['b'] false)⟩) (by decide +kernel) (by simp)⟩
  have one : ∀ loc (s : Str), Derives (plainLanguage [prefixed]) (.term (.plain (.mk 1 (.terminalString loc s)))) s := by
    intro loc s
    have h := Derives.again (G := plainLanguage [prefixed]) (.terminal (loc := loc) (s := s)) .never
    rw [List.append_nil] at h
    exact .plain h
  exact .choice (d := .cons (.plain (.mk 1 (.terminalString ⟨[], 1, 7⟩ ['a'])))
      (.cons (.plain (.mk 1 (.terminalString ⟨[], 1, 11⟩ ['b']))) .nil)) (by simp [prefixed, DefinitionList.toList])
    (.next (w := ['a']) (w' := ['b']) (one _ _) (.next (w := ['b']) (w' := []) (one _ _) .done))

end Ebnf.Props
