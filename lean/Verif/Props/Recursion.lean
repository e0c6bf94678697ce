import Verif.Proofs.Recursion

set_option autoImplicit false

/-! # C43: parsing ends unless the grammar is left-recursive -/

namespace Ebnf.Props

open Ebnf Ebnf.Spec

variable {dbg : Bool}

/-- C43: when no rule can reach itself without consuming anything, `parse` returns, whatever the input. -/
theorem c43_returns {G : Language} {start : SyntaxRule} {m : Machine} (hp : ParserFor dbg G start m) (hG : ¬ LeftRecursive G)
    {r : Reader} {here : Location} {text : Str} (hi : InputAt dbg r here text) : ∃ x, Returns m r x := by
  obtain ⟨o, h⟩ := total (q := asBuilt) rfl (parser_bounded hp) hp.shape hG _ _ _ _ []
    (.primary (.metaIdentifier start.location start.metaIdentifier)) here text rfl rfl rfl rfl leads_nil (hp.shape _ hp.start).1
  exact ⟨_, (returns_iff hp hi _).mpr (parses_of_ev (parser_bounded hp) h)⟩

/-- C43: rules each of which, as the first thing it does, starts one of them, make `parse` recurse forever, whatever the
input. -/
theorem c43_left_recursion_loops {G : Language} {start : SyntaxRule} {m : Machine} (hp : ParserFor dbg G start m)
    (among : SyntaxRule → Prop)
    (ha : ∀ r, among r → ∃ r', among r' ∧ AlwaysBegins G (.list r.definitionList) r') (hs : among start)
    {r : Reader} {here : Location} {text : Str} (hi : InputAt dbg r here text) : Loops m r := by
  rw [loops_iff hp hi]
  have key : ∀ o, ¬ Ev asBuilt G (.primary (.metaIdentifier start.location start.metaIdentifier)) here text o := fun o h =>
    no_end (parser_oneMeaning hp) (by simp [asBuilt]) ha h trivial start hs (.reference hp.start (.refl _))
  intro x h
  cases h with
  | accepted h _ => exact key _ h
  | leftover h _ => exact key _ h
  | rejected h => exact key _ h
  | aborted h => exact key _ h
  | crashed h => exact key _ h

/-- C43: a rule that always starts itself is left-recursive (so the two theorems do not overlap). -/
theorem c43_self_start_recursive {G : Language} {start : SyntaxRule} (hs : start ∈ G.rules)
    (h : AlwaysBegins G (.list start.definitionList) start) : LeftRecursive G :=
  ⟨start, hs, .single ⟨hs, alwaysBegins_begins h⟩⟩

/-- The rules `A=[B],'x',[A];` and `B={['b']};`. -/
private def ruleA : SyntaxRule :=
  ⟨⟨[], 1, 1⟩, ['A'], .cons (.cons (.plain (.mk 1 (.optional ⟨[], 1, 3⟩ (.cons (.cons (.plain (.mk 1
    (.metaIdentifier ⟨[], 1, 4⟩ ['B']))) .nil) .nil)))) (.cons (.plain (.mk 1 (.terminalString ⟨[], 1, 7⟩ ['x'])))
    (.cons (.plain (.mk 1 (.optional ⟨[], 1, 11⟩ (.cons (.cons (.plain (.mk 1
    (.metaIdentifier ⟨[], 1, 12⟩ ['A']))) .nil) .nil)))) .nil))) .nil⟩
private def ruleB : SyntaxRule :=
  ⟨⟨[], 1, 15⟩, ['B'], .cons (.cons (.plain (.mk 1 (.repeated ⟨[], 1, 17⟩ (.cons (.cons (.plain (.mk 1
    (.optional ⟨[], 1, 18⟩ (.cons (.cons (.plain (.mk 1 (.terminalString ⟨[], 1, 19⟩ ['b']))) .nil) .nil)))) .nil) .nil)))) .nil)
    .nil⟩

example : ∃ m, ParserFor false (plainLanguage [ruleA, ruleB]) ruleA m ∧ ¬ LeftRecursive (plainLanguage [ruleA, ruleB]) ∧
    InputAt false (readerOn "bx") (Location.new []) "bx".toList := by
  obtain ⟨m, h1, _⟩ := samplePlainOf "A=[B],'x',[A];B={['b']};" ruleA [ruleB] (by decide +kernel) (by decide +kernel)
  refine ⟨m, h1, not_leftRecursive (fun r => if r.metaIdentifier = ['A'] then 1 else 0) ?_, input_readerOn _⟩
  rintro r r' ⟨h1, h2⟩
  simp [plainLanguage] at h1
  rcases h1 with rfl | rfl
  · simp [ruleA, begins_list, begins_cons, begins_nil, begins_plain, begins_factor, begins_optional, begins_reference,
      begins_terminal, DefinitionList.toList, empty_plain, empty_factor, empty_terminal, empty_optional, IsBareGroup,
      plainLanguage] at h2
    rcases h2 with ⟨rfl | rfl, h2⟩
    · have := keyed_differs h2
      exact absurd this (by decide)
    · decide
  · simp [ruleB, begins_list, begins_cons, begins_nil, begins_plain, begins_factor, begins_optional, begins_repeated,
      begins_terminal, DefinitionList.toList] at h2

/-- The rule `A=A,'x'|'y';`. -/
private def leftA : SyntaxRule :=
  ⟨⟨[], 1, 1⟩, ['A'], .cons (.cons (.plain (.mk 1 (.metaIdentifier ⟨[], 1, 3⟩ ['A'])))
    (.cons (.plain (.mk 1 (.terminalString ⟨[], 1, 5⟩ ['x']))) .nil)) (.cons (.cons (.plain (.mk 1
    (.terminalString ⟨[], 1, 9⟩ ['y']))) .nil) .nil)⟩

/-- C43, an example: `A=A,'x'|'y';` derives `y`, and its parser recurses forever on `y`. -/
theorem c43_left_recursion_example : ∃ m, ParserFor false (plainLanguage [leftA]) leftA m ∧
    Derives (plainLanguage [leftA]) (.list leftA.definitionList) "y".toList ∧ Loops m (readerOn "y") := by
  obtain ⟨m, h1, _⟩ := samplePlainOf "A=A,'x'|'y';" leftA [] (by decide +kernel) (by decide +kernel)
  refine ⟨m, h1, ?_, c43_left_recursion_loops h1 (· = leftA) ?_ rfl (input_readerOn _)⟩
  · exact .choice (d := .cons (.plain (.mk 1 (.terminalString ⟨[], 1, 9⟩ ['y']))) .nil)
      (by simp [leftA, DefinitionList.toList]) (.next (w := ['y']) (w' := []) (.plain (.again (w := ['y']) (w' := []) .terminal .never)) .done)
  · rintro r rfl
    exact ⟨leftA, rfl, .choice (.first (.plain (.factor (by omega) (.reference (by simp [plainLanguage]) (.refl _)))))⟩

end Ebnf.Props
