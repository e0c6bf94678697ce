import Verif.Proofs.Linear
import Verif.Proofs.LookAhead
import Verif.Props.Cost

set_option autoImplicit false

/-! # C92: grammars that need one character of look-ahead are parsed in linearly many steps -/

namespace Ebnf.Props

open Ebnf Ebnf.Spec

variable {dbg : Bool}

/-- C92: if one character of look-ahead tells which alternative to take and whether to go on, every definition derives some text, exceptions are
terminals or special sequences, no rule is left-recursive, nothing follows a bare group, counts are below the limit and scanners just
match or not, then a parse executes at most `B (n + 1)` instructions on a text of `n` characters, accepted or not, where `B` depends on the
grammar alone. -/
theorem c92_linear {G : Language} {start : SyntaxRule} {m : Machine} (hp : ParserFor dbg G start m) (hO : OneAhead regardless G)
    (hP : Productive regardless G) (hX : LeafExceptions G) (ho : Everywhere (ordinary G) G) (hl : ¬ LeftRecursive G) :
    ∃ B, ∀ (r : Reader) (here : Location) (text : Str), InputAt dbg r here text → ∃ n, Executes m r n ∧ n ≤ B * (text.length + 1) := by
  obtain ⟨B, h⟩ := costs_linear (parser_oneMeaning hp) (parser_bounded hp) hO hP hX ho hl
  refine ⟨B, fun r here text hi => ?_⟩
  obtain ⟨o, hev⟩ := total (q := asBuilt) rfl (parser_bounded hp) hp.shape hl _ _ _ _ []
    (.primary (.metaIdentifier start.location start.metaIdentifier)) here text rfl rfl rfl rfl leads_nil (hp.shape _ hp.start).1
  obtain ⟨n, hn⟩ := c82_executes hp hi ((returns_iff hp hi _).mpr (parses_of_ev (parser_bounded hp) hev))
  exact ⟨n, hn, h _ _ _ _ _ ((c91_cost hp hi n).mp hn)⟩

/-- C92, for grammars without special sequences whose exceptions are terminal strings: the look-ahead can be checked with a table (see
`c68_checked`). -/
theorem c92_checked {G : Language} {start : SyntaxRule} {m : Machine} (hp : ParserFor dbg G start m) {tab : Str → Row}
    (hc : checkRules G tab = true) (hr : ∀ rule ∈ G.rules, ∃ w, Produces regardless G (.list rule.definitionList) w)
    (ho : Everywhere (ordinary G) G) (hl : ¬ LeftRecursive G) :
    ∃ B, ∀ (r : Reader) (here : Location) (text : Str), InputAt dbg r here text → ∃ n, Executes m r n ∧ n ≤ B * (text.length + 1) := by
  refine c92_linear hp (predictive_of_check (parser_oneMeaning hp) hc).toOneAhead ?_ ?_ ho hl
  · refine productive_of hp.shape (fun loc s h => absurd h (checked_special hc)) fun loc n h => ?_
    obtain ⟨r, h1, h2⟩ := checked_defined hc h
    obtain ⟨w, h3⟩ := hr r h1
    exact ⟨w, .reference h1 h2 h3⟩
  · intro f k p h
    obtain ⟨loc, s, h⟩ := checked_exception hc h
    cases h
    trivial

/-- The rules `A='(',{A},')'|B-'z';` and `B='x'|'y'|'z';`. -/
private def ruleA : SyntaxRule :=
  ⟨⟨[], 1, 1⟩, ['A'], .cons (.cons (.plain (.mk 1 (.terminalString ⟨[], 1, 3⟩ ['('])))
    (.cons (.plain (.mk 1 (.repeated ⟨[], 1, 7⟩ (.cons (.cons (.plain (.mk 1 (.metaIdentifier ⟨[], 1, 8⟩ ['A']))) .nil) .nil))))
      (.cons (.plain (.mk 1 (.terminalString ⟨[], 1, 11⟩ [')']))) .nil)))
    (.cons (.cons (.except (.mk 1 (.metaIdentifier ⟨[], 1, 15⟩ ['B'])) (.mk 1 (.terminalString ⟨[], 1, 17⟩ ['z']))) .nil) .nil)⟩
private def ruleB : SyntaxRule :=
  ⟨⟨[], 1, 21⟩, ['B'], .cons (.cons (.plain (.mk 1 (.terminalString ⟨[], 1, 23⟩ ['x']))) .nil)
    (.cons (.cons (.plain (.mk 1 (.terminalString ⟨[], 1, 27⟩ ['y']))) .nil)
    (.cons (.cons (.plain (.mk 1 (.terminalString ⟨[], 1, 31⟩ ['z']))) .nil) .nil))⟩

/-- The table. -/
private def table (n : Str) : Row :=
  if n = ['A'] then ⟨false, ['(', 'x', 'y', 'z'], ['(', 'x', 'y', 'z', ')']⟩
  else ⟨false, ['x', 'y', 'z'], ['(', 'x', 'y', 'z', ')']⟩

-- C92: the grammar above meets the hypotheses, and there is a parser for it.
example : ∃ m, ParserFor false (plainLanguage [ruleA, ruleB]) ruleA m ∧ checkRules (plainLanguage [ruleA, ruleB]) table = true ∧
    OneAhead regardless (plainLanguage [ruleA, ruleB]) ∧ Productive regardless (plainLanguage [ruleA, ruleB]) ∧
    LeafExceptions (plainLanguage [ruleA, ruleB]) ∧
    (∀ rule ∈ (plainLanguage [ruleA, ruleB]).rules, ∃ w, Produces regardless (plainLanguage [ruleA, ruleB]) (.list rule.definitionList) w) ∧
    Everywhere (ordinary (plainLanguage [ruleA, ruleB])) (plainLanguage [ruleA, ruleB]) ∧ ¬ LeftRecursive (plainLanguage [ruleA, ruleB]) ∧
    InputAt false (readerOn "((x)y)") (Location.new []) "((x)y)".toList := by
  obtain ⟨m, h1, h2, _⟩ := samplePlainOf "A='(',{A},')'|B-'z';B='x'|'y'|'z';" ruleA [ruleB] (by decide +kernel) (by decide +kernel)
  have hc : checkRules (plainLanguage [ruleA, ruleB]) table = true := by decide +kernel
  have hr : ∀ rule ∈ (plainLanguage [ruleA, ruleB]).rules, ∃ w, Produces regardless (plainLanguage [ruleA, ruleB]) (.list rule.definitionList) w := by
    intro r hr
    simp [plainLanguage] at hr
    rcases hr with rfl | rfl
    · exact ⟨['('] ++ [] ++ ([] ++ ([')'] ++ [] ++ [])), .choice List.mem_cons_self
        (.next (.plain (.again .terminal .never)) (.next (w := []) (.plain (.again (w := []) (w' := []) .noMore .never))
          (.next (.plain (.again .terminal .never)) .done)))⟩
    · exact ⟨['x'] ++ [] ++ [], .choice List.mem_cons_self
        (.next (.plain (.again .terminal .never)) .done)⟩
  refine ⟨m, h1, hc, (predictive_of_check (parser_oneMeaning h1) hc).toOneAhead, ?_, ?_, hr, ?_,
    not_leftRecursive (fun r => if r.metaIdentifier = ['A'] then 1 else 0) ?_, input_readerOn _⟩
  · refine productive_of h1.shape (fun loc s h => absurd h (checked_special hc)) fun loc n h => ?_
    obtain ⟨r, h1, h2⟩ := checked_defined hc h
    obtain ⟨w, h3⟩ := hr r h1
    exact ⟨w, .reference h1 h2 h3⟩
  · intro f k p h
    obtain ⟨loc, s, h⟩ := checked_exception hc h
    cases h
    trivial
  · intro r hr
    simp [plainLanguage] at hr
    rcases hr with rfl | rfl <;>
    simp [ruleA, ruleB, EveryList, EverySingle, EveryTerm, EveryFactor, EveryPrimary, ordinary, groupsLast, smallCounts, IsBareGroup]
  · rintro r r' ⟨h1, h2⟩
    simp [plainLanguage] at h1
    rcases h1 with rfl | rfl
    · simp [ruleA, begins_list, begins_cons, begins_nil, begins_plain, begins_factor, begins_except, begins_reference,
        begins_terminal, DefinitionList.toList, empty_plain, empty_factor, empty_terminal, IsBareGroup,
        plainLanguage] at h2
      rcases h2 with ⟨rfl | rfl, h2⟩
      · have := keyed_differs h2
        exact absurd this (by decide)
      · decide
    · simp [ruleB, begins_list, begins_cons, begins_nil, begins_plain, begins_factor, begins_terminal, DefinitionList.toList] at h2

end Ebnf.Props
