import Verif.Proofs.Display
import Verif.Proofs.GrammarFacts
import Verif.Model.Syntax

set_option autoImplicit false

/-! # C13: formatting rules and parsing them again -/

namespace Ebnf.Props

open Ebnf Ebnf.Spec

/-- The rule `a=(12* );`. -/
private def twelveEmpty : SyntaxRule :=
  ⟨⟨[], 1, 1⟩, ['a'], .cons (.cons (.plain (.mk 1 (.grouped ⟨[], 1, 3⟩ (.cons (.cons (.plain (.mk 12
    (.empty ⟨[], 1, 7⟩))) .nil) .nil)))) .nil) .nil⟩

/-- C13 fails: the rule of `a=(12* );` prints as `a=(12*);`, which does not parse. -/
theorem c13_not_reparsable :
    ∃ r, parseStr [] "a=(12* );".toList = .ok [r] ∧ r.display = "a=(12*);".toList ∧
      parseStr [] "a=(12*);".toList = .err ⟨⟨[], 1, 6⟩, .commentNotOpened⟩ :=
  ⟨twelveEmpty, by decide +kernel, by decide +kernel, by decide +kernel⟩

/-- C13 (partial): printing the rules of a text, one after the other as `Display for Syntax` does, and parsing
the result gives the same rules up to locations.  Missing: rules with a group that ends in a repetition of
the empty sequence (`c13_not_reparsable`). -/
theorem c13_round_trip_partial (name name' text : Str) (rs : List SyntaxRule) (h : parseStr name text = .ok rs)
    (hp : ∀ r ∈ rs, PrintableList r.definitionList) :
    ∃ rs', parseStr name' (rs.map SyntaxRule.display).flatten = .ok rs' ∧
      rs'.map forgetLocations = rs.map forgetLocations := by
  rw [← List.flatMap_def]
  refine parse_display name' rs (fun r hr => ⟨?_, hp r hr⟩)
  obtain ⟨ts, h1, h2⟩ := parseStr_sound h
  obtain ⟨us, h3, h4⟩ := rulesG_forall h2 r hr
  exact shape_rule h4 (by
    intro t ht
    rcases List.mem_append.mp (h3 t ht) with h | h
    · exact .inl (lexes_spelled h1 t h)
    · simp at h; exact .inr ⟨_, h⟩)

/-- C13 (partial): the same for every well-shaped rule, whether or not it came from the lexer. -/
theorem c13_round_trip_tree_partial (name : Str) (r : SyntaxRule) (h : RuleShape r)
    (hp : PrintableList r.definitionList) :
    ∃ r', parseStr name r.display = .ok [r'] ∧ forgetLocations r' = forgetLocations r := by
  obtain ⟨rs, h1, h2⟩ := parse_display name [r] (by simpa using ⟨h, hp⟩)
  simp at h1
  have hlen : rs.length = 1 := by simpa using congrArg List.length h2
  obtain ⟨r', rfl⟩ := List.length_eq_one_iff.mp hlen
  exact ⟨r', h1, by simpa using h2⟩

/-- C13: printing ignores locations, so printing what was read back gives the same text again. -/
theorem c13_print_ignores_locations (r r' : SyntaxRule) (h : forgetLocations r' = forgetLocations r) :
    r'.display = r.display := by
  rw [← display_forget r', h, display_forget]

/-- C13 for a `Syntax`: its printed form is the printed rules in order. -/
theorem c13_display_syntax_partial (name name' text : Str) (rs : List SyntaxRule) (s : Syntax)
    (h : parseStr name text = .ok rs) (hs : Syntax.new rs = .ok s)
    (hp : ∀ r ∈ rs, PrintableList r.definitionList) :
    ∃ rs', parseStr name' s.display = .ok rs' ∧ rs'.map forgetLocations = rs.map forgetLocations := by
  have : s.syntaxRules = rs := by
    unfold Syntax.new at hs
    obtain ⟨x, _, hs⟩ := Res.bind_eq_ok.mp hs
    obtain ⟨n, r⟩ := x
    obtain ⟨_, _, hs⟩ := Res.bind_eq_ok.mp hs
    simp at hs
    rw [← hs]
  rw [Syntax.display, this, List.flatMap_def]
  exact c13_round_trip_partial name name' text rs h hp

/-- The rule of the text in the example below. -/
private def sample : SyntaxRule :=
  ⟨⟨[], 1, 1⟩, "a b".toList, .cons
    (.cons (.except (.mk 3 (.terminalString ⟨[], 1, 9⟩ ['\''])) (.mk 1 (.optional ⟨[], 1, 13⟩ (.cons
        (.cons (.plain (.mk 1 (.metaIdentifier ⟨[], 1, 14⟩ ['b']))) .nil)
        (.cons (.cons (.plain (.mk 1 (.empty ⟨[], 1, 22⟩))) .nil) .nil)))))
      (.cons (.plain (.mk 1 (.specialSequence ⟨[], 1, 25⟩ ['s']))) .nil))
    .nil⟩

example : parseStr [] "a b = 3*\"'\"-[b(* c *)|],?s?;".toList = .ok [sample] ∧
    PrintableList sample.definitionList ∧ sample.display = "a b=3*\"'\"-[b|],?s?;".toList := by
  refine ⟨?_, ?_, ?_⟩
  · decide +kernel
  · simp [sample, PrintableList, PrintableSingle, PrintableTerm, PrintableFactor, PrintablePrimary]
  · decide +kernel

end Ebnf.Props
