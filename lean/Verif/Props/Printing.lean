import Verif.Proofs.Unprintable
import Verif.Props.Display
import Verif.Props.Grammar

set_option autoImplicit false

/-! # C81: exactly which rules can be read back after printing -/

namespace Ebnf.Props

open Ebnf Ebnf.Spec

/-- C81: the printed form of rules that were read can be read back iff no group, at any depth, ends in a repetition of the empty sequence. -/
theorem c81_reads_back_iff (name name' text : Str) (rs : List SyntaxRule) (h : parseStr name text = .ok rs) :
    (∃ rs', parseStr name' (rs.map SyntaxRule.display).flatten = .ok rs' ∧ rs'.map forgetLocations = rs.map forgetLocations) ↔
      ∀ r ∈ rs, PrintableList r.definitionList := by
  constructor
  · rintro ⟨rs', h1, _⟩
    refine Classical.byContradiction fun hp => ?_
    have h2 := spoilt_rules rs (fun r hr => (c12_shape name text rs h r hr).1) hp (Location.new name')
    obtain ⟨a, b, _, h3⟩ := parseStr_spoilt h2
    rw [List.flatMap_def, h1] at h3
    cases h3
  · exact c13_round_trip_partial name name' text rs h

/-- C81: otherwise reading stops with the error for a `*)` that ends no comment, at a `*)` of the printed form; it never gives other rules. -/
theorem c81_otherwise (name name' text : Str) (rs : List SyntaxRule) (h : parseStr name text = .ok rs)
    (hp : ¬ ∀ r ∈ rs, PrintableList r.definitionList) :
    ∃ a b, (rs.map SyntaxRule.display).flatten = a ++ "*)".toList ++ b ∧
      parseStr name' (rs.map SyntaxRule.display).flatten =
        .err ⟨lineColumn ⟨name', 1, 1⟩ a, .commentNotOpened⟩ := by
  obtain ⟨a, b, h1, h2⟩ := parseStr_spoilt
    (spoilt_rules rs (fun r hr => (c12_shape name text rs h r hr).1) hp (Location.new name'))
  rw [List.flatMap_def] at h1 h2
  exact ⟨a, b, by simpa using h1, h2⟩

/-- C81 for every well-shaped rule, whether or not it was read. -/
theorem c81_tree_iff (name : Str) (r : SyntaxRule) (h : RuleShape r) :
    (∃ r', parseStr name r.display = .ok [r'] ∧ forgetLocations r' = forgetLocations r) ↔ PrintableList r.definitionList := by
  constructor
  · rintro ⟨r', h1, _⟩
    refine Classical.byContradiction fun hp => ?_
    obtain ⟨a, b, _, h3⟩ := parseStr_spoilt (spoilt_rules [r] (by simpa using h) (by simpa using hp) (Location.new name))
    simp [h1] at h3
  · exact c13_round_trip_tree_partial name r h

/-- C81: whatever the printed form of rules that were read is read as, it is the rules that were printed. -/
theorem c81_never_other (name name' text : Str) (rs rs' : List SyntaxRule) (h : parseStr name text = .ok rs)
    (h' : parseStr name' (rs.map SyntaxRule.display).flatten = .ok rs') : rs'.map forgetLocations = rs.map forgetLocations := by
  by_cases hp : ∀ r ∈ rs, PrintableList r.definitionList
  · obtain ⟨rs'', h1, h2⟩ := c13_round_trip_partial name name' text rs h hp
    rw [h'] at h1
    injection h1 with h1
    rw [h1, h2]
  · obtain ⟨a, b, _, h3⟩ := c81_otherwise name name' text rs h hp
    rw [h'] at h3
    cases h3

/-- Both sides are met: see `c13_not_reparsable` for a rule that cannot be read back; the same repetition in square brackets can. -/
example : ∃ r, parseStr [] "a=[12* ];".toList = .ok [r] ∧ PrintableList r.definitionList ∧
    (∃ r', parseStr [] r.display = .ok [r'] ∧ forgetLocations r' = forgetLocations r) := by
  refine ⟨⟨⟨[], 1, 1⟩, ['a'], .cons (.cons (.plain (.mk 1 (.optional ⟨[], 1, 3⟩ (.cons (.cons (.plain (.mk 12
    (.empty ⟨[], 1, 7⟩))) .nil) .nil)))) .nil) .nil⟩, by decide +kernel, ?_, ?_⟩
  · simp [PrintableList, PrintableSingle, PrintableTerm, PrintableFactor, PrintablePrimary]
  · exact ⟨⟨⟨[], 1, 1⟩, ['a'], .cons (.cons (.plain (.mk 1 (.optional ⟨[], 1, 3⟩ (.cons (.cons (.plain (.mk 12
      (.empty ⟨[], 1, 6⟩))) .nil) .nil)))) .nil) .nil⟩, by decide +kernel, rfl⟩

/-- A rule whose second definition has the spoilt group: the error is at the star. -/
example : ∃ r, parseStr [] "a='x'|[b-(c,2*\n)];".toList = .ok [r] ∧ r.display = "a='x'|[b-(c,2*)];".toList ∧
    ¬ PrintableList r.definitionList ∧
    parseStr [] r.display = .err ⟨lineColumn ⟨[], 1, 1⟩ "a='x'|[b-(c,2".toList, .commentNotOpened⟩ := by
  refine ⟨⟨⟨[], 1, 1⟩, ['a'], .cons (.cons (.plain (.mk 1 (.terminalString ⟨[], 1, 3⟩ ['x']))) .nil)
    (.cons (.cons (.plain (.mk 1 (.optional ⟨[], 1, 7⟩ (.cons (.cons (.except (.mk 1 (.metaIdentifier ⟨[], 1, 8⟩ ['b']))
      (.mk 1 (.grouped ⟨[], 1, 10⟩ (.cons (.cons (.plain (.mk 1 (.metaIdentifier ⟨[], 1, 11⟩ ['c'])))
        (.cons (.plain (.mk 2 (.empty ⟨[], 1, 15⟩))) .nil)) .nil)))) .nil) .nil)))) .nil) .nil)⟩, by decide +kernel, by decide +kernel, ?_, ?_⟩
  · simp [PrintableList, PrintableSingle, PrintableTerm, PrintableFactor, PrintablePrimary, EndsRepeatedEmpty, EndsRepeatedEmptySingle,
      EndsRepeatedEmptyTerm, RepeatedEmpty]
  · decide +kernel

end Ebnf.Props
