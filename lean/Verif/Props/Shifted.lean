import Verif.Proofs.Shifted
import Verif.Props.Events

set_option autoImplicit false

/-! # C109: where an input begins, and what it is called, only moves the places that are reported -/

namespace Ebnf.Props

open Ebnf Ebnf.Spec

variable {dbg : Bool}

/-- C109: two readers with the same text ahead, one at `here`, the other at `there`.  What a parser returns for one, it returns for the other, with
the same events, labels, tokens and messages; only the places of the input are moved.  It runs forever for one iff it does for the other. -/
theorem c109_elsewhere {G : Language} {start : SyntaxRule} {m : Machine} (hp : ParserFor dbg G start m) (hs : ScannersAnywhere G) {r r' : Reader}
    {here there : Location} {text : Str} (hi : InputAt dbg r here text) (hi' : InputAt dbg r' there text) :
    (∀ x, Returns m r x → ∃ x', Returns m r' x' ∧ ShiftedResult (SamePlace here there text) x x') ∧ (Loops m r ↔ Loops m r') := by
  refine ⟨fun x h => ?_, ?_⟩
  · obtain ⟨x', h1, h2⟩ := Shifted.parses_shifted hs ((returns_iff hp hi x).mp h) there
    exact ⟨x', (returns_iff hp hi' x').mpr h1, h2⟩
  · rw [loops_iff hp hi, loops_iff hp hi']
    constructor
    · intro h x hx
      obtain ⟨x', h1, _⟩ := Shifted.parses_shifted hs hx here
      exact h x' h1
    · intro h x hx
      obtain ⟨x', h1, _⟩ := Shifted.parses_shifted hs hx there
      exact h x' h1

/-- C109: any two results for the two readers correspond. -/
theorem c109_results {G : Language} {start : SyntaxRule} {m : Machine} (hp : ParserFor dbg G start m) (hs : ScannersAnywhere G) {r r' : Reader}
    {here there : Location} {text : Str} (hi : InputAt dbg r here text) (hi' : InputAt dbg r' there text) {x x' : Res (List Event)}
    (h : Returns m r x) (h' : Returns m r' x') : ShiftedResult (SamePlace here there text) x x' := by
  obtain ⟨y, h1, h2⟩ := (c109_elsewhere hp hs hi hi').1 x h
  have := parses_unique hp ((returns_iff hp hi' _).mp h1) ((returns_iff hp hi' _).mp h')
  rwa [← this]

/-- C109: the same texts are accepted wherever they begin. -/
theorem c109_accepts {G : Language} {start : SyntaxRule} {m : Machine} (hp : ParserFor dbg G start m) (hs : ScannersAnywhere G) {r r' : Reader}
    {here there : Location} {text : Str} (hi : InputAt dbg r here text) (hi' : InputAt dbg r' there text) :
    (∃ evs, Returns m r (.ok evs)) ↔ ∃ evs, Returns m r' (.ok evs) := by
  have key : ∀ {r r' : Reader} {here there : Location}, InputAt dbg r here text → InputAt dbg r' there text →
      (∃ evs, Returns m r (.ok evs)) → ∃ evs, Returns m r' (.ok evs) := by
    rintro r r' here there hi hi' ⟨evs, h⟩
    obtain ⟨x', h1, h2⟩ := (c109_elsewhere hp hs hi hi').1 _ h
    cases h2
    exact ⟨_, h1⟩
  exact ⟨key hi hi', key hi' hi⟩

/-- C109: which places correspond.  The name is that of the other reader, the lines differ by as much as the lines where the text begins, the columns
by as much as the columns where the text begins in the first line, and not at all in the others. -/
theorem c109_places {here there : Location} {text : Str} {l l' : Location} (h : SamePlace here there text l l') :
    l.name = here.name ∧ l'.name = there.name ∧ l'.lines + here.lines = l.lines + there.lines ∧
      (l.lines = here.lines → l'.columns + here.columns = l.columns + there.columns) ∧ (l.lines ≠ here.lines → l'.columns = l.columns) := by
  obtain ⟨w, _, rfl, rfl⟩ := h
  refine ⟨rfl, rfl, ?_, ?_, ?_⟩
  · simp only [lineColumn]; omega
  · intro h
    have hw : '\n' ∉ w := by
      intro hm
      have := List.count_pos_iff.mpr hm
      simp only [lineColumn] at h
      omega
    simp only [lineColumn, if_neg hw]
    omega
  · intro h
    have hw : '\n' ∈ w := by
      apply Classical.byContradiction
      intro hm
      have := List.count_eq_zero.mpr hm
      simp only [lineColumn] at h
      omega
    simp only [lineColumn, if_pos hw]

/-- C109: places that are different (or the first of which is earlier) for one reader are so for the other. -/
theorem c109_order {here there : Location} {text : Str} {a a' b b' : Location} (ha : SamePlace here there text a a')
    (hb : SamePlace here there text b b') : (a = b ↔ a' = b') ∧ (a.lt b = true ↔ a'.lt b' = true) :=
  ⟨Shifted.same_unique ha hb, Shifted.same_lt ha hb⟩

/-- C109: the scanners of the library do not look at the place they are called at. -/
theorem c109_library {G : Language} (h : ∀ l s, IsBuiltIn (G.special l s)) : ScannersAnywhere G := by
  intro loc s here there rest
  have hb := h loc s
  generalize G.special loc s = f at hb
  cases hb with
  | default => exact .accept .nil
  | chars allowed min max =>
    unfold charsRecognizer
    simp only
    split
    · exact .unmatched
    · exact .accept (.cons (.token (Shifted.here_same _ _ _)) .nil)
  | regex find =>
    unfold regexRecognizer
    split
    · split
      · exact .accept (.cons (.token (Shifted.here_same _ _ _)) .nil)
      · exact .error ⟨Shifted.here_same _ _ _, rfl⟩
    · exact .unmatched

/-- The rule `A='a',{'b'};`. -/
private def ruleA : SyntaxRule :=
  ⟨⟨[], 1, 1⟩, ['A'], .cons (.cons (.plain (.mk 1 (.terminalString ⟨[], 1, 3⟩ ['a'])))
    (.cons (.plain (.mk 1 (.repeated ⟨[], 1, 7⟩ (.cons (.cons (.plain (.mk 1 (.terminalString ⟨[], 1, 8⟩ ['b']))) .nil) .nil)))) .nil)) .nil⟩

/-- The hypotheses hold for `A='a',{'b'};` and `ab`, from the beginning of a text and from line 7, column 3 of a file `f`.  The token `b` is in column
2 of line 1, and in column 4 of line 7. -/
example : ∃ m, ParserFor false (plainLanguage [ruleA]) ruleA m ∧ ScannersAnywhere (plainLanguage [ruleA]) ∧
    InputAt false (readerOn "ab") (Location.new []) "ab".toList ∧
    InputAt false (Reader.withLocation ⟨['f'], 7, 3⟩ (.buffered "ab".toList) false) ⟨['f'], 7, 3⟩ "ab".toList ∧
    Returns m (readerOn "ab") (.ok [.begin ⟨[], 1, 1⟩ ⟨[], 1, 1⟩ ['A'], .token ⟨[], 1, 3⟩ ⟨[], 1, 1⟩ ['a'], .token ⟨[], 1, 8⟩ ⟨[], 1, 2⟩ ['b'],
      .end ⟨[], 1, 1⟩ ⟨[], 1, 3⟩ ['A']]) ∧
    SamePlace (Location.new []) ⟨['f'], 7, 3⟩ "ab".toList ⟨[], 1, 2⟩ ⟨['f'], 7, 4⟩ := by
  obtain ⟨m, h1, h2, _⟩ := samplePlainOf "A='a',{'b'};" ruleA [] (by decide +kernel) (by decide +kernel)
  exact ⟨m, h1, c109_library fun _ _ => .default, input_readerOn _, input_new ⟨[], rfl, by simp [Source.buffered]⟩,
    h2 _ 100 _ (by decide +kernel) (by simp), ['a'], ⟨['b'], rfl⟩, by decide, by decide⟩

/-- A scanner that matches in the first line only is not of the kind required. -/
example : ¬ ScannersAnywhere ⟨[], fun _ _ _ here _ => if here.lines = 1 then .accept [] 0 else .unmatched, fun _ s => s⟩ := by
  intro h
  have := h ⟨[], 1, 1⟩ [] ⟨[], 1, 1⟩ ⟨[], 2, 1⟩ []
  simp at this
  cases this

end Ebnf.Props
