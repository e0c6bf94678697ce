import Verif.Props.Matching
import Verif.Spec.Candidate

set_option autoImplicit false

/-! # C112: a candidate that is excluded has no successor

The comment of a test (src/parser/test/mod.rs:213-219) specifies: "In a syntax that matches more than one in the definition-list, when a
best matching candidate is excluded by a syntactic-exception, the program will assume that there is no match, instead of selecting the
second candidate."  If the best candidate is the longest, this is false (`c112_best_excluded_yet_accepted`): the candidate that counts is
the first that matches.  With the first in the place of the best it is true. -/

namespace Ebnf.Props

open Ebnf Ebnf.Spec

variable {dbg : Bool}

private theorem group_iff {G : Language} {loc : Location} {l : DefinitionList} {here : Location} {rest : Str} {o : Outcome} :
    Ev asBuilt G (.factor (.mk 1 (.grouped loc l))) here rest o ↔ Ev asBuilt G (.list l) here rest o := by
  constructor
  · intro h
    cases h with
    | once h => cases h with | grouped h => exact h
    | counted h _ => exact absurd rfl h
  · intro h
    exact .once (.grouped h)

/-- C112, partial (the first candidate, where the comment says the best): if the first definition of `( … )` that matches is excluded,
`( … ) - X` does not match, whatever the definitions after it. -/
theorem c112_excluded_is_final_partial (G : Language) (loc : Location) (l : DefinitionList) (x : Factor) (here : Location) (rest : Str)
    {d : SingleDefinition} {evs : List Event} {n : Nat} (hd : FirstMatch G l here rest d evs n) (hx : Excludes G x here rest n) :
    Fails asBuilt G (.term (.except (.mk 1 (.grouped loc l)) x)) here rest := by
  obtain ⟨h1, pre, post, h2, h3⟩ := hd
  obtain ⟨evs', hx⟩ := hx
  exact c42_excluded G _ _ here rest evs evs' n (group_iff.mpr ((list_ok_iff l).mpr ⟨pre, d, post, h2, h3, h1⟩)) hx

/-- C112: what `( … ) - X` matches: what the first definition that matches there matches, if that is not excluded. -/
theorem c112_matches_iff (G : Language) (loc : Location) (l : DefinitionList) (x : Factor) (here : Location) (rest : Str)
    (evs : List Event) (n : Nat) :
    Matches asBuilt G (.term (.except (.mk 1 (.grouped loc l)) x)) here rest evs n ↔
      (∃ d, FirstMatch G l here rest d evs n) ∧
        (Fails asBuilt G (.factor x) here (rest.take n) ∨
          ∃ evs' k, Matches asBuilt G (.factor x) here (rest.take n) evs' k ∧ k ≠ n) := by
  rw [c42_exception, Matches, group_iff, list_ok_iff]
  refine and_congr_left fun _ => ?_
  constructor
  · rintro ⟨pre, d, post, h1, h2, h3⟩
    exact ⟨d, h3, pre, post, h1, h2⟩
  · rintro ⟨d, h3, pre, post, h1, h2⟩
    exact ⟨pre, d, post, h1, h2, h3⟩

/-- C112 for `Parser::parse`: for `A = ( … ) - X;`, if the first definition that matches is excluded, the text is rejected. -/
theorem c112_parse {G : Language} {a : SyntaxRule} {m : Machine} (ha : ParserFor dbg G a m) {loc : Location} {l : DefinitionList}
    {x : Factor} (hd : a.definitionList = oneTerm (.except (.mk 1 (.grouped loc l)) x)) {r : Reader} {here : Location} {text : Str}
    (hi : InputAt dbg r here text) {d : SingleDefinition} {evs : List Event} {n : Nat} (hf : FirstMatch G l here text d evs n)
    (hx : Excludes G x here text n) : ∃ e, Returns m r (.err e) := by
  obtain ⟨e, evs, k, h⟩ := c112_excluded_is_final_partial G loc l x here text hf hx
  exact ⟨e, (returns_iff ha hi _).mpr (.rejected (ev_start_fail ha.start (by rw [hd, oneTerm_iff]; exact h)))⟩

/-- The definitions `'/*'` and `'/'`, at these columns. -/
private def long (c : Nat) : SingleDefinition := .cons (.plain (.mk 1 (.terminalString ⟨[], 1, c⟩ ['/', '*']))) .nil
private def short (c : Nat) : SingleDefinition := .cons (.plain (.mk 1 (.terminalString ⟨[], 1, c⟩ ['/']))) .nil

/-- The exception `'/*'`. -/
private def slashStar (c : Nat) : Factor := .mk 1 (.terminalString ⟨[], 1, c⟩ ['/', '*'])

/-- The rule `A=('/*'|'/')-'/*';`. -/
private def longFirst : SyntaxRule :=
  ⟨⟨[], 1, 1⟩, ['A'], oneTerm (.except (.mk 1 (.grouped ⟨[], 1, 3⟩ (.cons (long 4) (.cons (short 9) .nil)))) (slashStar 14))⟩

/-- `/*` is the first candidate and is excluded; `/` is not tried. -/
example : ∃ m, ParserFor false (plainLanguage [longFirst]) longFirst m ∧
    FirstMatch (plainLanguage [longFirst]) (.cons (long 4) (.cons (short 9) .nil)) (Location.new []) "/*".toList (long 4)
      [.token ⟨[], 1, 4⟩ ⟨[], 1, 1⟩ ['/', '*']] 2 ∧
    Excludes (plainLanguage [longFirst]) (slashStar 14) (Location.new []) "/*".toList 2 ∧
    ∃ e, Returns m (readerOn "/*") (.err e) := by
  obtain ⟨m, h1, h2, _⟩ := samplePlainOf "A=('/*'|'/')-'/*';" longFirst [] (by decide +kernel) (by decide +kernel)
  refine ⟨m, h1, ⟨eval_sound 10 (by decide +kernel), [], [short 9], rfl, by simp⟩,
    ⟨[.token ⟨[], 1, 14⟩ ⟨[], 1, 1⟩ ['/', '*']], eval_sound 10 (by decide +kernel)⟩, ⟨⟨⟨[], 1, 1⟩, _⟩,
    h2 _ 100 (.err ⟨⟨[], 1, 1⟩, .expected "('/*'|'/')-'/*'".toList (.text ['/', '*'] false)⟩) (by decide +kernel) (by simp)⟩⟩

/-- The rule of the test that is switched off, `A=('/'|'/*')-'/*','*';`. -/
private def shortFirst : SyntaxRule :=
  ⟨⟨[], 1, 1⟩, ['A'], .cons (.cons (.except (.mk 1 (.grouped ⟨[], 1, 3⟩ (.cons (short 4) (.cons (long 8) .nil)))) (slashStar 14))
    (.cons (.plain (.mk 1 (.terminalString ⟨[], 1, 19⟩ ['*']))) .nil)) .nil⟩

/-- C112: the comment, with the longest match for the best, does not hold.  There are a rule that begins with `( … ) - X`, and a text, such
that the best candidate is excluded and yet the text is accepted, by way of a shorter one. -/
theorem c112_best_excluded_yet_accepted : ∃ (a : SyntaxRule) (m : Machine) (loc : Location) (l : DefinitionList) (x : Factor)
    (more : SingleDefinition) (text : String) (d : SingleDefinition) (evs : List Event) (out : List Event),
    ParserFor false (plainLanguage [a]) a m ∧ a.definitionList = .cons (.cons (.except (.mk 1 (.grouped loc l)) x) more) .nil ∧
    BestMatch (plainLanguage [a]) l (Location.new []) text.toList d evs text.length ∧
    Excludes (plainLanguage [a]) x (Location.new []) text.toList text.length ∧ Returns m (readerOn text) (.ok out) := by
  obtain ⟨m, h1, h2, _⟩ := samplePlainOf "A=('/'|'/*')-'/*','*';" shortFirst [] (by decide +kernel) (by decide +kernel)
  refine ⟨shortFirst, m, _, _, _, _, "/*", long 8, [.token ⟨[], 1, 8⟩ ⟨[], 1, 1⟩ ['/', '*']],
    [.begin ⟨[], 1, 1⟩ ⟨[], 1, 1⟩ ['A'], .token ⟨[], 1, 4⟩ ⟨[], 1, 1⟩ ['/'], .token ⟨[], 1, 19⟩ ⟨[], 1, 2⟩ ['*'],
      .end ⟨[], 1, 1⟩ ⟨[], 1, 3⟩ ['A']], h1, rfl, ⟨eval_sound 10 (by decide +kernel), by simp [DefinitionList.toList], ?_⟩,
    ⟨[.token ⟨[], 1, 14⟩ ⟨[], 1, 1⟩ ['/', '*']], eval_sound 10 (by decide +kernel)⟩, h2 _ 100 _ (by decide +kernel) (by simp)⟩
  intro y _ evs k hk
  exact ev_bounded_ok (parser_bounded h1) hk

end Ebnf.Props
