import Verif.Proofs.LookAhead
import Verif.Proofs.Recursion
import Verif.Proofs.Messages
import Verif.Props.Errors

set_option autoImplicit false

/-! # C68: grammars that need one character of look-ahead are parsed completely -/

namespace Ebnf.Props

open Ebnf Ebnf.Spec

variable {dbg : Bool}

/-- What is known of the start rule. -/
private theorem start_right {G : Language} {start : SyntaxRule} {m : Machine} (hp : ParserFor dbg G start m) {E : Factor → Str → Prop}
    (hE : FitsExceptions E G) (hP : Predictive E G) (hd : AllDefined G.rules) (ho : Everywhere (ordinary G) G) (hl : ¬ LeftRecursive G)
    (here : Location) {text : Str} (ht : text.length < 4294967295) :
    ∃ o, Ev asBuilt G (.primary (.metaIdentifier start.location start.metaIdentifier)) here text o ∧
      Right E G (.primary (.metaIdentifier start.location start.metaIdentifier)) text o := by
  obtain ⟨o, h⟩ := total (q := asBuilt) rfl (parser_bounded hp) hp.shape hl _ _ _ _ []
    (.primary (.metaIdentifier start.location start.metaIdentifier)) here text rfl rfl rfl rfl leads_nil (hp.shape _ hp.start).1
  have H : Hides (ordinary G) G asBuilt (mild true) (text.length + 1) := by
    refine ⟨ho, (by intro l n _ _ h; cases h), .inr fun _ _ h => h, .inl rfl, .inr ?_, .inr ⟨?_, ?_, ?_⟩⟩
    · intro p h l s hs d here rest name n hf
      rcases h l s hs d here rest with ⟨_, _, h⟩ | h <;> rw [hf] at h <;> cases h
    · intro n hn
      have hn : n < 4294967295 := hn
      exact ⟨by simp only [asBuilt]; intro h; injection h with h; omega, by simp⟩
    · intro m hm
      simp only [asBuilt] at hm
      injection hm with hm
      omega
    · intro m hm; cases hm
  have h' := transfer H (parser_bounded hp) h (by intro l s h; cases h) (Nat.lt_succ_self _) trivial
  exact ⟨o, h, ev_right (parser_oneMeaning hp) (parser_bounded hp) hE hP (everywhere_defined hd) ho h' ⟨start, hp.start, .refl _⟩⟩

/-- C68: if one character of look-ahead decides everywhere (the grammar is LL(1)), no rule is left-recursive, every name is defined,
nothing follows a bare group, counts are below the limit and scanners just match or not, then a text shorter than the limit is accepted
iff the start rule derives it.  `F - X` stands for what `F` derives and `X` does not. -/
theorem c68_accepts_iff {G : Language} {start : SyntaxRule} {m : Machine} (hp : ParserFor dbg G start m) {E : Factor → Str → Prop}
    (hE : FitsExceptions E G) (hP : Predictive E G) (hd : AllDefined G.rules) (ho : Everywhere (ordinary G) G) (hl : ¬ LeftRecursive G)
    {r : Reader} {here : Location} {text : Str} (hi : InputAt dbg r here text) (ht : text.length < 4294967295) :
    (∃ out, Returns m r (.ok out)) ↔ Produces E G (.list start.definitionList) text := by
  obtain ⟨o, h1, R⟩ := start_right hp hE hP hd ho hl here ht
  have U := parser_oneMeaning hp
  constructor
  · rintro ⟨out, h⟩
    cases (returns_iff hp hi _).mp h with
    | accepted h2 _ =>
      have := ev_unique U h1 h2
      subst this
      have h3 := R.sound _ _ rfl
      rw [List.take_length] at h3
      cases h3 with
      | reference k1 k2 k3 => rw [U.rule _ hp.start _ k1 _ (.refl _) k2]; exact k3
  · intro h
    obtain ⟨evs, rfl⟩ := R.complete text [] (List.append_nil _).symm ⟨.reference hp.start (.refl _) h, tail_nil⟩
    have h2 := parses_of_ev (parser_bounded hp) h1
    simp [verdict] at h2
    exact ⟨_, (returns_iff hp hi _).mpr h2⟩

/-- C68: and otherwise an error is returned, which says what does not match where (see C66). -/
theorem c68_rejects {G : Language} {start : SyntaxRule} {m : Machine} (hp : ParserFor dbg G start m) {E : Factor → Str → Prop}
    (hE : FitsExceptions E G) (hP : Predictive E G) (hd : AllDefined G.rules) (ho : Everywhere (ordinary G) G) (hl : ¬ LeftRecursive G)
    {r : Reader} {here : Location} {text : Str} (hi : InputAt dbg r here text) (ht : text.length < 4294967295)
    (hn : ¬ Produces E G (.list start.definitionList) text) : ∃ e, Returns m r (.err e) ∧ Truthful G start here text e := by
  have hx := mt (c68_accepts_iff hp hE hP hd ho hl hi ht).mp hn
  obtain ⟨o, h1, R⟩ := start_right hp hE hP hd ho hl here ht
  cases o with
  | ok evs n =>
    have hb := ev_bounded_ok (parser_bounded hp) h1
    by_cases hn : n < text.length
    · exact ⟨_, (returns_iff hp hi _).mpr (.leftover h1 hn), leftover_truthful h1 hn⟩
    · have : n = text.length := by omega
      subst this
      have h2 := parses_of_ev (parser_bounded hp) h1
      simp [verdict] at h2
      exact absurd ⟨_, (returns_iff hp hi _).mpr h2⟩ hx
  | fail e evs n => exact ⟨e, (returns_iff hp hi _).mpr (.rejected h1), fail_truthful h1⟩
  | abort e => exact absurd trivial R.ends
  | panic p => exact absurd trivial R.ends

/-- C68, for grammars without special sequences whose exceptions are terminal strings: the conditions can be checked with a table that says,
for every rule, whether it derives the empty text, with which characters its texts may begin, and which may follow. -/
theorem c68_checked {G : Language} {start : SyntaxRule} {m : Machine} (hp : ParserFor dbg G start m) {tab : Str → Row}
    (hc : checkRules G tab = true) (hd : AllDefined G.rules) (ho : Everywhere (ordinary G) G) (hl : ¬ LeftRecursive G)
    {r : Reader} {here : Location} {text : Str} (hi : InputAt dbg r here text) (ht : text.length < 4294967295) :
    (∃ out, Returns m r (.ok out)) ↔ Produces terminalExceptions G (.list start.definitionList) text :=
  c68_accepts_iff hp (fits_of_check hc) (predictive_of_check (parser_oneMeaning hp) hc) hd ho hl hi ht

/-- The rules `A='(',{A},')'|B-'z';` and `B='x'|'y'|'z';`. -/
private def ruleA : SyntaxRule :=
  ⟨⟨[], 1, 1⟩, ['A'], .cons (.cons (.plain (.mk 1 (.terminalString ⟨[], 1, 3⟩ ['('])))
    (.cons (.plain (.mk 1 (.repeated ⟨[], 1, 7⟩ (.cons (.cons (.plain (.mk 1 (.metaIdentifier ⟨[], 1, 8⟩ ['A']))) .nil) .nil))))
      (.cons (.plain (.mk 1 (.terminalString ⟨[], 1, 11⟩ [')']))) .nil)))
    (.cons (.cons (.except (.mk 1 (.metaIdentifier ⟨[], 1, 15⟩ ['B'])) (.mk 1 (.terminalString ⟨[], 1, 17⟩ ['z']))) .nil) .nil)⟩
private def ruleB : SyntaxRule :=
  ⟨⟨[], 1, 21⟩, ['B'], .cons (.cons (.plain (.mk 1 (.terminalString ⟨[], 1, 23⟩ ['x']))) .nil)
    (.cons (.cons (.plain (.mk 1 (.terminalString ⟨[], 1, 27⟩ ['y']))) .nil)
    (.cons (.cons (.plain (.mk 1 (.terminalString ⟨[], 1, 31⟩ ['z']))) .nil) .nil))⟩

/-- The table. -/
private def table (n : Str) : Row :=
  if n = ['A'] then ⟨false, ['(', 'x', 'y', 'z'], ['(', 'x', 'y', 'z', ')']⟩
  else ⟨false, ['x', 'y', 'z'], ['(', 'x', 'y', 'z', ')']⟩

example : ∃ m, ParserFor false (plainLanguage [ruleA, ruleB]) ruleA m ∧ checkRules (plainLanguage [ruleA, ruleB]) table = true ∧
    FitsExceptions terminalExceptions (plainLanguage [ruleA, ruleB]) ∧ Predictive terminalExceptions (plainLanguage [ruleA, ruleB]) ∧
    AllDefined (plainLanguage [ruleA, ruleB]).rules ∧ Everywhere (ordinary (plainLanguage [ruleA, ruleB])) (plainLanguage [ruleA, ruleB]) ∧
    ¬ LeftRecursive (plainLanguage [ruleA, ruleB]) ∧ InputAt false (readerOn "((x)y)") (Location.new []) "((x)y)".toList ∧
    (∃ out, Returns m (readerOn "((x)y)") (.ok out)) ∧
    Returns m (readerOn "(z)") (.err ⟨⟨[], 1, 2⟩, .expected "\")\"".toList (.text "z)".toList false)⟩) := by
  obtain ⟨m, h1, h2, _⟩ := samplePlainOf "A='(',{A},')'|B-'z';B='x'|'y'|'z';" ruleA [ruleB] (by decide +kernel) (by decide +kernel)
  have hc : checkRules (plainLanguage [ruleA, ruleB]) table = true := by decide +kernel
  refine ⟨m, h1, hc, fits_of_check hc, predictive_of_check (parser_oneMeaning h1) hc, ?_, ?_,
    not_leftRecursive (fun r => if r.metaIdentifier = ['A'] then 1 else 0) ?_, input_readerOn _,
    ⟨_, h2 "((x)y)" 200 (.ok [.begin ⟨[], 1, 1⟩ ⟨[], 1, 1⟩ ['A'], .token ⟨[], 1, 3⟩ ⟨[], 1, 1⟩ ['('],
      .begin ⟨[], 1, 8⟩ ⟨[], 1, 2⟩ ['A'], .token ⟨[], 1, 3⟩ ⟨[], 1, 2⟩ ['('], .begin ⟨[], 1, 8⟩ ⟨[], 1, 3⟩ ['A'],
      .begin ⟨[], 1, 15⟩ ⟨[], 1, 3⟩ ['B'], .token ⟨[], 1, 23⟩ ⟨[], 1, 3⟩ ['x'], .end ⟨[], 1, 15⟩ ⟨[], 1, 4⟩ ['B'],
      .end ⟨[], 1, 8⟩ ⟨[], 1, 4⟩ ['A'], .token ⟨[], 1, 11⟩ ⟨[], 1, 4⟩ [')'], .end ⟨[], 1, 8⟩ ⟨[], 1, 5⟩ ['A'],
      .begin ⟨[], 1, 8⟩ ⟨[], 1, 5⟩ ['A'], .begin ⟨[], 1, 15⟩ ⟨[], 1, 5⟩ ['B'], .token ⟨[], 1, 27⟩ ⟨[], 1, 5⟩ ['y'],
      .end ⟨[], 1, 15⟩ ⟨[], 1, 6⟩ ['B'], .end ⟨[], 1, 8⟩ ⟨[], 1, 6⟩ ['A'], .token ⟨[], 1, 11⟩ ⟨[], 1, 6⟩ [')'],
      .end ⟨[], 1, 1⟩ ⟨[], 1, 7⟩ ['A']]) (by decide +kernel) (by simp)⟩,
    h2 "(z)" 200 _ (by decide +kernel) (by simp)⟩
  · intro r hr l n hn
    simp [plainLanguage] at hr
    rcases hr with rfl | rfl
    · simp [ruleA, primariesOfList, primariesOfSingle, primariesOfTerm, primariesOfFactor, primariesIn] at hn
      rcases hn with ⟨_, rfl⟩ | ⟨_, rfl⟩
      · exact ⟨ruleA, by simp [plainLanguage], .refl _⟩
      · exact ⟨ruleB, by simp [plainLanguage], .refl _⟩
    · simp [ruleB, primariesOfList, primariesOfSingle, primariesOfTerm, primariesOfFactor, primariesIn] at hn
  · intro r hr
    simp [plainLanguage] at hr
    rcases hr with rfl | rfl <;>
    simp [ruleA, ruleB, EveryList, EverySingle, EveryTerm, EveryFactor, EveryPrimary, ordinary, groupsLast, smallCounts, IsBareGroup]
  · rintro r r' ⟨h1, h2⟩
    simp [plainLanguage] at h1
    rcases h1 with rfl | rfl
    · simp [ruleA, begins_list, begins_cons, begins_nil, begins_plain, begins_factor, begins_except, begins_reference,
        begins_terminal, DefinitionList.toList, empty_plain, empty_factor, empty_terminal, IsBareGroup,
        plainLanguage] at h2
      rcases h2 with ⟨rfl | rfl, h2⟩
      · have := keyed_differs h2
        exact absurd this (by decide)
      · decide
    · simp [ruleB, begins_list, begins_cons, begins_nil, begins_plain, begins_factor, begins_terminal, DefinitionList.toList] at h2

end Ebnf.Props
