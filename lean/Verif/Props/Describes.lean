import Verif.Proofs.Describes
import Verif.Props.Predictive

set_option autoImplicit false

/-! # C69, C70: the events describe a derivation -/

namespace Ebnf.Props

open Ebnf Ebnf.Spec

variable {dbg : Bool}

/-- C69: the events returned for an accepted text are those of a derivation of the text from the start rule, up to the pairs of
begin and end without anything between them that are left out.  (For tidy grammars: nothing follows a bare group, optional and repeated bodies
are choices or single terms, scanners do not forward, counts are below the limit; see C36, C37 and C52 for the others.) -/
theorem c69_events_derived {G : Language} {start : SyntaxRule} {m : Machine} (hp : ParserFor dbg G start m)
    (ht : Everywhere (tidy G) G) {r : Reader} {here : Location} {text : Str} (hi : InputAt dbg r here text)
    (hl : text.length < 4294967295) {out : List Event} (h : Returns m r (.ok out)) :
    ∃ evs, Describes noException G (.primary (.metaIdentifier start.location start.metaIdentifier)) here text evs ∧ Trimmed evs out := by
  cases (returns_iff hp hi _).mp h with
  | @accepted evs _ h1 h2 =>
    have h1 := (ev_tidy ht (parser_bounded hp) hl).mp h1
    have h3 := ev_describes (K := tidy G) (fun _ h => h.2) rfl rfl ht h1 ((tidy_hides ht).1.names _ _) trivial _ _ rfl
    rw [List.take_length] at h3
    exact ⟨evs, h3, h2⟩

/-- C70: if furthermore one character of look-ahead decides everywhere, no rule is left-recursive, every name is defined and scanners
just match or not, then the events of a derivation of the text are determined by the text, and the text is accepted with the events `out`
iff these are the events of a derivation of the text, without the empty pairs. -/
theorem c70_events_iff {G : Language} {start : SyntaxRule} {m : Machine} (hp : ParserFor dbg G start m) {E : Factor → Str → Prop}
    (hE : FitsExceptions E G) (hP : Predictive E G) (hA : Unambiguous E G) (hd : AllDefined G.rules) (ho : Everywhere (ordinary G) G)
    (hq : Everywhere (tidy G) G) (hl : ¬ LeftRecursive G) {r : Reader} {here : Location} {text : Str} (hi : InputAt dbg r here text)
    (ht : text.length < 4294967295) :
    (∀ out, Returns m r (.ok out) ↔
      ∃ evs, Describes E G (.primary (.metaIdentifier start.location start.metaIdentifier)) here text evs ∧ Trimmed evs out) ∧
    (∀ evs evs', Describes E G (.primary (.metaIdentifier start.location start.metaIdentifier)) here text evs →
      Describes E G (.primary (.metaIdentifier start.location start.metaIdentifier)) here text evs' → evs = evs') := by
  have U := parser_oneMeaning hp
  have hb := parser_bounded hp
  obtain ⟨o, h1⟩ := total (q := asBuilt) rfl hb hp.shape hl _ _ _ _ []
    (.primary (.metaIdentifier start.location start.metaIdentifier)) here text rfl rfl rfl rfl leads_nil (hp.shape _ hp.start).1
  have h2 := (ev_tidy hq hb ht).mp h1
  have hk : Placed E G (.primary (.metaIdentifier start.location start.metaIdentifier)) := ⟨start, hp.start, .refl _⟩
  have R := ev_right U hb hE hP (everywhere_defined hd) ho (keep := false) h2 hk
  have X := ev_exact U hb hE hP hA (everywhere_defined hd) ho h2 hk
  have key : ∀ evs, Describes E G (.primary (.metaIdentifier start.location start.metaIdentifier)) here text evs →
      o = .ok evs text.length := by
    intro evs h
    obtain ⟨evs', h3⟩ := R.complete text [] (List.append_nil _).symm ⟨describes_produces h, tail_nil⟩
    rw [h3, X evs' _ h3 text [] evs (List.append_nil _).symm ⟨h, tail_nil⟩]
  refine ⟨fun out => ?_, fun evs evs' h h' => ?_⟩
  · rw [returns_iff hp hi]
    constructor
    · intro h
      have hx := (returns_iff hp hi _).mpr h
      have hpr := (c68_accepts_iff hp hE hP hd ho hl hi ht).mp ⟨_, hx⟩
      cases h with
      | @accepted evs _ h3 h4 =>
        have := ev_unique U h1 h3
        subst this
        obtain ⟨evs', h5⟩ := describes_of_produces hP hpr (.rule hp.start) here
        have := key _ (.reference hp.start (.refl _) h5)
        injection this with this
        subst this
        exact ⟨_, .reference hp.start (.refl _) h5, h4⟩
    · rintro ⟨evs, h3, h4⟩
      have := key _ h3
      subst this
      exact .accepted h1 h4
  · have h1 := key _ h
    rw [key _ h'] at h1
    injection h1 with h1
    exact h1.symm

/-- C70, for grammars without special sequences whose exceptions are terminal strings: the conditions can be checked with a table. -/
theorem c70_checked {G : Language} {start : SyntaxRule} {m : Machine} (hp : ParserFor dbg G start m) {tab : Str → Row}
    (hc : checkRules G tab = true) (hd : AllDefined G.rules) (ho : Everywhere (ordinary G) G) (hq : Everywhere (tidy G) G)
    (hl : ¬ LeftRecursive G) {r : Reader} {here : Location} {text : Str} (hi : InputAt dbg r here text)
    (ht : text.length < 4294967295) (out : List Event) :
    Returns m r (.ok out) ↔ ∃ evs, Describes terminalExceptions G (.primary (.metaIdentifier start.location start.metaIdentifier))
      here text evs ∧ Trimmed evs out :=
  (c70_events_iff hp (fits_of_check hc) (predictive_of_check (parser_oneMeaning hp) hc) (unambiguous_of_check (parser_oneMeaning hp) hc)
    hd ho hq hl hi ht).1 out

/-- The rule `A='(',{A},')'|'x',['y'];`. -/
private def ruleA : SyntaxRule :=
  ⟨⟨[], 1, 1⟩, ['A'], .cons (.cons (.plain (.mk 1 (.terminalString ⟨[], 1, 3⟩ ['('])))
    (.cons (.plain (.mk 1 (.repeated ⟨[], 1, 7⟩ (.cons (.cons (.plain (.mk 1 (.metaIdentifier ⟨[], 1, 8⟩ ['A']))) .nil) .nil))))
      (.cons (.plain (.mk 1 (.terminalString ⟨[], 1, 11⟩ [')']))) .nil)))
    (.cons (.cons (.plain (.mk 1 (.terminalString ⟨[], 1, 15⟩ ['x'])))
      (.cons (.plain (.mk 1 (.optional ⟨[], 1, 19⟩ (.cons (.cons (.plain (.mk 1 (.terminalString ⟨[], 1, 20⟩ ['y']))) .nil) .nil)))) .nil))
      .nil)⟩

/-- The table. -/
private def table (_ : Str) : Row := ⟨false, ['(', 'x'], ['(', 'x', ')']⟩

example : ∃ m, ParserFor false (plainLanguage [ruleA]) ruleA m ∧ checkRules (plainLanguage [ruleA]) table = true ∧
    FitsExceptions terminalExceptions (plainLanguage [ruleA]) ∧ Predictive terminalExceptions (plainLanguage [ruleA]) ∧
    Unambiguous terminalExceptions (plainLanguage [ruleA]) ∧
    AllDefined (plainLanguage [ruleA]).rules ∧ Everywhere (ordinary (plainLanguage [ruleA])) (plainLanguage [ruleA]) ∧
    Everywhere (tidy (plainLanguage [ruleA])) (plainLanguage [ruleA]) ∧
    ¬ LeftRecursive (plainLanguage [ruleA]) ∧ InputAt false (readerOn "(xyx)") (Location.new []) "(xyx)".toList ∧
    Returns m (readerOn "(xyx)") (.ok [.begin ⟨[], 1, 1⟩ ⟨[], 1, 1⟩ ['A'], .token ⟨[], 1, 3⟩ ⟨[], 1, 1⟩ ['('],
      .begin ⟨[], 1, 8⟩ ⟨[], 1, 2⟩ ['A'], .token ⟨[], 1, 15⟩ ⟨[], 1, 2⟩ ['x'], .token ⟨[], 1, 20⟩ ⟨[], 1, 3⟩ ['y'],
      .end ⟨[], 1, 8⟩ ⟨[], 1, 4⟩ ['A'],
      .begin ⟨[], 1, 8⟩ ⟨[], 1, 4⟩ ['A'], .token ⟨[], 1, 15⟩ ⟨[], 1, 4⟩ ['x'], .end ⟨[], 1, 8⟩ ⟨[], 1, 5⟩ ['A'],
      .token ⟨[], 1, 11⟩ ⟨[], 1, 5⟩ [')'], .end ⟨[], 1, 1⟩ ⟨[], 1, 6⟩ ['A']]) := by
  obtain ⟨m, h1, h2, _⟩ := samplePlainOf "A='(',{A},')'|'x',['y'];" ruleA [] (by decide +kernel) (by decide +kernel)
  have hc : checkRules (plainLanguage [ruleA]) table = true := by decide +kernel
  refine ⟨m, h1, hc, fits_of_check hc, predictive_of_check (parser_oneMeaning h1) hc, unambiguous_of_check (parser_oneMeaning h1) hc,
    ?_, ?_, ?_, not_leftRecursive (fun r => 0) ?_, input_readerOn _, h2 "(xyx)" 200 _ (by decide +kernel) (by simp)⟩
  · intro r hr l n hn
    simp [plainLanguage] at hr
    subst hr
    simp [ruleA, primariesOfList, primariesOfSingle, primariesOfTerm, primariesOfFactor, primariesIn] at hn
    obtain ⟨_, rfl⟩ := hn
    exact ⟨ruleA, by simp [plainLanguage], .refl _⟩
  · intro r hr
    simp [plainLanguage] at hr
    subst hr
    simp [ruleA, EveryList, EverySingle, EveryTerm, EveryFactor, EveryPrimary, ordinary, groupsLast, smallCounts, IsBareGroup]
  · intro r hr
    simp [plainLanguage] at hr
    subst hr
    simp [ruleA, EveryList, EverySingle, EveryTerm, EveryFactor, EveryPrimary, tidy, smallCounts, quietBodies,
      noForwards, groupsLast, IsBareGroup, QuietList, QuietSingle, QuietTerm, QuietFactor, QuietPrimary]
  · rintro r r' ⟨h1, h2⟩
    simp [plainLanguage] at h1
    subst h1
    simp [ruleA, begins_list, begins_cons, begins_nil, begins_plain, begins_factor, begins_terminal, DefinitionList.toList,
      empty_plain, empty_factor, empty_terminal, IsBareGroup] at h2

end Ebnf.Props
