import Verif.Proofs.Clear
import Verif.Proofs.LookAhead
import Verif.Props.Partials

set_option autoImplicit false

/-! # C37, C54, C35: grammars whose optional and repeated parts know when to stop -/

namespace Ebnf.Props

open Ebnf Ebnf.Spec

variable {dbg : Bool}

/-- The conditions under which a dropped continuation does not matter. -/
private theorem whole_hides {G : Language} (h : Everywhere (whole G) G) (B : Nat) :
    Hides (whole G) G asBuilt { asBuilt with dropAfterGroup := false } B where
  everywhere := h
  names := fun l n => by intro _ _ h; simp at h
  drop := .inr fun _ _ h => h
  keep := .inl rfl
  forward := .inl rfl
  limit := .inl rfl

/-- C54, in full for the grammars in which the next character tells that an optional or repeated part is over, every definition derives some text,
nothing follows a bare group, scanners do not forward and report what they consume: the events are the input, piece by piece, each with the line and
column at which it happens.  Bodies of optional and repeated parts are of any form, and alternatives may begin alike. -/
theorem c54_clear_ends {G : Language} {start : SyntaxRule} {m : Machine} (hp : ParserFor dbg G start m) (hc : ClearEnds G)
    (hP : Productive regardless G) (hw : Everywhere (whole G) G) (hs : ScannersSpell G) {r : Reader} {here : Location} {text : Str}
    (hi : InputAt dbg r here text) {out : List Event} (h : Returns m r (.ok out)) : Spells here out text := by
  cases (returns_iff hp hi _).mp h with
  | accepted h1 h2 =>
    have hh := whole_hides hw (text.length + 1)
    have h3 := transfer hh (parser_bounded hp) h1 (hh.names _ _) (Nat.lt_succ_self _) trivial
    have h4 := Clear.ev_clear (parser_bounded hp) hc hP hw rfl hs h3 trivial (.inr fun c t ht => by simp at ht)
    rw [List.take_length] at h4
    exact trimmed_spells h2 h4

/-- C37, for the same grammars: the tokens, concatenated, are the input. -/
theorem c37_clear_ends {G : Language} {start : SyntaxRule} {m : Machine} (hp : ParserFor dbg G start m) (hc : ClearEnds G)
    (hP : Productive regardless G) (hw : Everywhere (whole G) G) (hs : ScannersSpell G) {r : Reader} {here : Location} {text : Str}
    (hi : InputAt dbg r here text) {out : List Event} (h : Returns m r (.ok out)) : tokenText out = text :=
  spells_tokenText (c54_clear_ends hp hc hP hw hs hi h)

/-- Grammars that need one character of look-ahead are of that kind. -/
theorem c37_clear_ends_ahead {G : Language} (h : OneAhead regardless G) : ClearEnds G where
  optionals := h.optionals
  repeats := fun loc l ho => (h.repeats loc l ho).2

/-- C35, for the same grammars, if counts are below 2^32-1 and the text is shorter than 2^32-1 characters: an accepted text is accepted in the intended
reading, with the same tokens in the same order (apart from tokens of the empty text). -/
theorem c35_same_tokens {G : Language} {start : SyntaxRule} {m : Machine} (hp : ParserFor dbg G start m) (hc : ClearEnds G)
    (hP : Productive regardless G) (ht : Everywhere (mostlyTidy G) G) (hs : ScannersSpell G) (hb : ScannersBalanced G) {r : Reader}
    {here : Location} {text : Str} (hi : InputAt dbg r here text) (hl : text.length < 4294967295) {out : List Event}
    (h : Returns m r (.ok out)) : ∃ out', Parses ideal G start here text (.ok out') ∧ out'.Sublist out ∧ realTokens out' = realTokens out := by
  obtain ⟨x', h1, h2⟩ := (c35_but_for_events hp hb ht hi hl).1 _ h
  cases h2 with
  | accepted h2 =>
    refine ⟨_, h1, h2, Clear.realTokens_eq h2 ?_⟩
    rw [c37_clear_ends hp hc hP (Clear.weaker (K := mostlyTidy G) (K' := whole G) (fun _ _ => trivial) (fun _ h => h) (fun _ _ h => h) ht) hs hi h]
    cases h1 with
    | accepted h3 h4 =>
      have h5 := ev_spells rfl rfl hs h3 _ _ rfl
      rw [List.take_length] at h5
      rw [spells_tokenText (trimmed_spells h4 h5)]

/-- The rule `A={'a','b'},'c';`. -/
private def ruleA : SyntaxRule :=
  ⟨⟨[], 1, 1⟩, ['A'], .cons (.cons (.plain (.mk 1 (.repeated ⟨[], 1, 3⟩ (.cons (.cons (.plain (.mk 1 (.terminalString ⟨[], 1, 4⟩ ['a'])))
        (.cons (.plain (.mk 1 (.terminalString ⟨[], 1, 8⟩ ['b']))) .nil)) .nil))))
      (.cons (.plain (.mk 1 (.terminalString ⟨[], 1, 13⟩ ['c']))) .nil)) .nil⟩

/-- It meets all the hypotheses, its repeated body is a sequence (so that `c37_tokens_spell_partial` does not apply), and `abc` is accepted. -/
example : ∃ m out, ParserFor false (plainLanguage [ruleA]) ruleA m ∧ ClearEnds (plainLanguage [ruleA]) ∧
    Productive regardless (plainLanguage [ruleA]) ∧ Everywhere (mostlyTidy (plainLanguage [ruleA])) (plainLanguage [ruleA]) ∧
    Everywhere (whole (plainLanguage [ruleA])) (plainLanguage [ruleA]) ∧ ¬ Everywhere (spelling (plainLanguage [ruleA])) (plainLanguage [ruleA]) ∧
    ScannersSpell (plainLanguage [ruleA]) ∧ ScannersBalanced (plainLanguage [ruleA]) ∧
    InputAt false (readerOn "abc") (Location.new []) "abc".toList ∧ Returns m (readerOn "abc") (.ok out) ∧ (realTokens out).length = 3 := by
  obtain ⟨m, h1, h2, _⟩ := samplePlainOf "A={'a','b'},'c';" ruleA [] (by decide +kernel) (by decide +kernel)
  have hc : checkRules (plainLanguage [ruleA]) (fun _ => ⟨false, ['a', 'c'], []⟩) = true := by decide +kernel
  have ht : Everywhere (mostlyTidy (plainLanguage [ruleA])) (plainLanguage [ruleA]) := by
    intro r hr
    simp [plainLanguage] at hr
    subst hr
    simp [ruleA, EveryList, EverySingle, EveryTerm, EveryFactor, EveryPrimary, mostlyTidy, smallCounts, groupsLast, noForwards, IsBareGroup]
  refine ⟨m, _, h1, c37_clear_ends_ahead (predictive_of_check (parser_oneMeaning h1) hc).toOneAhead,
    productive_of h1.shape (fun loc s h => absurd h (checked_special hc)) (fun loc n h => ?_), ht,
    Clear.weaker (K := mostlyTidy (plainLanguage [ruleA])) (fun _ _ => trivial) (fun _ h => h) (fun _ _ h => h) ht, ?_,
    (c37_built_in_scanners fun _ _ => .default).1, (c37_built_in_scanners fun _ _ => .default).2, input_readerOn _,
    h2 _ 100 (.ok [.begin ⟨[], 1, 1⟩ ⟨[], 1, 1⟩ ['A'], .token ⟨[], 1, 4⟩ ⟨[], 1, 1⟩ ['a'], .token ⟨[], 1, 8⟩ ⟨[], 1, 2⟩ ['b'],
      .token ⟨[], 1, 13⟩ ⟨[], 1, 3⟩ ['c'], .end ⟨[], 1, 1⟩ ⟨[], 1, 4⟩ ['A']]) (by decide +kernel) (by simp), by decide⟩
  · obtain ⟨r, h3, h4⟩ := checked_defined hc h
    refine ⟨[] ++ ((['c'] ++ []) ++ []), .reference h3 h4 ?_⟩
    simp [plainLanguage] at h3
    subst h3
    exact .choice List.mem_cons_self (.next (w := []) (.plain (.again (w := []) (w' := []) .noMore .never))
      (.next (.plain (.again .terminal .never)) .done))
  · intro h
    have := h ruleA (by simp [plainLanguage])
    simp [ruleA, EveryList, EverySingle, EveryTerm, EveryFactor, EveryPrimary, spelling, quietBodies, QuietList, QuietSingle] at this

end Ebnf.Props
