import Verif.Proofs.Partials
import Verif.Props.Events

set_option autoImplicit false

/-! # C35, C37, C54, C69: what is left of them where a repetition keeps the events of its failed last round -/

namespace Ebnf.Props

open Ebnf Ebnf.Spec

variable {dbg : Bool}

/-- C37: keeping the events of failed rounds only adds events.  For every grammar, `parse` accepts the same texts and returns the same errors as if these
events were forgotten, and all the events that would be returned then are returned, in the same order. -/
theorem c37_only_adds {G : Language} {start : SyntaxRule} {m : Machine} (hp : ParserFor dbg G start m) (hb : ScannersBalanced G)
    {r : Reader} {here : Location} {text : Str} (hi : InputAt dbg r here text) :
    (∀ x, Returns m r x → ∃ x', Parses { asBuilt with keepPartial := false } G start here text x' ∧ SameButMore x' x) ∧
      ∀ x', Parses { asBuilt with keepPartial := false } G start here text x' → ∃ x, Returns m r x ∧ SameButMore x' x := by
  have U := parser_oneMeaning hp
  constructor
  · intro x h
    exact Partials.parses_without U hb hp.start ((returns_iff hp hi _).mp h)
  · intro x' h
    obtain ⟨x, h1, h2⟩ := Partials.parses_inserting U hb rfl hp.start h
    exact ⟨x, (returns_iff hp hi _).mpr h1, h2⟩

/-- C35: in grammars in which nothing follows a bare group, whose scanners do not forward and whose counts are below 2^32-1, on texts shorter than 2^32-1
characters: `parse` accepts the texts and returns the errors that the intended reading of the syntax tree gives, runs forever where that has no result, and
the events of the intended reading are, in order, among those that it returns. -/
theorem c35_but_for_events {G : Language} {start : SyntaxRule} {m : Machine} (hp : ParserFor dbg G start m) (hb : ScannersBalanced G)
    (ht : Everywhere (mostlyTidy G) G) {r : Reader} {here : Location} {text : Str} (hi : InputAt dbg r here text) (hl : text.length < 4294967295) :
    (∀ x, Returns m r x → ∃ x', Parses ideal G start here text x' ∧ SameButMore x' x) ∧
      (∀ x', Parses ideal G start here text x' → ∃ x, Returns m r x ∧ SameButMore x' x) ∧
      (Loops m r ↔ ∀ x, ¬ Parses ideal G start here text x) := by
  obtain ⟨h1, h2⟩ := c37_only_adds hp hb hi
  have he := fun o => Partials.ev_mostly ht (parser_bounded hp) (loc := start.location) (name := start.metaIdentifier) (here := here) hl (o := o)
  have a1 : ∀ x, Returns m r x → ∃ x', Parses ideal G start here text x' ∧ SameButMore x' x := by
    intro x h
    obtain ⟨x', h3, h4⟩ := h1 x h
    exact ⟨x', Partials.parses_of_ev (fun o => (he o).mp) h3, h4⟩
  have a2 : ∀ x', Parses ideal G start here text x' → ∃ x, Returns m r x ∧ SameButMore x' x :=
    fun x' h => h2 x' (Partials.parses_of_ev (fun o => (he o).mpr) h)
  refine ⟨a1, a2, ?_⟩
  rw [loops_iff hp hi]
  constructor
  · intro h x hx
    obtain ⟨x', h3, _⟩ := a2 x hx
    exact h x' ((returns_iff hp hi _).mp h3)
  · intro h x hx
    obtain ⟨x', h3, _⟩ := a1 x ((returns_iff hp hi _).mpr hx)
    exact h x' h3

/-- The grammar of `c37_stale_events` meets the hypotheses of all the theorems of this file; for `ac` there is one event more than intended. -/
example : ∃ rules start m out out', parseStr [] "A={'a','b'},'a','c';".toList = .ok rules ∧ ParserFor false (plainLanguage rules) start m ∧
    ScannersBalanced (plainLanguage rules) ∧ ScannersSpell (plainLanguage rules) ∧
    Everywhere (mostlyTidy (plainLanguage rules)) (plainLanguage rules) ∧ Everywhere (noForwards (plainLanguage rules)) (plainLanguage rules) ∧
    Returns m (readerOn "ac") (.ok out) ∧ Parses ideal (plainLanguage rules) start (Location.new []) "ac".toList (.ok out') ∧ out'.length < out.length := by
  obtain ⟨rules, start, m, h1, h2, _, h3, h4⟩ := samplePlain "A={'a','b'},'a','c';" (by decide +kernel)
  have h5 : parseStr [] "A={'a','b'},'a','c';".toList = .ok [⟨⟨[], 1, 1⟩, ['A'], .cons
      (.cons (.plain (.mk 1 (.repeated ⟨[], 1, 3⟩ (.cons (.cons (.plain (.mk 1 (.terminalString ⟨[], 1, 4⟩ ['a'])))
        (.cons (.plain (.mk 1 (.terminalString ⟨[], 1, 8⟩ ['b']))) .nil)) .nil))))
      (.cons (.plain (.mk 1 (.terminalString ⟨[], 1, 13⟩ ['a']))) (.cons (.plain (.mk 1 (.terminalString ⟨[], 1, 17⟩ ['c']))) .nil))) .nil⟩] := by
    decide +kernel
  refine ⟨rules, start, m, _, _, h1, h2, (c37_built_in_scanners fun _ _ => .default).2, (c37_built_in_scanners fun _ _ => .default).1, ?_, ?_,
    h3 _ 100 (.ok [.begin ⟨[], 1, 1⟩ ⟨[], 1, 1⟩ ['A'], .token ⟨[], 1, 4⟩ ⟨[], 1, 1⟩ ['a'], .token ⟨[], 1, 13⟩ ⟨[], 1, 1⟩ ['a'],
      .token ⟨[], 1, 17⟩ ⟨[], 1, 2⟩ ['c'], .end ⟨[], 1, 1⟩ ⟨[], 1, 3⟩ ['A']]) (by decide +kernel) (by simp),
    h4 _ _ (.ok [.begin ⟨[], 1, 1⟩ ⟨[], 1, 1⟩ ['A'], .token ⟨[], 1, 13⟩ ⟨[], 1, 1⟩ ['a'],
      .token ⟨[], 1, 17⟩ ⟨[], 1, 2⟩ ['c'], .end ⟨[], 1, 1⟩ ⟨[], 1, 3⟩ ['A']]) (by decide +kernel), by decide⟩
  all_goals
    rw [h1] at h5
    injection h5 with h5
    subst h5
    intro r hr
    simp [plainLanguage] at hr
    subst hr
    simp [EveryList, EverySingle, EveryTerm, EveryFactor, EveryPrimary, mostlyTidy, smallCounts, groupsLast, noForwards, IsBareGroup]

/-- C54 fails: in that example the events do not tell where they happen in the input, one after another. -/
theorem c54_stale_events :
    ∃ rules start m out, parseStr [] "A={'a','b'},'a','c';".toList = .ok rules ∧ ParserFor false (plainLanguage rules) start m ∧
      Returns m (readerOn "ac") (.ok out) ∧ ¬ Spells (Location.new []) out "ac".toList := by
  obtain ⟨rules, start, m, out, _, h1, h2, h3, h4, _⟩ := c37_stale_events
  refine ⟨rules, start, m, out, h1, h2, h3, fun h => ?_⟩
  have h5 := spells_tokenText h
  rw [h4] at h5
  simp at h5

/-- The conditions under which a forwarded rule that fails does not matter. -/
private theorem forward_hides {G : Language} (h : Everywhere (noForwards G) G) (B : Nat) :
    Hides (noForwards G) G { asBuilt with keepPartial := false } { asBuilt with keepPartial := false, ignoreForward := false } B where
  everywhere := h
  names := fun l n => by intro _ _ h; simp at h
  drop := .inl rfl
  keep := .inl rfl
  forward := .inr fun _ h => h
  limit := .inl rfl

/-- C54, every grammar whose scanners do not forward and report what they consume: nothing is missing.  Some of the events are the input, piece by piece,
and every one of these carries the line and column at which it happens.  (The others tell of places of the input as well: C76.) -/
theorem c54_none_missing {G : Language} {start : SyntaxRule} {m : Machine} (hp : ParserFor dbg G start m)
    (hf : Everywhere (noForwards G) G) (hs : ScannersSpell G) {r : Reader} {here : Location} {text : Str}
    (hi : InputAt dbg r here text) {out : List Event} (h : Returns m r (.ok out)) : ∃ kept, kept.Sublist out ∧ Spells here kept text := by
  cases (returns_iff hp hi _).mp h with
  | accepted h1 h2 =>
    obtain ⟨o', h3, h4⟩ := Partials.ev_alike (Partials.fewer asBuilt.keepPartial) (fun _ _ _ _ _ _ _ _ => trivial) h1
    cases h4 with
    | ok h4 =>
      have hh := forward_hides hf (text.length + 1)
      have h5 := transfer hh (parser_bounded hp) h3 (hh.names _ _) (Nat.lt_succ_self _) trivial
      have h6 := ev_spells rfl rfl hs h5 _ _ rfl
      rw [List.take_length] at h6
      exact Partials.trimmed_kept h2 h4 h6

/-- C37, the same grammars: every character of the input is in the tokens; some of them, concatenated, are the input. -/
theorem c37_none_missing {G : Language} {start : SyntaxRule} {m : Machine} (hp : ParserFor dbg G start m)
    (hf : Everywhere (noForwards G) G) (hs : ScannersSpell G) {r : Reader} {here : Location} {text : Str}
    (hi : InputAt dbg r here text) {out : List Event} (h : Returns m r (.ok out)) : ∃ kept, kept.Sublist out ∧ tokenText kept = text := by
  obtain ⟨kept, h1, h2⟩ := c54_none_missing hp hf hs hi h
  exact ⟨kept, h1, spells_tokenText h2⟩

/-- C69, without the condition on optional and repeated bodies: the events of a derivation of the text, up to empty pairs, are among those returned. -/
theorem c69_events_among {G : Language} {start : SyntaxRule} {m : Machine} (hp : ParserFor dbg G start m) (hb : ScannersBalanced G)
    (ht : Everywhere (mostlyTidy G) G) {r : Reader} {here : Location} {text : Str} (hi : InputAt dbg r here text)
    (hl : text.length < 4294967295) {out : List Event} (h : Returns m r (.ok out)) :
    ∃ evs kept, Describes noException G (.primary (.metaIdentifier start.location start.metaIdentifier)) here text evs ∧ Trimmed evs kept ∧
      kept.Sublist out := by
  obtain ⟨x', h1, h2⟩ := (c35_but_for_events hp hb ht hi hl).1 _ h
  cases h2 with
  | accepted h2 =>
    cases h1 with
    | @accepted evs _ h3 h4 =>
      have h5 := ev_describes (K := mostlyTidy G) (fun _ h => h) rfl rfl ht h3 ((Partials.mostly_hides ht).1.names _ _) trivial _ _ rfl
      rw [List.take_length] at h5
      exact ⟨evs, _, h5, h4, h2⟩

end Ebnf.Props
