import Verif.Proofs.Steady
import Verif.Proofs.LookAhead
import Verif.Props.Clear
import Verif.Props.Describes

set_option autoImplicit false

/-! # C35, C69, C70: grammars whose last rounds leave nothing behind -/

namespace Ebnf.Props

open Ebnf Ebnf.Spec

variable {dbg : Bool}

/-- The conditions under which a dropped continuation does not matter, in both directions. -/
private theorem whole_hides {G : Language} (h : Everywhere (whole G) G) (drop keep : Bool) (B : Nat) :
    Hides (whole G) G { asBuilt with dropAfterGroup := drop, keepPartial := keep } { asBuilt with dropAfterGroup := !drop, keepPartial := keep } B where
  everywhere := h
  names := fun l n => by intro _ _ h; simp at h
  drop := .inr fun _ _ h => h
  keep := .inl rfl
  forward := .inl rfl
  limit := .inl rfl

/-- Nothing is said about the events. -/
private theorem anything : Partials.Compares (fun _ => True) (fun _ _ => True) false true where
  nil := trivial
  token := fun _ _ _ => trivial
  scanned := fun _ _ => trivial
  append := fun _ _ _ _ _ _ => trivial
  wrap := fun _ _ _ _ _ _ _ => trivial
  last := fun _ _ _ => trivial

private theorem whole_of_mostly {G : Language} (ht : Everywhere (mostlyTidy G) G) : Everywhere (whole G) G :=
  Clear.weaker (K := mostlyTidy G) (K' := whole G) (fun _ _ => trivial) (fun _ h => h) (fun _ _ h => h) ht

/-- The parser, in the intended reading. -/
private theorem steady_parses {G : Language} {start : SyntaxRule} (hb : Bounded G) (hc : SteadyEnds G) (hP : Productive regardless G)
    (ht : Everywhere (mostlyTidy G) G) {here : Location} {text : Str} (hl : text.length < 4294967295) {x : Res (List Event)}
    (h : Parses asBuilt G start here text x) : Parses ideal G start here text x := by
  have hw := whole_of_mostly ht
  have he := fun o => Partials.ev_mostly ht hb (loc := start.location) (name := start.metaIdentifier) (here := here) hl (o := o)
  cases h with
  | accepted h1 h2 =>
    have a1 := whole_hides hw true true 4294967295
    have a2 := whole_hides hw false false 4294967295
    have h3 := transfer a1 hb h1 (a1.names _ _) hl trivial
    have h4 := Steady.ev_steady hb hc hP hw rfl h3 trivial _ _ rfl (fun c t ht => by simp at ht)
    exact .accepted ((he _).mp (transfer a2 hb h4 (a2.names _ _) hl trivial)) h2
  | leftover h1 h2 =>
    obtain ⟨evs', h3⟩ := Steady.quietly_ok h1
    exact .leftover ((he _).mp h3) h2
  | rejected h1 =>
    obtain ⟨evs', h3⟩ := Steady.quietly_fail h1
    exact .rejected ((he _).mp h3)
  | aborted h1 =>
    obtain ⟨o', h3, h4⟩ := Steady.quietly h1
    cases h4
    exact .aborted ((he _).mp h3)
  | crashed h1 =>
    obtain ⟨o', h3, h4⟩ := Steady.quietly h1
    cases h4
    exact .crashed ((he _).mp h3)

/-- C35: the parser returns what the intended reading of the grammar says, events included, and does not come to an end iff that does not -- for the
grammars in which nothing follows a bare group, scanners do not forward, counts are below 2^32-1, every definition derives some text, and every
optional or repeated part has a body that is a choice or a single term, or a body that does not begin with a term that may be empty and is such
that the next character tells when the part is over. -/
theorem c35_steady_ends {G : Language} {start : SyntaxRule} {m : Machine} (hp : ParserFor dbg G start m) (hc : SteadyEnds G)
    (hP : Productive regardless G) (ht : Everywhere (mostlyTidy G) G) {r : Reader} {here : Location} {text : Str}
    (hi : InputAt dbg r here text) (hl : text.length < 4294967295) :
    (∀ x, Returns m r x ↔ Parses ideal G start here text x) ∧ (Loops m r ↔ ∀ x, ¬ Parses ideal G start here text x) := by
  have hb := parser_bounded hp
  have U := parser_oneMeaning hp
  have key : ∀ x, Parses asBuilt G start here text x ↔ Parses ideal G start here text x := by
    refine fun x => ⟨steady_parses hb hc hP ht hl, fun h => ?_⟩
    obtain ⟨o, h1, _⟩ := parses_verdict h
    obtain ⟨o', h2, _⟩ := Partials.ev_alike anything (fun _ _ _ _ _ _ _ _ => trivial) ((Partials.ev_mostly ht hb hl).mpr h1)
    have h3 : Parses asBuilt G start here text _ := parses_of_ev hb h2
    rwa [parses_unique' U h (steady_parses hb hc hP ht hl h3)]
  refine ⟨fun x => (returns_iff hp hi x).trans (key x), (loops_iff hp hi).trans ?_⟩
  exact ⟨fun h x hx => h x ((key x).mpr hx), fun h x hx => h x ((key x).mp hx)⟩

/-- C69, for the same grammars: the events returned for an accepted text are those of a derivation of the text from the start rule, up to the
pairs of begin and end without anything between them that are left out. -/
theorem c69_steady_ends {G : Language} {start : SyntaxRule} {m : Machine} (hp : ParserFor dbg G start m) (hc : SteadyEnds G)
    (hP : Productive regardless G) (ht : Everywhere (mostlyTidy G) G) {r : Reader} {here : Location} {text : Str}
    (hi : InputAt dbg r here text) (hl : text.length < 4294967295) {out : List Event} (h : Returns m r (.ok out)) :
    ∃ evs, Describes noException G (.primary (.metaIdentifier start.location start.metaIdentifier)) here text evs ∧ Trimmed evs out := by
  cases ((c35_steady_ends hp hc hP ht hi hl).1 _).mp h with
  | @accepted evs _ h3 h4 =>
    have h5 := ev_describes (K := mostlyTidy G) (fun _ h => h) rfl rfl ht h3 ((Partials.mostly_hides ht).1.names _ _) trivial _ _ rfl
    rw [List.take_length] at h5
    exact ⟨evs, h5, h4⟩

/-- Scanners that just match or not do not forward. -/
private theorem mostly_of_ordinary {G : Language} (ho : Everywhere (ordinary G) G) : Everywhere (mostlyTidy G) G :=
  Clear.weaker (K := ordinary G) (K' := mostlyTidy G) (fun _ h => h) (fun p h l s hp d here rest n k hf => by
    rcases h l s hp d here rest with ⟨_, _, h1⟩ | h1 <;> rw [h1] at hf <;> cases hf) (fun _ _ h => h) ho

/-- C70, for the same grammars: where one character of look-ahead decides, the text is accepted with the events `out` iff these are the events of a
derivation of the text, without the empty pairs, and the text determines the events of its derivations. -/
theorem c70_steady_ends {G : Language} {start : SyntaxRule} {m : Machine} (hp : ParserFor dbg G start m) {E : Factor → Str → Prop}
    (hE : FitsExceptions E G) (hP : Predictive E G) (hA : Unambiguous E G) (hd : AllDefined G.rules) (ho : Everywhere (ordinary G) G)
    (hc : SteadyEnds G) (hp' : Productive regardless G) (hl : ¬ LeftRecursive G) {r : Reader} {here : Location} {text : Str}
    (hi : InputAt dbg r here text) (ht : text.length < 4294967295) :
    (∀ out, Returns m r (.ok out) ↔
      ∃ evs, Describes E G (.primary (.metaIdentifier start.location start.metaIdentifier)) here text evs ∧ Trimmed evs out) ∧
    (∀ evs evs', Describes E G (.primary (.metaIdentifier start.location start.metaIdentifier)) here text evs →
      Describes E G (.primary (.metaIdentifier start.location start.metaIdentifier)) here text evs' → evs = evs') := by
  have U := parser_oneMeaning hp
  have hb := parser_bounded hp
  have hm := mostly_of_ordinary ho
  have I := (c35_steady_ends hp hc hp' hm hi ht).1
  obtain ⟨o0, h0⟩ := total (q := asBuilt) rfl hb hp.shape hl _ _ _ _ []
    (.primary (.metaIdentifier start.location start.metaIdentifier)) here text rfl rfl rfl rfl leads_nil (hp.shape _ hp.start).1
  obtain ⟨o, h1, _⟩ := Steady.quietly h0
  have h2 := (Partials.ev_mostly hm hb ht).mp h1
  have hk : Placed E G (.primary (.metaIdentifier start.location start.metaIdentifier)) := ⟨start, hp.start, .refl _⟩
  have R := ev_right U hb hE hP (everywhere_defined hd) ho (keep := false) h2 hk
  have X := ev_exact U hb hE hP hA (everywhere_defined hd) ho h2 hk
  have key : ∀ evs, Describes E G (.primary (.metaIdentifier start.location start.metaIdentifier)) here text evs →
      o = .ok evs text.length := by
    intro evs h
    obtain ⟨evs', h3⟩ := R.complete text [] (List.append_nil _).symm ⟨describes_produces h, tail_nil⟩
    rw [h3, X evs' _ h3 text [] evs (List.append_nil _).symm ⟨h, tail_nil⟩]
  refine ⟨fun out => ?_, fun evs evs' h h' => ?_⟩
  · constructor
    · intro hx
      have hpr := (c68_accepts_iff hp hE hP hd ho hl hi ht).mp ⟨_, hx⟩
      cases (I _).mp hx with
      | @accepted evs _ h3 h4 =>
        have := ev_unique U h2 h3
        subst this
        obtain ⟨evs', h5⟩ := describes_of_produces hP hpr (.rule hp.start) here
        have := key _ (.reference hp.start (.refl _) h5)
        injection this with this
        subst this
        exact ⟨_, .reference hp.start (.refl _) h5, h4⟩
    · rintro ⟨evs, h3, h4⟩
      have := key _ h3
      subst this
      exact (I _).mpr (.accepted h2 h4)
  · have h1 := key _ h
    rw [key _ h'] at h1
    injection h1 with h1
    exact h1.symm

/-- Grammars that need one character of look-ahead are of that kind, if the bodies of their optional and repeated parts do not begin with terms
that may be empty. -/
theorem c35_steady_ends_ahead {G : Language} (h : OneAhead regardless G)
    (hq : ∀ loc l, Occurs G (.primary (.optional loc l)) ∨ Occurs G (.primary (.repeated loc l)) → QuietList l ∨ PromptList G l) : SteadyEnds G where
  optionals := fun loc l ho => (hq loc l (.inl ho)).imp id fun h' => ⟨h', h.optionals loc l ho⟩
  repeats := fun loc l ho => (hq loc l (.inr ho)).imp id fun h' => ⟨h', (h.repeats loc l ho).2⟩

/-- C70, for grammars without special sequences whose exceptions are terminal strings: the conditions on the next character can be checked with
a table. -/
theorem c70_steady_checked {G : Language} {start : SyntaxRule} {m : Machine} (hp : ParserFor dbg G start m) {tab : Str → Row}
    (hc : checkRules G tab = true) (hd : AllDefined G.rules) (ho : Everywhere (ordinary G) G) (hp' : Productive regardless G)
    (hq : ∀ loc l, Occurs G (.primary (.optional loc l)) ∨ Occurs G (.primary (.repeated loc l)) → QuietList l ∨ PromptList G l)
    (hl : ¬ LeftRecursive G) {r : Reader} {here : Location} {text : Str} (hi : InputAt dbg r here text)
    (ht : text.length < 4294967295) (out : List Event) :
    Returns m r (.ok out) ↔ ∃ evs, Describes terminalExceptions G (.primary (.metaIdentifier start.location start.metaIdentifier))
      here text evs ∧ Trimmed evs out :=
  (c70_steady_ends hp (fits_of_check hc) (predictive_of_check (parser_oneMeaning hp) hc) (unambiguous_of_check (parser_oneMeaning hp) hc)
    hd ho (c35_steady_ends_ahead (predictive_of_check (parser_oneMeaning hp) hc).toOneAhead hq) hp' hl hi ht).1 out

private theorem terminal_only {E : Factor → Str → Prop} {G : Language} {loc : Location} {s w : Str}
    (h : Produces E G (.primary (.terminalString loc s)) w) : w = s := by
  cases h
  rfl

/-- The rule `A={'a','b'},'c';`. -/
private def ruleA : SyntaxRule :=
  ⟨⟨[], 1, 1⟩, ['A'], .cons (.cons (.plain (.mk 1 (.repeated ⟨[], 1, 3⟩ (.cons (.cons (.plain (.mk 1 (.terminalString ⟨[], 1, 4⟩ ['a'])))
        (.cons (.plain (.mk 1 (.terminalString ⟨[], 1, 8⟩ ['b']))) .nil)) .nil))))
      (.cons (.plain (.mk 1 (.terminalString ⟨[], 1, 13⟩ ['c']))) .nil)) .nil⟩

/-- It meets all the hypotheses, its repeated body is a sequence (so that it is not tidy), and `abc` is accepted. -/
example : ∃ m out, ParserFor false (plainLanguage [ruleA]) ruleA m ∧ SteadyEnds (plainLanguage [ruleA]) ∧
    Productive regardless (plainLanguage [ruleA]) ∧ Everywhere (mostlyTidy (plainLanguage [ruleA])) (plainLanguage [ruleA]) ∧
    Everywhere (ordinary (plainLanguage [ruleA])) (plainLanguage [ruleA]) ∧ ¬ Everywhere (tidy (plainLanguage [ruleA])) (plainLanguage [ruleA]) ∧
    checkRules (plainLanguage [ruleA]) (fun _ => ⟨false, ['a', 'c'], []⟩) = true ∧ AllDefined (plainLanguage [ruleA]).rules ∧
    FitsExceptions terminalExceptions (plainLanguage [ruleA]) ∧ Predictive terminalExceptions (plainLanguage [ruleA]) ∧
    Unambiguous terminalExceptions (plainLanguage [ruleA]) ∧ ¬ LeftRecursive (plainLanguage [ruleA]) ∧
    InputAt false (readerOn "abc") (Location.new []) "abc".toList ∧ Returns m (readerOn "abc") (.ok out) ∧ (realTokens out).length = 3 := by
  obtain ⟨m, h1, h2, _⟩ := samplePlainOf "A={'a','b'},'c';" ruleA [] (by decide +kernel) (by decide +kernel)
  have hc : checkRules (plainLanguage [ruleA]) (fun _ => ⟨false, ['a', 'c'], []⟩) = true := by decide +kernel
  have U := parser_oneMeaning h1
  have hm : ∀ r, r ∈ (plainLanguage [ruleA]).rules → r = ruleA := by intro r hr; simpa [plainLanguage] using hr
  refine ⟨m, _, h1, c35_steady_ends_ahead (predictive_of_check U hc).toOneAhead ?_,
    productive_of h1.shape (fun loc s h => absurd h (checked_special hc)) (fun loc n h => ?_), ?_, ?_, ?_, hc, ?_,
    fits_of_check hc, predictive_of_check U hc, unambiguous_of_check U hc, not_leftRecursive (fun r => 0) ?_, input_readerOn _,
    h2 _ 100 (.ok [.begin ⟨[], 1, 1⟩ ⟨[], 1, 1⟩ ['A'], .token ⟨[], 1, 4⟩ ⟨[], 1, 1⟩ ['a'], .token ⟨[], 1, 8⟩ ⟨[], 1, 2⟩ ['b'],
      .token ⟨[], 1, 13⟩ ⟨[], 1, 3⟩ ['c'], .end ⟨[], 1, 1⟩ ⟨[], 1, 4⟩ ['A']]) (by decide +kernel) (by simp), by decide⟩
  · intro loc l h
    have h3 : l = .cons (.cons (.plain (.mk 1 (.terminalString ⟨[], 1, 4⟩ ['a'])))
        (.cons (.plain (.mk 1 (.terminalString ⟨[], 1, 8⟩ ['b']))) .nil)) .nil := by
      rcases h with h | h
      · obtain ⟨r, h4, h5⟩ := occurs_primary h
        rw [hm r h4] at h5
        simp [ruleA, primariesOfList, primariesOfSingle, primariesOfTerm, primariesOfFactor, primariesIn] at h5
      · obtain ⟨r, h4, h5⟩ := occurs_primary h
        rw [hm r h4] at h5
        simp [ruleA, primariesOfList, primariesOfSingle, primariesOfTerm, primariesOfFactor, primariesIn] at h5
        exact h5.2
    subst h3
    refine .inr ⟨fun _ => trivial, .inr fun h => ?_⟩
    generalize hw : ([] : Str) = w at h
    cases h with
    | plain h =>
      cases h with
      | again h _ =>
        rw [terminal_only h] at hw
        simp at hw
  · obtain ⟨r, h3, h4⟩ := checked_defined hc h
    refine ⟨[] ++ ((['c'] ++ []) ++ []), .reference h3 h4 ?_⟩
    rw [hm r h3]
    exact .choice List.mem_cons_self (.next (w := []) (.plain (.again (w := []) (w' := []) .noMore .never))
      (.next (.plain (.again .terminal .never)) .done))
  · intro r hr
    rw [hm r hr]
    simp [ruleA, EveryList, EverySingle, EveryTerm, EveryFactor, EveryPrimary, mostlyTidy, smallCounts, groupsLast, noForwards, IsBareGroup]
  · intro r hr
    rw [hm r hr]
    simp [ruleA, EveryList, EverySingle, EveryTerm, EveryFactor, EveryPrimary, ordinary, groupsLast, smallCounts, IsBareGroup]
  · intro h
    have := h ruleA (by simp [plainLanguage])
    simp [ruleA, EveryList, EverySingle, EveryTerm, EveryFactor, EveryPrimary, tidy, quietBodies, QuietList, QuietSingle] at this
  · intro r hr l n hn
    rw [hm r hr] at hn
    simp [ruleA, primariesOfList, primariesOfSingle, primariesOfTerm, primariesOfFactor, primariesIn] at hn
  · rintro r r' ⟨h1, h2⟩
    rw [hm r h1] at h2
    simp [ruleA, begins_list, begins_cons, begins_nil, begins_plain, begins_factor, begins_repeated, begins_terminal, DefinitionList.toList,
      empty_plain, empty_factor, empty_terminal, IsBareGroup] at h2

/-- The rules `A={B,'b'},'c'; B=C; C=['x'];`. -/
private def ruleA' : SyntaxRule :=
  ⟨⟨[], 1, 1⟩, ['A'], .cons (.cons (.plain (.mk 1 (.repeated ⟨[], 1, 3⟩ (.cons (.cons (.plain (.mk 1 (.metaIdentifier ⟨[], 1, 4⟩ ['B'])))
        (.cons (.plain (.mk 1 (.terminalString ⟨[], 1, 6⟩ ['b']))) .nil)) .nil))))
      (.cons (.plain (.mk 1 (.terminalString ⟨[], 1, 11⟩ ['c']))) .nil)) .nil⟩
private def ruleB' : SyntaxRule :=
  ⟨⟨[], 1, 16⟩, ['B'], .cons (.cons (.plain (.mk 1 (.metaIdentifier ⟨[], 1, 18⟩ ['C']))) .nil) .nil⟩
private def ruleC' : SyntaxRule :=
  ⟨⟨[], 1, 21⟩, ['C'], .cons (.cons (.plain (.mk 1 (.optional ⟨[], 1, 23⟩ (.cons (.cons (.plain (.mk 1
    (.terminalString ⟨[], 1, 24⟩ ['x']))) .nil) .nil)))) .nil) .nil⟩

/-- C35: the condition that the body does not begin with a term that may be empty cannot be left out.  For `A={B,'b'},'c'; B=C; C=['x'];`, the next
character tells when the repetition is over, and still the events for `c` tell of a `B` that is no part of the derivation. -/
theorem c35_empty_beginning : ∃ m out out', ParserFor false (plainLanguage [ruleA', ruleB', ruleC']) ruleA' m ∧
    ClearEnds (plainLanguage [ruleA', ruleB', ruleC']) ∧
    Everywhere (mostlyTidy (plainLanguage [ruleA', ruleB', ruleC'])) (plainLanguage [ruleA', ruleB', ruleC']) ∧
    InputAt false (readerOn "c") (Location.new []) "c".toList ∧ Returns m (readerOn "c") (.ok out) ∧
    Parses ideal (plainLanguage [ruleA', ruleB', ruleC']) ruleA' (Location.new []) "c".toList (.ok out') ∧ out ≠ out' := by
  obtain ⟨m, h1, h2, h3⟩ := samplePlainOf "A={B,'b'},'c'; B=C; C=['x'];" ruleA' [ruleB', ruleC'] (by decide +kernel) (by decide +kernel)
  have hc : checkRules (plainLanguage [ruleA', ruleB', ruleC']) (fun n => if n = ['A'] then ⟨false, ['x', 'b', 'c'], []⟩ else
    ⟨true, ['x'], ['b']⟩) = true := by decide +kernel
  refine ⟨m, _, _, h1, c37_clear_ends_ahead (predictive_of_check (parser_oneMeaning h1) hc).toOneAhead, ?_, input_readerOn _,
    h2 _ 100 (.ok [.begin ⟨[], 1, 1⟩ ⟨[], 1, 1⟩ ['A'], .begin ⟨[], 1, 4⟩ ⟨[], 1, 1⟩ ['B'], .end ⟨[], 1, 4⟩ ⟨[], 1, 1⟩ ['B'],
      .token ⟨[], 1, 11⟩ ⟨[], 1, 1⟩ ['c'], .end ⟨[], 1, 1⟩ ⟨[], 1, 2⟩ ['A']]) (by decide +kernel) (by simp),
    h3 ideal _ (.ok [.begin ⟨[], 1, 1⟩ ⟨[], 1, 1⟩ ['A'], .token ⟨[], 1, 11⟩ ⟨[], 1, 1⟩ ['c'], .end ⟨[], 1, 1⟩ ⟨[], 1, 2⟩ ['A']])
      (by decide +kernel), by decide⟩
  intro r hr
  simp [plainLanguage] at hr
  rcases hr with rfl | rfl | rfl <;>
    simp [ruleA', ruleB', ruleC', EveryList, EverySingle, EveryTerm, EveryFactor, EveryPrimary, mostlyTidy, smallCounts, groupsLast, noForwards,
      IsBareGroup]

end Ebnf.Props
