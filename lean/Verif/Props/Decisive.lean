import Verif.Proofs.DecisiveEvents
import Verif.Proofs.Recursion
import Verif.Proofs.Messages
import Verif.Props.Errors

set_option autoImplicit false

/-! # C107: grammars in which the first alternative that matches is never wrong are parsed completely -/

namespace Ebnf.Props

open Ebnf Ebnf.Spec

variable {dbg : Bool}

/-- What is known of the start rule. -/
private theorem start_decided {G : Language} {start : SyntaxRule} {m : Machine} (hp : ParserFor dbg G start m) {E : Factor → Str → Prop}
    (hE : FitsExceptions E G) (hP : Decisive E G start) (hd : AllDefined G.rules) (ho : Everywhere (ordinary G) G) (hl : ¬ LeftRecursive G)
    (here : Location) {text : Str} (ht : text.length < 4294967295) :
    ∃ o, Ev asBuilt G (.primary (.metaIdentifier start.location start.metaIdentifier)) here text o ∧
      Decide.Right E G start (.primary (.metaIdentifier start.location start.metaIdentifier)) text o := by
  obtain ⟨o, h⟩ := total (q := asBuilt) rfl (parser_bounded hp) hp.shape hl _ _ _ _ []
    (.primary (.metaIdentifier start.location start.metaIdentifier)) here text rfl rfl rfl rfl leads_nil (hp.shape _ hp.start).1
  have H : Hides (ordinary G) G asBuilt (mild true) (text.length + 1) := by
    refine ⟨ho, (by intro l n _ _ h; cases h), .inr fun _ _ h => h, .inl rfl, .inr ?_, .inr ⟨?_, ?_, ?_⟩⟩
    · intro p h l s hs d here rest name n hf
      rcases h l s hs d here rest with ⟨_, _, h⟩ | h <;> rw [hf] at h <;> cases h
    · intro n hn
      have hn : n < 4294967295 := hn
      exact ⟨by simp only [asBuilt]; intro h; injection h with h; omega, by simp⟩
    · intro m hm
      simp only [asBuilt] at hm
      injection hm with hm
      omega
    · intro m hm; cases hm
  have h' := transfer H (parser_bounded hp) h (by intro l s h; cases h) (Nat.lt_succ_self _) trivial
  exact ⟨o, h, Decide.right (parser_oneMeaning hp) (parser_bounded hp) hE hP (everywhere_defined hd) ho h' ⟨start, hp.start, .refl _⟩⟩

/-- C107: if the first alternative that matches is never the wrong one, however far one has to look to tell, no rule is left-recursive, every
name is defined, nothing follows a bare group, counts are below the limit and scanners just match or not, then a text shorter than the limit
is accepted iff the start rule derives it.  `F - X` stands for what `F` derives and `X` does not. -/
theorem c107_accepts_iff {G : Language} {start : SyntaxRule} {m : Machine} (hp : ParserFor dbg G start m) {E : Factor → Str → Prop}
    (hE : FitsExceptions E G) (hP : Decisive E G start) (hd : AllDefined G.rules) (ho : Everywhere (ordinary G) G) (hl : ¬ LeftRecursive G)
    {r : Reader} {here : Location} {text : Str} (hi : InputAt dbg r here text) (ht : text.length < 4294967295) :
    (∃ out, Returns m r (.ok out)) ↔ Produces E G (.list start.definitionList) text := by
  obtain ⟨o, h1, R⟩ := start_decided hp hE hP hd ho hl here ht
  have U := parser_oneMeaning hp
  constructor
  · rintro ⟨out, h⟩
    cases (returns_iff hp hi _).mp h with
    | accepted h2 _ =>
      have := ev_unique U h1 h2
      subst this
      have h3 := R.sound _ _ rfl
      rw [List.take_length] at h3
      cases h3 with
      | reference k1 k2 k3 => rw [U.rule _ hp.start _ k1 _ (.refl _) k2]; exact k3
  · intro h
    obtain ⟨evs, rfl⟩ := R.complete text [] (List.append_nil _).symm ⟨.reference hp.start (.refl _) h, fun r h1 h2 => by
      rw [← U.rule _ hp.start _ h1 _ (.refl _) h2]; exact .start⟩
    have h2 := parses_of_ev (parser_bounded hp) h1
    simp [verdict] at h2
    exact ⟨_, (returns_iff hp hi _).mpr h2⟩

/-- C107: and otherwise an error is returned, which says what does not match where (see C66). -/
theorem c107_rejects {G : Language} {start : SyntaxRule} {m : Machine} (hp : ParserFor dbg G start m) {E : Factor → Str → Prop}
    (hE : FitsExceptions E G) (hP : Decisive E G start) (hd : AllDefined G.rules) (ho : Everywhere (ordinary G) G) (hl : ¬ LeftRecursive G)
    {r : Reader} {here : Location} {text : Str} (hi : InputAt dbg r here text) (ht : text.length < 4294967295)
    (hn : ¬ Produces E G (.list start.definitionList) text) : ∃ e, Returns m r (.err e) ∧ Truthful G start here text e := by
  have hx := mt (c107_accepts_iff hp hE hP hd ho hl hi ht).mp hn
  obtain ⟨o, h1, R⟩ := start_decided hp hE hP hd ho hl here ht
  cases o with
  | ok evs n =>
    have hb := ev_bounded_ok (parser_bounded hp) h1
    by_cases hn : n < text.length
    · exact ⟨_, (returns_iff hp hi _).mpr (.leftover h1 hn), leftover_truthful h1 hn⟩
    · have : n = text.length := by omega
      subst this
      have h2 := parses_of_ev (parser_bounded hp) h1
      simp [verdict] at h2
      exact absurd ⟨_, (returns_iff hp hi _).mpr h2⟩ hx
  | fail e evs n => exact ⟨e, (returns_iff hp hi _).mpr (.rejected h1), fail_truthful h1⟩
  | abort e => exact absurd trivial R.ends
  | panic p => exact absurd trivial R.ends

/-- C107: if furthermore no two alternatives derive the same text, optional parts do not derive the empty text, the events of a scanner are
determined by what it accepts and the grammar is tidy (see C69), then the events of a derivation of the text are determined by the text, and
the text is accepted with the events `out` iff these are the events of a derivation of the text, without the empty pairs. -/
theorem c107_events_iff {G : Language} {start : SyntaxRule} {m : Machine} (hp : ParserFor dbg G start m) {E : Factor → Str → Prop}
    (hE : FitsExceptions E G) (hP : Decisive E G start) (hA : Sole E G start) (hd : AllDefined G.rules) (ho : Everywhere (ordinary G) G)
    (hq : Everywhere (tidy G) G) (hl : ¬ LeftRecursive G) {r : Reader} {here : Location} {text : Str} (hi : InputAt dbg r here text)
    (ht : text.length < 4294967295) :
    (∀ out, Returns m r (.ok out) ↔
      ∃ evs, Describes E G (.primary (.metaIdentifier start.location start.metaIdentifier)) here text evs ∧ Trimmed evs out) ∧
    (∀ evs evs', Describes E G (.primary (.metaIdentifier start.location start.metaIdentifier)) here text evs →
      Describes E G (.primary (.metaIdentifier start.location start.metaIdentifier)) here text evs' → evs = evs') := by
  have U := parser_oneMeaning hp
  have hb := parser_bounded hp
  obtain ⟨o, h1⟩ := total (q := asBuilt) rfl hb hp.shape hl _ _ _ _ []
    (.primary (.metaIdentifier start.location start.metaIdentifier)) here text rfl rfl rfl rfl leads_nil (hp.shape _ hp.start).1
  have h2 := (ev_tidy hq hb ht).mp h1
  have hk : Placed E G (.primary (.metaIdentifier start.location start.metaIdentifier)) := ⟨start, hp.start, .refl _⟩
  have R := Decide.right U hb hE hP (everywhere_defined hd) ho (keep := false) h2 hk
  have X := Decide.exact U hb hE hP hA (everywhere_defined hd) ho h2 hk
  have hg : ∀ r ∈ G.rules, SameName r.metaIdentifier start.metaIdentifier → GoesOn E G start (.list r.definitionList) [] := by
    intro r k1 k2
    rw [← U.rule _ hp.start _ k1 _ (.refl _) k2]
    exact .start
  have key : ∀ evs, Describes E G (.primary (.metaIdentifier start.location start.metaIdentifier)) here text evs →
      o = .ok evs text.length := by
    intro evs h
    obtain ⟨evs', h3⟩ := R.complete text [] (List.append_nil _).symm ⟨describes_produces h, hg⟩
    rw [h3, X evs' _ h3 text [] evs (List.append_nil _).symm ⟨h, hg⟩]
  refine ⟨fun out => ?_, fun evs evs' h h' => ?_⟩
  · rw [returns_iff hp hi]
    constructor
    · intro h
      have hx := (returns_iff hp hi _).mpr h
      have hpr := (c107_accepts_iff hp hE hP hd ho hl hi ht).mp ⟨_, hx⟩
      cases h with
      | @accepted evs _ h3 h4 =>
        have := ev_unique U h1 h3
        subst this
        obtain ⟨evs', h5⟩ := Decide.describes_of_produces hP hpr [] .start here
        have := key _ (.reference hp.start (.refl _) h5)
        injection this with this
        subst this
        exact ⟨_, .reference hp.start (.refl _) h5, h4⟩
    · rintro ⟨evs, h3, h4⟩
      have := key _ h3
      subst this
      exact .accepted h1 h4
  · have h1 := key _ h
    rw [key _ h'] at h1
    injection h1 with h1
    exact h1.symm

/-- C107: grammars for which one character of look-ahead decides (C68) are among them. -/
theorem c107_one_ahead {G : Language} {start : SyntaxRule} (hs : start ∈ G.rules) {E : Factor → Str → Prop} (hP : Predictive E G) :
    Decisive E G start :=
  Decide.decisive_of_predictive hs hP

private def txt (loc : Location) (s : Str) : Term := .plain (.mk 1 (.terminalString loc s))

/-- The rule `S='ab','c'|'ab',S|'a';`. -/
private def ruleS : SyntaxRule :=
  ⟨⟨[], 1, 1⟩, ['S'], .cons (.cons (txt ⟨[], 1, 3⟩ ['a', 'b']) (.cons (txt ⟨[], 1, 8⟩ ['c']) .nil))
    (.cons (.cons (txt ⟨[], 1, 12⟩ ['a', 'b']) (.cons (.plain (.mk 1 (.metaIdentifier ⟨[], 1, 17⟩ ['S']))) .nil))
    (.cons (.cons (txt ⟨[], 1, 19⟩ ['a']) .nil) .nil))⟩

private abbrev langS : Language := plainLanguage [ruleS]

private theorem produces_once {E : Factor → Str → Prop} {G : Language} {p : Primary} {w : Str}
    (h : Produces E G (.term (.plain (.mk 1 p))) w) : Produces E G (.primary p) w := by
  cases h with
  | plain h => cases h with
    | again h h' => cases h'; simpa using h

private theorem produces_txt {E : Factor → Str → Prop} {G : Language} {loc : Location} {s w : Str}
    (h : Produces E G (.term (txt loc s)) w) : w = s := by
  cases produces_once h
  rfl

private theorem produces_last {E : Factor → Str → Prop} {G : Language} {t : Term} {w : Str}
    (h : Produces E G (.sequence (.cons t .nil)) w) : Produces E G (.term t) w := by
  cases h with
  | next h h' => cases h'; simpa using h

/-- Every text of `S` begins with `a`. -/
private theorem first_S {E : Factor → Str → Prop} {w : Str} (h : Produces E langS (.list ruleS.definitionList) w) : ∃ w', w = 'a' :: w' := by
  cases h with
  | choice hd h =>
    simp only [ruleS, DefinitionList.toList, List.mem_cons, List.not_mem_nil, or_false] at hd
    rcases hd with rfl | rfl | rfl
    · cases h with
      | next h h' => rw [produces_txt h]; exact ⟨_, rfl⟩
    · cases h with
      | next h h' => rw [produces_txt h]; exact ⟨_, rfl⟩
    · exact ⟨_, produces_txt (produces_last h)⟩

/-- No brackets, and nothing follows a reference. -/
private def plainS : Local :=
  { primary := fun p => (∀ loc l, p ≠ .optional loc l) ∧ (∀ loc l, p ≠ .repeated loc l) ∧ (∀ loc l, p ≠ .grouped loc l) ∧
      ∀ loc s, p ≠ .specialSequence loc s
    follows := fun t d => (∀ f x, t ≠ .except f x) ∧ ((∃ loc n, t = .plain (.mk 1 (.metaIdentifier loc n))) → d = .nil)
    count := fun k => k = 1 }

private theorem every_S : Everywhere plainS langS := by
  intro r hr
  simp [plainLanguage] at hr
  subst hr
  simp [ruleS, txt, EveryList, EverySingle, EveryTerm, EveryFactor, EveryPrimary, plainS]

/-- A list in `S` is the whole, and nothing follows it. -/
private theorem goesOn_S {E : Factor → Str → Prop} {task : Task} {tail : Str} (h : GoesOn E langS ruleS task tail) :
    match task with
    | .list l => l = ruleS.definitionList ∧ tail = []
    | .sequence _ => tail = []
    | .term (.plain (.mk _ (.metaIdentifier _ _))) | .factor (.mk _ (.metaIdentifier _ _)) | .primary (.metaIdentifier _ _) => tail = []
    | .term (.except _ _) => False
    | _ => True := by
  have hs : ruleS ∈ langS.rules := by simp [plainLanguage]
  have no : ∀ f x, ¬ Occurs langS (.term (.except f x)) := by
    intro f x h
    cases h with
    | first h => exact (occurs_every every_S h).1.1 _ _ rfl
  induction h with
  | start => exact ⟨rfl, rfl⟩
  | exception h => exact absurd h (no _ _)
  | @first t d w tail h1 h2 ih =>
    have ho := Decide.goesOn_occurs hs h1
    have hf := (occurs_every every_S ho).1
    have hc := (occurs_every every_S ho).2.1
    cases t with
    | except f x => exact absurd (.first ho) (no _ _)
    | plain f =>
      cases f with
      | mk k p =>
        cases p with
        | metaIdentifier loc n =>
          have : k = 1 := hc.1
          subst this
          have := hf.2 ⟨_, _, rfl⟩
          subst this
          cases h2
          exact ih
        | _ => trivial
  | @round loc l w tail h1 h2 ih => exact absurd rfl ((occurs_every every_S (Decide.goesOn_occurs hs h1)).1.2.1 _ _)
  | @counted k j p w tail h1 hj h2 ih =>
    have ho := Decide.goesOn_occurs hs h1
    have : k = 1 := (occurs_every every_S ho).1
    subst this
    have : j = 0 := by omega
    subst this
    cases h2
    have := ih
    cases p <;> first | trivial | exact this
  | later h ih => exact ih
  | alternative h _ ih => exact (ih).2
  | reference h h1 h2 ih =>
    simp [plainLanguage] at h1
    subst h1
    exact ⟨rfl, ih⟩
  | optional h ih => exact absurd rfl ((occurs_every every_S (Decide.goesOn_occurs hs h)).1.1 _ _)
  | grouped h ih => exact absurd rfl ((occurs_every every_S (Decide.goesOn_occurs hs h)).1.2.2.1 _ _)
  | @plain f tail h ih =>
    have := ih
    cases f with
    | mk k p => cases p <;> first | trivial | exact this
  | except h ih => exact absurd (Decide.goesOn_occurs hs h) (no _ _)

private theorem texts_1 : ∀ {a b : Location} {w : Str}, Produces noException langS (.sequence (.cons (txt a ['a', 'b']) (.cons (txt b ['c']) .nil))) w → w = ['a', 'b', 'c'] := by
  intro a b w h
  cases h with
  | next h h' => rw [produces_txt h, produces_txt (produces_last h')]; rfl

private theorem texts_2 : ∀ {a b : Location} {w : Str}, Produces noException langS (.sequence (.cons (txt a ['a', 'b'])
    (.cons (.plain (.mk 1 (.metaIdentifier b ['S']))) .nil))) w → ∃ w', w = 'a' :: 'b' :: 'a' :: w' := by
  intro a b w h
  cases h with
  | next h h' =>
    rw [produces_txt h]
    cases produces_once (produces_last h') with
    | reference k1 k2 k3 =>
      simp [plainLanguage] at k1
      subst k1
      obtain ⟨w', rfl⟩ := first_S k3
      exact ⟨w', by simp⟩

private theorem texts_3 : ∀ {a : Location} {w : Str}, Produces noException langS (.sequence (.cons (txt a ['a']) .nil)) w → w = ['a'] :=
  fun h => produces_txt (produces_last h)

private theorem decisive_S : Decisive noException langS ruleS where
  choices := by
    intro l tail h
    obtain ⟨rfl, rfl⟩ := goesOn_S h
    have h1 := @texts_1
    have h2 := @texts_2
    have h3 := @texts_3
    simp only [ruleS, DefinitionList.toList, List.pairwise_cons, List.mem_cons, List.not_mem_nil, or_false, forall_eq_or_imp, forall_eq]
    refine ⟨⟨?_, ?_⟩, ?_, by simp, by simp⟩
    · intro w w' rest k k' he
      obtain ⟨v, rfl⟩ := h2 k'
      rw [h1 k] at he
      simp at he
    · intro w w' rest k k' he
      rw [h1 k, h3 k'] at he
      simp at he
    · intro w w' rest k k' he
      obtain ⟨v, rfl⟩ := h2 k
      rw [h3 k'] at he
      simp at he
  optionals := by
    intro loc l w rest h
    exact absurd rfl ((occurs_every every_S (Decide.goesOn_occurs (by simp [plainLanguage]) h)).1.1 _ _)
  repeats := by
    intro loc l w rest h
    exact absurd rfl ((occurs_every every_S (Decide.goesOn_occurs (by simp [plainLanguage]) h)).1.2.1 _ _)
  progress := by
    intro loc l h
    exact absurd rfl ((occurs_every every_S h).1.2.1 _ _)
  specials := by
    intro loc s w tail h
    exact absurd rfl ((occurs_every every_S (Decide.goesOn_occurs (by simp [plainLanguage]) h)).2.2.2 _ _)

private theorem sole_S : Sole noException langS ruleS where
  choices := by
    intro l tail h
    obtain ⟨rfl, rfl⟩ := goesOn_S h
    have h1 := @texts_1
    have h2 := @texts_2
    have h3 := @texts_3
    simp only [ruleS, DefinitionList.toList, List.pairwise_cons, List.mem_cons, List.not_mem_nil, or_false, forall_eq_or_imp, forall_eq]
    refine ⟨⟨?_, ?_⟩, ?_, by simp, by simp⟩
    · intro w k k'
      obtain ⟨v, rfl⟩ := h2 k'
      simpa using h1 k
    · intro w k k'
      have := h1 k
      rw [h3 k'] at this
      simp at this
    · intro w k k'
      obtain ⟨v, rfl⟩ := h2 k
      simpa using h3 k'
  optionals := by
    intro loc l h
    exact absurd rfl ((occurs_every every_S h).1.1 _ _)
  specials := by
    intro loc s h
    exact absurd rfl ((occurs_every every_S h).2.2.2 _ _)

/-- `S='ab','c'|'ab',S|'a';` meets the conditions, although one character of look-ahead does not tell its alternatives apart. -/
example : ∃ m, ParserFor false langS ruleS m ∧ FitsExceptions noException langS ∧ Decisive noException langS ruleS ∧ Sole noException langS ruleS ∧
    Everywhere (tidy langS) langS ∧ ¬ Predictive noException langS ∧ AllDefined langS.rules ∧ Everywhere (ordinary langS) langS ∧ ¬ LeftRecursive langS ∧
    InputAt false (readerOn "ababc") (Location.new []) "ababc".toList ∧
    (∃ out, Returns m (readerOn "ababc") (.ok out)) ∧ ∃ e, Returns m (readerOn "abab") (.err e) := by
  obtain ⟨m, h1, h2, _⟩ := samplePlainOf "S='ab','c'|'ab',S|'a';" ruleS [] (by decide +kernel) (by decide +kernel)
  refine ⟨m, h1, ?_, decisive_S, sole_S, ?_, ?_, ?_, ?_, not_leftRecursive (fun _ => 0) ?_, input_readerOn _,
    ⟨_, h2 "ababc" 200 (.ok [.begin ⟨[], 1, 1⟩ ⟨[], 1, 1⟩ ['S'], .token ⟨[], 1, 12⟩ ⟨[], 1, 1⟩ ['a', 'b'],
      .begin ⟨[], 1, 17⟩ ⟨[], 1, 3⟩ ['S'], .token ⟨[], 1, 3⟩ ⟨[], 1, 3⟩ ['a', 'b'], .token ⟨[], 1, 8⟩ ⟨[], 1, 5⟩ ['c'],
      .end ⟨[], 1, 17⟩ ⟨[], 1, 6⟩ ['S'], .end ⟨[], 1, 1⟩ ⟨[], 1, 6⟩ ['S']]) (by decide +kernel) (by simp)⟩, ?_⟩
  · intro f x h
    cases h with
    | first h => exact absurd rfl ((occurs_every every_S h).1.1 _ _)
  · intro r hr
    simp [plainLanguage] at hr
    subst hr
    simp [ruleS, txt, EveryList, EverySingle, EveryTerm, EveryFactor, EveryPrimary, tidy, quietBodies, noForwards, groupsLast, smallCounts, IsBareGroup]
  · intro h
    have := h.choices ruleS.definitionList (.rule (by simp [plainLanguage]))
    simp only [ruleS, DefinitionList.toList, List.pairwise_cons, List.mem_cons, List.not_mem_nil, or_false, forall_eq_or_imp, forall_eq] at this
    refine this.1.2.2.1 'a' ⟨['b', 'c'], ?_⟩ ⟨[], ?_⟩
    · exact .next (w := ['a', 'b']) (w' := ['c']) (.plain (.again (w' := []) .terminal .never))
        (.next (w' := []) (.plain (.again (w' := []) .terminal .never)) .done)
    · exact .next (w := ['a']) (w' := []) (.plain (.again (w' := []) .terminal .never)) .done
  · intro r hr l n hn
    simp [plainLanguage] at hr
    subst hr
    simp [ruleS, txt, primariesOfList, primariesOfSingle, primariesOfTerm, primariesOfFactor, primariesIn] at hn
    obtain ⟨_, rfl⟩ := hn
    exact ⟨ruleS, by simp [plainLanguage], .refl _⟩
  · intro r hr
    simp [plainLanguage] at hr
    subst hr
    simp [ruleS, txt, EveryList, EverySingle, EveryTerm, EveryFactor, EveryPrimary, ordinary, groupsLast, smallCounts, IsBareGroup]
  · rintro r r' ⟨h1, h2⟩
    simp [plainLanguage] at h1
    subst h1
    simp [ruleS, txt, begins_list, begins_cons, begins_nil, begins_plain, begins_factor, begins_reference,
      begins_terminal, DefinitionList.toList, empty_plain, empty_factor, empty_terminal] at h2
  · exact ⟨_, h2 "abab" 200 (.err ⟨⟨[], 1, 4⟩, .expected "EOF".toList (.text "b".toList false)⟩) (by decide +kernel) (by simp)⟩

end Ebnf.Props
