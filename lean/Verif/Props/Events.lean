import Verif.Proofs.Events

set_option autoImplicit false

/-! # C37–C39, C54: the events of a successful parse -/

namespace Ebnf.Props

open Ebnf Ebnf.Spec

variable {dbg : Bool}

/-! ## C37, C54 -/

/-- C37 fails: a repetition keeps the events of the part that did match in its failed last iteration.  For the grammar
`A={'a','b'},'a','c';` and the input `ac` the tokens are `a`, `a`, `c`; intended are `a`, `c`. -/
theorem c37_stale_events :
    ∃ rules start m out out', parseStr [] "A={'a','b'},'a','c';".toList = .ok rules ∧ ParserFor false (plainLanguage rules) start m ∧
      Returns m (readerOn "ac") (.ok out) ∧ tokenText out = "aac".toList ∧
      Parses ideal (plainLanguage rules) start (Location.new []) "ac".toList (.ok out') ∧ tokenText out' = "ac".toList := by
  obtain ⟨rules, start, m, h1, h2, _, h3, h4⟩ := samplePlain "A={'a','b'},'a','c';" (by decide +kernel)
  exact ⟨rules, start, m, _, _, h1, h2,
    h3 _ 100 (.ok [.begin ⟨[], 1, 1⟩ ⟨[], 1, 1⟩ ['A'], .token ⟨[], 1, 4⟩ ⟨[], 1, 1⟩ ['a'], .token ⟨[], 1, 13⟩ ⟨[], 1, 1⟩ ['a'],
      .token ⟨[], 1, 17⟩ ⟨[], 1, 2⟩ ['c'], .end ⟨[], 1, 1⟩ ⟨[], 1, 3⟩ ['A']]) (by decide +kernel) (by simp), by decide,
    h4 _ _ (.ok [.begin ⟨[], 1, 1⟩ ⟨[], 1, 1⟩ ['A'], .token ⟨[], 1, 13⟩ ⟨[], 1, 1⟩ ['a'],
      .token ⟨[], 1, 17⟩ ⟨[], 1, 2⟩ ['c'], .end ⟨[], 1, 1⟩ ⟨[], 1, 3⟩ ['A']]) (by decide +kernel), by decide⟩

/-- With quiet bodies and no forwards, partial events and ignored forwards do not matter. -/
private theorem spelling_hides {G : Language} (h : Everywhere (spelling G) G) (B : Nat) :
    Hides (spelling G) G asBuilt { asBuilt with keepPartial := false, ignoreForward := false } B where
  everywhere := h
  names := fun l n => ⟨by intro _ _ h; simp at h, by intro _ _ h; simp at h⟩
  drop := .inl rfl
  keep := .inr fun _ h => h.1
  forward := .inr fun _ h => h.2
  limit := .inl rfl

private theorem spelled {G : Language} {start : SyntaxRule} {m : Machine} (hp : ParserFor dbg G start m)
    (hg : Everywhere (spelling G) G) (hs : ScannersSpell G) {r : Reader} {here : Location} {text : Str}
    (hi : InputAt dbg r here text) {out : List Event} (h : Returns m r (.ok out)) : Spells here out text := by
  cases (returns_iff hp hi _).mp h with
  | accepted h ht =>
    have hh := spelling_hides hg (text.length + 1)
    have := transfer hh (parser_bounded hp) h (hh.names _ _) (Nat.lt_succ_self _) trivial
    have := ev_spells rfl rfl hs this _ _ rfl
    rw [List.take_length] at this
    exact trimmed_spells ht this

/-- C54 (partial): for grammars in which optional and repeated bodies are choices or single terms, with scanners that
do not forward and report what they consume: the tokens are the input, piece by piece, and every event (token, begin or end)
carries the line and column at which it happens.  Other grammars: `c37_stale_events`, `c52_forward_ignored`. -/
theorem c54_events_located_partial {G : Language} {start : SyntaxRule} {m : Machine} (hp : ParserFor dbg G start m)
    (hg : Everywhere (spelling G) G) (hs : ScannersSpell G) {r : Reader} {here : Location} {text : Str}
    (hi : InputAt dbg r here text) {out : List Event} (h : Returns m r (.ok out)) : Spells here out text :=
  spelled hp hg hs hi h

/-- C37 (partial): for the same grammars and scanners the tokens, concatenated, are the input. -/
theorem c37_tokens_spell_partial {G : Language} {start : SyntaxRule} {m : Machine} (hp : ParserFor dbg G start m)
    (hg : Everywhere (spelling G) G) (hs : ScannersSpell G) {r : Reader} {here : Location} {text : Str}
    (hi : InputAt dbg r here text) {out : List Event} (h : Returns m r (.ok out)) : tokenText out = text :=
  spells_tokenText (spelled hp hg hs hi h)

/-- The scanner is one of those that come with the library. -/
inductive IsBuiltIn : Recognizer → Prop
  | default : IsBuiltIn defaultRecognizer
  | chars (allowed : Char → Bool) (min max : Option Nat) : IsBuiltIn (charsRecognizer allowed min max)
  | regex (find : Str → Option (Nat × Nat)) : IsBuiltIn (regexRecognizer find)

/-- C37, C54, C38: the scanners of the library report what they consume, as balanced events. -/
theorem c37_built_in_scanners {G : Language} (h : ∀ l s, IsBuiltIn (G.special l s)) : ScannersSpell G ∧ ScannersBalanced G := by
  refine ⟨fun l s d here rest => ?_, fun l s d here rest => ?_⟩ <;> have hb := h l s <;> generalize G.special l s = f at hb
  · cases hb with
    | default =>
      refine ⟨?_, by simp [defaultRecognizer]⟩
      simp only [defaultRecognizer, Recognition.accept.injEq]
      rintro _ _ ⟨rfl, rfl⟩
      exact .nil
    | chars allowed min max =>
      unfold charsRecognizer
      simp only
      split
      · simp
      · refine ⟨?_, by simp⟩
        simp only [Recognition.accept.injEq]
        rintro _ _ ⟨rfl, rfl⟩
        have hpre : greedyRun allowed max rest <+: rest := by
          unfold greedyRun
          split
          · exact List.takeWhile_prefix _
          · exact (List.take_prefix _ _).trans (List.takeWhile_prefix _)
        rw [← List.prefix_iff_eq_take.mp hpre]
        have := Spells.token (definition := d) (here := here) (s := greedyRun allowed max rest) .nil
        simpa using this
    | regex find =>
      unfold regexRecognizer
      cases find (rest.take 257) with
      | none => simp
      | some x =>
        obtain ⟨a, b⟩ := x
        cases a with
        | succ a => simp
        | zero =>
          simp only
          split
          · refine ⟨?_, by simp⟩
            simp only [Recognition.accept.injEq]
            rintro _ _ ⟨rfl, rfl⟩
            have hm : rest.take (min b rest.length) = rest.take b := by rw [List.take_eq_take_iff]; omega
            rw [hm]
            have := Spells.token (definition := d) (here := here) (s := rest.take b) .nil
            simpa using this
          · simp
  · intro evs n he
    cases hb with
    | default => simp [defaultRecognizer] at he; rw [he.1]; exact .nil
    | chars allowed min max =>
      unfold charsRecognizer at he
      simp only at he
      split at he
      · simp at he
      · simp at he; rw [← he.1]; exact .token .nil
    | regex find =>
      unfold regexRecognizer at he
      cases hf : find (rest.take 257) with
      | none => rw [hf] at he; simp at he
      | some x =>
        rw [hf] at he
        obtain ⟨a, b⟩ := x
        cases a with
        | succ a => simp at he
        | zero =>
          simp only at he
          split at he
          · simp at he; rw [← he.1]; exact .token .nil
          · simp at he

/-- The rule `A='b',{C};` with `C='c'|'d';`. -/
private def listOfC : SyntaxRule :=
  ⟨⟨[], 1, 1⟩, ['A'], .cons (.cons (.plain (.mk 1 (.terminalString ⟨[], 1, 3⟩ ['b']))) (.cons (.plain (.mk 1
    (.repeated ⟨[], 1, 7⟩ (.cons (.cons (.plain (.mk 1 (.metaIdentifier ⟨[], 1, 8⟩ ['C']))) .nil) .nil)))) .nil)) .nil⟩

private def cOrD : SyntaxRule :=
  ⟨⟨[], 1, 11⟩, ['C'], .cons (.cons (.plain (.mk 1 (.terminalString ⟨[], 1, 13⟩ ['c']))) .nil)
    (.cons (.cons (.plain (.mk 1 (.terminalString ⟨[], 1, 17⟩ ['d']))) .nil) .nil)⟩

private def someEvents : List Event :=
  [.begin ⟨[], 1, 1⟩ ⟨[], 1, 1⟩ ['A'], .token ⟨[], 1, 3⟩ ⟨[], 1, 1⟩ ['b'],
    .begin ⟨[], 1, 8⟩ ⟨[], 1, 2⟩ ['C'], .token ⟨[], 1, 17⟩ ⟨[], 1, 2⟩ ['d'], .end ⟨[], 1, 8⟩ ⟨[], 1, 3⟩ ['C'],
    .begin ⟨[], 1, 8⟩ ⟨[], 1, 3⟩ ['C'], .token ⟨[], 1, 13⟩ ⟨[], 1, 3⟩ ['c'], .end ⟨[], 1, 8⟩ ⟨[], 1, 4⟩ ['C'],
    .end ⟨[], 1, 1⟩ ⟨[], 1, 4⟩ ['A']]

private theorem some_grammar : ∃ m, ParserFor false (plainLanguage [listOfC, cOrD]) listOfC m ∧
    Returns m (readerOn "bdc") (.ok someEvents) := by
  obtain ⟨m, h1, h2, _⟩ := samplePlainOf "A='b',{C};C='c'|'d';" listOfC [cOrD] (by decide +kernel) (by decide +kernel)
  exact ⟨m, h1, h2 _ 100 _ (by decide +kernel) (by simp)⟩

example : ∃ m, ParserFor false (plainLanguage [listOfC, cOrD]) listOfC m ∧
    Everywhere (spelling (plainLanguage [listOfC, cOrD])) (plainLanguage [listOfC, cOrD]) ∧
    ScannersSpell (plainLanguage [listOfC, cOrD]) ∧ InputAt false (readerOn "bdc") (Location.new []) "bdc".toList ∧
    Returns m (readerOn "bdc") (.ok someEvents) := by
  obtain ⟨m, h1, h2⟩ := some_grammar
  refine ⟨m, h1, ?_, (c37_built_in_scanners fun _ _ => .default).1, input_readerOn _, h2⟩
  intro r hr
  simp [plainLanguage] at hr
  rcases hr with rfl | rfl <;>
  simp [listOfC, cOrD, EveryList, EverySingle, EveryTerm, EveryFactor, EveryPrimary, spelling, quietBodies, noForwards,
    QuietList, QuietSingle, QuietTerm, QuietFactor, QuietPrimary]

/-! ## C38 -/

/-- C38: the events are balanced, and the outermost pair is that of the start rule, from the beginning to the end of the
text. -/
theorem c38_balanced {G : Language} {start : SyntaxRule} {m : Machine} (hp : ParserFor dbg G start m) (hs : ScannersBalanced G)
    {r : Reader} {here : Location} {text : Str} (hi : InputAt dbg r here text) {out : List Event} (h : Returns m r (.ok out)) :
    ∃ inner, Balanced inner ∧ out = .begin start.location here start.metaIdentifier :: inner ++
      [.end start.location (lineColumn here text) start.metaIdentifier] := by
  obtain ⟨inner, he, ht⟩ := (returns_ok_iff hp hi out).mp h
  have hb := (ev_balanced hs he).1 _ _ rfl
  cases ht with
  | cons ho =>
    obtain ⟨out', h1, h2⟩ := onePass_last ho ⟨[], balanced_walk hb []⟩
    refine ⟨out', ?_, by rw [h2]; rfl⟩
    rw [balanced_iff_walk]
    exact onePass_walk h1 _ _ (balanced_walk hb [])

example : ∃ m, ParserFor false (plainLanguage [listOfC, cOrD]) listOfC m ∧ ScannersBalanced (plainLanguage [listOfC, cOrD]) ∧
    InputAt false (readerOn "bdc") (Location.new []) "bdc".toList ∧ Returns m (readerOn "bdc") (.ok someEvents) := by
  obtain ⟨m, h1, h2⟩ := some_grammar
  exact ⟨m, h1, (c37_built_in_scanners fun _ _ => .default).2, input_readerOn _, h2⟩

/-! ## C39 -/

/-- C39 fails: the removal of empty pairs does not step back, so an empty rule within an empty rule leaves the outer pair.
For `A=B,'x';B=C;C=;` and the input `x` the empty pair of `B` is in the result. -/
theorem c39_nested_pair_remains :
    ∃ rules start m first out, parseStr [] "A=B,'x';B=C;C=;".toList = .ok rules ∧ ParserFor false (plainLanguage rules) start m ∧
      Returns m (readerOn "x") (.ok (first :: out)) ∧ HasEmptyPair out := by
  obtain ⟨rules, start, m, h1, h2, _, h3, _⟩ := samplePlain "A=B,'x';B=C;C=;" (by decide +kernel)
  exact ⟨rules, start, m, _, _, h1, h2,
    h3 _ 100 (.ok [.begin ⟨[], 1, 1⟩ ⟨[], 1, 1⟩ ['A'], .begin ⟨[], 1, 3⟩ ⟨[], 1, 1⟩ ['B'], .end ⟨[], 1, 3⟩ ⟨[], 1, 1⟩ ['B'],
      .token ⟨[], 1, 5⟩ ⟨[], 1, 1⟩ ['x'], .end ⟨[], 1, 1⟩ ⟨[], 1, 2⟩ ['A']]) (by decide +kernel) (by simp),
    [], _, _, _, rfl, trivial, trivial⟩

/-- C39 (partial): after the first event, the result is what the reading of the grammar gives without some adjacent pairs of
a begin and an end event; nothing else is removed.  An empty pair is left only where there was a pair
around nothing but empty pairs, and always there. -/
theorem c39_pairs_removed_partial {G : Language} {start : SyntaxRule} {m : Machine} (hp : ParserFor dbg G start m)
    {r : Reader} {here : Location} {text : Str} (hi : InputAt dbg r here text) {out : List Event} (h : Returns m r (.ok out)) :
    ∃ first evs out', Ev asBuilt G (.primary (.metaIdentifier start.location start.metaIdentifier)) here text
        (.ok (first :: evs) text.length) ∧
      out = first :: out' ∧ WithoutPairs evs out' ∧ tokenText out = tokenText (first :: evs) ∧
      (HasEmptyPair out' ↔ HasNestedEmptyPair evs) := by
  cases (returns_iff hp hi _).mp h with
  | accepted he ht =>
    have hw := trimmed_withoutPairs ht
    cases ht with
    | nil =>
      generalize hx : Outcome.ok [] text.length = o at he
      cases he with
      | referenceStop _ _ _ ho => subst hx; exact ho.elim
      | _ => simp at hx
    | cons ho => exact ⟨_, _, _, he, rfl, onePass_withoutPairs ho, withoutPairs_tokenText hw, onePass_pairs ho⟩

/-- The empty pair of `B` is removed. -/
example : ∃ rules start m, parseStr [] "A=B,'x';B=;".toList = .ok rules ∧ ParserFor false (plainLanguage rules) start m ∧
    InputAt false (readerOn "x") (Location.new []) "x".toList ∧
    Returns m (readerOn "x") (.ok [.begin ⟨[], 1, 1⟩ ⟨[], 1, 1⟩ ['A'], .token ⟨[], 1, 5⟩ ⟨[], 1, 1⟩ ['x'],
      .end ⟨[], 1, 1⟩ ⟨[], 1, 2⟩ ['A']]) := by
  obtain ⟨rules, start, m, h1, h2, _, h3, _⟩ := samplePlain "A=B,'x';B=;" (by decide +kernel)
  exact ⟨rules, start, m, h1, h2, input_readerOn _, h3 _ 100 _ (by decide +kernel) (by simp)⟩

end Ebnf.Props
