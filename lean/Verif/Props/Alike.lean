import Verif.Proofs.AlikeCases
import Verif.Props.Syntax
import Verif.Props.Blanks
import Verif.Props.Printing

set_option autoImplicit false

/-! # C84: the names of the rules and the layout of a grammar matter only for the labels and places that are reported -/

namespace Ebnf.Props

open Ebnf Ebnf.Spec

variable {dbg : Bool}

/-- C84: the parsers of two grammars that are alike return for the same inputs, and what they return is alike. -/
theorem c84_alike {K : Correspondence} {G G' : Language} (A : AlikeGrammars K G G') (any : ∀ a b, K.shown a b) {start start' : SyntaxRule}
    (hl : K.place start.location start'.location) (hn : K.name start.metaIdentifier start'.metaIdentifier) {m m' : Machine}
    (hm : ParserFor dbg G start m) (hm' : ParserFor dbg G' start' m') {r : Reader} {here : Location} {text : Str}
    (hi : InputAt dbg r here text) :
    (∀ x, Returns m r x → ∃ x', Returns m' r x' ∧ AlikeResult K x x') ∧
    (∀ x', Returns m' r x' → ∃ x, Returns m r x ∧ AlikeResult K x x') :=
  returns_alike A (shown_any any) (any _ _) hl hn hm hm' hi

/-- C84: rename the rules of a grammar, so that names are the same after iff they were before.  The new parser accepts the same inputs, with the
same events except that the labels are renamed. -/
theorem c84_renamed {rules : List SyntaxRule} {special : Location → Str → Recognizer} {specialName : Location → Str → Str} (ρ : Str → Str)
    (hρ : ∀ a b, Mentioned rules a → Mentioned rules b → (SameName a b ↔ SameName (ρ a) (ρ b)))
    (hs : ∀ l s here rest, ReportsTokens (special l s l here rest)) {start : SyntaxRule} {m m' : Machine}
    (hm : ParserFor dbg ⟨rules, special, specialName⟩ start m)
    (hm' : ParserFor dbg ⟨rules.map (renameRule ρ), special, specialName⟩ (renameRule ρ start) m') {r : Reader} {here : Location}
    {text : Str} (hi : InputAt dbg r here text) :
    (∀ evs, Returns m r (.ok evs) → Returns m' r (.ok (evs.map (renameEvent ρ)))) ∧
    (∀ evs', Returns m' r (.ok evs') → ∃ evs, Returns m r (.ok evs) ∧ evs' = evs.map (renameEvent ρ)) ∧
    (∀ l, (∃ msg, Returns m r (.err ⟨l, msg⟩)) ↔ ∃ msg, Returns m' r (.err ⟨l, msg⟩)) ∧
    ∀ p, Returns m r (.panic p) ↔ Returns m' r (.panic p) := by
  have A : AlikeGrammars (renamingBy (Mentioned rules) ρ) ⟨rules, special, specialName⟩
      ⟨rules.map (renameRule ρ), special, specialName⟩ := by
    refine ⟨?_, ?_, ?_, ?_⟩
    · rintro a _ b _ ⟨h1, rfl⟩ ⟨h2, rfl⟩
      exact hρ a b h1 h2
    · intro r hr
      exact ⟨_, List.mem_map_of_mem hr, renamed_rule ρ hr⟩
    · intro r' hr
      obtain ⟨r, h1, rfl⟩ := List.mem_map.mp hr
      exact ⟨r, h1, renamed_rule ρ h1⟩
    · rintro l s _ _ ⟨rfl, rfl⟩
      refine ⟨trivial, fun here rest => ?_⟩
      have h := hs l s here rest
      show AlikeReaction _ _ _ (special l s l here rest) (special l s l here rest)
      cases h1 : special l s l here rest with
      | accept evs n => rw [h1] at h; exact .accept (tokens_alike (fun _ => rfl) h)
      | unmatched => exact .unmatched
      | error e => exact .error ⟨rfl, .same⟩
      | forward => rw [h1] at h; exact h.elim
  obtain ⟨h1, h2⟩ := returns_alike A (shown_any fun _ _ => trivial) trivial (start := start) (start' := renameRule ρ start) rfl
    (show _ ∧ _ from ⟨⟨start, hm.start, .inl rfl⟩, rfl⟩) hm hm' hi
  refine ⟨fun evs h => ?_, fun evs h => ?_, fun l => ⟨?_, ?_⟩, fun p => ⟨fun h => ?_, fun h => ?_⟩⟩
  · obtain ⟨x', h3, h4⟩ := h1 _ h
    cases h4 with
    | ok h4 => rw [← events_renamed h4]; exact h3
  · obtain ⟨x', h3, h4⟩ := h2 _ h
    cases h4 with
    | ok h4 => exact ⟨_, h3, events_renamed h4⟩
  · rintro ⟨msg, h⟩
    obtain ⟨x', h3, h4⟩ := h1 _ h
    cases h4 with
    | @err _ e' h4 => obtain ⟨l', msg'⟩ := e'; cases h4.1; exact ⟨_, h3⟩
  · rintro ⟨msg, h⟩
    obtain ⟨x', h3, h4⟩ := h2 _ h
    cases h4 with
    | @err e _ h4 => obtain ⟨l', msg'⟩ := e; cases h4.1; exact ⟨_, h3⟩
  · obtain ⟨x', h3, h4⟩ := h1 _ h
    cases h4; exact h3
  · obtain ⟨x', h3, h4⟩ := h2 _ h
    cases h4; exact h3

private theorem top_term {t t' : Term} (h : AlikeTerm moving t t') {l : Location} {n : Str} (hm : .metaIdentifier l n ∈ topOfTerm t) :
    ∃ l', .metaIdentifier l' n ∈ topOfTerm t' := by
  have factor : ∀ {f f' : Factor} {l : Location}, AlikeFactor moving f f' → Primary.metaIdentifier l n = f.primary →
      ∃ l', Primary.metaIdentifier l' n = f'.primary := by
    intro f f' l h he
    cases h with
    | mk h =>
      simp only [Factor.primary] at he
      subst he
      cases h with
      | metaIdentifier _ h => cases h; exact ⟨_, rfl⟩
  cases h with
  | plain h =>
    simp only [topOfTerm, List.mem_singleton] at hm ⊢
    exact factor h hm
  | except h h' =>
    simp only [topOfTerm, List.mem_cons, List.not_mem_nil, or_false] at hm ⊢
    rcases hm with hm | hm
    · obtain ⟨l', h1⟩ := factor h hm; exact ⟨l', .inl h1⟩
    · obtain ⟨l', h1⟩ := factor h' hm; exact ⟨l', .inr h1⟩

private theorem top_single : ∀ {d d' : SingleDefinition}, AlikeSingle moving d d' → ∀ {l : Location} {n : Str},
    .metaIdentifier l n ∈ topOfSingle d → ∃ l', .metaIdentifier l' n ∈ topOfSingle d'
  | _, _, .nil, _, _, hm => by simp [topOfSingle] at hm
  | _, _, .cons h h', _, _, hm => by
    rcases List.mem_append.mp hm with hm | hm
    · obtain ⟨l', h1⟩ := top_term h hm; exact ⟨l', List.mem_append_left _ h1⟩
    · obtain ⟨l', h1⟩ := top_single h' hm; exact ⟨l', List.mem_append_right _ h1⟩

private theorem top_list : ∀ {d d' : DefinitionList}, AlikeList moving d d' → ∀ {l : Location} {n : Str},
    .metaIdentifier l n ∈ topOfList d → ∃ l', .metaIdentifier l' n ∈ topOfList d'
  | _, _, .nil, _, _, hm => by simp [topOfList] at hm
  | _, _, .cons h h', _, _, hm => by
    rcases List.mem_append.mp hm with hm | hm
    · obtain ⟨l', h1⟩ := top_single h hm; exact ⟨l', List.mem_append_left _ h1⟩
    · obtain ⟨l', h1⟩ := top_list h' hm; exact ⟨l', List.mem_append_right _ h1⟩

/-- C84: whether rules make a valid grammar does not depend on where they are written. -/
theorem c84_moved_valid {rules rules' : List SyntaxRule} (h : rules'.map forgetLocations = rules.map forgetLocations) :
    (∃ s, Syntax.new rules = .ok s) ↔ ∃ s, Syntax.new rules' = .ok s := by
  have key : ∀ {rules rules' : List SyntaxRule}, rules'.map forgetLocations = rules.map forgetLocations →
      (∃ s, Syntax.new rules = .ok s) → ∃ s, Syntax.new rules' = .ok s := by
    intro rules rules' h hv
    obtain ⟨h1, h2, h3⟩ := (c21_accepts_iff_partial rules).mp hv
    refine (c21_accepts_iff_partial rules').mpr ⟨fun r hr => ?_, fun i j hd => ?_, fun r hr l n hm => ?_⟩
    · obtain ⟨r', h4, h5⟩ := mem_forgotten h.symm hr
      obtain ⟨_, h6, _⟩ := moved_rule h5
      rw [show r.metaIdentifier = r'.metaIdentifier from h6]
      exact h1 r' h4
    · obtain ⟨hij, a, b, ha, hb, hab⟩ := hd
      have at_ : ∀ {i : Nat} {a : SyntaxRule}, rules'[i]? = some a → ∃ a', rules[i]? = some a' ∧ a'.metaIdentifier = a.metaIdentifier := by
        intro i a ha
        have := congrArg (·[i]?) h
        simp only [List.getElem?_map, ha, Option.map_some] at this
        cases hc : rules[i]? with
        | none => rw [hc] at this; simp at this
        | some a' =>
          rw [hc] at this
          simp only [Option.map_some, Option.some.injEq] at this
          exact ⟨a', rfl, (congrArg SyntaxRule.metaIdentifier this).symm⟩
      obtain ⟨a', ha1, ha2⟩ := at_ ha
      obtain ⟨b', hb1, hb2⟩ := at_ hb
      exact h2 i j ⟨hij, a', b', ha1, hb1, by rw [ha2, hb2]; exact hab⟩
    · obtain ⟨r', h4, h5⟩ := mem_forgotten h.symm hr
      obtain ⟨_, _, h6⟩ := moved_rule h5
      obtain ⟨l', h7⟩ := top_list h6 hm
      obtain ⟨q, h8, h9⟩ := h3 r' h4 l' n h7
      obtain ⟨q', h10, h11⟩ := mem_forgotten h h8
      refine ⟨q', h10, ?_⟩
      rw [show q'.metaIdentifier = q.metaIdentifier from (moved_rule h11).2.1.symm]
      exact h9
  exact ⟨key h, key h.symm⟩

/-- C84: two grammars that differ only in where their parts are written.  Their parsers return the same for every input, except for the places in
the grammar that events and errors mention. -/
theorem c84_moved {rules rules' : List SyntaxRule} {special : Location → Str → Recognizer} {specialName : Str → Str}
    (same : rules'.map forgetLocations = rules.map forgetLocations)
    (hs : ∀ l l' s here rest, placelessReaction (special l s l here rest) = placelessReaction (special l' s l' here rest))
    {start start' : SyntaxRule} (hstart : forgetLocations start' = forgetLocations start) {m m' : Machine}
    (hm : ParserFor dbg ⟨rules, special, fun _ => specialName⟩ start m)
    (hm' : ParserFor dbg ⟨rules', special, fun _ => specialName⟩ start' m') {r : Reader} {here : Location} {text : Str}
    (hi : InputAt dbg r here text) (y : Res (List Event)) :
    (∃ x, Returns m r x ∧ placelessResult x = y) ↔ ∃ x, Returns m' r x ∧ placelessResult x = y := by
  have A : AlikeGrammars moving ⟨rules, special, fun _ => specialName⟩ ⟨rules', special, fun _ => specialName⟩ := by
    refine ⟨?_, ?_, ?_, ?_⟩
    · intro a a' b b' h1 h2
      rw [show a = a' from h1, show b = b' from h2]
    · intro r hr
      obtain ⟨r', h1, h2⟩ := mem_forgotten same hr
      exact ⟨r', h1, moved_rule h2⟩
    · intro r' hr
      obtain ⟨r, h1, h2⟩ := mem_forgotten same.symm hr
      exact ⟨r, h1, moved_rule h2.symm⟩
    · intro l s l' s' h
      cases (show s = s' from h)
      exact ⟨rfl, fun here rest => reaction_moved (hs l l' s here rest)⟩
  obtain ⟨h1, h2⟩ := returns_alike A (shown_moved fun _ _ _ => rfl) rfl trivial (moved_rule hstart).2.1 hm hm' hi
  constructor
  · rintro ⟨x, h3, rfl⟩
    obtain ⟨x', h4, h5⟩ := h1 x h3
    exact ⟨x', h4, (result_moved h5).symm⟩
  · rintro ⟨x', h3, rfl⟩
    obtain ⟨x, h4, h5⟩ := h2 x' h3
    exact ⟨x, h4, result_moved h5⟩

/-- There is a parser of the moved grammar, and it does the same. -/
private theorem moved_parser {rules rules' : List SyntaxRule} {special : Location → Str → Recognizer} {specialName : Str → Str}
    (same : rules'.map forgetLocations = rules.map forgetLocations) (shape : ∀ r ∈ rules', RuleShape r)
    (hs : ∀ l l' s here rest, placelessReaction (special l s l here rest) = placelessReaction (special l' s l' here rest))
    {start : SyntaxRule} {m : Machine} (hm : ParserFor dbg ⟨rules, special, fun _ => specialName⟩ start m) :
    ∃ start' m', start'.metaIdentifier = start.metaIdentifier ∧ ParserFor dbg ⟨rules', special, fun _ => specialName⟩ start' m' ∧
      ∀ r here text, InputAt dbg r here text → ∀ y,
        (∃ x, Returns m r x ∧ placelessResult x = y) ↔ ∃ x, Returns m' r x ∧ placelessResult x = y := by
  obtain ⟨start', h1, h2⟩ := mem_forgotten same hm.start
  obtain ⟨s, config, _, _, h3, h4, _⟩ := hm.made
  obtain ⟨s', h5⟩ := (c84_moved_valid same).mp ⟨s, h3⟩
  obtain ⟨_, m', _, _, h6⟩ := machine_new (dbg := dbg) (config := config) (G := ⟨rules', special, fun _ => specialName⟩) h5 h4 shape h1
  exact ⟨start', m', (moved_rule h2).2.1.symm, h6, fun r here text hi y => c84_moved same hs h2 hm h6 hi y⟩

/-- C84 in the text: two grammar texts with the same symbols, so that only gaps and comments between symbols differ, have parsers that return the
same for every input, except for the places in the grammar that are reported. -/
theorem c84_reformatted {name name' text text' : Str} {ts us : List Token} (h : Lexes (Location.new name) text ts)
    (h' : Lexes (Location.new name') text' us) (hsym : SameSymbols ts us) {rules : List SyntaxRule} (hp : parseStr name text = .ok rules)
    {special : Location → Str → Recognizer} {specialName : Str → Str}
    (hs : ∀ l l' s here rest, placelessReaction (special l s l here rest) = placelessReaction (special l' s l' here rest))
    {start : SyntaxRule} {m : Machine} (hm : ParserFor dbg ⟨rules, special, fun _ => specialName⟩ start m) :
    ∃ rules' start' m', parseStr name' text' = .ok rules' ∧ start'.metaIdentifier = start.metaIdentifier ∧
      ParserFor dbg ⟨rules', special, fun _ => specialName⟩ start' m' ∧
      ∀ r here text, InputAt dbg r here text → ∀ y,
        (∃ x, Returns m r x ∧ placelessResult x = y) ↔ ∃ x, Returns m' r x ∧ placelessResult x = y := by
  obtain ⟨rules', h1, h2⟩ := (c16_blanks_irrelevant name name' text text' ts us h h' hsym _).mp ⟨rules, hp, rfl⟩
  obtain ⟨start', m', h3⟩ := moved_parser h2 (fun r hr => (c12_shape name' text' rules' h1 r hr).1) hs hm
  exact ⟨rules', start', m', h1, h3⟩

/-- C84 for printing: a grammar that can be printed, printed and read back, has a parser that returns the same for every input, except for the
places in the grammar that are reported. -/
theorem c84_printed {name text : Str} (name' : Str) {rules : List SyntaxRule} (hp : parseStr name text = .ok rules)
    (hpr : ∀ r ∈ rules, PrintableList r.definitionList) {special : Location → Str → Recognizer} {specialName : Str → Str}
    (hs : ∀ l l' s here rest, placelessReaction (special l s l here rest) = placelessReaction (special l' s l' here rest))
    {start : SyntaxRule} {m : Machine} (hm : ParserFor dbg ⟨rules, special, fun _ => specialName⟩ start m) :
    ∃ rules' start' m', parseStr name' (rules.map SyntaxRule.display).flatten = .ok rules' ∧
      start'.metaIdentifier = start.metaIdentifier ∧ ParserFor dbg ⟨rules', special, fun _ => specialName⟩ start' m' ∧
      ∀ r here text, InputAt dbg r here text → ∀ y,
        (∃ x, Returns m r x ∧ placelessResult x = y) ↔ ∃ x, Returns m' r x ∧ placelessResult x = y := by
  obtain ⟨rules', h1, h2⟩ := (c81_reads_back_iff name name' text rules hp).mpr hpr
  obtain ⟨start', m', h3⟩ := moved_parser h2 (fun r hr => (c12_shape name' _ rules' h1 r hr).1) hs hm
  exact ⟨rules', start', m', h1, h3⟩

/-! ## Cases that meet the hypotheses -/

/-- `A='b',{C};C='c'|'d';` -/
private def two : List SyntaxRule :=
  [⟨⟨[], 1, 1⟩, ['A'], .cons (.cons (.plain (.mk 1 (.terminalString ⟨[], 1, 3⟩ ['b']))) (.cons (.plain (.mk 1
    (.repeated ⟨[], 1, 7⟩ (.cons (.cons (.plain (.mk 1 (.metaIdentifier ⟨[], 1, 8⟩ ['C']))) .nil) .nil)))) .nil)) .nil⟩,
   ⟨⟨[], 1, 11⟩, ['C'], .cons (.cons (.plain (.mk 1 (.terminalString ⟨[], 1, 13⟩ ['c']))) .nil)
    (.cons (.cons (.plain (.mk 1 (.terminalString ⟨[], 1, 17⟩ ['d']))) .nil) .nil)⟩]

/-- `A` becomes `C`, and other names become `X`. -/
private def other (n : Str) : Str := if n = ['A'] then ['C'] else ['X']

/-- The rules make a syntax. -/
private def isOk (rules : List SyntaxRule) : Bool :=
  match Syntax.new rules with
  | .ok _ => true
  | _ => false

private theorem parser_of {text : Str} {rules : List SyntaxRule} (hp : parseStr [] text = .ok rules) (h : isOk rules = true)
    {start : SyntaxRule} (hm : start ∈ rules) : ∃ m, ParserFor false (plainLanguage rules) start m := by
  cases h1 : Syntax.new rules with
  | ok s =>
    obtain ⟨_, m, _, _, h2⟩ := machine_new (G := plainLanguage rules) h1 (plain_realizes _) (fun r hr => (c12_shape _ _ _ hp r hr).1) hm
    exact ⟨m, h2⟩
  | _ => rw [isOk, h1] at h; cases h

private theorem plain_placeless (l l' : Location) (s : Str) (here : Location) (rest : Str) :
    placelessReaction ((plainLanguage []).special l s l here rest) = placelessReaction ((plainLanguage []).special l' s l' here rest) := rfl

/-- Two rules and a renaming that reuses the name of one for the other; both grammars have parsers. -/
example : (∀ a b, Mentioned two a → Mentioned two b → (SameName a b ↔ SameName (other a) (other b))) ∧
    (∀ l s here rest, ReportsTokens ((plainLanguage two).special l s l here rest)) ∧
    ∃ start m m', ParserFor false (plainLanguage two) start m ∧
      ParserFor false (plainLanguage (two.map (renameRule other))) (renameRule other start) m' := by
  refine ⟨?_, ?_, ?_⟩
  · have names : ∀ a, Mentioned two a → a = ['A'] ∨ a = ['C'] := by
      rintro a ⟨r, hr, h⟩
      simp only [two, List.mem_cons, List.not_mem_nil, or_false] at hr
      rcases hr with rfl | rfl <;>
        simp [primariesOfList, primariesOfSingle, primariesOfTerm, primariesOfFactor, primariesIn] at h <;> grind
    have no : ∀ {a b : Str}, keyedMetaIdentifier a ≠ keyedMetaIdentifier b → ¬ SameName a b := fun h h' => h (keyed_differs h')
    intro a b ha hb
    rcases names a ha with rfl | rfl <;> rcases names b hb with rfl | rfl
    · exact ⟨fun _ => .refl _, fun _ => .refl _⟩
    · exact ⟨fun h => absurd h (no (by decide +kernel)), fun h => absurd h (no (by decide +kernel))⟩
    · exact ⟨fun h => absurd h (no (by decide +kernel)), fun h => absurd h (no (by decide +kernel))⟩
    · exact ⟨fun _ => .refl _, fun _ => .refl _⟩
  · intro l s here rest
    simp [plainLanguage, defaultRecognizer, ReportsTokens]
  · obtain ⟨m, h1⟩ := parser_of (text := "A='b',{C};C='c'|'d';".toList) (rules := two) (by decide +kernel) (by decide +kernel)
      (List.mem_cons_self ..)
    obtain ⟨m', h2⟩ := parser_of (text := "C='b',{X};X='c'|'d';".toList) (rules := two.map (renameRule other)) (by decide +kernel)
      (by decide +kernel) (List.mem_map_of_mem (List.mem_cons_self ..))
    exact ⟨_, m, m', h1, h2⟩

/-- `A='b';` -/
private def plainText : Str := ['A', '=', '\'', 'b', '\'', ';']
/-- The same after a blank, and with a line break. -/
private def spacedText : Str := [' ', 'A', '=', '\'', 'b', '\'', '\n', ';']

private theorem plain_lexes : Lexes (Location.new []) plainText
    [.metaIdentifier ⟨[], 1, 1⟩ ['A'], .definingSymbol ⟨[], 1, 2⟩, .terminalString ⟨[], 1, 3⟩ ['b'] '\'', .terminatorSymbol ⟨[], 1, 6⟩ ';'] :=
  .cons (s := ['A']) (.metaIdentifier _ 'A' [] (by decide) (by simp)) rfl (show ¬ IsLetter '=' ∧ ¬ IsDigit '=' by decide)
    (.cons (s := ['=']) (.defining _) rfl trivial
      (.cons (s := ['\'', 'b', '\'']) (.terminalString _ ['b'] '\'' (by simp) (by simp) (by decide)) rfl trivial
        (.cons (s := [';']) (.terminator _ ';' (by decide)) rfl trivial (.nil _))))

private theorem spaced_lexes : Lexes (Location.new []) spacedText
    [.gapSeparatorSequence ⟨[], 1, 1⟩ [' '], .metaIdentifier ⟨[], 1, 2⟩ ['A'], .definingSymbol ⟨[], 1, 3⟩,
      .terminalString ⟨[], 1, 4⟩ ['b'] '\'', .gapSeparatorSequence ⟨[], 1, 7⟩ ['\n'], .terminatorSymbol ⟨[], 2, 1⟩ ';'] :=
  .cons (s := [' ']) (.gapSeparator _ ' ' [] (by decide) (by simp)) rfl (show 'A' ∉ gapChars by decide)
    (.cons (s := ['A']) (.metaIdentifier _ 'A' [] (by decide) (by simp)) rfl (show ¬ IsLetter '=' ∧ ¬ IsDigit '=' by decide)
      (.cons (s := ['=']) (.defining _) rfl trivial
        (.cons (s := ['\'', 'b', '\'']) (.terminalString _ ['b'] '\'' (by simp) (by simp) (by decide)) rfl trivial
          (.cons (s := ['\n']) (.gapSeparator _ '\n' [] (by decide) (by simp)) rfl (show ';' ∉ gapChars by decide)
            (.cons (s := [';']) (.terminator _ ';' (by decide)) rfl trivial (.nil _))))))

private theorem no_word {t : Token} {ts : List Token} (h : ¬ IsGapToken t) (h' : ∀ l s, t ≠ .metaIdentifier l s) : ¬ StartsWithWord (t :: ts) := by
  rintro ⟨gs, l, s, rest, h1, h2⟩
  cases gs with
  | nil => simp at h1; exact h' _ _ h1.1
  | cons g gs =>
    simp at h1
    exact h (h1.1 ▸ h2 g (by simp))

/-- Two texts with the same symbols; the first has a parser. -/
example : ∃ ts us rules start m, Lexes (Location.new []) plainText ts ∧ Lexes (Location.new []) spacedText us ∧ SameSymbols ts us ∧
    parseStr [] plainText = .ok rules ∧ (∀ r ∈ rules, PrintableList r.definitionList) ∧
    (∀ l l' s here rest, placelessReaction ((plainLanguage rules).special l s l here rest) =
      placelessReaction ((plainLanguage rules).special l' s l' here rest)) ∧ ParserFor false (plainLanguage rules) start m := by
  have hp : parseStr [] plainText = .ok [⟨⟨[], 1, 1⟩, ['A'],
      .cons (.cons (.plain (.mk 1 (.terminalString ⟨[], 1, 3⟩ ['b']))) .nil) .nil⟩] := by decide +kernel
  obtain ⟨m, hm⟩ := parser_of hp (by decide +kernel) (List.mem_cons_self ..)
  refine ⟨_, _, _, _, m, plain_lexes, spaced_lexes, ?_, hp, ?_, plain_placeless, hm⟩
  · have gap : ∀ l s, Blanks [.gapSeparatorSequence l s] := fun l s => by simp [Blanks, IsBlank]
    refine .name (g := []) (g' := [_]) (n := [.metaIdentifier ⟨[], 1, 1⟩ ['A']]) (n' := [.metaIdentifier ⟨[], 1, 2⟩ ['A']])
      blanks_nil (gap _ _) (.word _ _) (.word _ _) (no_word (by simp [IsGapToken]) (by simp)) (no_word (by simp [IsGapToken]) (by simp)) ?_
    refine .symbol (g := []) (g' := []) ⟨[], 1, 3⟩ blanks_nil blanks_nil trivial ?_
    refine .symbol (g := []) (g' := []) ⟨[], 1, 4⟩ blanks_nil blanks_nil trivial ?_
    exact .symbol (g := []) (g' := [_]) ⟨[], 2, 1⟩ blanks_nil (gap _ _) trivial (.nil blanks_nil blanks_nil)
  · simp [PrintableList, PrintableSingle, PrintableTerm, PrintableFactor, PrintablePrimary]

end Ebnf.Props
