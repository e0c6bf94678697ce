import Verif.Proofs.GrammarFacts
import Verif.Spec.Blanks

set_option autoImplicit false

/-! # Derivations do not depend on blanks and positions -/

namespace Ebnf

open Spec

theorem split_skip {P : Token → Prop} {g Y A B : List Token} {x : Token} (hg : ∀ t ∈ g, P t) (hx : ¬ P x)
    (h : g ++ Y = A ++ x :: B) : ∃ A1, A = g ++ A1 ∧ Y = A1 ++ x :: B := by
  induction g generalizing A with
  | nil => exact ⟨A, rfl, h⟩
  | cons a as ih =>
    cases A with
    | nil =>
      simp at h
      exact absurd (h.1 ▸ hg a (by simp)) hx
    | cons b bs =>
      simp at h
      obtain ⟨rfl, h⟩ := h
      obtain ⟨A1, rfl, h2⟩ := ih (fun t ht => hg t (by simp [ht])) h
      exact ⟨A1, rfl, h2⟩

theorem symbol_not_blank {t : Token} (h : IsSymbol t) : ¬ IsBlank t := by
  cases t <;> simp_all [IsSymbol, IsBlank]

theorem symbol_not_skippable {t : Token} (h : IsSymbol t) : t.isSkippable = false := by
  cases t <;> simp_all [IsSymbol] <;> rfl

theorem moved_symbol {t : Token} (l : Location) (h : IsSymbol t) : IsSymbol (moved l t) := by
  cases t <;> simp_all [IsSymbol, moved]

/-- A gap or a word. -/
def InName (t : Token) : Prop := IsGapToken t ∨ ∃ l s, t = .metaIdentifier l s

theorem symbol_not_inName {t : Token} (h : IsSymbol t) : ¬ InName t := by
  rintro (h' | ⟨l, s, rfl⟩)
  · exact symbol_not_blank h (isBlank_of_gap h')
  · exact h

theorem name_inName {n : List Token} {l : Location} {s : Str} (h : Name n l s) : ∀ t ∈ n, InName t := by
  induction h with
  | word l s => simp [InName]
  | adjacent l' s _ ih =>
    intro t ht
    rcases List.mem_append.mp ht with h | h
    · exact ih t h
    · simp at h; exact .inr ⟨_, _, h⟩
  | gap gs l' s _ _ hg ih =>
    intro t ht
    rcases List.mem_append.mp ht with h | h
    · rcases List.mem_append.mp h with h | h
      · exact ih t h
      · exact .inl (hg t h)
    · simp at h; exact .inr ⟨_, _, h⟩

theorem name_last {n : List Token} {l : Location} {s : Str} (h : Name n l s) :
    ∃ n' l' s', n = n' ++ [.metaIdentifier l' s'] := by
  cases h with
  | word l s => exact ⟨[], _, _, rfl⟩
  | adjacent l' s _ => exact ⟨_, _, _, rfl⟩
  | gap gs l' s _ _ _ => exact ⟨_, _, _, rfl⟩

theorem startsWithWord_append {A B : List Token} (h : StartsWithWord A) : StartsWithWord (A ++ B) := by
  obtain ⟨gs, l, s, rest, rfl, hg⟩ := h
  exact ⟨gs, l, s, rest ++ B, by simp, hg⟩

/-- A sequence of gaps and words that contains a word starts with a word. -/
theorem startsWithWord_of {x : List Token} (h : ∀ t ∈ x, InName t) (hw : ∃ l s, .metaIdentifier l s ∈ x) :
    StartsWithWord x := by
  induction x with
  | nil => obtain ⟨_, _, h⟩ := hw; simp at h
  | cons t ts ih =>
    rcases h t (by simp) with h' | ⟨l, s, rfl⟩
    · obtain ⟨l, s, hm⟩ := hw
      rcases List.mem_cons.mp hm with h1 | h1
      · subst h1; simp [IsGapToken] at h'
      · obtain ⟨gs, l, s, rest, rfl, hg⟩ := ih (fun t ht => h t (by simp [ht])) ⟨l, s, h1⟩
        refine ⟨t :: gs, l, s, rest, rfl, ?_⟩
        intro u hu
        rcases List.mem_cons.mp hu with rfl | hu
        · exact h'
        · exact hg u hu
    · exact ⟨[], l, s, ts, rfl, by simp⟩

/-- Names are maximal. -/
theorem name_split_unique {n m a b : List Token} {l l' : Location} {s s' : Str} (hn : Name n l s) (hm : Name m l' s')
    (ha : ¬ StartsWithWord a) (hb : ¬ StartsWithWord b) (h : n ++ a = m ++ b) : n = m ∧ a = b := by
  have key : ∀ {n m a b x : List Token} {l' : Location} {s' : Str}, Name m l' s' → ¬ StartsWithWord a →
      m = n ++ x → a = x ++ b → x = [] := by
    intro n m a b x l' s' hm ha h1 h2
    rcases List.eq_nil_or_concat x with rfl | ⟨x', t, rfl⟩
    · rfl
    · exfalso
      apply ha
      rw [h2]
      apply startsWithWord_append
      apply startsWithWord_of
      · intro t ht; exact name_inName hm t (by rw [h1]; simp at ht ⊢; grind)
      · obtain ⟨m', l, s, hm'⟩ := name_last hm
        rw [h1, List.concat_eq_append, ← List.append_assoc] at hm'
        have := (List.append_inj' hm' rfl).2
        simp at this
        exact ⟨l, s, by simp [this]⟩
  rcases List.append_eq_append_iff.mp h with ⟨x, h1, h2⟩ | ⟨x, h1, h2⟩
  · have := key hm ha h1 h2
    subst this; simp at h1 h2; exact ⟨h1.symm, h2⟩
  · have := key hn hb h1 h2
    subst this; simp at h1 h2; exact ⟨h1, h2.symm⟩

theorem name_deterministic {n : List Token} {l l' : Location} {s s' : Str} (h : Name n l s) (h' : Name n l' s')
    (hok : NamedOk n) : l = l' ∧ s = s' := by
  have h1 := readMetaLoop_name_complete h hok []
  have h2 := readMetaLoop_name_complete h' hok []
  rw [h1] at h2
  simp [readMetaLoop] at h2
  exact ⟨h2.2, h2.1⟩

/-- Splitting at a symbol. -/
theorem Spec.SameSymbols.split {ts us : List Token} (h : SameSymbols ts us) {A B : List Token} {x : Token}
    (hx : IsSymbol x) (he : ts = A ++ x :: B) :
    ∃ A' l B', us = A' ++ moved l x :: B' ∧ SameSymbols A A' ∧ SameSymbols B B' := by
  induction h generalizing A with
  | @nil g g' hg hg' =>
    exact absurd (hg x (by rw [he]; simp)) (symbol_not_blank hx)
  | @symbol g g' t ts us l hg hg' ht hs ih =>
    obtain ⟨A1, rfl, h2⟩ := split_skip hg (symbol_not_blank hx) he
    cases A1 with
    | nil =>
      simp at h2
      obtain ⟨rfl, rfl⟩ := h2
      exact ⟨g', l, us, rfl, .nil (by simpa using hg) hg', hs⟩
    | cons a as =>
      simp at h2
      obtain ⟨rfl, h2⟩ := h2
      obtain ⟨A', l', B', rfl, h3, h4⟩ := ih h2
      exact ⟨g' ++ moved l t :: A', l', B', by simp, .symbol l hg hg' ht h3, h4⟩
  | @name g g' n n' l l' s ts us hg hg' hn hn' hw hw' hs ih =>
    rw [List.append_assoc] at he
    obtain ⟨A1, rfl, h2⟩ := split_skip hg (symbol_not_blank hx) he
    obtain ⟨A2, rfl, h3⟩ := split_skip (name_inName hn) (symbol_not_inName hx) h2
    obtain ⟨A', l'', B', rfl, h4, h5⟩ := ih h3
    refine ⟨g' ++ n' ++ A', l'', B', by simp, ?_, h5⟩
    rw [← List.append_assoc]
    refine .name hg hg' hn hn' (fun h => hw ?_) (fun h => hw' (startsWithWord_append h)) h4
    rw [h3]; exact startsWithWord_append h

theorem Spec.SameSymbols.blanks {g us : List Token} (hg : Blanks g) (h : SameSymbols g us) : Blanks us := by
  cases h with
  | nil _ h => exact h
  | symbol l _ _ ht _ => exact absurd (hg _ (by simp)) (symbol_not_blank ht)
  | @name g _ n _ l _ _ ts _ _ _ hn _ _ _ _ =>
    obtain ⟨s, r, rfl⟩ := name_head hn
    have := hg (.metaIdentifier l s) (by simp)
    simp [IsBlank] at this

theorem not_startsWithWord_blanks {g : List Token} (hg : Blanks g) : ¬ StartsWithWord g := by
  rintro ⟨gs, l, s, r, rfl, _⟩
  have := hg (.metaIdentifier l s) (by simp)
  simp [IsBlank] at this

theorem Spec.SameSymbols.name_inv {g n g2 us : List Token} {l : Location} {s : Str} (hg : Blanks g) (hn : Name n l s)
    (hg2 : Blanks g2) (hok : NamedOk n) (h : SameSymbols (g ++ n ++ g2) us) :
    ∃ g' n' g'' l', us = g' ++ n' ++ g'' ∧ Blanks g' ∧ Blanks g'' ∧ Name n' l' s := by
  obtain ⟨w, r, hr⟩ := name_head hn
  have hsk : skipGaps (g ++ n ++ g2) = n ++ g2 := by simpa using name_skip (rest := g2) hg hn
  generalize hgn : g ++ n ++ g2 = x at h
  cases h with
  | nil h1 _ =>
    have := h1 (.metaIdentifier l w) (by rw [← hgn, hr]; simp)
    simp [IsBlank] at this
  | @symbol g1 g1' t ts us l' hg1 _ ht _ =>
    rw [hgn, skipGaps_blanks_skip hg1, skipGaps_cons (symbol_not_skippable ht), hr] at hsk
    simp at hsk
    rw [hsk.1] at ht
    exact absurd ht (by simp [IsSymbol])
  | @name g1 g1' n1 n1' l1 l1' s1 ts us hg1 hg1' hn1 hn1' hw hw' hs =>
    have h1 : skipGaps (g1 ++ n1 ++ ts) = n1 ++ ts := name_skip hg1 hn1
    rw [hgn, h1] at hsk
    obtain ⟨rfl, rfl⟩ := name_split_unique (a := ts) (b := g2) hn1 hn hw
      (not_startsWithWord_blanks hg2) hsk
    obtain ⟨rfl, rfl⟩ := name_deterministic hn hn1 hok
    exact ⟨g1', n1', us, _, rfl, hg1', hs.blanks hg2, hn1'⟩

/-- A derivation, with blanks after it. -/
def Trail {α : Type} (G : List Token → α → Prop) (us : List Token) (Q : α → Prop) : Prop :=
  ∃ u g a, us = u ++ g ∧ Blanks g ∧ G u a ∧ Q a

abbrev noL : Location → Location := fun _ => nowhere

mutual
theorem same_primary {ts g2 us : List Token} {p : Primary} : PrimaryG ts p → NamedOk ts → Blanks g2 →
    SameSymbols (ts ++ g2) us → Trail PrimaryG us fun p' => mapPrimary noL noL p' = mapPrimary noL noL p
  | .optional (g := g) (ts := tl) (g' := g') (l := l) (s := s) (l' := l') (s' := s') hg hg' hl, hok, hg2, h => by
    obtain ⟨g1, l1, R, rfl, h1, h2⟩ := h.split (A := g) (x := .startOptionSymbol l s)
      (B := tl ++ g' ++ .endOptionSymbol l' s' :: g2) (by trivial) (by simp)
    obtain ⟨I, l2, R', rfl, h3, h4⟩ := h2.split (x := .endOptionSymbol l' s') (by trivial) rfl
    obtain ⟨u, g3, a, rfl, hg3, hu, hm⟩ := same_list hl hok.right.tail.left.left hg' h3
    exact ⟨g1 ++ moved l1 (.startOptionSymbol l s) :: (u ++ g3 ++ [moved l2 (.endOptionSymbol l' s')]), R', _, by simp,
      h4.blanks hg2, .optional (h1.blanks hg) hg3 hu, by simp [mapPrimary, hm]⟩
  | .repeated (g := g) (ts := tl) (g' := g') (l := l) (s := s) (l' := l') (s' := s') hg hg' hl, hok, hg2, h => by
    obtain ⟨g1, l1, R, rfl, h1, h2⟩ := h.split (A := g) (x := .startRepeatSymbol l s)
      (B := tl ++ g' ++ .endRepeatSymbol l' s' :: g2) (by trivial) (by simp)
    obtain ⟨I, l2, R', rfl, h3, h4⟩ := h2.split (x := .endRepeatSymbol l' s') (by trivial) rfl
    obtain ⟨u, g3, a, rfl, hg3, hu, hm⟩ := same_list hl hok.right.tail.left.left hg' h3
    exact ⟨g1 ++ moved l1 (.startRepeatSymbol l s) :: (u ++ g3 ++ [moved l2 (.endRepeatSymbol l' s')]), R', _, by simp,
      h4.blanks hg2, .repeated (h1.blanks hg) hg3 hu, by simp [mapPrimary, hm]⟩
  | .grouped (g := g) (ts := tl) (g' := g') (l := l) (l' := l') hg hg' hl, hok, hg2, h => by
    obtain ⟨g1, l1, R, rfl, h1, h2⟩ := h.split (A := g) (x := .startGroupSymbol l)
      (B := tl ++ g' ++ .endGroupSymbol l' :: g2) (by trivial) (by simp)
    obtain ⟨I, l2, R', rfl, h3, h4⟩ := h2.split (x := .endGroupSymbol l') (by trivial) rfl
    obtain ⟨u, g3, a, rfl, hg3, hu, hm⟩ := same_list hl hok.right.tail.left.left hg' h3
    exact ⟨g1 ++ moved l1 (.startGroupSymbol l) :: (u ++ g3 ++ [moved l2 (.endGroupSymbol l')]), R', _, by simp,
      h4.blanks hg2, .grouped (h1.blanks hg) hg3 hu, by simp [mapPrimary, hm]⟩
  | .metaIdentifier (g := g) (ts := n) hg hn, hok, hg2, h => by
    obtain ⟨g', n', g'', l', rfl, h1, h2, h3⟩ := h.name_inv hg hn hg2 hok.right
    exact ⟨g' ++ n', g'', _, rfl, h2, .metaIdentifier h1 h3, by simp [mapPrimary]⟩
  | .terminalString (g := g) (l := l) (s := s) (q := q) hg, hok, hg2, h => by
    obtain ⟨g1, l1, R, rfl, h1, h2⟩ := h.split (A := g) (x := .terminalString l s q) (B := g2) (by trivial) (by simp)
    exact ⟨g1 ++ [.terminalString l1 s q], R, _, by simp [moved], h2.blanks hg2, .terminalString (h1.blanks hg),
      by simp [mapPrimary]⟩
  | .specialSequence (g := g) (l := l) (s := s) hg, hok, hg2, h => by
    obtain ⟨g1, l1, R, rfl, h1, h2⟩ := h.split (A := g) (x := .specialSequence l s) (B := g2) (by trivial) (by simp)
    exact ⟨g1 ++ [.specialSequence l1 s], R, _, by simp [moved], h2.blanks hg2, .specialSequence (h1.blanks hg),
      by simp [mapPrimary]⟩
  | .empty l hg, hok, hg2, h =>
    ⟨us, [], _, by simp, blanks_nil, .empty l (h.blanks (blanks_append hg hg2)), by simp [mapPrimary]⟩
theorem same_factor {ts g2 us : List Token} {f : Factor} : FactorG ts f → NamedOk ts → Blanks g2 →
    SameSymbols (ts ++ g2) us → Trail FactorG us fun f' => mapFactor noL noL f' = mapFactor noL noL f
  | .one hp, hok, hg2, h => by
    obtain ⟨u, g, a, rfl, h1, h2, h3⟩ := same_primary hp hok hg2 h
    exact ⟨u, g, _, rfl, h1, .one h2, by simp [mapFactor, h3]⟩
  | .times (g := g) (g' := g') (ts := tp) (l := l) (l' := l') (d := d) hg hg' hd hne hb hp, hok, hg2, h => by
    obtain ⟨g1, l1, R, rfl, h1, h2⟩ := h.split (A := g) (x := .integer l d)
      (B := g' ++ .repetitionSymbol l' :: (tp ++ g2)) (by trivial) (by simp)
    obtain ⟨g3, l2, R', rfl, h3, h4⟩ := h2.split (x := .repetitionSymbol l') (by trivial) rfl
    obtain ⟨u, g4, a, rfl, hg4, hu, hm⟩ := same_primary hp hok.right.tail.right.tail hg2 h4
    exact ⟨g1 ++ .integer l1 d :: (g3 ++ .repetitionSymbol l2 :: u), g4, _, by simp [moved], hg4,
      .times (h1.blanks hg) (h3.blanks hg') hd hne hb hu, by simp [mapFactor, hm]⟩
theorem same_term {ts g2 us : List Token} {t : Term} : TermG ts t → NamedOk ts → Blanks g2 →
    SameSymbols (ts ++ g2) us → Trail TermG us fun t' => mapTerm noL noL t' = mapTerm noL noL t
  | .plain hp, hok, hg2, h => by
    obtain ⟨u, g, a, rfl, h1, h2, h3⟩ := same_factor hp hok hg2 h
    exact ⟨u, g, _, rfl, h1, .plain h2, by simp [mapTerm, h3]⟩
  | .except (ts := tf) (g := g) (ts' := te) (l := l) hf hg he, hok, hg2, h => by
    obtain ⟨A, l1, R, rfl, h1, h2⟩ := h.split (A := tf ++ g) (x := .exceptSymbol l)
      (B := te ++ g2) (by trivial) (by simp)
    obtain ⟨u, g3, a, rfl, hg3, hu, hm⟩ := same_factor hf hok.left.left hg h1
    obtain ⟨u', g4, a', rfl, hg4, hu', hm'⟩ := same_factor he hok.right.tail hg2 h2
    exact ⟨u ++ g3 ++ .exceptSymbol l1 :: u', g4, _, by simp [moved], hg4, .except hu hg3 hu',
      by simp [mapTerm, hm, hm']⟩
theorem same_single {ts g2 us : List Token} {d : SingleDefinition} : SingleG ts d → NamedOk ts → Blanks g2 →
    SameSymbols (ts ++ g2) us → Trail SingleG us fun d' => mapSingle noL noL d' = mapSingle noL noL d
  | .one hp, hok, hg2, h => by
    obtain ⟨u, g, a, rfl, h1, h2, h3⟩ := same_term hp hok hg2 h
    exact ⟨u, g, _, rfl, h1, .one h2, by simp [mapSingle, h3]⟩
  | .more (ts := tf) (g := g) (ts' := te) (l := l) hf hg he, hok, hg2, h => by
    obtain ⟨A, l1, R, rfl, h1, h2⟩ := h.split (A := tf ++ g) (x := .concatenateSymbol l)
      (B := te ++ g2) (by trivial) (by simp)
    obtain ⟨u, g3, a, rfl, hg3, hu, hm⟩ := same_term hf hok.left.left hg h1
    obtain ⟨u', g4, a', rfl, hg4, hu', hm'⟩ := same_single he hok.right.tail hg2 h2
    exact ⟨u ++ g3 ++ .concatenateSymbol l1 :: u', g4, _, by simp [moved], hg4, .more hu hg3 hu',
      by simp [mapSingle, hm, hm']⟩
theorem same_list {ts g2 us : List Token} {d : DefinitionList} : ListG ts d → NamedOk ts → Blanks g2 →
    SameSymbols (ts ++ g2) us → Trail ListG us fun d' => mapList noL noL d' = mapList noL noL d
  | .one hp, hok, hg2, h => by
    obtain ⟨u, g, a, rfl, h1, h2, h3⟩ := same_single hp hok hg2 h
    exact ⟨u, g, _, rfl, h1, .one h2, by simp [mapList, h3]⟩
  | .more (ts := tf) (g := g) (ts' := te) (l := l) (c := c) hf hg he, hok, hg2, h => by
    obtain ⟨A, l1, R, rfl, h1, h2⟩ := h.split (A := tf ++ g) (x := .definitionSeparatorSymbol l c)
      (B := te ++ g2) (by trivial) (by simp)
    obtain ⟨u, g3, a, rfl, hg3, hu, hm⟩ := same_single hf hok.left.left hg h1
    obtain ⟨u', g4, a', rfl, hg4, hu', hm'⟩ := same_list he hok.right.tail hg2 h2
    exact ⟨u ++ g3 ++ .definitionSeparatorSymbol l1 c :: u', g4, _, by simp [moved], hg4, .more hu hg3 hu',
      by simp [mapList, hm, hm']⟩
end

theorem terminator_symbol {t : Token} (h : IsTerminator t) : IsSymbol t := by
  cases t <;> simp_all [IsTerminator, IsSymbol]

theorem moved_terminator {t : Token} (l : Location) (h : IsTerminator t) : IsTerminator (moved l t) := by
  cases t <;> simp_all [IsTerminator, moved]

theorem same_rules {ts us : List Token} {rs : List SyntaxRule} (h : RulesG ts rs) (hok : NamedOk ts)
    (hs : SameSymbols ts us) :
    Trail RulesG us fun rs' => rs'.map forgetLocations = rs.map forgetLocations := by
  induction h generalizing us with
  | nil => exact ⟨[], us, [], by simp, hs.blanks blanks_nil, .nil, rfl⟩
  | @rule ts r vs rs hr _ ih =>
    cases hr with
    | @rule g n g' l ts' g'' t loc name list hg hN hg' hl hg'' ht =>
      obtain ⟨A, l1, B, rfl, h1, h2⟩ := hs.split (A := g ++ n ++ g') (x := .definingSymbol l)
        (B := ts' ++ g'' ++ t :: vs) (by trivial) (by simp)
      obtain ⟨A2, l2, B2, rfl, h3, h4⟩ := h2.split (terminator_symbol ht) rfl
      obtain ⟨g1, n1, g1', l3, rfl, h5, h6, h7⟩ := h1.name_inv hg hN hg' hok.left.left.left.right
      obtain ⟨u, g3, a, rfl, hg3, hu, hm⟩ := same_list hl hok.left.right.tail.left.left hg'' h3
      obtain ⟨u', g4, a', rfl, hg4, hu', hm'⟩ := ih hok.right h4
      refine ⟨_, g4, _, ?_, hg4, .rule (.rule (l := l1) h5 h7 h6 hu hg3 (moved_terminator l2 ht)) hu', ?_⟩
      · simp [moved]
      · simp only [List.map_cons, hm']
        simp only [forgetLocations, mapRule]
        rw [show mapList (fun _ => nowhere) (fun _ => nowhere) a = _ from hm]
  | @blank g t us rs hg ht _ ih =>
    obtain ⟨A, l1, B, rfl, h1, h2⟩ := hs.split (terminator_symbol ht) rfl
    obtain ⟨u', g4, a', rfl, hg4, hu', hm'⟩ := ih hok.right.tail h2
    exact ⟨_, g4, _, (List.append_assoc A (moved l1 t :: u') g4).symm, hg4,
      .blank (h1.blanks hg) (moved_terminator l1 ht) hu', hm'⟩

theorem moved_moved (t : Token) (l : Location) : moved (positionOf t) (moved l t) = t := by cases t <;> rfl

theorem Spec.SameSymbols.symm {ts us : List Token} (h : SameSymbols ts us) : SameSymbols us ts := by
  induction h with
  | nil h h' => exact .nil h' h
  | @symbol g g' t ts us l hg hg' ht _ ih =>
    have := SameSymbols.symbol (positionOf t) hg' hg (moved_symbol l ht) ih
    rwa [moved_moved] at this
  | name hg hg' hn hn' hw hw' _ ih => exact .name hg' hg hn' hn hw' hw ih

theorem startsWithWord_concat {ts : List Token} {t : Token} (ht : IsSymbol t) (h : StartsWithWord (ts ++ [t])) :
    StartsWithWord ts := by
  obtain ⟨gs, l, s, rest, h, hg⟩ := h
  rcases List.eq_nil_or_concat rest with rfl | ⟨r, x, rfl⟩
  · have := (List.append_inj' h rfl).2
    simp at this
    subst this
    exact absurd ht (by simp [IsSymbol])
  · refine ⟨gs, l, s, r, ?_, hg⟩
    have := (List.append_inj' (s₁ := ts) (s₂ := gs ++ .metaIdentifier l s :: r) (t₁ := [t]) (t₂ := [x])
      (by rw [h]; simp) rfl).1
    exact this

theorem Spec.SameSymbols.concat {ts us : List Token} (h : SameSymbols ts us) {t : Token} (l : Location)
    (ht : IsSymbol t) : SameSymbols (ts ++ [t]) (us ++ [moved l t]) := by
  induction h with
  | nil h h' => exact .symbol l h h' ht (.nil blanks_nil blanks_nil)
  | @symbol g g' t ts us l hg hg' ht _ ih =>
    rw [List.append_assoc, List.append_assoc]
    exact .symbol l hg hg' ht ih
  | name hg hg' hn hn' hw hw' _ ih =>
    rw [List.append_assoc _ _ [_], List.append_assoc _ _ [_]]
    exact .name hg hg' hn hn' (fun h => hw (startsWithWord_concat ht h))
      (fun h => hw' (startsWithWord_concat (moved_symbol l ht) h)) ih

mutual
theorem map_primary (p : Primary) : mapPrimary noL noL (mapPrimary id noL p) = mapPrimary noL noL p := by
  cases p <;> simp only [mapPrimary] <;> simp [map_list]
theorem map_factor (p : Factor) : mapFactor noL noL (mapFactor id noL p) = mapFactor noL noL p := by
  cases p; simp [mapFactor, map_primary]
theorem map_term (p : Term) : mapTerm noL noL (mapTerm id noL p) = mapTerm noL noL p := by
  cases p <;> simp [mapTerm, map_factor]
theorem map_single (p : SingleDefinition) : mapSingle noL noL (mapSingle id noL p) = mapSingle noL noL p := by
  cases p <;> simp [mapSingle, map_term, map_single]
theorem map_list (p : DefinitionList) : mapList noL noL (mapList id noL p) = mapList noL noL p := by
  cases p <;> simp [mapList, map_single, map_list]
end

theorem mapRule_mapRule (r : SyntaxRule) : forgetLocations (forgetEmpty r) = forgetLocations r := by
  simp only [forgetLocations, forgetEmpty, mapRule]
  congr 1
  exact map_list _

theorem parseStr_same {name name' text text' : Str} {ts us : List Token}
    (h : Lexes (Location.new name) text ts) (h' : Lexes (Location.new name') text' us) (hs : SameSymbols ts us)
    {rs : List SyntaxRule} (hr : parseStr name text = .ok rs) :
    ∃ rs', parseStr name' text' = .ok rs' ∧ rs'.map forgetLocations = rs.map forgetLocations := by
  obtain ⟨ts1, h1, h2⟩ := parseStr_sound hr
  have := lexes_unique h h1
  subst this
  obtain ⟨u, g, rs1, h3, hg, h4, h5⟩ := same_rules h2 (lexes_named h)
    (hs.concat (lineColumn (Location.new name') text') (by trivial))
  rcases List.eq_nil_or_concat g with rfl | ⟨g', t, rfl⟩
  · rw [List.append_nil] at h3
    subst h3
    obtain ⟨rs', h6, h7⟩ := parseStr_complete h' h4 rfl
    refine ⟨rs', h6, ?_⟩
    rw [← h5]
    have key : ∀ r, forgetLocations (forgetEmpty r) = forgetLocations r := by
      intro r; exact mapRule_mapRule r
    have := congrArg (List.map forgetLocations) h7
    simpa [List.map_map, Function.comp_def, key] using this
  · rw [List.concat_eq_append, ← List.append_assoc] at h3
    have := (List.append_inj' h3 rfl).2
    simp [moved] at this
    subst this
    have := hg (.eof (lineColumn (Location.new name') text')) (by simp)
    simp [IsBlank] at this

/-! ### Inserting blanks at a token boundary -/

/-- The same token elsewhere, or two gaps, or two comments. -/
inductive Alike : Token → Token → Prop
  | moved (t l) : Alike t (moved l t)
  | gap (l s l' s') : Alike (.gapSeparatorSequence l s) (.gapSeparatorSequence l' s')
  | comment (l s l' s') : Alike (.comment l s) (.comment l' s')

inductive AllAlike : List Token → List Token → Prop
  | nil : AllAlike [] []
  | cons {t u ts us} : Alike t u → AllAlike ts us → AllAlike (t :: ts) (u :: us)

theorem AllAlike.append {a b c d : List Token} (h : AllAlike a b) (h' : AllAlike c d) : AllAlike (a ++ c) (b ++ d) := by
  induction h with
  | nil => exact h'
  | cons h _ ih => exact .cons h ih

theorem AllAlike.split {a c x : List Token} (h : AllAlike (a ++ c) x) :
    ∃ b d, x = b ++ d ∧ AllAlike a b ∧ AllAlike c d := by
  induction a generalizing x with
  | nil => exact ⟨[], x, rfl, .nil, h⟩
  | cons t a ih =>
    cases h with
    | cons h1 h2 =>
      obtain ⟨b, d, rfl, h3, h4⟩ := ih h2
      exact ⟨_ :: b, d, rfl, .cons h1 h3, h4⟩

theorem AllAlike.refl (a : List Token) : AllAlike a a := by
  induction a with
  | nil => exact .nil
  | cons t a ih =>
    have := Alike.moved t (positionOf t)
    rw [show moved (positionOf t) t = t by cases t <;> rfl] at this
    exact .cons this ih

theorem Alike.blank {t u : Token} (h : Alike t u) : IsBlank t ↔ IsBlank u := by
  cases h with
  | moved t l => cases t <;> simp [Spec.moved, IsBlank]
  | gap | comment => simp [IsBlank]

theorem Alike.isGap {t u : Token} (h : Alike t u) : IsGapToken t ↔ IsGapToken u := by
  cases h with
  | moved t l => cases t <;> simp [Spec.moved, IsGapToken]
  | gap | comment => simp [IsGapToken]

theorem AllAlike.gaps {a b : List Token} (h : AllAlike a b) (hg : ∀ t ∈ a, IsGapToken t) :
    ∀ t ∈ b, IsGapToken t := by
  induction h with
  | nil => simp
  | cons h _ ih =>
    intro u hu
    rcases List.mem_cons.mp hu with rfl | hu
    · exact h.isGap.mp (hg _ (by simp))
    · exact ih (fun t ht => hg t (by simp [ht])) u hu

theorem Alike.symm {t u : Token} (h : Alike t u) : Alike u t := by
  cases h with
  | moved t l =>
    have := Alike.moved (Spec.moved l t) (positionOf t)
    rwa [moved_moved] at this
  | gap => exact .gap ..
  | comment => exact .comment ..

theorem AllAlike.symm {a b : List Token} (h : AllAlike a b) : AllAlike b a := by
  induction h with
  | nil => exact .nil
  | cons h _ ih => exact .cons h.symm ih

theorem Alike.word {l : Location} {s : Str} {u : Token} (h : Alike (.metaIdentifier l s) u) :
    ∃ l', u = .metaIdentifier l' s := by
  generalize ht : Token.metaIdentifier l s = t at h
  cases h with
  | moved t l' => subst ht; exact ⟨l', rfl⟩
  | gap | comment => simp at ht

theorem AllAlike.startsWithWord {a b : List Token} (h : AllAlike a b) (ha : StartsWithWord a) : StartsWithWord b := by
  obtain ⟨gs, l, s, rest, rfl, hg⟩ := ha
  obtain ⟨x, y, rfl, h1, h2⟩ := h.split
  cases h2 with
  | cons h3 h4 =>
    obtain ⟨l', rfl⟩ := h3.word
    exact ⟨x, l', s, _, rfl, h1.gaps hg⟩

theorem AllAlike.ne_nil {a b : List Token} (h : AllAlike a b) (ha : a ≠ []) : b ≠ [] := by
  cases h <;> simp_all

theorem AllAlike.name {n n' : List Token} {l : Location} {s : Str} (hn : Name n l s) (h : AllAlike n n') :
    ∃ l', Name n' l' s := by
  induction hn generalizing n' with
  | word l s =>
    cases h with
    | cons h1 h2 =>
      cases h2
      obtain ⟨l', rfl⟩ := h1.word
      exact ⟨l', .word _ _⟩
  | adjacent l' s _ ih =>
    obtain ⟨x, y, rfl, h1, h2⟩ := h.split
    cases h2 with
    | cons h3 h4 =>
      cases h4
      obtain ⟨l'', rfl⟩ := h3.word
      obtain ⟨l3, h5⟩ := ih h1
      exact ⟨l3, .adjacent _ _ h5⟩
  | gap gs l' s _ hne hg ih =>
    obtain ⟨x, y, rfl, h1, h2⟩ := h.split
    obtain ⟨x1, x2, rfl, h6, h7⟩ := h1.split
    cases h2 with
    | cons h3 h4 =>
      cases h4
      obtain ⟨l'', rfl⟩ := h3.word
      obtain ⟨l3, h5⟩ := ih h6
      exact ⟨l3, .gap _ _ _ h5 (h7.ne_nil hne) (h7.gaps hg)⟩

/-- A list that starts with a word starts with a maximal name. -/
theorem maximal_name {n : List Token} {l : Location} {s : Str} (hn : Name n l s) (k : Nat) (r : List Token)
    (hk : r.length ≤ k) : ∃ x r' s', r = x ++ r' ∧ Name (n ++ x) l s' ∧ ¬ StartsWithWord r' := by
  induction k generalizing n s r with
  | zero =>
    have : r = [] := by simpa using hk
    subst this
    exact ⟨[], [], s, rfl, by simpa using hn, by rintro ⟨gs, l, s, r, h, _⟩; simp at h⟩
  | succ k ih =>
    by_cases h : StartsWithWord r
    · obtain ⟨gs, l', w, rest, rfl, hg⟩ := h
      simp at hk
      have : ∃ s', Name (n ++ (gs ++ [.metaIdentifier l' w])) l s' := by
        by_cases hne : gs = []
        · subst hne; exact ⟨_, .adjacent _ _ hn⟩
        · rw [← List.append_assoc]; exact ⟨_, .gap _ _ _ hn hne hg⟩
      obtain ⟨s', hn'⟩ := this
      obtain ⟨x, r', s'', rfl, h1, h2⟩ := ih hn' rest (by omega)
      exact ⟨gs ++ [.metaIdentifier l' w] ++ x, r', s'', by simp, by simpa using h1, h2⟩
    · exact ⟨[], r, s, rfl, by simpa using hn, h⟩

theorem Spec.SameSymbols.cons_blanks {X Y g g' : List Token} (hg : Blanks g) (hg' : Blanks g') (h : SameSymbols X Y) :
    SameSymbols (g ++ X) (g' ++ Y) := by
  cases h with
  | nil h h' => exact .nil (blanks_append hg h) (blanks_append hg' h')
  | symbol l h1 h2 h3 h4 =>
    rw [← List.append_assoc, ← List.append_assoc]
    exact .symbol l (blanks_append hg h1) (blanks_append hg' h2) h3 h4
  | name h1 h2 h3 h4 h5 h6 h7 =>
    rw [← List.append_assoc, ← List.append_assoc, ← List.append_assoc, ← List.append_assoc]
    exact .name (blanks_append hg h1) (blanks_append hg' h2) h3 h4 h5 h6 h7

/-- `ts` ends in a word, up to gaps. -/
def EndsInWord (ts : List Token) : Prop :=
  ∃ pre l s gs, ts = pre ++ .metaIdentifier l s :: gs ∧ ∀ t ∈ gs, IsGapToken t

theorem EndsInWord.cons {ts : List Token} (h : EndsInWord ts) (a : List Token) : EndsInWord (a ++ ts) := by
  obtain ⟨pre, l, s, gs, rfl, hg⟩ := h
  exact ⟨a ++ pre, l, s, gs, by simp, hg⟩

theorem startsWithWord_append_iff {r X : List Token} (hr : ¬ StartsWithWord r) (h : StartsWithWord (r ++ X)) :
    (∀ t ∈ r, IsGapToken t) ∧ StartsWithWord X := by
  obtain ⟨gs, l, s, rest, h1, hg⟩ := h
  rcases List.append_eq_append_iff.mp h1 with ⟨as, h2, h3⟩ | ⟨bs, h2, h3⟩
  · subst h2
    exact ⟨fun t ht => hg t (by simp [ht]), as, l, s, rest, h3, fun t ht => hg t (by simp [ht])⟩
  · cases bs with
    | nil =>
      simp at h2 h3
      subst h2
      exact ⟨hg, [], l, s, rest, h3.symm, by simp⟩
    | cons b bs =>
      simp at h3
      obtain ⟨rfl, rfl⟩ := h3
      exact absurd ⟨gs, l, s, bs, h2, hg⟩ hr

theorem same_prepend {ts us X Y : List Token} (h : AllAlike ts us) (hXY : SameSymbols X Y)
    (hw : EndsInWord ts → ¬ StartsWithWord X ∧ ¬ StartsWithWord Y) : SameSymbols (ts ++ X) (us ++ Y) := by
  generalize hk : ts.length = k
  induction k using Nat.strongRecOn generalizing ts us with
  | _ k ih =>
    cases h with
    | nil => exact hXY
    | @cons t u ts us h1 h2 =>
      by_cases hb : IsBlank t
      · have := ih ts.length (by simp at hk; omega) h2 (fun h => hw (h.cons [t])) rfl
        exact this.cons_blanks (g := [t]) (g' := [u]) (by simpa [Blanks] using hb)
          (by simpa [Blanks] using h1.blank.mp hb)
      · by_cases hm : ∃ l s, t = .metaIdentifier l s
        · obtain ⟨l, s, rfl⟩ := hm
          obtain ⟨l', rfl⟩ := h1.word
          obtain ⟨x, r, s', rfl, hn, hr⟩ := maximal_name (.word l s) ts.length ts (Nat.le_refl _)
          obtain ⟨x', r', rfl, h3, h4⟩ := h2.split
          obtain ⟨l2, hn'⟩ := AllAlike.name hn (.cons h1 h3)
          have hrest := ih r.length (by simp at hk; omega) h4
            (fun h => hw (by simpa using h.cons (.metaIdentifier l s :: x))) rfl
          have hend : (∀ t ∈ r, IsGapToken t) → EndsInWord (.metaIdentifier l s :: (x ++ r)) := by
            intro hg
            obtain ⟨n', l3, s3, h5⟩ := name_last hn
            refine ⟨n', l3, s3, r, ?_, hg⟩
            have : .metaIdentifier l s :: x = n' ++ [.metaIdentifier l3 s3] := by simpa using h5
            rw [← List.cons_append, this]; simp
          have := SameSymbols.name (g := []) (g' := []) blanks_nil blanks_nil hn hn'
            (ts := r ++ X) (us := r' ++ Y) ?_ ?_ hrest
          · simpa using this
          · intro h
            obtain ⟨h6, h7⟩ := startsWithWord_append_iff hr h
            exact (hw (hend h6)).1 h7
          · intro h
            obtain ⟨h6, h7⟩ := startsWithWord_append_iff (fun h => hr (h4.symm.startsWithWord h)) h
            exact (hw (hend (h4.symm.gaps h6))).2 h7
        · have hsym : IsSymbol t := by
            cases t <;> simp_all [IsBlank, IsSymbol]
          have hmv : ∃ l, u = moved l t := by
            cases h1 with
            | moved t l => exact ⟨l, rfl⟩
            | gap | comment => simp [IsBlank] at hb
          obtain ⟨l, rfl⟩ := hmv
          exact .symbol (g := []) (g' := []) l blanks_nil blanks_nil hsym
            (ih ts.length (by simp at hk; omega) h2 (fun h => hw (h.cons [t])) rfl)

theorem same_of_alike {ts us : List Token} (h : AllAlike ts us) : SameSymbols ts us := by
  have := same_prepend h (.nil blanks_nil blanks_nil)
    (fun _ => ⟨not_startsWithWord_blanks blanks_nil, not_startsWithWord_blanks blanks_nil⟩)
  simpa using this

theorem spelled_moved {t : Token} {s : Str} (h : Spelled t s) (l : Location) : Spelled (moved l t) s := by
  cases h <;> (simp only [moved]; constructor <;> assumption)

theorem ends_moved (t : Token) (l : Location) (o : Option Char) : Ends (moved l t) o ↔ Ends t o := by
  cases t
  case definitionSeparatorSymbol l' c =>
    by_cases hc : c = '/'
    · subst hc; cases o <;> exact Iff.rfl
    · cases o <;> simp [moved, Ends, hc]
  all_goals cases o <;> exact Iff.rfl

theorem lexes_relocate {start : Location} {text : Str} {ts : List Token} (h : Lexes start text ts) (start' : Location) :
    ∃ us, Lexes start' text us ∧ AllAlike ts us := by
  induction h generalizing start' with
  | nil => exact ⟨[], .nil _, .nil⟩
  | @cons start tk s rest tks hsp hp he _ ih =>
    obtain ⟨us, h1, h2⟩ := ih (lineColumn start' s)
    refine ⟨moved start' tk :: us, .cons (spelled_moved hsp _) ?_ ?_ h1, .cons (.moved _ _) h2⟩
    · cases tk <;> rfl
    · generalize rest.head? = o at he
      exact (ends_moved tk _ o).mpr he

theorem lineColumn_append (l : Location) (a b : Str) : lineColumn (lineColumn l a) b = lineColumn l (a ++ b) := by
  rw [← Location.pushStr_eq_lineColumn, ← Location.pushStr_eq_lineColumn, ← Location.pushStr_eq_lineColumn,
    Location.pushStr_append]

theorem lineColumn_nil (l : Location) : lineColumn l [] = l := by
  rw [← Location.pushStr_eq_lineColumn]; rfl

theorem lexes_append {start : Location} {a b : Str} {ts us : List Token} (h : Lexes start a ts)
    (he : ∀ t, ts.getLast? = some t → Ends t b.head?) (h' : Lexes (lineColumn start a) b us) :
    Lexes start (a ++ b) (ts ++ us) := by
  induction h with
  | nil => simpa [lineColumn_nil] using h'
  | @cons start tk s rest tks hsp hp hend hl ih =>
    rw [List.append_assoc, List.cons_append]
    refine .cons hsp hp ?_ (ih ?_ ?_)
    · cases hl with
      | nil => simpa using he tk (by simp)
      | cons hsp' _ _ _ =>
        rename_i s' _ _ _ _ _
        cases s' with
        | nil => exact absurd rfl (spelled_ne_nil hsp')
        | cons c cs => simpa using hend
    · intro t ht
      cases tks with
      | nil => simp at ht
      | cons x xs => exact he t (by simpa [List.getLast?_cons_cons] using ht)
    · rwa [lineColumn_append]

theorem lexes_adjacent {start : Location} {text : Str} {ts : List Token} (h : Lexes start text ts) {pre post : List Token}
    {t u : Token} (he : ts = pre ++ t :: u :: post) : ∃ s, Spelled u s ∧ Ends t s.head? := by
  induction h generalizing pre with
  | nil => simp at he
  | @cons start tk s rest tks hsp hp hend hl ih =>
    cases pre with
    | nil =>
      simp at he
      obtain ⟨rfl, rfl⟩ := he
      cases hl with
      | @cons _ _ s' rest' _ hsp' _ _ _ =>
        refine ⟨s', hsp', ?_⟩
        cases s' with
        | nil => exact absurd rfl (spelled_ne_nil hsp')
        | cons c cs => simpa using hend
    | cons p ps =>
      simp at he
      exact ih he.2

/-- Only gap tokens start with a gap character. -/
theorem spelled_gap_head {t : Token} {c : Char} {s : Str} (h : Spelled t (c :: s)) (hc : c ∈ gapChars) :
    IsGapToken t := by
  cases h with
  | gapSeparator => trivial
  | metaIdentifier _ _ _ hl _ => exact absurd hc (by rintro h; revert hl; revert c; decide)
  | integer _ _ _ hl _ => exact absurd hc (by rintro h; revert hl; revert c; decide)
  | separator _ _ h => exfalso; revert hc; simp at h; rcases h with rfl | rfl | rfl <;> decide
  | terminator _ _ h => exfalso; revert hc; simp at h; rcases h with rfl | rfl <;> decide
  | startOption _ _ h => exfalso; revert hc; simp at h; rcases h with ⟨rfl, _⟩ | ⟨rfl, _⟩ <;> decide
  | endOption _ _ h => exfalso; revert hc; simp at h; rcases h with ⟨rfl, _⟩ | ⟨rfl, _⟩ <;> decide
  | startRepeat _ _ h => exfalso; revert hc; simp at h; rcases h with ⟨rfl, _⟩ | ⟨rfl, _⟩ <;> decide
  | endRepeat _ _ h => exfalso; revert hc; simp at h; rcases h with ⟨rfl, _⟩ | ⟨rfl, _⟩ <;> decide
  | terminalString _ s q hq =>
    simp at hq
    exfalso; revert hc
    rcases hq with rfl | rfl <;> decide
  | _ => exfalso; revert hc; decide

theorem ends_of {t : Token} {c : Char} (hl : ¬ IsLetter c) (hd : ¬ IsDigit c) (h : c ∉ ['*', '/', ':', ')'])
    (hg : IsGapToken t → c ∉ gapChars) : Ends t (some c) := by
  simp at h
  obtain ⟨h1, h2, h3, h4⟩ := h
  cases t
  case metaIdentifier => exact ⟨hl, hd⟩
  case integer => exact hd
  case gapSeparatorSequence => exact hg trivial
  case startGroupSymbol => exact ⟨h1, h2, h3⟩
  case repetitionSymbol => exact h4
  case definitionSeparatorSymbol l c' =>
    by_cases hc : c' = '/'
    · subst hc; exact h4
    · simp [Ends, hc]
  all_goals trivial

/-- Two words are never adjacent. -/
theorem no_adjacent_words {start : Location} {text : Str} {pre post : List Token} {l l' : Location} {s s' : Str}
    (h : Lexes start text (pre ++ .metaIdentifier l s :: .metaIdentifier l' s' :: post)) : False := by
  obtain ⟨u, h1, h2⟩ := lexes_adjacent h rfl
  cases h1 with
  | metaIdentifier _ c s hc hs => exact h2.1 hc

end Ebnf
