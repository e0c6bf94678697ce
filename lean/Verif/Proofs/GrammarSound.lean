import Verif.Proofs.GrammarBasic

set_option autoImplicit false

/-! # The token parser is sound for the grammar -/

namespace Ebnf

open Spec

theorem skipGaps_blanks (ts : List Token) : ∃ g, ts = g ++ skipGaps ts ∧ Blanks g := by
  obtain ⟨g, h1, h2, _⟩ := skipGaps_split ts
  exact ⟨g, h1, fun t ht => (isSkippable_iff t).mp (h2 t ht)⟩

theorem skipGaps_blanks_skip {g r : List Token} (hg : Blanks g) : skipGaps (g ++ r) = skipGaps r :=
  skipGaps_skip fun t ht => (isSkippable_iff t).mpr (hg t ht)

/-- A string that starts and ends with something else than a space. -/
def Tight (n : Str) : Prop := n ≠ [] ∧ n.head? ≠ some ' ' ∧ n.getLast? ≠ some ' '

theorem dropWhile_tight {n : Str} (h0 : n ≠ []) (h : n.head? ≠ some ' ') : n.dropWhile (· == ' ') = n := by
  cases n with
  | nil => exact absurd rfl h0
  | cons a as =>
    rw [List.dropWhile_cons_of_neg]
    simpa using h

theorem trimSpaces_tight {n : Str} (h : Tight n) : trimSpaces n = n := by
  unfold trimSpaces
  rw [dropWhile_tight h.1 h.2.1, dropWhile_tight (by simpa using h.1) (by simpa using h.2.2), List.reverse_reverse]

theorem trimSpaces_tight_space {n : Str} (h : Tight n) : trimSpaces (n ++ [' ']) = n := by
  unfold trimSpaces
  rw [dropWhile_tight (n := n ++ [' ']) (by simp)]
  · rw [List.reverse_append]
    simp only [List.reverse_singleton, List.singleton_append]
    rw [List.dropWhile_cons_of_pos (by simp), dropWhile_tight (by simpa using h.1) (by simpa using h.2.2),
      List.reverse_reverse]
  · obtain ⟨a, as, rfl⟩ := List.exists_cons_of_ne_nil h.1
    simpa using h.2.1

theorem tight_of_word {s : Str} (h : s ≠ []) (hs : ∀ c ∈ s, c ≠ ' ') : Tight s := by
  refine ⟨h, ?_, ?_⟩
  · intro h'; exact hs ' ' (List.mem_of_head? h') rfl
  · intro h'; exact hs ' ' (List.mem_of_getLast? h') rfl

theorem tight_append {n s m : Str} (hn : Tight n) (hs : Tight s) : Tight (n ++ (m ++ s)) := by
  refine ⟨by simp [hn.1], ?_, ?_⟩
  · obtain ⟨a, as, rfl⟩ := List.exists_cons_of_ne_nil hn.1
    simpa using hn.2.1
  · rw [List.getLast?_append, List.getLast?_append]
    have := hs.2.2
    cases h : s.getLast? with
    | none => exact absurd (by simpa using h) hs.1
    | some c => rw [h] at this; simpa using this

theorem NamedOk.sub {ts us : List Token} (h : NamedOk ts) (hs : ∀ t ∈ us, t ∈ ts) : NamedOk us :=
  fun l s hm => h l s (hs _ hm)

theorem Spec.Name.tight {ts : List Token} {l : Location} {n : Str} (h : Name ts l n) (hn : NamedOk ts) : Tight n := by
  induction h with
  | word l s => exact tight_of_word (hn l s (by simp)).1 (hn l s (by simp)).2
  | adjacent l' s _ ih =>
    have := tight_append (m := []) (ih (hn.sub (by simp +contextual)))
      (tight_of_word (hn l' s (by simp)).1 (hn l' s (by simp)).2)
    simpa using this
  | gap gs l' s _ _ _ ih =>
    have := tight_append (m := [' ']) (ih (hn.sub (by simp +contextual)))
      (tight_of_word (hn l' s (by simp)).1 (hn l' s (by simp)).2)
    simpa using this

/-- The accumulator of the identifier loop after the name `n` and the gaps `gs`. -/
def accOf (n : Str) (gs : List Token) : Str := if gs = [] then n else n ++ [' ']

theorem trimSpaces_accOf {n : Str} (gs : List Token) (h : Tight n) : trimSpaces (accOf n gs) = n := by
  unfold accOf
  split
  · exact trimSpaces_tight h
  · exact trimSpaces_tight_space h

theorem readMetaLoop_sound (ts used gs : List Token) (l : Location) (n : Str) (hN : Name used l n)
    (hgs : ∀ t ∈ gs, IsGapToken t) (hok : NamedOk (used ++ gs ++ ts)) :
    ∃ used' gs' n' rest, readMetaLoop ts (accOf n gs) (some l) = (accOf n' gs', some l, rest) ∧
      used ++ gs ++ ts = used' ++ gs' ++ rest ∧ Name used' l n' ∧ (∀ t ∈ gs', IsGapToken t) := by
  induction ts generalizing used gs n with
  | nil => exact ⟨used, gs, n, [], rfl, rfl, hN, hgs⟩
  | cons t ts ih =>
    have stop : ∀ r, readMetaLoop (t :: ts) (accOf n gs) (some l) = (accOf n gs, some l, r) → r = t :: ts →
        ∃ used' gs' n' rest, readMetaLoop (t :: ts) (accOf n gs) (some l) = (accOf n' gs', some l, rest) ∧
      used ++ gs ++ t :: ts = used' ++ gs' ++ rest ∧ Name used' l n' ∧ (∀ t ∈ gs', IsGapToken t) := by
      rintro r h rfl
      exact ⟨used, gs, n, _, h, rfl, hN, hgs⟩
    cases t with
    | metaIdentifier l' s =>
      have hN' : Name (used ++ gs ++ [.metaIdentifier l' s]) l (accOf n gs ++ s) := by
        unfold accOf
        split
        · next h => subst h; simpa using Name.adjacent l' s hN
        · next h => simpa using Name.gap gs l' s hN h hgs
      obtain ⟨u', g', n', r, h1, h2, h3, h4⟩ := ih (used ++ gs ++ [.metaIdentifier l' s]) [] (accOf n gs ++ s) hN'
        (by simp) (hok.sub (by simp))
      refine ⟨u', g', n', r, ?_, ?_, h3, h4⟩
      · rw [readMetaLoop]; simpa [accOf] using h1
      · rw [← h2]; simp
    | gapSeparatorSequence l' s =>
      have hlast : (if (accOf n gs).getLast? = some ' ' then accOf n gs else accOf n gs ++ [' '])
          = accOf n (gs ++ [.gapSeparatorSequence l' s]) := by
        have ht := hN.tight (hok.sub (by simp +contextual))
        by_cases hg : gs = []
        · subst hg
          simp only [accOf, if_true, ht.2.2, if_false]
          simp
        · simp [accOf, hg]
      obtain ⟨u', g', n', r, h1, h2, h3, h4⟩ := ih used (gs ++ [.gapSeparatorSequence l' s]) n hN
        (by
          intro t ht
          rcases List.mem_append.mp ht with h | h
          · exact hgs t h
          · simp at h; subst h; trivial) (hok.sub (by simp))
      refine ⟨u', g', n', r, ?_, ?_, h3, h4⟩
      · rw [readMetaLoop, hlast]; exact h1
      · rw [← h2]; simp
    | _ => exact stop _ rfl rfl

theorem Spec.Name.ne_nil {ts : List Token} {l : Location} {n : Str} (h : Name ts l n) : ts ≠ [] := by
  cases h <;> simp

/-- Reading a name that starts with an identifier token. -/
theorem readMetaIdentifier_sound {l : Location} {s : Str} {ts : List Token}
    (hok : NamedOk (.metaIdentifier l s :: ts)) :
    ∃ used gs n rest, readMetaIdentifier (.metaIdentifier l s :: ts) = (n, some l, rest) ∧
      .metaIdentifier l s :: ts = used ++ gs ++ rest ∧ Name used l n ∧ (∀ t ∈ gs, IsGapToken t) := by
  obtain ⟨u, gs, n, r, h1, h2, h3, h4⟩ := readMetaLoop_sound ts [.metaIdentifier l s] [] l s (.word l s)
    (by simp) (by simpa using hok)
  have hsk : skipGaps (.metaIdentifier l s :: ts) = .metaIdentifier l s :: ts := skipGaps_cons rfl
  have hloop : readMetaLoop (.metaIdentifier l s :: ts) [] none = readMetaLoop ts (accOf s []) (some l) := by
    simp [readMetaLoop, accOf]
  have h2' : .metaIdentifier l s :: ts = u ++ gs ++ r := by simpa using h2
  refine ⟨u, gs, n, r, ?_, h2', h3, h4⟩
  unfold readMetaIdentifier
  rw [hsk, hloop, h1]
  simp only
  rw [trimSpaces_accOf gs (h3.tight (hok.sub (by rw [h2']; simp +contextual)))]

/-- Whatever is returned after `used`, up to blanks. -/
def Reads (P : List Token → Prop) (ts rest : List Token) : Prop :=
  ∃ used g, ts = used ++ (g ++ rest) ∧ Blanks g ∧ P used

theorem Reads.skip {P : List Token → Prop} {ts rest : List Token} (h : Reads P ts rest) :
    Reads P ts (skipGaps rest) := by
  obtain ⟨u, g, rfl, hg, hp⟩ := h
  obtain ⟨g', h1, h2⟩ := skipGaps_blanks rest
  exact ⟨u, g ++ g', by rw [List.append_assoc g, ← h1], blanks_append hg h2, hp⟩

/-- A terminator is at most the last token. -/
def TermLast (ts : List Token) : Prop := ∀ pre t post, ts = pre ++ t :: post → t.isTerminator = true → post = []

theorem TermLast.suffix {ts us : List Token} (h : TermLast ts) (hs : us <:+ ts) : TermLast us := by
  obtain ⟨p, rfl⟩ := hs
  intro pre t post he ht
  exact h (p ++ pre) t post (by rw [he]; simp) ht

theorem NoTerm.termLast {ts : List Token} (h : NoTerm ts) : TermLast ts := by
  rintro pre t post rfl ht
  rw [h t (by simp)] at ht; simp at ht

theorem TermLast.before {inner rest : List Token} {c : Token} (h : TermLast (inner ++ c :: rest)) : NoTerm inner := by
  intro t ht
  obtain ⟨a, b, rfl⟩ := List.append_of_mem ht
  cases hb : t.isTerminator with
  | false => rfl
  | true =>
    have := h a t (b ++ c :: rest) (by simp) hb
    simp at this

/-- The recursive call is sound. -/
def RecurSound (recur : List Token → Res DefinitionList) : Prop :=
  ∀ inner l, NoTerm inner → NamedOk inner → recur inner = .ok l → ∃ u g, inner = u ++ g ∧ Blanks g ∧ ListG u l

section sound
variable {recur : List Token → Res DefinitionList} {last : Location}

theorem bind_ok {α β : Type} {x : Res α} {f : α → Res β} {b : β} (h : (x >>= f) = .ok b) :
    ∃ a, x = .ok a ∧ f a = .ok b := by
  cases x with
  | ok a => exact ⟨a, rfl, h⟩
  | err e => cases h
  | panic p => cases h
  | diverge => cases h

theorem readEnclosed_sound (hr : RecurSound recur) {start : Token} {ts rest : List Token} {o c : Token → Bool}
    {l : DefinitionList} (hts : TermLast ts) (hn : NamedOk ts)
    (h : readEnclosed recur start ts o c = .ok (l, rest)) :
    ∃ u g t, ts = u ++ g ++ t :: rest ∧ Blanks g ∧ c t = true ∧ ListG u l := by
  unfold readEnclosed at h
  cases hf : findClose o c 0 ts with
  | none => rw [hf] at h; simp [Res.fail] at h
  | some x =>
    obtain ⟨inner, rest'⟩ := x
    obtain ⟨t, ht, hct⟩ := findClose_some hf
    rw [hf] at h
    obtain ⟨a, ha, hb⟩ := bind_ok h
    injection hb with hb
    injection hb with h1 h2
    subst h1 h2
    subst ht
    obtain ⟨u, g, rfl, hg, hl⟩ := hr inner a hts.before (hn.sub (by simp +contextual)) ha
    exact ⟨u, g, t, rfl, hg, hct, hl⟩

theorem Spec.PrimaryG.blanks {g ts : List Token} {p : Primary} (hg : Blanks g) (h : PrimaryG ts p) :
    PrimaryG (g ++ ts) p := by
  cases h with
  | optional a b e => simpa using PrimaryG.optional (blanks_append hg a) b e
  | repeated a b e => simpa using PrimaryG.repeated (blanks_append hg a) b e
  | grouped a b e => simpa using PrimaryG.grouped (blanks_append hg a) b e
  | metaIdentifier a b => simpa using PrimaryG.metaIdentifier (blanks_append hg a) b
  | terminalString a => simpa using PrimaryG.terminalString (blanks_append hg a)
  | specialSequence a => simpa using PrimaryG.specialSequence (blanks_append hg a)
  | empty l a => exact PrimaryG.empty l (blanks_append hg a)

theorem readPrimary_sound (hr : RecurSound recur) {ts rest : List Token} {p : Primary}
    (hts : TermLast ts) (hn : NamedOk ts)
    (h : readPrimary recur last ts = .ok (p, rest)) : Reads (PrimaryG · p) ts rest := by
  unfold readPrimary at h
  obtain ⟨g, hg1, hg2⟩ := skipGaps_blanks ts
  cases hs : skipGaps ts with
  | nil =>
    rw [hs] at h hg1
    injection h with h
    injection h with h1 h2
    subst h1 h2
    exact ⟨g, [], by simpa using hg1, blanks_nil, .empty _ hg2⟩
  | cons t r =>
    rw [hs] at h hg1
    simp only at h
    have hts' : TermLast r := hts.suffix ⟨g ++ [t], by rw [hg1]; simp⟩
    have hn' : NamedOk r := hn.sub (by rw [hg1]; simp +contextual)
    have other : ∀ l, (p, rest) = (.empty l, t :: r) → Reads (PrimaryG · p) ts rest := by
      intro l h
      injection h with h1 h2
      subst h1 h2
      exact ⟨g, [], by simpa using hg1, blanks_nil, .empty _ hg2⟩
    cases t with
    | startOptionSymbol l s =>
      simp only at h
      split at h
      · simp [Res.fail] at h
      · obtain ⟨⟨a, nx⟩, ha, hb⟩ := bind_ok h
        injection hb with hb
        injection hb with h1 h2
        subst h1 h2
        obtain ⟨u, g', c, rfl, hg', hc, hl⟩ := readEnclosed_sound hr hts' hn' ha
        obtain ⟨l', s', rfl⟩ : ∃ l' s', c = .endOptionSymbol l' s' := by
          cases c <;> simp [Token.isEndOptionSymbol] at hc; exact ⟨_, _, rfl⟩
        refine ⟨g ++ .startOptionSymbol l s :: (u ++ g' ++ [.endOptionSymbol l' s']), [], ?_, blanks_nil,
          .optional hg2 hg' hl⟩
        rw [hg1]; simp
    | startRepeatSymbol l s =>
      simp only at h
      split at h
      · simp [Res.fail] at h
      · obtain ⟨⟨a, nx⟩, ha, hb⟩ := bind_ok h
        injection hb with hb
        injection hb with h1 h2
        subst h1 h2
        obtain ⟨u, g', c, rfl, hg', hc, hl⟩ := readEnclosed_sound hr hts' hn' ha
        obtain ⟨l', s', rfl⟩ : ∃ l' s', c = .endRepeatSymbol l' s' := by
          cases c <;> simp [Token.isEndRepeatSymbol] at hc; exact ⟨_, _, rfl⟩
        refine ⟨g ++ .startRepeatSymbol l s :: (u ++ g' ++ [.endRepeatSymbol l' s']), [], ?_, blanks_nil,
          .repeated hg2 hg' hl⟩
        rw [hg1]; simp
    | startGroupSymbol l =>
      simp only at h
      obtain ⟨⟨a, nx⟩, ha, hb⟩ := bind_ok h
      injection hb with hb
      injection hb with h1 h2
      subst h1 h2
      obtain ⟨u, g', c, rfl, hg', hc, hl⟩ := readEnclosed_sound hr hts' hn' ha
      obtain ⟨l', rfl⟩ : ∃ l', c = .endGroupSymbol l' := by
        cases c <;> simp [Token.isEndGroupSymbol] at hc; exact ⟨_, rfl⟩
      refine ⟨g ++ .startGroupSymbol l :: (u ++ g' ++ [.endGroupSymbol l']), [], ?_, blanks_nil,
        .grouped hg2 hg' hl⟩
      rw [hg1]; simp
    | metaIdentifier l s =>
      simp only at h
      obtain ⟨u, gs, n, r', h1, h2, h3, h4⟩ := readMetaIdentifier_sound (l := l) (s := s) (ts := r)
        (hn.sub (by rw [hg1]; simp +contextual))
      rw [h1] at h
      injection h with h
      injection h with h5 h6
      subst h5 h6
      refine ⟨g ++ u, gs, ?_, fun t ht => isBlank_of_gap (h4 t ht), .metaIdentifier hg2 h3⟩
      rw [hg1, h2]; simp
    | terminalString l s q =>
      injection h with h
      injection h with h1 h2
      subst h1 h2
      exact ⟨g ++ [.terminalString l s q], [], by rw [hg1]; simp, blanks_nil, .terminalString hg2⟩
    | specialSequence l s =>
      injection h with h
      injection h with h1 h2
      subst h1 h2
      exact ⟨g ++ [.specialSequence l s], [], by rw [hg1]; simp, blanks_nil, .specialSequence hg2⟩
    | _ => injection h with h; exact other _ h.symm

theorem parseU32_some {d : Str} {n : Nat} (h : parseU32 d = some n) :
    (∀ c ∈ d, IsDigit c) ∧ d ≠ [] ∧ n = decimal d ∧ n < 2 ^ 32 := by
  unfold parseU32 at h
  split at h
  · simp at h
  · next hc =>
    simp only [Bool.or_eq_true, not_or] at hc
    simp only at h
    split at h
    · next hv =>
      simp at h
      refine ⟨fun c hc' => (isDecimalDigitChar_iff c).mp ?_, by simpa using hc.1, ?_, by rw [← h]; exact hv⟩
      · have := hc.2
        simp only [Bool.not_eq_true, Bool.not_eq_false', List.all_eq_true] at this
        exact this c hc'
      · rw [← h]; rfl
    · simp at h

theorem parseU32_eq {d : Str} (h1 : ∀ c ∈ d, IsDigit c) (h2 : d ≠ []) (h3 : decimal d < 2 ^ 32) :
    parseU32 d = some (decimal d) := by
  unfold parseU32
  rw [if_neg]
  · exact if_pos h3
  · simp only [Bool.or_eq_true, not_or]
    refine ⟨by simpa using h2, ?_⟩
    simp only [Bool.not_eq_true, Bool.not_eq_false', List.all_eq_true]
    exact fun c hc => (isDecimalDigitChar_iff c).mpr (h1 c hc)

theorem readFactor_sound (hr : RecurSound recur) {ts rest : List Token} {f : Factor}
    (hts : TermLast ts) (hn : NamedOk ts)
    (h : readFactor recur last ts = .ok (f, rest)) : Reads (FactorG · f) ts rest := by
  rw [readFactor_eq] at h
  obtain ⟨⟨n, us⟩, hc, h⟩ := bind_ok h
  obtain ⟨⟨p, nx⟩, hp, h⟩ := bind_ok h
  injection h with h
  injection h with h1 h2
  subst h1 h2
  simp only at hp
  unfold readCount at hc
  obtain ⟨g, hg1, hg2⟩ := skipGaps_blanks ts
  have plain : (1, skipGaps ts) = (n, us) → Reads (FactorG · (.mk n p)) ts nx := by
    intro h
    injection h with h1 h2
    subst h1 h2
    obtain ⟨u, g', h1, h2, h3⟩ := readPrimary_sound hr (hts.suffix (skipGaps_suffix _))
      (hn.sub fun t ht => (skipGaps_suffix _).subset ht) hp
    exact ⟨g ++ u, g', by rw [List.append_assoc, ← h1, ← hg1], h2, .one (h3.blanks hg2)⟩
  cases hs : skipGaps ts with
  | nil => rw [hs] at hc plain; injection hc with hc; exact plain hc
  | cons t r =>
    rw [hs] at hc plain
    cases t with
    | integer l d =>
      simp only at hc
      rw [hs] at hg1
      cases hu : parseU32 d with
      | none => rw [hu] at hc; simp [Res.fail] at hc
      | some m =>
        rw [hu] at hc
        simp only at hc
        obtain ⟨g', hg1', hg2'⟩ := skipGaps_blanks r
        cases hs' : skipGaps r with
        | nil => rw [hs'] at hc; simp at hc
        | cons t' r' =>
          rw [hs'] at hc hg1'
          simp only at hc
          split at hc
          · next ht' =>
            injection hc with hc
            injection hc with h1 h2
            subst h1 h2
            obtain ⟨l', rfl⟩ : ∃ l', t' = .repetitionSymbol l' := by
              cases t' <;> simp [Token.isRepetitionSymbol] at ht'; exact ⟨_, rfl⟩
            obtain ⟨hd1, hd2, rfl, hd3⟩ := parseU32_some hu
            obtain ⟨g'', hg1'', hg2''⟩ := skipGaps_blanks r'
            have hsuf : skipGaps r' <:+ ts := by
              refine (skipGaps_suffix _).trans ?_
              rw [hg1, hg1']
              exact ⟨g ++ .integer l d :: (g' ++ [.repetitionSymbol l']), by simp⟩
            obtain ⟨u, gx, h1, h2, h3⟩ := readPrimary_sound hr (hts.suffix hsuf) (hn.sub fun t ht => hsuf.subset ht) hp
            refine ⟨g ++ .integer l d :: (g' ++ .repetitionSymbol l' :: (g'' ++ u)), gx, ?_, h2,
              .times hg2 hg2' hd1 hd2 hd3 ?_⟩
            · rw [hg1, hg1', hg1'', h1]; simp
            · exact h3.blanks hg2''
          · simp [Res.fail] at hc
    | _ => injection hc with hc; exact plain hc

theorem readTerm_sound (hr : RecurSound recur) {ts rest : List Token} {t : Term}
    (hts : TermLast ts) (hn : NamedOk ts)
    (h : readTerm recur last ts = .ok (t, rest)) : Reads (TermG · t) ts rest := by
  unfold readTerm at h
  obtain ⟨⟨f, nx⟩, hf, h⟩ := bind_ok h
  simp only at h
  have h0 := (readFactor_sound hr hts hn hf).skip
  cases hs : skipGaps nx with
  | nil =>
    rw [hs] at h h0
    injection h with h
    injection h with h1 h2
    subst h1 h2
    obtain ⟨u, g, h1, h2, h3⟩ := h0
    exact ⟨u, g, h1, h2, .plain h3⟩
  | cons t' r =>
    rw [hs] at h h0
    obtain ⟨u, g, h1, h2, h3⟩ := h0
    simp only at h
    split at h
    · next ht =>
      obtain ⟨l, rfl⟩ : ∃ l, t' = .exceptSymbol l := by
        cases t' <;> simp [Token.isExceptSymbol] at ht; exact ⟨_, rfl⟩
      obtain ⟨⟨e, nx'⟩, he, h⟩ := bind_ok h
      injection h with h
      injection h with h4 h5
      subst h4 h5
      have hsuf : r <:+ ts := ⟨u ++ g ++ [.exceptSymbol l], by rw [h1]; simp⟩
      obtain ⟨u', g', h1', h2', h3'⟩ := readFactor_sound hr (hts.suffix hsuf) (hn.sub fun t ht => hsuf.subset ht) he
      exact ⟨u ++ g ++ .exceptSymbol l :: u', g', by rw [h1, h1']; simp, h2', .except h3 h2 h3'⟩
    · injection h with h
      injection h with h4 h5
      subst h4 h5
      exact ⟨u, g, h1, h2, .plain h3⟩

theorem readSingle_sound (hr : RecurSound recur) {fuel : Nat} {ts rest : List Token} {d : SingleDefinition}
    (hts : TermLast ts) (hn : NamedOk ts)
    (h : readSingle recur last fuel ts = .ok (d, rest)) : Reads (SingleG · d) ts rest ∧ StopsAt rest := by
  induction fuel generalizing ts d with
  | zero => simp [readSingle] at h
  | succ fuel ih =>
    unfold readSingle at h
    obtain ⟨⟨t, nx⟩, ht, h⟩ := bind_ok h
    simp only at h
    have h0 := (readTerm_sound hr hts hn ht).skip
    cases hs : skipGaps nx with
    | nil =>
      rw [hs] at h h0
      injection h with h
      injection h with h1 h2
      subst h1 h2
      obtain ⟨u, g, h1, h2, h3⟩ := h0
      exact ⟨⟨u, g, h1, h2, .one h3⟩, trivial⟩
    | cons t' r =>
      rw [hs] at h h0
      obtain ⟨u, g, h1, h2, h3⟩ := h0
      have key : (if t'.isTerminator then pure (.cons t .nil, t' :: r)
            else .fail t'.location (.separatorExpected t'.name) : Res (SingleDefinition × List Token)) = .ok (d, rest) →
          Reads (SingleG · d) ts rest ∧ StopsAt rest := by
        intro h
        split at h
        · next ht' =>
          injection h with h
          injection h with h4 h5
          subst h4 h5
          refine ⟨⟨u, g, h1, h2, .one h3⟩, ?_⟩
          cases t' <;> first | trivial | exact ht'
        · simp [Res.fail] at h
      cases t' with
      | concatenateSymbol l =>
        simp only at h
        obtain ⟨⟨m, nx'⟩, hm, h⟩ := bind_ok h
        injection h with h
        injection h with h4 h5
        subst h4 h5
        have hsuf : r <:+ ts := ⟨u ++ g ++ [.concatenateSymbol l], by rw [h1]; simp⟩
        obtain ⟨⟨u', g', h1', h2', h3'⟩, hst⟩ := ih (hts.suffix hsuf) (hn.sub fun t ht => hsuf.subset ht) hm
        exact ⟨⟨u ++ g ++ .concatenateSymbol l :: u', g', by rw [h1, h1']; simp, h2', .more h3 h2 h3'⟩, hst⟩
      | definitionSeparatorSymbol l c =>
        injection h with h
        injection h with h4 h5
        subst h4 h5
        exact ⟨⟨u, g, h1, h2, .one h3⟩, trivial⟩
      | _ => exact key h

/-- What is left after a definition list. -/
def AtEnd : List Token → Prop
  | [] => True
  | t :: _ => t.isTerminator = true

theorem readDefinitions_sound (hr : RecurSound recur) {fuel : Nat} {ts : List Token} {l : DefinitionList}
    (hts : TermLast ts) (hn : NamedOk ts)
    (h : readDefinitions recur last fuel ts = .ok l) : ∃ rest, Reads (ListG · l) ts rest ∧ AtEnd rest := by
  induction fuel generalizing ts l with
  | zero => simp [readDefinitions] at h
  | succ fuel ih =>
    unfold readDefinitions at h
    obtain ⟨⟨d, nx⟩, hd, h⟩ := bind_ok h
    simp only at h
    obtain ⟨h0, hst⟩ := readSingle_sound hr hts hn hd
    cases nx with
    | nil =>
      injection h with h
      subst h
      obtain ⟨u, g, h1, h2, h3⟩ := h0
      exact ⟨[], ⟨u, g, h1, h2, .one h3⟩, trivial⟩
    | cons t r =>
      obtain ⟨u, g, h1, h2, h3⟩ := h0
      cases t with
      | definitionSeparatorSymbol l' c =>
        rw [skipGaps_cons rfl] at h
        simp only [Token.isTerminator] at h
        obtain ⟨m, hm, h⟩ := bind_ok h
        injection h with h
        subst h
        have hsuf : r <:+ ts := ⟨u ++ g ++ [.definitionSeparatorSymbol l' c], by rw [h1]; simp⟩
        obtain ⟨rest, ⟨u', g', h1', h2', h3'⟩, he⟩ := ih (hts.suffix hsuf) (hn.sub fun t ht => hsuf.subset ht) hm
        exact ⟨rest, ⟨u ++ g ++ .definitionSeparatorSymbol l' c :: u', g', by rw [h1, h1']; simp, h2',
          .more h3 h2 h3'⟩, he⟩
      | terminatorSymbol l' c =>
        rw [skipGaps_cons rfl] at h
        injection h with h
        subst h
        exact ⟨_, ⟨u, g, h1, h2, .one h3⟩, rfl⟩
      | eof l' =>
        rw [skipGaps_cons rfl] at h
        injection h with h
        subst h
        exact ⟨_, ⟨u, g, h1, h2, .one h3⟩, rfl⟩
      | _ => simp [StopsAt, Token.isTerminator] at hst

end sound

theorem readDefinitionList_sound (fuel : Nat) : RecurSound (readDefinitionList fuel) := by
  induction fuel with
  | zero => intro inner l _ _ h; simp [readDefinitionList] at h
  | succ fuel ih =>
    intro inner l hno hn h
    unfold readDefinitionList at h
    obtain ⟨rest, ⟨u, g, h1, h2, h3⟩, he⟩ := readDefinitions_sound ih hno.termLast hn h
    cases rest with
    | nil => exact ⟨u, g, by simpa using h1, h2, h3⟩
    | cons t r =>
      have := hno t (by rw [h1]; simp)
      rw [AtEnd, this] at he; simp at he

theorem readMetaLoop_none {ts : List Token} {n : Str} {rest : List Token}
    (h : readMetaLoop (skipGaps ts) [] none = (n, none, rest)) :
    ∀ l s r, skipGaps ts ≠ .metaIdentifier l s :: r := by
  intro l s r he
  rw [he, readMetaLoop] at h
  simp only [Option.isNone_none, if_true] at h
  have : ∀ (ts : List Token) (acc : Str) (l : Location), (readMetaLoop ts acc (some l)).2.1 = some l := by
    intro ts
    induction ts with
    | nil => intro acc l; rfl
    | cons t ts ih =>
      intro acc l
      cases t with
      | metaIdentifier l' s => rw [readMetaLoop]; simpa using ih (acc ++ s) l
      | gapSeparatorSequence l' s => rw [readMetaLoop]; exact ih _ l
      | _ => rfl
  have := this r ([] ++ s) l
  rw [h] at this
  simp at this

/-- A rule built from a token sequence is a derivation of it. -/
theorem buildSyntaxRule_sound {ts : List Token} {t : Token} {r : Option SyntaxRule} (ht : t.isTerminator = true)
    (hno : NoTerm ts) (hn : NamedOk (ts ++ [t])) (h : buildSyntaxRule (ts ++ [t]) = .ok r) :
    (∀ x, r = some x → RuleG (ts ++ [t]) x) ∧ (r = none → Blanks ts) := by
  have htl : TermLast (ts ++ [t]) := by
    intro pre t' post he ht'
    rcases List.append_eq_append_iff.mp he with ⟨as, h1, h2⟩ | ⟨bs, h1, h2⟩
    · cases as with
      | nil => simp at h2; exact h2.2
      | cons a as => simp at h2
    · cases bs with
      | nil => simp at h2; exact h2.2
      | cons b bs =>
        simp at h2
        have := hno t' (by rw [h1, h2.1]; simp)
        rw [this] at ht'; simp at ht'
  obtain ⟨g, hg1, hg2⟩ := skipGaps_blanks (ts ++ [t])
  have hskip : skipGaps (ts ++ [t]) ≠ [] := skipGaps_ne_nil (t := t) (by simp) (terminator_not_skippable ht)
  obtain ⟨a, as, hsk⟩ := List.exists_cons_of_ne_nil hskip
  unfold buildSyntaxRule at h
  by_cases hm : ∃ l s, a = .metaIdentifier l s
  · obtain ⟨l, s, rfl⟩ := hm
    have hmi : readMetaIdentifier (ts ++ [t]) = readMetaIdentifier (.metaIdentifier l s :: as) := by
      unfold readMetaIdentifier
      rw [← hsk, skipGaps_idem]
    obtain ⟨u, gs, n, rest, h1, h2, h3, h4⟩ := readMetaIdentifier_sound (l := l) (s := s) (ts := as)
      (hn.sub (by rw [hg1, hsk]; intro t ht; exact List.mem_append_right _ ht))
    rw [hmi, h1] at h
    simp only at h
    obtain ⟨g', hg1', hg2'⟩ := skipGaps_blanks rest
    cases hs' : skipGaps rest with
    | nil => rw [hs'] at h; simp at h
    | cons b bs =>
      rw [hs'] at h hg1'
      simp only at h
      split at h
      · simp [Res.fail] at h
      · next hdef =>
        obtain ⟨ld, rfl⟩ : ∃ ld, b = .definingSymbol ld := by
          cases b <;> simp [Token.isDefiningSymbol] at hdef; exact ⟨_, rfl⟩
        split at h
        · simp at h
        · obtain ⟨list, hl, h⟩ := bind_ok h
          injection h with h
          subst h
          have hsplit : ts ++ [t] = g ++ u ++ (gs ++ g') ++ .definingSymbol ld :: bs := by
            rw [hg1, hsk, h2, hg1']; simp
          have hsuf : bs <:+ ts ++ [t] := ⟨g ++ u ++ (gs ++ g') ++ [.definingSymbol ld], by rw [hsplit]; simp⟩
          obtain ⟨rest', ⟨u', g'', h1', h2', h3'⟩, he⟩ := readDefinitions_sound (readDefinitionList_sound _)
            (htl.suffix hsuf) (hn.sub fun t ht => hsuf.subset ht) hl
          have hrest : rest' = [t] := by
            have hne : bs ≠ [] := by
              rintro rfl
              have := congrArg List.getLast? hsplit
              rw [List.getLast?_concat, List.getLast?_concat] at this
              simp at this; subst this; simp [Token.isTerminator] at ht
            cases rest' with
            | nil =>
              exfalso
              have hlast : bs.getLast? = some t := by
                have := congrArg List.getLast? hsplit
                obtain ⟨b0, bs0, rfl⟩ := List.exists_cons_of_ne_nil hne
                rw [List.getLast?_concat, List.getLast?_append] at this
                simpa using this.symm
              have hmem : t ∈ bs := List.mem_of_getLast? hlast
              rw [List.append_nil] at h1'
              rw [h1'] at hlast
              rw [List.getLast?_append] at hlast
              cases hg'' : g''.getLast? with
              | some x =>
                rw [hg''] at hlast
                simp at hlast; subst hlast
                have hb := h2' x (List.mem_of_getLast? hg'')
                rw [← isSkippable_iff, terminator_not_skippable ht] at hb
                simp at hb
              | none =>
                rw [hg''] at hlast
                simp at hlast
                exact absurd (noTerm_list h3' t (List.mem_of_getLast? hlast)) (by simp [ht])
            | cons x xs =>
              have hx : xs = [] := htl (g ++ u ++ (gs ++ g') ++ .definingSymbol ld :: (u' ++ g'')) x xs
                (by rw [hsplit, h1']; simp) he
              subst hx
              have : ts ++ [t] = (g ++ u ++ (gs ++ g') ++ .definingSymbol ld :: (u' ++ g'')) ++ [x] := by
                rw [hsplit, h1']; simp
              exact (List.append_inj' this rfl).2.symm
          subst hrest
          refine ⟨fun x hx => ?_, by simp⟩
          injection hx with hx
          subst hx
          rw [hsplit, h1']
          have := RuleG.rule (l := ld) hg2 h3 (blanks_append (fun t ht => isBlank_of_gap (h4 t ht)) hg2') h3' h2'
            ((isTerminator_iff t).mpr ht)
          simpa using this
  · have hloop : readMetaIdentifier (ts ++ [t]) = ([], none, a :: as) := by
      unfold readMetaIdentifier
      rw [hsk]
      have hnot := skipGaps_split (ts ++ [t])
      obtain ⟨_, _, _, h3⟩ := hnot
      have h3 := h3 a as hsk
      cases a with
      | metaIdentifier l s => exact absurd ⟨l, s, rfl⟩ hm
      | gapSeparatorSequence l s => simp [Token.isSkippable, Token.isGapSeparatorSequence] at h3
      | _ => rfl
    rw [hloop] at h
    have : skipGaps (a :: as) = a :: as := by rw [← hsk, skipGaps_idem]
    simp only [this] at h
    split at h
    · next hta =>
      injection h with h
      subst h
      have has : as = [] := htl g a as (by rw [hg1, hsk]) hta
      subst has
      rw [hsk] at hg1
      have := List.append_inj_left' hg1 rfl
      subst this
      exact ⟨by simp, fun _ => hg2⟩
    · simp [Res.fail] at h

end Ebnf
