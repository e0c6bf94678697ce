import Verif.Spec.Complaint
import Verif.Proofs.PanicExact
import Verif.Proofs.Exact

set_option autoImplicit false

/-! # Exactly which error the tokenizer answers with -/

namespace Ebnf

open Spec

/-! ### Quoted text -/

theorem scanQuoted_error_iff (q : Char) (ok : Char → Bool) (rest : Str) (c : Char) :
    scanQuoted q ok rest = .error c ↔
      ∃ s r, rest = s ++ c :: r ∧ (∀ d ∈ s, ok d = true ∧ d ≠ q) ∧ c ≠ q ∧ ok c = false := by
  induction rest with
  | nil => simp [scanQuoted]
  | cons a as ih =>
    rw [scanQuoted]
    by_cases ha : a = q
    · rw [if_pos ha]
      subst ha
      simp only [reduceCtorEq, false_iff]
      rintro ⟨s, r, h1, h2, h3, h4⟩
      cases s with
      | nil => simp only [List.nil_append, List.cons.injEq] at h1; exact h3 h1.1.symm
      | cons b s => simp only [List.cons_append, List.cons.injEq] at h1; exact (h2 b (by simp)).2 h1.1.symm
    · rw [if_neg ha]
      by_cases hok : ok a = true
      · rw [if_neg (by simp [hok])]
        refine Iff.trans (b := scanQuoted q ok as = .error c) (by cases scanQuoted q ok as <;> simp) ?_
        rw [ih]
        constructor
        · rintro ⟨s, r, rfl, h2, h3, h4⟩
          refine ⟨a :: s, r, rfl, ?_, h3, h4⟩
          intro d hd
          rcases List.mem_cons.mp hd with rfl | hd
          · exact ⟨hok, ha⟩
          · exact h2 d hd
        · rintro ⟨s, r, h1, h2, h3, h4⟩
          cases s with
          | nil =>
            simp only [List.nil_append, List.cons.injEq] at h1
            rw [← h1.1, hok] at h4
            cases h4
          | cons b s =>
            simp only [List.cons_append, List.cons.injEq] at h1
            exact ⟨s, r, h1.2, fun d hd => h2 d (by simp [hd]), h3, h4⟩
      · have hok : ok a = false := by simpa using hok
        rw [if_pos (by simp [hok])]
        simp only [Except.error.injEq]
        constructor
        · rintro rfl
          exact ⟨[], as, rfl, by simp, ha, hok⟩
        · rintro ⟨s, r, h1, h2, h3, h4⟩
          cases s with
          | nil => simp only [List.nil_append, List.cons.injEq] at h1; exact h1.1
          | cons b s =>
            simp only [List.cons_append, List.cons.injEq] at h1
            have := (h2 b (by simp)).1
            rw [← h1.1, hok] at this
            cases this

theorem scanQuoted_full_iff (q : Char) (ok : Char → Bool) (rest : Str) :
    scanQuoted q ok rest = .ok rest.length ↔ ∀ d ∈ rest, ok d = true ∧ d ≠ q := by
  constructor
  · intro h
    have := (scanQuoted_sound _ _ _ _ h).2.1
    rwa [List.take_length] at this
  · intro h
    induction rest with
    | nil => rfl
    | cons a as ih =>
      have ha := h a (by simp)
      rw [scanQuoted, if_neg ha.2, if_neg (by simp [ha.1]), ih (fun d hd => h d (by simp [hd]))]
      rfl

/-! ### Comments -/

/-- Generalisation of `InComment` to the middle of a comment. -/
def OpenBody (d : Nat) (prev : Char) (s : Str) : Prop :=
  (∀ c ∈ s, IsPrintable c ∨ c ∈ gapChars) ∧ ∀ p, p <+: prev :: s → pairCount '*' ')' p ≤ pairCount '(' '*' p + d

theorem openBody_nil (d : Nat) (prev : Char) : OpenBody d prev [] := by
  refine ⟨by simp, fun p hp => ?_⟩
  rcases List.prefix_cons_iff.mp hp with rfl | ⟨t, rfl, ht⟩
  · simp [pairCount]
  · simp at ht; subst ht; simp [pairCount]

theorem openBody_cons (d : Nat) (prev c : Char) (s : Str) :
    OpenBody d prev (c :: s) ↔
      (IsPrintable c ∨ c ∈ gapChars) ∧ ∃ d', depthStep d prev c = some d' ∧ OpenBody d' c s := by
  have hp : (∀ p, p <+: prev :: c :: s → pairCount '*' ')' p ≤ pairCount '(' '*' p + d) ↔
      ∀ p, p <+: s → pairCount '*' ')' (prev :: c :: p) ≤ pairCount '(' '*' (prev :: c :: p) + d := by
    constructor
    · intro h p hp
      exact h _ (List.cons_prefix_cons.mpr ⟨rfl, List.cons_prefix_cons.mpr ⟨rfl, hp⟩⟩)
    · intro h p hp
      rcases List.prefix_cons_iff.mp hp with rfl | ⟨t, rfl, ht⟩
      · simp [pairCount]
      · rcases List.prefix_cons_iff.mp ht with rfl | ⟨t', rfl, ht'⟩
        · simp [pairCount]
        · exact h t' ht'
  have hp2 : ∀ d', (∀ p, p <+: c :: s → pairCount '*' ')' p ≤ pairCount '(' '*' p + d') ↔
      ∀ p, p <+: s → pairCount '*' ')' (c :: p) ≤ pairCount '(' '*' (c :: p) + d' := by
    intro d'
    constructor
    · intro h p hp
      exact h _ (List.cons_prefix_cons.mpr ⟨rfl, hp⟩)
    · intro h p hp
      rcases List.prefix_cons_iff.mp hp with rfl | ⟨t, rfl, ht⟩
      · simp [pairCount]
      · exact h t ht
  unfold OpenBody
  rw [hp]
  simp only [pairCount, List.forall_mem_cons, hp2]
  unfold depthStep
  by_cases h1 : prev = '*' ∧ c = ')'
  · simp only [h1, and_self, if_true]
    by_cases hd : d = 0
    · subst hd
      simp only [if_true, reduceCtorEq, false_and, exists_false, and_false, iff_false]
      rintro ⟨_, h⟩
      have := h [] (by simp)
      rw [if_neg (by decide)] at this
      simp [pairCount] at this
    · simp only [hd, if_false, Option.some.injEq, exists_eq_left']
      simp only [show ¬ (('*' : Char) = '(' ∧ (')' : Char) = '*') by decide, if_false, Nat.zero_add]
      constructor
      · rintro ⟨⟨ho, hs⟩, hf⟩
        exact ⟨ho, hs, fun p hp => by have := hf p hp; omega⟩
      · rintro ⟨ho, hs, hf⟩
        exact ⟨⟨ho, hs⟩, fun p hp => by have := hf p hp; omega⟩
  · by_cases h2 : prev = '(' ∧ c = '*'
    · simp only [h2, and_self, if_true]
      simp only [show ¬ (('(' : Char) = '*' ∧ ('*' : Char) = ')') by decide, if_false, Nat.zero_add,
        Option.some.injEq, exists_eq_left']
      constructor
      · rintro ⟨⟨ho, hs⟩, hf⟩
        exact ⟨ho, hs, fun p hp => by have := hf p hp; omega⟩
      · rintro ⟨ho, hs, hf⟩
        exact ⟨⟨ho, hs⟩, fun p hp => by have := hf p hp; omega⟩
    · simp only [h1, h2, if_false, Option.some.injEq, exists_eq_left', Nat.zero_add]
      constructor
      · rintro ⟨⟨ho, hs⟩, hf⟩
        exact ⟨ho, hs, hf⟩
      · rintro ⟨ho, hs, hf⟩
        exact ⟨⟨ho, hs⟩, hf⟩

theorem commentLoop_open_iff (loc : Location) (d : Nat) (prev : Char) (s : Str) :
    commentLoop loc d prev s = .open ↔ OpenBody d prev s := by
  induction s generalizing loc d prev with
  | nil => exact ⟨fun _ => openBody_nil _ _, fun _ => rfl⟩
  | cons c s ih =>
    rw [commentLoop_cons, openBody_cons]
    cases hd : depthStep d prev c with
    | none => simp
    | some d' =>
      simp only [Option.some.injEq, exists_eq_left']
      by_cases hok : IsPrintable c ∨ c ∈ gapChars
      · rw [if_pos hok, ← ih (loc.push c) d' c]
        cases commentLoop (loc.push c) d' c s <;> simp [hok]
      · rw [if_neg hok]
        simp [hok]

theorem commentLoop_bad_iff (loc : Location) (d : Nat) (prev : Char) (text : Str) (l : Location) (x : Char) :
    commentLoop loc d prev text = .bad l x ↔
      ∃ s r, text = s ++ x :: r ∧ OpenBody d prev s ∧ ¬ (IsPrintable x ∨ x ∈ gapChars) ∧ l = loc.pushStr s := by
  induction text generalizing loc d prev with
  | nil => simp [commentLoop]
  | cons c cs ih =>
    rw [commentLoop_cons]
    cases hd : depthStep d prev c with
    | none =>
      have hc : c = ')' := by
        unfold depthStep at hd
        split at hd
        · rename_i h; exact h.2
        · split at hd <;> cases hd
      subst hc
      simp only [reduceCtorEq, false_iff]
      rintro ⟨s, r, h1, h2, h3, _⟩
      cases s with
      | nil =>
        simp only [List.nil_append, List.cons.injEq] at h1
        rw [← h1.1] at h3
        exact h3 (.inl printable_close)
      | cons b s =>
        simp only [List.cons_append, List.cons.injEq] at h1
        rw [← h1.1, openBody_cons, hd] at h2
        obtain ⟨_, _, h2, _⟩ := h2
        cases h2
    | some d' =>
      simp only
      by_cases hok : IsPrintable c ∨ c ∈ gapChars
      · rw [if_pos hok]
        refine Iff.trans (b := commentLoop (loc.push c) d' c cs = .bad l x)
          (by cases commentLoop (loc.push c) d' c cs <;> simp) ?_
        rw [ih]
        constructor
        · rintro ⟨s, r, rfl, h2, h3, h4⟩
          exact ⟨c :: s, r, rfl, (openBody_cons _ _ _ _).mpr ⟨hok, d', hd, h2⟩, h3, h4⟩
        · rintro ⟨s, r, h1, h2, h3, h4⟩
          cases s with
          | nil =>
            simp only [List.nil_append, List.cons.injEq] at h1
            rw [← h1.1] at h3
            exact absurd hok h3
          | cons b s =>
            simp only [List.cons_append, List.cons.injEq] at h1
            obtain ⟨rfl, rfl⟩ := h1
            obtain ⟨_, d'', hd', h2⟩ := (openBody_cons _ _ _ _).mp h2
            rw [hd] at hd'
            cases hd'
            exact ⟨s, r, rfl, h2, h3, h4⟩
      · rw [if_neg hok]
        simp only [CommentScan.bad.injEq]
        constructor
        · rintro ⟨rfl, rfl⟩
          exact ⟨[], cs, rfl, openBody_nil _ _, hok, rfl⟩
        · rintro ⟨s, r, h1, h2, h3, h4⟩
          cases s with
          | nil =>
            simp only [List.nil_append, List.cons.injEq] at h1
            exact ⟨h4.symm, h1.1⟩
          | cons b s =>
            simp only [List.cons_append, List.cons.injEq] at h1
            rw [← h1.1, openBody_cons] at h2
            exact absurd h2.1 hok

theorem inComment_iff (s : Str) : InComment s ↔ OpenBody 0 '*' s := Iff.rfl

theorem inComment_head {s : Str} (h : InComment s) : s.head? ≠ some ')' := by
  intro hh
  cases s with
  | nil => simp at hh
  | cons c t =>
    simp at hh; subst hh
    have := h.2 ['*', ')'] (by simp)
    simp [pairCount] at this

/-! ### One token -/

theorem quote_printable {q : Char} (h : q ∈ ['\'', '"']) : IsPrintable q := by
  simp only [List.mem_cons, List.not_mem_nil, or_false] at h
  rcases h with rfl | rfl <;> (unfold IsPrintable; decide)

theorem isTerminalChar_false (c : Char) : isTerminalChar c = false ↔ ¬ IsPrintable c := by
  rw [← isTerminalChar_iff]; cases isTerminalChar c <;> simp

theorem terminalString_err_iff (loc : Location) {q : Char} (hq : IsPrintable q) (cs : Str) (flush : Bool) (e : Error) :
    terminalString loc q cs flush = .err e ↔
      (∃ s c r, cs = s ++ c :: r ∧ (∀ d ∈ s, IsPrintable d ∧ d ≠ q) ∧ ¬ IsPrintable c ∧ e = ⟨loc, .terminalBadChar c⟩) ∨
      (∃ r, cs = q :: r ∧ e = ⟨loc, .terminalEmpty⟩) ∨
      (flush = true ∧ (∀ d ∈ cs, IsPrintable d ∧ d ≠ q) ∧ e = ⟨loc, .terminalNotClosed q⟩) := by
  unfold terminalString
  have hcls : ∀ {s : Str}, (∀ d ∈ s, isTerminalChar d = true ∧ d ≠ q) ↔ ∀ d ∈ s, IsPrintable d ∧ d ≠ q := by
    intro s; simp only [isTerminalChar_iff]
  cases hs : scanQuoted q isTerminalChar cs with
  | error c =>
    obtain ⟨s, r, rfl, h2, h3, h4⟩ := (scanQuoted_error_iff _ _ _ _).mp hs
    simp only [Res.fail, Res.err.injEq]
    constructor
    · rintro rfl
      exact .inl ⟨s, c, r, rfl, hcls.mp h2, (isTerminalChar_false c).mp h4, rfl⟩
    · rintro (⟨s', c', r', h5, h6, h7, rfl⟩ | ⟨r', h5, rfl⟩ | ⟨_, h5, rfl⟩)
      · have hc := (scanQuoted_error_iff q isTerminalChar (s ++ c :: r) c').mpr
          ⟨s', r', h5, hcls.mpr h6, (by rintro rfl; exact h7 hq), (isTerminalChar_false c').mpr h7⟩
        rw [hs] at hc
        cases hc
        rfl
      · rw [h5, scanQuoted, if_pos rfl] at hs
        cases hs
      · have := (scanQuoted_full_iff q isTerminalChar (s ++ c :: r)).mpr (hcls.mpr h5)
        rw [hs] at this
        cases this
  | ok n =>
    obtain ⟨h1, h2, h3⟩ := scanQuoted_sound _ _ _ _ hs
    simp only
    have nobad : ¬ ∃ s c r, cs = s ++ c :: r ∧ (∀ d ∈ s, IsPrintable d ∧ d ≠ q) ∧ ¬ IsPrintable c ∧ e = ⟨loc, .terminalBadChar c⟩ := by
      rintro ⟨s, c, r, h5, h6, h7, _⟩
      have hc := (scanQuoted_error_iff q isTerminalChar cs c).mpr
        ⟨s, r, h5, hcls.mpr h6, (by rintro rfl; exact h7 hq), (isTerminalChar_false c).mpr h7⟩
      rw [hs] at hc
      cases hc
    by_cases hn : n = cs.length
    · subst hn
      rw [if_pos (by simp)]
      rw [List.take_length] at h2
      constructor
      · intro h
        cases flush with
        | false => simp at h
        | true =>
          simp only [Res.fail, if_true, Res.err.injEq] at h
          exact .inr (.inr ⟨rfl, hcls.mp h2, h.symm⟩)
      · rintro (h | ⟨r, rfl, _⟩ | ⟨rfl, _, rfl⟩)
        · exact absurd h nobad
        · exact absurd rfl (h2 q (by simp)).2
        · rfl
    · rw [if_neg (by simpa using hn)]
      have h3 : cs.drop n = q :: cs.drop (n + 1) := h3.resolve_left hn
      have nofull : ¬ ∀ d ∈ cs, IsPrintable d ∧ d ≠ q := by
        intro h
        have := (scanQuoted_full_iff q isTerminalChar cs).mpr (hcls.mpr h)
        rw [hs] at this
        simp only [Except.ok.injEq] at this
        exact hn this
      cases n with
      | zero =>
        rw [if_pos (by simp)]
        simp only [Res.fail, Res.err.injEq]
        constructor
        · rintro rfl
          exact .inr (.inl ⟨_, by simpa using h3, rfl⟩)
        · rintro (h | ⟨r, _, rfl⟩ | ⟨_, h, _⟩)
          · exact absurd h nobad
          · rfl
          · exact absurd h nofull
      | succ n =>
        rw [if_neg (by simp)]
        simp only [reduceCtorEq, false_iff]
        rintro (h | ⟨r, rfl, _⟩ | ⟨_, h, _⟩)
        · exact nobad h
        · rw [scanQuoted, if_pos rfl] at hs
          simp at hs
        · exact nofull h

theorem terminalString_none_iff (loc : Location) (q : Char) (cs : Str) (flush : Bool) :
    terminalString loc q cs flush = .ok none ↔ flush = false ∧ ∀ d ∈ cs, IsPrintable d ∧ d ≠ q := by
  simp only [← isTerminalChar_iff, ← scanQuoted_full_iff]
  unfold terminalString
  cases hs : scanQuoted q isTerminalChar cs with
  | error c => simp [Res.fail]
  | ok n =>
    simp only [Except.ok.injEq, beq_iff_eq]
    by_cases hn : n = cs.length
    · cases flush <;> simp [hn, Res.fail]
    · rw [if_neg hn]
      by_cases h0 : n = 0
      · rw [if_pos h0]; simp [Res.fail, hn]
      · rw [if_neg h0]; simp [hn]

theorem specialChar_false (c : Char) (hc : c ≠ '?') :
    isSpecialSequenceChar c = false ↔ ¬ IsPrintable c ∧ c ∉ gapChars := by
  have := isSpecialSequenceChar_iff c
  rw [← not_or]
  cases h : isSpecialSequenceChar c <;> simp_all

theorem specialSequence_err_iff (loc : Location) (cs : Str) (flush : Bool) (e : Error) :
    specialSequence loc cs flush = .err e ↔
      (∃ s c r, cs = s ++ c :: r ∧ (∀ d ∈ s, (IsPrintable d ∨ d ∈ gapChars) ∧ d ≠ '?') ∧ ¬ IsPrintable c ∧ c ∉ gapChars ∧
        e = ⟨loc, .specialBadChar c⟩) ∨
      (flush = true ∧ (∀ d ∈ cs, (IsPrintable d ∨ d ∈ gapChars) ∧ d ≠ '?') ∧ e = ⟨loc, .specialNotClosed⟩) := by
  unfold specialSequence
  have hcls : ∀ {s : Str}, (∀ d ∈ s, isSpecialSequenceChar d = true ∧ d ≠ '?') ↔
      ∀ d ∈ s, (IsPrintable d ∨ d ∈ gapChars) ∧ d ≠ '?' := by
    intro s
    simp only [isSpecialSequenceChar_iff]
    exact ⟨fun h d hd => (h d hd).1, fun h d hd => ⟨h d hd, (h d hd).2⟩⟩
  have hq : IsPrintable '?' := by unfold IsPrintable; decide
  cases hs : scanQuoted '?' isSpecialSequenceChar cs with
  | error c =>
    obtain ⟨s, r, rfl, h2, h3, h4⟩ := (scanQuoted_error_iff _ _ _ _).mp hs
    simp only [Res.fail, Res.err.injEq]
    constructor
    · rintro rfl
      have := (specialChar_false c h3).mp h4
      exact .inl ⟨s, c, r, rfl, hcls.mp h2, this.1, this.2, rfl⟩
    · rintro (⟨s', c', r', h5, h6, h7, h8, rfl⟩ | ⟨_, h5, rfl⟩)
      · have hne : c' ≠ '?' := by rintro rfl; exact h7 hq
        have hc := (scanQuoted_error_iff '?' isSpecialSequenceChar (s ++ c :: r) c').mpr
          ⟨s', r', h5, hcls.mpr h6, hne, (specialChar_false c' hne).mpr ⟨h7, h8⟩⟩
        rw [hs] at hc
        cases hc
        rfl
      · have := (scanQuoted_full_iff '?' isSpecialSequenceChar (s ++ c :: r)).mpr (hcls.mpr h5)
        rw [hs] at this
        cases this
  | ok n =>
    obtain ⟨h1, h2, h3⟩ := scanQuoted_sound _ _ _ _ hs
    simp only
    have nobad : ¬ ∃ s c r, cs = s ++ c :: r ∧ (∀ d ∈ s, (IsPrintable d ∨ d ∈ gapChars) ∧ d ≠ '?') ∧ ¬ IsPrintable c ∧
        c ∉ gapChars ∧ e = ⟨loc, .specialBadChar c⟩ := by
      rintro ⟨s, c, r, h5, h6, h7, h8, _⟩
      have hne : c ≠ '?' := by rintro rfl; exact h7 hq
      have hc := (scanQuoted_error_iff '?' isSpecialSequenceChar cs c).mpr
        ⟨s, r, h5, hcls.mpr h6, hne, (specialChar_false c hne).mpr ⟨h7, h8⟩⟩
      rw [hs] at hc
      cases hc
    by_cases hn : n = cs.length
    · subst hn
      rw [if_pos (by simp)]
      rw [List.take_length] at h2
      constructor
      · intro h
        cases flush with
        | false => simp at h
        | true =>
          simp only [Res.fail, if_true, Res.err.injEq] at h
          exact .inr ⟨rfl, hcls.mp h2, h.symm⟩
      · rintro (h | ⟨rfl, _, rfl⟩)
        · exact absurd h nobad
        · rfl
    · rw [if_neg (by simpa using hn)]
      simp only [reduceCtorEq, false_iff]
      rintro (h | ⟨_, h, _⟩)
      · exact nobad h
      · have := (scanQuoted_full_iff '?' isSpecialSequenceChar cs).mpr (hcls.mpr h)
        rw [hs] at this
        simp only [Except.ok.injEq] at this
        exact hn this

theorem specialSequence_none_iff (loc : Location) (cs : Str) (flush : Bool) :
    specialSequence loc cs flush = .ok none ↔ flush = false ∧ ∀ d ∈ cs, (IsPrintable d ∨ d ∈ gapChars) ∧ d ≠ '?' := by
  have hcls : (∀ d ∈ cs, (IsPrintable d ∨ d ∈ gapChars) ∧ d ≠ '?') ↔ ∀ d ∈ cs, isSpecialSequenceChar d = true ∧ d ≠ '?' := by
    simp only [isSpecialSequenceChar_iff]
    exact ⟨fun h d hd => ⟨h d hd, (h d hd).2⟩, fun h d hd => (h d hd).1⟩
  rw [hcls, ← scanQuoted_full_iff]
  unfold specialSequence
  cases hs : scanQuoted '?' isSpecialSequenceChar cs with
  | error c => simp [Res.fail]
  | ok n =>
    simp only [Except.ok.injEq, beq_iff_eq]
    by_cases hn : n = cs.length
    · cases flush <;> simp [hn, Res.fail]
    · rw [if_neg hn]; simp [hn]

theorem commentToken_err_iff (loc : Location) (ds : Str) (flush : Bool) (e : Error) :
    commentToken loc ds flush = .err e ↔
      (∃ s c r, ds = s ++ c :: r ∧ InComment s ∧ ¬ IsPrintable c ∧ c ∉ gapChars ∧
        e = ⟨lineColumn loc ('(' :: '*' :: s), .commentBadChar c⟩) ∨
      (flush = true ∧ InComment ds ∧ e = ⟨loc, .commentNotClosed⟩) := by
  have hplace : ∀ s : Str, (loc.pushStr ['(', '*']).pushStr s = lineColumn loc ('(' :: '*' :: s) := by
    intro s
    rw [← Location.pushStr_append, Location.pushStr_eq_lineColumn]
    rfl
  have hbad := commentLoop_bad_iff (loc.pushStr ['(', '*']) 0 '*' ds
  have hopen := commentLoop_open_iff (loc.pushStr ['(', '*']) 0 '*' ds
  unfold commentToken
  cases hs : commentLoop (loc.pushStr ['(', '*']) 0 '*' ds with
  | «open» =>
    rw [hs] at hbad hopen
    simp only [reduceCtorEq, false_iff] at hbad
    simp only [true_iff] at hopen
    constructor
    · intro h
      cases flush with
      | false => simp at h
      | true =>
        simp only [Res.fail, if_true, Res.err.injEq] at h
        exact .inr ⟨rfl, hopen, h.symm⟩
    · rintro (⟨s, c, r, h1, h2, h3, h4, _⟩ | ⟨rfl, _, rfl⟩)
      · exact absurd ⟨s, r, h1, h2, not_or.mpr ⟨h3, h4⟩, rfl⟩ (hbad _ c)
      · rfl
  | closed n =>
    rw [hs] at hbad hopen
    simp only [reduceCtorEq, false_iff] at hbad hopen
    simp only [reduceCtorEq, false_iff]
    rintro (⟨s, c, r, h1, h2, h3, h4, _⟩ | ⟨_, h, _⟩)
    · exact absurd ⟨s, r, h1, h2, not_or.mpr ⟨h3, h4⟩, rfl⟩ (hbad _ c)
    · exact hopen h
  | bad l x =>
    rw [hs] at hbad hopen
    simp only [reduceCtorEq, false_iff] at hopen
    simp only [Res.fail, Res.err.injEq]
    constructor
    · rintro rfl
      obtain ⟨s, r, h1, h2, h3, rfl⟩ := (hbad l x).mp rfl
      rw [not_or] at h3
      exact .inl ⟨s, x, r, h1, h2, h3.1, h3.2, by rw [hplace]⟩
    · rintro (⟨s, c, r, h1, h2, h3, h4, rfl⟩ | ⟨_, h, _⟩)
      · have := (hbad _ c).mpr ⟨s, r, h1, h2, not_or.mpr ⟨h3, h4⟩, rfl⟩
        simp only [CommentScan.bad.injEq] at this
        rw [this.1, this.2, hplace]
      · exact absurd h hopen

theorem commentToken_none_iff (loc : Location) (ds : Str) (flush : Bool) :
    commentToken loc ds flush = .ok none ↔ flush = false ∧ InComment ds := by
  rw [inComment_iff, ← commentLoop_open_iff (loc.pushStr ['(', '*'])]
  unfold commentToken
  cases commentLoop (loc.pushStr ['(', '*']) 0 '*' ds <;> cases flush <;> simp [Res.fail]

theorem stray_iff (c : Char) :
    (∀ tk s, ¬ Spelled tk (c :: s)) ↔ c ∉ punct ∧ ¬ IsLetter c ∧ ¬ IsDigit c ∧ c ∉ gapChars := by
  constructor
  · intro h
    refine ⟨?_, fun hc => h _ [] (.metaIdentifier (Location.new []) c [] hc (by simp)),
      fun hc => h _ [] (.integer (Location.new []) c [] hc (by simp)),
      fun hc => h _ [] (.gapSeparator (Location.new []) c [] hc (by simp))⟩
    intro hp
    simp only [punct, List.mem_cons, List.not_mem_nil, or_false] at hp
    have l := Location.new []
    have pa : ∀ q : Char, ∀ c ∈ ['~'], IsPrintable c ∧ c ≠ '\'' ∧ c ≠ '"' := by
      intro q c hc; simp at hc; subst hc; unfold IsPrintable; decide
    rcases hp with rfl | rfl | rfl | rfl | rfl | rfl | rfl | rfl | rfl | rfl | rfl | rfl | rfl | rfl |
      rfl | rfl | rfl | rfl | rfl
    · exact h _ _ (.concatenate l)
    · exact h _ _ (.defining l)
    · exact h _ _ (.separator l '|' (by simp))
    · exact h _ _ (.separator l '!' (by simp))
    · exact h _ _ (.terminator l ';' (by simp))
    · exact h _ _ (.terminator l '.' (by simp))
    · exact h _ _ (.except l)
    · exact h _ _ (.endGroup l)
    · exact h _ _ (.startOption l ['['] (by simp))
    · exact h _ _ (.endOption l [']'] (by simp))
    · exact h _ _ (.startRepeat l ['{'] (by simp))
    · exact h _ _ (.endRepeat l ['}'] (by simp))
    · exact h _ _ (.terminalString l ['~'] '\'' (by simp) (by simp) fun c hc => ⟨(pa '~' c hc).1, (pa '~' c hc).2.1⟩)
    · exact h _ _ (.terminalString l ['~'] '"' (by simp) (by simp) fun c hc => ⟨(pa '~' c hc).1, (pa '~' c hc).2.2⟩)
    · exact h _ _ (.startGroup l)
    · exact h _ _ (.separator l '/' (by simp))
    · exact h _ _ (.endRepeat l [':', ')'] (by simp))
    · exact h _ _ (.repetition l)
    · exact h _ _ (.specialSequence l [] (by simp))
  · rintro ⟨h1, h2, h3, h4⟩
    exact stray_of h1 h2 h3 h4

theorem readNext_err_iff (loc : Location) (rest : Str) (e : Error) :
    readNext loc rest false = .err e ↔ Fault loc rest e := by
  constructor
  · intro h
    cases rest with
    | nil => simp [readNext] at h
    | cons c cs =>
      by_cases hp : c ∈ punct
      · simp only [punct, List.mem_cons, List.not_mem_nil, or_false] at hp
        have quoted : ∀ q : Char, q ∈ ['\'', '"'] → terminalString loc q cs false = .err e → Fault loc (q :: cs) e := by
          intro q hq h
          rcases (terminalString_err_iff loc (quote_printable hq) cs false e).mp h with
            ⟨s, c, r, rfl, h1, h2, rfl⟩ | ⟨r, rfl, rfl⟩ | ⟨h, _⟩
          · exact .stringChar hq h1 h2
          · exact .emptyString hq
          · cases h
        rcases hp with rfl | rfl | rfl | rfl | rfl | rfl | rfl | rfl | rfl | rfl | rfl | rfl | rfl | rfl |
          rfl | rfl | rfl | rfl | rfl
        iterate 12
          · simp [readNext] at h
        iterate 2
          · by_cases hcs : cs = []
            · subst hcs; simp [readNext] at h
            · refine quoted _ (by simp) ?_
              simpa [readNext, hcs] using h
        · cases cs with
          | nil => simp [readNext] at h
          | cons d ds =>
            by_cases hd : d = '*'
            · subst hd
              by_cases hh : ds.head? = some ')'
              · cases ds with
                | nil => simp at hh
                | cons a ds =>
                  simp at hh; subst hh
                  simp [readNext, Res.fail] at h
                  subst h
                  exact .ambiguousComment
              · have h : commentToken loc ds false = .err e := by simpa [readNext, hh] using h
                rcases (commentToken_err_iff loc ds false e).mp h with ⟨s, c, r, rfl, h1, h2, h3, rfl⟩ | ⟨h, _⟩
                · exact .commentChar h1 h2 h3
                · cases h
            · exfalso
              by_cases h1 : d = '/'
              · subst h1; simp [readNext] at h
              · by_cases h2 : d = ':'
                · subst h2; simp [readNext] at h
                · simp [readNext, hd, h1, h2] at h
        · cases cs with
          | nil => simp [readNext] at h
          | cons d ds =>
            by_cases hd : d = ')'
            · subst hd; simp [readNext] at h
            · simp [readNext, hd] at h
        · cases cs with
          | nil => simp [readNext] at h
          | cons d ds =>
            by_cases hd : d = ')'
            · subst hd; simp [readNext] at h
            · simp [readNext, hd, Res.fail] at h
              subst h
              exact .colon hd
        · cases cs with
          | nil => simp [readNext] at h
          | cons d ds =>
            by_cases hd : d = ')'
            · subst hd
              simp [readNext, Res.fail] at h
              subst h
              exact .notOpened
            · simp [readNext, hd] at h
        · by_cases hcs : cs = []
          · subst hcs; simp [readNext] at h
          · have h : specialSequence loc cs false = .err e := by simpa [readNext, hcs] using h
            rcases (specialSequence_err_iff loc cs false e).mp h with ⟨s, c, r, rfl, h1, h2, h3, rfl⟩ | ⟨h, _⟩
            · exact .specialChar h1 h2 h3
            · cases h
      · rw [readNext_word hp] at h
        by_cases hcs : cs = []
        · subst hcs; simp at h
        · rw [if_neg (by simp [hcs])] at h
          by_cases h1 : isMetaIdentifierFirstChar c = true
          · rw [if_pos h1] at h; cases h
          · rw [if_neg h1] at h
            by_cases h2 : isDecimalDigitChar c = true
            · rw [if_pos h2] at h; cases h
            · rw [if_neg h2] at h
              by_cases h3 : isGapChar c = true
              · rw [if_pos h3] at h; cases h
              · rw [if_neg h3] at h
                simp only [Res.fail, Res.err.injEq] at h
                subst h
                refine .undefined ((stray_iff c).mpr ⟨hp, ?_, ?_, ?_⟩) hcs
                · rw [← isLetterChar_iff]; exact h1
                · rw [← isDecimalDigitChar_iff]; exact h2
                · rw [← isGapChar_iff]; exact h3
  · intro h
    cases h with
    | ambiguousComment => simp [readNext, Res.fail]
    | colon hc => simp [readNext, hc, Res.fail]
    | notOpened => simp [readNext, Res.fail]
    | @undefined c rest hs hne =>
      obtain ⟨h1, h2, h3, h4⟩ := (stray_iff c).mp hs
      rw [readNext_word h1, if_neg (by simp [hne]), if_neg, if_neg, if_neg]
      · rfl
      · rw [isGapChar_iff]; exact h4
      · rw [isDecimalDigitChar_iff]; exact h3
      · rw [← isLetterChar_iff] at h2; exact h2
    | @emptyString q rest hq =>
      have := (terminalString_err_iff loc (quote_printable hq) (q :: rest) false ⟨loc, .terminalEmpty⟩).mpr (.inr (.inl ⟨rest, rfl, rfl⟩))
      simp only [List.mem_cons, List.not_mem_nil, or_false] at hq
      rcases hq with rfl | rfl <;> simpa [readNext] using this
    | @stringChar q s c rest hq h1 h2 =>
      have := (terminalString_err_iff loc (quote_printable hq) (s ++ c :: rest) false ⟨loc, .terminalBadChar c⟩).mpr
        (.inl ⟨s, c, rest, rfl, h1, h2, rfl⟩)
      simp only [List.mem_cons, List.not_mem_nil, or_false] at hq
      rcases hq with rfl | rfl <;> simpa [readNext] using this
    | @specialChar s c rest h1 h2 h3 =>
      have := (specialSequence_err_iff loc (s ++ c :: rest) false ⟨loc, .specialBadChar c⟩).mpr
        (.inl ⟨s, c, rest, rfl, h1, h2, h3, rfl⟩)
      simpa [readNext] using this
    | @commentChar s c rest h1 h2 h3 =>
      have := (commentToken_err_iff loc (s ++ c :: rest) false _).mpr (.inl ⟨s, c, rest, rfl, h1, h2, h3, rfl⟩)
      have hh : (s ++ c :: rest).head? ≠ some ')' := by
        cases s with
        | nil => simp only [List.nil_append, List.head?_cons, ne_eq, Option.some.injEq]; rintro rfl; exact h2 printable_close
        | cons a s => simpa using inComment_head h1
      generalize s ++ c :: rest = ds at this hh ⊢
      simpa [readNext, hh] using this

/-- Text in which nothing can be decided yet, and which is an error if nothing more comes. -/
theorem readNext_flush_err_iff (loc : Location) (rest : Str) (e : Error) :
    (readNext loc rest false = .ok none ∧ readNext loc rest true = .err e) ↔ FaultAtEnd loc rest e := by
  constructor
  · rintro ⟨h0, h⟩
    cases rest with
    | nil => simp [readNext] at h
    | cons c cs =>
      by_cases hp : c ∈ punct
      · simp only [punct, List.mem_cons, List.not_mem_nil, or_false] at hp
        have quoted : ∀ q : Char, q ∈ ['\'', '"'] → (cs = [] ∨ terminalString loc q cs false = .ok none) →
            terminalString loc q cs true = .err e → FaultAtEnd loc (q :: cs) e := by
          intro q hq h0 h
          have h0 : ∀ d ∈ cs, IsPrintable d ∧ d ≠ q := by
            rcases h0 with rfl | h0
            · simp
            · exact ((terminalString_none_iff _ _ _ _).mp h0).2
          have := (terminalString_err_iff loc (quote_printable hq) cs true ⟨loc, .terminalNotClosed q⟩).mpr (.inr (.inr ⟨rfl, h0, rfl⟩))
          rw [this] at h
          cases h
          exact .string hq h0
        rcases hp with rfl | rfl | rfl | rfl | rfl | rfl | rfl | rfl | rfl | rfl | rfl | rfl | rfl | rfl |
          rfl | rfl | rfl | rfl | rfl
        iterate 12
          · simp [readNext] at h
        iterate 2
          · refine quoted _ (by simp) ?_ (by simpa [readNext] using h)
            by_cases hcs : cs = []
            · exact .inl hcs
            · exact .inr (by simpa [readNext, hcs] using h0)
        · cases cs with
          | nil => simp [readNext] at h
          | cons d ds =>
            by_cases hd : d = '*'
            · subst hd
              by_cases hh : ds.head? = some ')'
              · simp [readNext, hh, Res.fail] at h0
              · have h0 : commentToken loc ds false = .ok none := by simpa [readNext, hh] using h0
                have h : commentToken loc ds true = .err e := by simpa [readNext, hh] using h
                have h0 := ((commentToken_none_iff _ _ _).mp h0).2
                rw [(commentToken_err_iff loc ds true ⟨loc, .commentNotClosed⟩).mpr (.inr ⟨rfl, h0, rfl⟩)] at h
                cases h
                exact .comment h0
            · exfalso
              by_cases h1 : d = '/'
              · subst h1; simp [readNext] at h
              · by_cases h2 : d = ':'
                · subst h2; simp [readNext] at h
                · simp [readNext, hd, h1, h2] at h
        · simp [readNext] at h
        · cases cs with
          | nil =>
            simp [readNext, Res.fail] at h
            subst h
            exact .colon
          | cons d ds =>
            by_cases hd : d = ')'
            · subst hd; simp [readNext] at h0
            · simp [readNext, hd, Res.fail] at h0
        · simp [readNext] at h
        · have h0 : ∀ d ∈ cs, (IsPrintable d ∨ d ∈ gapChars) ∧ d ≠ '?' := by
            by_cases hcs : cs = []
            · subst hcs; simp
            · exact ((specialSequence_none_iff loc cs false).mp (by simpa [readNext, hcs] using h0)).2
          have h : specialSequence loc cs true = .err e := by simpa [readNext] using h
          rw [(specialSequence_err_iff loc cs true ⟨loc, .specialNotClosed⟩).mpr (.inr ⟨rfl, h0, rfl⟩)] at h
          cases h
          exact .special h0
      · rw [readNext_word hp] at h h0
        rw [if_neg (by simp)] at h
        by_cases h1 : isMetaIdentifierFirstChar c = true
        · rw [if_pos h1] at h; cases h
        · rw [if_neg h1] at h h0
          by_cases h2 : isDecimalDigitChar c = true
          · rw [if_pos h2] at h; cases h
          · rw [if_neg h2] at h h0
            by_cases h3 : isGapChar c = true
            · rw [if_pos h3] at h; cases h
            · rw [if_neg h3] at h h0
              simp only [Res.fail, Res.err.injEq] at h
              subst h
              by_cases hcs : cs = []
              · subst hcs
                refine .undefined ((stray_iff c).mpr ⟨hp, ?_, ?_, ?_⟩)
                · rw [← isLetterChar_iff]; exact h1
                · rw [← isDecimalDigitChar_iff]; exact h2
                · rw [← isGapChar_iff]; exact h3
              · rw [if_neg (by simp [hcs])] at h0
                cases h0
  · intro h
    cases h with
    | colon => simp [readNext, Res.fail]
    | @undefined c hs =>
      obtain ⟨h1, h2, h3, h4⟩ := (stray_iff c).mp hs
      rw [readNext_word h1, readNext_word h1]
      refine ⟨by simp, ?_⟩
      rw [if_neg (by simp), if_neg, if_neg, if_neg]
      · rfl
      · rw [isGapChar_iff]; exact h4
      · rw [isDecimalDigitChar_iff]; exact h3
      · rw [← isLetterChar_iff] at h2; exact h2
    | @string q s hq h1 =>
      have h2 := (terminalString_none_iff loc q s false).mpr ⟨rfl, h1⟩
      have h3 := (terminalString_err_iff loc (quote_printable hq) s true ⟨loc, .terminalNotClosed q⟩).mpr (.inr (.inr ⟨rfl, h1, rfl⟩))
      simp only [List.mem_cons, List.not_mem_nil, or_false] at hq
      rcases hq with rfl | rfl <;> exact ⟨by simp [readNext, h2], by simp [readNext, h3]⟩
    | @special s h1 =>
      have h2 := (specialSequence_none_iff loc s false).mpr ⟨rfl, h1⟩
      have h3 := (specialSequence_err_iff loc s true ⟨loc, .specialNotClosed⟩).mpr (.inr ⟨rfl, h1, rfl⟩)
      exact ⟨by simp [readNext, h2], by simp [readNext, h3]⟩
    | @comment s h1 =>
      have h2 := (commentToken_none_iff loc s false).mpr ⟨rfl, h1⟩
      have h3 := (commentToken_err_iff loc s true ⟨loc, .commentNotClosed⟩).mpr (.inr ⟨rfl, h1, rfl⟩)
      have hh := inComment_head h1
      exact ⟨by simp [readNext, hh, h2], by simp [readNext, hh, h3]⟩

/-! ### The tokenizer loop -/

theorem fault_ne_nil {loc : Location} {rest : Str} {e : Error} (h : Fault loc rest e) : rest ≠ [] := by
  cases h <;> simp

theorem faultAtEnd_ne_nil {loc : Location} {rest : Str} {e : Error} (h : FaultAtEnd loc rest e) : rest ≠ [] := by
  cases h <;> simp

theorem beginsWith_nil (start : Location) (text : Str) : BeginsWith start text [] start text :=
  ⟨[], rfl, .nil _, by simp, rfl⟩

theorem beginsWith_cons {start there : Location} {tk : Token} {s text rest : Str} {ts : List Token} (hsp : Spelled tk s)
    (hp : positionOf tk = start) (he : Ends tk text.head?) (hb : BeginsWith (lineColumn start s) text ts there rest) :
    BeginsWith start (s ++ text) (tk :: ts) there rest := by
  obtain ⟨front, rfl, hl, hlast, rfl⟩ := hb
  refine ⟨s ++ front, (List.append_assoc _ _ _).symm, .cons hsp hp ?_ hl, ?_, ?_⟩
  · cases front with
    | nil => exact ends_none _
    | cons a b => simpa using he
  · intro t ht
    cases ts with
    | nil =>
      have : front = [] := by cases hl; rfl
      subst this
      simp at ht; subst ht
      simpa using he
    | cons u us =>
      rw [List.getLast?_cons_cons] at ht
      exact hlast t ht
  · simp only [← Location.pushStr_eq_lineColumn, Location.pushStr_append]

/-- Tokens, then text that does not become one. -/
theorem tokLoop_begins {start there : Location} {text rest : Str} {ts : List Token} (h : BeginsWith start text ts there rest)
    (hne : rest ≠ []) : tokLoop start text = prependTok ts (tokLoop there rest) := by
  obtain ⟨front, rfl, hl, hlast, rfl⟩ := h
  rw [tokLoop_of_certain hl, Location.pushStr_eq_lineColumn]
  intro t c ht
  have := hlast t ht
  cases rest with
  | nil => exact absurd rfl hne
  | cons a b => simpa using this

theorem tokLoop_err_iff (start : Location) (text : Str) (e : Error) :
    (tokLoop start text).1 = .err e ↔ ∃ ts there rest, BeginsWith start text ts there rest ∧ Fault there rest e := by
  constructor
  · intro h
    induction start, text using tokLoop_induct with
    | hnone loc rest hn => rw [tokLoop_none hn] at h; simp at h
    | hsome loc rest tk n hs ih =>
      have hr := readNext_sound _ _ _ _ _ hs
      rw [tokLoop_some hs] at h
      have h1 : (tokLoop (loc.pushStr (rest.take n)) (rest.drop n)).1 = .err e := by
        revert h
        rcases tokLoop (loc.pushStr (rest.take n)) (rest.drop n) with ⟨r, l, s⟩
        cases r <;> simp [consTok]
      obtain ⟨ts, there, rest', hb, hf⟩ := ih h1
      rw [Location.pushStr_eq_lineColumn] at hb
      have := beginsWith_cons hr.spelled hr.position (hr.ends rfl) hb
      rw [List.take_append_drop] at this
      exact ⟨_, _, _, this, hf⟩
    | herr loc rest e' he =>
      rw [tokLoop_err he] at h
      simp only [Res.err.injEq] at h
      subst h
      exact ⟨[], loc, rest, beginsWith_nil _ _, (readNext_err_iff _ _ _).mp he⟩
  · rintro ⟨ts, there, rest, hb, hf⟩
    rw [tokLoop_begins hb (fault_ne_nil hf), tokLoop_err ((readNext_err_iff _ _ _).mpr hf)]
    rfl

theorem flushTok_err_iff {loc : Location} {rest : Str} (hp : Pending loc rest) (e : Error) :
    flushTok loc rest = .err e ↔ FaultAtEnd loc rest e := by
  rw [← readNext_flush_err_iff]
  unfold flushTok
  by_cases hr : rest = []
  · subst hr
    simp [readNext]
  · rw [if_neg hr]
    rcases pending_flush hp hr with ⟨tk, ht⟩ | ⟨e', he⟩
    · rw [ht]; simp
    · rw [he]
      simp only [Res.err.injEq]
      exact ⟨fun h => ⟨hp, h⟩, fun h => h.2⟩

theorem begins_of_tokLoop {start there : Location} {text rest : Str} {ts : List Token}
    (h : tokLoop start text = (.ok ts, there, rest)) (hne : rest ≠ []) : BeginsWith start text ts there rest := by
  obtain ⟨used, hu, hl⟩ := tokLoop_lexes h
  obtain ⟨_, used', hu', hloc⟩ := tokLoop_ok h
  have : used = used' := List.append_cancel_right (hu.symm.trans hu')
  subst this
  refine ⟨used, hu, hl, fun t ht => ?_, by rw [hloc, Location.pushStr_eq_lineColumn]⟩
  have := tokLoop_certain h ' ' t ht
  cases rest with
  | nil => exact absurd rfl hne
  | cons a b => simpa using this

end Ebnf
