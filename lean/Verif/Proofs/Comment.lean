import Verif.Spec.Lexical
import Verif.Proofs.Text

set_option autoImplicit false

/-! # Lemmas about character classes and the comment scanner -/

namespace Ebnf

open Spec

theorem isLetterChar_iff (c : Char) : isLetterChar c = true ↔ IsLetter c := by
  simp [isLetterChar, IsLetter]
theorem isDecimalDigitChar_iff (c : Char) : isDecimalDigitChar c = true ↔ IsDigit c := by
  simp [isDecimalDigitChar, IsDigit]
theorem isTerminalChar_iff (c : Char) : isTerminalChar c = true ↔ IsPrintable c := by
  simp [isTerminalChar, IsPrintable]
theorem isMetaIdentifierChar_iff (c : Char) : isMetaIdentifierChar c = true ↔ IsLetter c ∨ IsDigit c := by
  simp [isMetaIdentifierChar, isMetaIdentifierFirstChar, ← isLetterChar_iff, ← isDecimalDigitChar_iff]

theorem isOtherChar_printable (c : Char) (h : isOtherChar c = true) : isTerminalChar c = true ∧ c ≠ '?' := by
  have h' : c ∈ " .:!+_%@&#$<>/\\^`~".toList := by simpa [isOtherChar] using h
  have : ∀ c ∈ " .:!+_%@&#$<>/\\^`~".toList, isTerminalChar c = true ∧ c ≠ '?' := by decide
  exact this c h'

theorem isSpecialSequenceChar_iff (c : Char) :
    isSpecialSequenceChar c = true ↔ (IsPrintable c ∨ c ∈ gapChars) ∧ c ≠ '?' := by
  rw [← isTerminalChar_iff, ← isGapChar_iff]
  constructor
  · intro h
    simp only [isSpecialSequenceChar, Bool.or_eq_true, Bool.and_eq_true, bne_iff_ne] at h
    rcases h with (h | h) | h
    · exact ⟨.inl h.1, h.2⟩
    · have := isOtherChar_printable c h; exact ⟨.inl this.1, this.2⟩
    · refine ⟨.inr h, ?_⟩
      rintro rfl; revert h; decide
  · rintro ⟨h | h, h2⟩
    · simp [isSpecialSequenceChar, h, h2]
    · simp [isSpecialSequenceChar, h]

/-! ### Comments -/

/-- Generalisation of `CommentText` to the middle of a comment. -/
def CommentBody (d : Nat) (prev : Char) (s : Str) : Prop :=
  (∀ c ∈ s, IsPrintable c ∨ c ∈ gapChars) ∧
  pairCount '*' ')' (prev :: s ++ [')']) = pairCount '(' '*' (prev :: s ++ [')']) + d + 1 ∧
  ∀ p, p <+: prev :: s → pairCount '*' ')' p ≤ pairCount '(' '*' p + d

theorem commentBody_nil (d : Nat) (prev : Char) : CommentBody d prev [] ↔ prev = '*' ∧ d = 0 := by
  constructor
  · rintro ⟨_, h2, _⟩
    simp [pairCount] at h2
    by_cases h : prev = '*'
    · simp [h] at h2; exact ⟨h, by omega⟩
    · simp [h] at h2
  · rintro ⟨rfl, rfl⟩
    refine ⟨by simp, by simp [pairCount], ?_⟩
    intro p hp
    rcases List.prefix_cons_iff.mp hp with rfl | ⟨t, rfl, ht⟩
    · simp [pairCount]
    · simp at ht; subst ht; simp [pairCount]

/-- Depth after the pair `prev c`; `none` when the comment is closed. -/
def depthStep (d : Nat) (prev c : Char) : Option Nat :=
  if prev = '*' ∧ c = ')' then (if d = 0 then none else some (d - 1))
  else if prev = '(' ∧ c = '*' then some (d + 1)
  else some d

theorem commentBody_cons (d : Nat) (prev c : Char) (s : Str) :
    CommentBody d prev (c :: s) ↔
      (IsPrintable c ∨ c ∈ gapChars) ∧ ∃ d', depthStep d prev c = some d' ∧ CommentBody d' c s := by
  have hp : (∀ p, p <+: prev :: c :: s → pairCount '*' ')' p ≤ pairCount '(' '*' p + d) ↔
      ∀ p, p <+: c :: s → p ≠ [] → pairCount '*' ')' (prev :: p) ≤ pairCount '(' '*' (prev :: p) + d := by
    constructor
    · intro h p hp _
      exact h _ (List.cons_prefix_cons.mpr ⟨rfl, hp⟩)
    · intro h p hp
      rcases List.prefix_cons_iff.mp hp with rfl | ⟨t, rfl, ht⟩
      · simp [pairCount]
      · by_cases ht' : t = []
        · subst ht'; simp [pairCount]
        · exact h t ht ht'
  have hp2 : ∀ d', (∀ p, p <+: c :: s → pairCount '*' ')' p ≤ pairCount '(' '*' p + d') ↔
      ∀ p, p <+: s → pairCount '*' ')' (c :: p) ≤ pairCount '(' '*' (c :: p) + d' := by
    intro d'
    constructor
    · intro h p hp
      exact h _ (List.cons_prefix_cons.mpr ⟨rfl, hp⟩)
    · intro h p hp
      rcases List.prefix_cons_iff.mp hp with rfl | ⟨t, rfl, ht⟩
      · simp [pairCount]
      · exact h t ht
  have hp3 : (∀ p, p <+: c :: s → p ≠ [] → pairCount '*' ')' (prev :: p) ≤ pairCount '(' '*' (prev :: p) + d) ↔
      ∀ p, p <+: s → pairCount '*' ')' (prev :: c :: p) ≤ pairCount '(' '*' (prev :: c :: p) + d := by
    constructor
    · intro h p hp
      exact h _ (List.cons_prefix_cons.mpr ⟨rfl, hp⟩) (by simp)
    · intro h p hp hne
      rcases List.prefix_cons_iff.mp hp with rfl | ⟨t, rfl, ht⟩
      · exact absurd rfl hne
      · exact h t ht
  unfold CommentBody
  rw [hp, hp3]
  simp only [List.cons_append, pairCount, List.forall_mem_cons, hp2]
  unfold depthStep
  by_cases h1 : prev = '*' ∧ c = ')'
  · have h2 : ¬ (prev = '(' ∧ c = '*') := by rintro ⟨e, _⟩; rw [h1.1] at e; exact absurd e (by decide)
    simp only [h1, and_self, if_true]
    by_cases hd : d = 0
    · subst hd
      simp only [if_true, reduceCtorEq, false_and, exists_false, and_false, iff_false]
      rintro ⟨_, _, h⟩
      have := h [] (by simp)
      rw [if_neg (by decide)] at this
      simp [pairCount] at this
    · simp only [hd, if_false, Option.some.injEq, exists_eq_left']
      have e : (')' : Char) ≠ '*' := by decide
      simp only [show ¬ (('*' : Char) = '(' ∧ (')' : Char) = '*') by decide, if_false, Nat.zero_add]
      constructor
      · rintro ⟨⟨ho, hs⟩, hb, hf⟩
        exact ⟨ho, hs, by omega, fun p hp => by have := hf p hp; omega⟩
      · rintro ⟨ho, hs, hb, hf⟩
        exact ⟨⟨ho, hs⟩, by omega, fun p hp => by have := hf p hp; omega⟩
  · by_cases h2 : prev = '(' ∧ c = '*'
    · simp only [h2, and_self, if_true]
      simp only [show ¬ (('(' : Char) = '*' ∧ ('*' : Char) = ')') by decide, if_false, Nat.zero_add,
        Option.some.injEq, exists_eq_left']
      constructor
      · rintro ⟨⟨ho, hs⟩, hb, hf⟩
        exact ⟨ho, hs, by omega, fun p hp => by have := hf p hp; omega⟩
      · rintro ⟨ho, hs, hb, hf⟩
        exact ⟨⟨ho, hs⟩, by omega, fun p hp => by have := hf p hp; omega⟩
    · simp only [h1, h2, if_false, Option.some.injEq, exists_eq_left', Nat.zero_add]
      constructor
      · rintro ⟨⟨ho, hs⟩, hb, hf⟩
        exact ⟨ho, hs, by omega, fun p hp => by have := hf p hp; omega⟩
      · rintro ⟨ho, hs, hb, hf⟩
        exact ⟨⟨ho, hs⟩, by omega, fun p hp => by have := hf p hp; omega⟩

theorem commentLoop_cons (loc : Location) (d : Nat) (prev c : Char) (cs : Str) :
    commentLoop loc d prev (c :: cs) =
      match depthStep d prev c with
      | none => .closed 0
      | some d' =>
        if IsPrintable c ∨ c ∈ gapChars then
          match commentLoop (loc.push c) d' c cs with
          | .closed n => .closed (n + 1)
          | r => r
        else .bad loc c := by
  have hok : (!isGapChar c && !isTerminalChar c) = true ↔ ¬ (IsPrintable c ∨ c ∈ gapChars) := by
    rw [← isTerminalChar_iff, ← isGapChar_iff]
    cases isGapChar c <;> cases isTerminalChar c <;> simp
  rw [commentLoop]
  unfold depthStep
  by_cases h1 : prev = '*' ∧ c = ')'
  · rw [if_pos h1, if_pos h1]
    by_cases hd : d = 0
    · simp [hd]
    · have : IsPrintable c ∨ c ∈ gapChars := by rw [h1.2]; left; unfold IsPrintable; decide
      simp only [hd, if_false, this, if_true]
      all_goals cases commentLoop (loc.push c) (d - 1) c cs <;> rfl
  · rw [if_neg h1, if_neg h1]
    by_cases h2 : prev = '(' ∧ c = '*'
    · have : IsPrintable c ∨ c ∈ gapChars := by rw [h2.2]; left; unfold IsPrintable; decide
      rw [if_pos h2, if_pos h2]; simp only [this, if_true]
      all_goals cases commentLoop (loc.push c) (d + 1) c cs <;> rfl
    · rw [if_neg h2, if_neg h2]
      by_cases h3 : IsPrintable c ∨ c ∈ gapChars
      · rw [if_neg (by rw [hok]; exact fun h => h h3)]; simp only [h3, if_true]
        all_goals cases commentLoop (loc.push c) d c cs <;> rfl
      · rw [if_pos (hok.mpr h3)]; simp only [h3, if_false]

theorem commentLoop_sound (loc : Location) (d : Nat) (prev : Char) (rest : Str) (n : Nat)
    (h : commentLoop loc d prev rest = .closed n) :
    n < rest.length ∧ rest.drop n = ')' :: rest.drop (n + 1) ∧ CommentBody d prev (rest.take n) := by
  induction rest generalizing loc d prev n with
  | nil => simp [commentLoop] at h
  | cons c cs ih =>
    rw [commentLoop_cons] at h
    split at h
    · rename_i hd
      simp at h; subst h
      unfold depthStep at hd
      split at hd
      · rename_i hpc
        split at hd
        · rename_i hd0
          refine ⟨by simp, by simp [hpc.2], ?_⟩
          simp; rw [commentBody_nil]; exact ⟨hpc.1, hd0⟩
        · simp at hd
      · split at hd <;> simp at hd
    · rename_i d' hd
      split at h
      · rename_i hok
        split at h
        · rename_i m hm
          simp at h; subst h
          obtain ⟨h1, h2, h3⟩ := ih _ _ _ _ hm
          refine ⟨by simp; omega, by simpa using h2, ?_⟩
          rw [List.take_succ_cons, commentBody_cons]
          exact ⟨hok, d', hd, h3⟩
        · rename_i hne
          exact absurd h (hne n)
      · simp at h

theorem commentLoop_complete (loc : Location) (d : Nat) (prev : Char) (s r : Str)
    (h : CommentBody d prev s) : commentLoop loc d prev (s ++ ')' :: r) = .closed s.length := by
  induction s generalizing loc d prev with
  | nil =>
    obtain ⟨rfl, rfl⟩ := (commentBody_nil d prev).mp h
    rw [List.nil_append, commentLoop_cons]; simp [depthStep]
  | cons c cs ih =>
    obtain ⟨hok, d', hd, hb⟩ := (commentBody_cons d prev c cs).mp h
    rw [List.cons_append, commentLoop_cons, hd]
    simp only [hok, if_true, ih _ _ _ hb]
    simp

/-- More input does not change a decision of the comment scanner. -/
theorem commentLoop_extend (loc : Location) (d : Nat) (prev : Char) (rest more : Str)
    (h : commentLoop loc d prev rest ≠ .open) :
    commentLoop loc d prev (rest ++ more) = commentLoop loc d prev rest := by
  induction rest generalizing loc d prev with
  | nil => exact absurd rfl h
  | cons c cs ih =>
    rw [List.cons_append, commentLoop_cons, commentLoop_cons] at *
    cases hd : depthStep d prev c with
    | none => rfl
    | some d' =>
      rw [hd] at h
      simp only at h ⊢
      by_cases hok : IsPrintable c ∨ c ∈ gapChars
      · simp only [hok, if_true] at h ⊢
        rw [ih]
        intro ho; rw [ho] at h; exact h rfl
      · simp only [hok, if_false]

theorem commentBody_last (s : Str) (h : CommentBody 0 '*' s) (hh : s ≠ []) :
    ∃ t, s = t ++ ['*'] ∧ CommentText t := by
  obtain ⟨t, x, rfl⟩ : ∃ t x, s = t ++ [x] := ⟨s.dropLast, s.getLast hh, (List.dropLast_concat_getLast hh).symm⟩
  have hx : x = '*' := by
    obtain ⟨_, h2, h3⟩ := h
    have h3 := h3 ('*' :: (t ++ [x])) (List.prefix_refl _)
    have key : ∀ (a b : Char) (u : Str), pairCount a b (u ++ [x, ')']) =
        pairCount a b (u ++ [x]) + if x = a ∧ ')' = b then 1 else 0 := by
      intro a b u
      induction u with
      | nil => simp [pairCount]
      | cons y u ih =>
        cases u with
        | nil => simp [pairCount]
        | cons z u => simp only [List.cons_append, pairCount] at ih ⊢; rw [ih]; omega
    have e : ('*' :: (t ++ [x]) ++ [')'] : Str) = ('*' :: t) ++ [x, ')'] := by simp
    rw [e, key, key] at h2
    have e2 : ('*' :: (t ++ [x]) : Str) = ('*' :: t) ++ [x] := by simp
    rw [e2] at h3
    by_cases hx : x = '*'
    · exact hx
    · simp [hx] at h2; simp at h3; omega
  subst hx
  refine ⟨t, rfl, ?_, ?_, ?_⟩
  · intro c hc; exact h.1 c (by simp [hc])
  · have := h.2.1; simpa using this
  · intro p hp; simpa using h.2.2 p (by simpa using hp)

theorem commentBody_of_text (t : Str) (h : CommentText t) : CommentBody 0 '*' (t ++ ['*']) := by
  obtain ⟨h1, h2, h3⟩ := h
  refine ⟨?_, by simpa using h2, ?_⟩
  · intro c hc
    rcases List.mem_append.mp hc with hc | hc
    · exact h1 c hc
    · simp at hc; subst hc; left; unfold IsPrintable; decide
  · intro p hp; have := h3 p (by simpa using hp); omega

theorem commentText_head (t : Str) (h : CommentText t) : t.head? ≠ some ')' := by
  intro hh
  cases t with
  | nil => simp at hh
  | cons c t =>
    simp at hh; subst hh
    have := h.2.2 ['*', ')'] (by simp)
    simp [pairCount] at this

end Ebnf
