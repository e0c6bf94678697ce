import Verif.Proofs.Blanks

set_option autoImplicit false

/-! # Properties of the rule parser: blanks are irrelevant (C16) -/

namespace Ebnf.Props

open Ebnf Ebnf.Spec

/-- C16: two texts whose tokens are the same up to gaps and comments between symbols and names (and the
width of gaps inside names) are both accepted or both not, with the same rules up to locations. -/
theorem c16_blanks_irrelevant (name name' text text' : Str) (ts us : List Token)
    (h : Lexes (Location.new name) text ts) (h' : Lexes (Location.new name') text' us) (hs : SameSymbols ts us)
    (shape : List SyntaxRule) :
    (∃ rs, parseStr name text = .ok rs ∧ rs.map forgetLocations = shape) ↔
    (∃ rs, parseStr name' text' = .ok rs ∧ rs.map forgetLocations = shape) := by
  constructor
  · rintro ⟨rs, h1, rfl⟩; exact parseStr_same h h' hs h1
  · rintro ⟨rs, h1, rfl⟩; exact parseStr_same h' h hs.symm h1

/-- C16 in the text: inserting (or deleting) a comment between two tokens, not inside a name. -/
theorem c16_insert_comment (name a b c : Str) (ts us : List Token)
    (hcut : CutBetweenTokens (Location.new name) a b ts us) (hin : ¬ InsideName ts us) (hc : CommentText c)
    (shape : List SyntaxRule) :
    (∃ rs, parseStr name (a ++ b) = .ok rs ∧ rs.map forgetLocations = shape) ↔
    (∃ rs, parseStr name (a ++ ("(*".toList ++ c ++ "*)".toList ++ b)) = .ok rs ∧ rs.map forgetLocations = shape) := by
  obtain ⟨h1, h2, h3⟩ := hcut
  have hsp : Spelled (.comment (lineColumn (Location.new name) a) c) ("(*".toList ++ c ++ "*)".toList) :=
    .comment _ _ hc
  obtain ⟨vs, h4, h5⟩ := lexes_relocate h2
    (lineColumn (lineColumn (Location.new name) a) ("(*".toList ++ c ++ "*)".toList))
  have hl := Lexes.cons hsp rfl (by trivial) h4
  have hlex := lexes_append h1 (by
    intro t _
    have : ("(*".toList ++ c ++ "*)".toList ++ b).head? = some '(' := rfl
    rw [this]
    exact ends_of (by decide) (by decide) (by decide) (fun _ => by decide)) hl
  refine c16_blanks_irrelevant _ _ _ _ _ _ h3 hlex ?_ shape
  refine same_prepend (.refl ts) ?_ ?_
  · exact (same_of_alike h5).cons_blanks (g := []) (g' := [_]) blanks_nil (by simp [Blanks, IsBlank])
  · intro he
    refine ⟨fun h => hin ⟨he, h⟩, ?_⟩
    rintro ⟨gs, l, s, rest, h6, h7⟩
    cases gs with
    | nil => simp at h6
    | cons g gs =>
      simp at h6
      have := h7 g (by simp)
      rw [← h6.1] at this
      exact this

/-- The texts `a (*c*) ...` of this cut: after the name of the rule. -/
example : CutBetweenTokens (Location.new []) "a".toList "='x'".toList
      [.metaIdentifier ⟨[], 1, 1⟩ ['a']] [.definingSymbol ⟨[], 1, 2⟩, .terminalString ⟨[], 1, 3⟩ ['x'] '\''] ∧
    ¬ InsideName [.metaIdentifier ⟨[], 1, 1⟩ ['a']]
      [.definingSymbol ⟨[], 1, 2⟩, .terminalString ⟨[], 1, 3⟩ ['x'] '\''] ∧ CommentText " c ".toList := by
  have hx : Lexes ⟨[], 1, 2⟩ ['=', '\'', 'x', '\'']
      [.definingSymbol ⟨[], 1, 2⟩, .terminalString ⟨[], 1, 3⟩ ['x'] '\''] :=
    .cons (s := ['=']) (.defining _) rfl trivial
      (.cons (s := ['\'', 'x', '\'']) (.terminalString _ ['x'] '\'' (by simp) (by simp) (by decide)) rfl trivial
        (.nil _))
  refine ⟨⟨?_, hx, ?_⟩, ?_, ?_⟩
  · exact .cons (s := ['a']) (.metaIdentifier _ 'a' [] (by decide) (by simp)) rfl trivial (.nil _)
  · exact .cons (s := ['a']) (.metaIdentifier _ 'a' [] (by decide) (by simp)) rfl
      (show ¬ IsLetter '=' ∧ ¬ IsDigit '=' by decide) hx
  · rintro ⟨_, gs, l, s, rest, h, hg⟩
    cases gs with
    | nil => simp at h
    | cons g gs =>
      simp at h
      have := hg g (by simp)
      rw [← h.1] at this
      exact this
  · refine ⟨by decide, by decide, ?_⟩
    rintro p ⟨q, hq⟩
    have : p ∈ (List.range 6).map fun n => ("* c *".toList.take n) := by
      have hl : p = "* c *".toList.take p.length := by
        rw [show "* c *".toList = p ++ q from hq.symm]; simp
      have h2 : p.length ≤ 5 := by
        have := congrArg List.length hq
        simp at this; omega
      exact List.mem_map.mpr ⟨p.length, by simp; omega, hl.symm⟩
    clear hq
    revert p
    decide

/-- C16 in the text: inserting (or deleting) a gap between two tokens that are not gaps. -/
theorem c16_insert_gap (name a b w : Str) (ts us : List Token)
    (hcut : CutBetweenTokens (Location.new name) a b ts us)
    (hts : ∀ t, ts.getLast? = some t → ¬ IsGapToken t) (hus : ∀ t, us.head? = some t → ¬ IsGapToken t)
    (hw : w ≠ []) (hg : ∀ c ∈ w, c ∈ gapChars) (shape : List SyntaxRule) :
    (∃ rs, parseStr name (a ++ b) = .ok rs ∧ rs.map forgetLocations = shape) ↔
    (∃ rs, parseStr name (a ++ (w ++ b)) = .ok rs ∧ rs.map forgetLocations = shape) := by
  obtain ⟨h1, h2, h3⟩ := hcut
  obtain ⟨c, w, rfl⟩ := List.exists_cons_of_ne_nil hw
  have hsp : Spelled (.gapSeparatorSequence (lineColumn (Location.new name) a) (c :: w)) (c :: w) :=
    .gapSeparator _ _ _ (hg c (by simp)) (fun d hd => hg d (by simp [hd]))
  obtain ⟨vs, h4, h5⟩ := lexes_relocate h2 (lineColumn (lineColumn (Location.new name) a) (c :: w))
  have hend : Ends (.gapSeparatorSequence (lineColumn (Location.new name) a) (c :: w)) b.head? := by
    cases h2 with
    | nil => trivial
    | @cons _ tk s rest _ hsp' _ _ _ =>
      cases s with
      | nil => exact absurd rfl (spelled_ne_nil hsp')
      | cons x xs =>
        show x ∉ gapChars
        intro hx
        exact hus tk rfl (spelled_gap_head hsp' hx)
  have hl := Lexes.cons hsp rfl hend h4
  have hlex := lexes_append h1 (by
    intro t ht
    have hc := hg c (by simp)
    refine ends_of ?_ ?_ ?_ (fun h => absurd h (hts t ht))
    · clear hsp h5 h4 hend hl hg hw; revert c; decide
    · clear hsp h5 h4 hend hl hg hw; revert c; decide
    · clear hsp h5 h4 hend hl hg hw; revert c; decide) hl
  refine c16_blanks_irrelevant _ _ _ _ _ _ h3 hlex ?_ shape
  refine same_prepend (.refl ts) ?_ ?_
  · exact (same_of_alike h5).cons_blanks (g := []) (g' := [_]) blanks_nil (by simp [Blanks, IsBlank])
  · rintro ⟨pre, l, s, gs, rfl, hgs⟩
    have hgs : gs = [] := by
      rcases List.eq_nil_or_concat gs with rfl | ⟨x, y, rfl⟩
      · rfl
      · exact absurd (hgs y (by simp)) (hts y (by
          rw [List.concat_eq_append, ← List.cons_append, ← List.append_assoc, List.getLast?_append]; rfl))
    subst hgs
    have hno : ¬ StartsWithWord us := by
      rintro ⟨gs, l', s', rest, rfl, hgs⟩
      cases gs with
      | nil => exact no_adjacent_words (pre := pre) (by simpa using h3)
      | cons g gs => exact hus g (by simp) (hgs g (by simp))
    refine ⟨hno, ?_⟩
    rintro ⟨gs, l', s', rest, h, hgs⟩
    cases gs with
    | nil => simp at h
    | cons g gs =>
      simp at h
      exact hno (h5.symm.startsWithWord ⟨gs, l', s', rest, h.2, fun t ht => hgs t (by simp [ht])⟩)

/-- C16 in the text: changing the characters of a gap, even inside a name. -/
theorem c16_change_gap (name a b w w' : Str) (ts us : List Token) (l : Location)
    (ha : Lexes (Location.new name) a ts)
    (hl : Lexes (Location.new name) (a ++ (w ++ b)) (ts ++ .gapSeparatorSequence l w :: us))
    (hb : Lexes (lineColumn (Location.new name) (a ++ w)) b us)
    (hw : w' ≠ []) (hg : ∀ c ∈ w', c ∈ gapChars) (shape : List SyntaxRule) :
    (∃ rs, parseStr name (a ++ (w ++ b)) = .ok rs ∧ rs.map forgetLocations = shape) ↔
    (∃ rs, parseStr name (a ++ (w' ++ b)) = .ok rs ∧ rs.map forgetLocations = shape) := by
  obtain ⟨c, w', rfl⟩ := List.exists_cons_of_ne_nil hw
  have hsp : Spelled (.gapSeparatorSequence (lineColumn (Location.new name) a) (c :: w')) (c :: w') :=
    .gapSeparator _ _ _ (hg c (by simp)) (fun d hd => hg d (by simp [hd]))
  obtain ⟨vs, h4, h5⟩ := lexes_relocate hb (lineColumn (lineColumn (Location.new name) a) (c :: w'))
  have hend : Ends (.gapSeparatorSequence (lineColumn (Location.new name) a) (c :: w')) b.head? := by
    cases hb with
    | nil => trivial
    | @cons _ tk s rest tks hsp' _ _ _ =>
      obtain ⟨u, h6, h7⟩ := lexes_adjacent hl rfl
      cases s with
      | nil => exact absurd rfl (spelled_ne_nil hsp')
      | cons x xs =>
        show x ∉ gapChars
        intro hx
        have hgt := spelled_gap_head hsp' hx
        cases tk <;> simp [IsGapToken] at hgt
        cases h6 with
        | gapSeparator _ y ys hy _ => exact h7 hy
  have hlx := Lexes.cons hsp rfl hend h4
  have hlex := lexes_append ha (by
    intro t ht
    have hc := hg c (by simp)
    refine ends_of ?_ ?_ ?_ ?_
    · clear hsp h5 h4 hend hlx hg hw; revert c; decide
    · clear hsp h5 h4 hend hlx hg hw; revert c; decide
    · clear hsp h5 h4 hend hlx hg hw; revert c; decide
    · intro hgt
      exfalso
      obtain ⟨pre, rfl⟩ : ∃ pre, ts = pre ++ [t] := List.getLast?_eq_some_iff.mp ht
      obtain ⟨u, h6, h7⟩ := lexes_adjacent (pre := pre) (t := t) (u := .gapSeparatorSequence l w) (post := us) hl (by simp)
      cases t <;> simp [IsGapToken] at hgt
      cases h6 with
      | gapSeparator _ y ys hy _ => exact h7 hy) hlx
  refine c16_blanks_irrelevant _ _ _ _ _ _ hl hlex ?_ shape
  exact same_of_alike ((AllAlike.refl ts).append (.cons (.gap ..) h5))

/-- A gap inside the name `a b`. -/
example : Lexes (Location.new []) ("a".toList ++ (" ".toList ++ "b".toList))
    ([.metaIdentifier ⟨[], 1, 1⟩ ['a']] ++ .gapSeparatorSequence ⟨[], 1, 2⟩ [' '] ::
      [.metaIdentifier ⟨[], 1, 3⟩ ['b']]) :=
  .cons (s := ['a']) (.metaIdentifier _ 'a' [] (by decide) (by simp)) rfl
    (show ¬ IsLetter ' ' ∧ ¬ IsDigit ' ' by decide)
    (.cons (s := [' ']) (.gapSeparator _ ' ' [] (by decide) (by simp)) rfl (show 'b' ∉ gapChars by decide)
      (.cons (s := ['b']) (.metaIdentifier _ 'b' [] (by decide) (by simp)) rfl trivial (.nil _)))

end Ebnf.Props
