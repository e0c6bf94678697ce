import Verif.Proofs.Text

set_option autoImplicit false

/-! # C18, C19, C32: identifiers and locations -/

namespace Ebnf

/-! ## C18 Normal form of meta-identifiers -/

/-- C18: the normal form is the maximal non-gap words joined by single spaces. -/
theorem c18_normal_form (s : Str) (ws : List Str) (h : Spec.SplitsInto s ws) :
    normalizedMetaIdentifier s = Spec.joinSpace ws := normalized_of_splits h

/-- C18: every string splits into words, so the previous theorem determines the function. -/
theorem c18_normal_form_total (s : Str) : ∃ ws, Spec.SplitsInto s ws := splits_exists s

/-- C18: the decomposition into words is unique. -/
theorem c18_words_unique (s : Str) (ws vs : List Str) (h : Spec.SplitsInto s ws)
    (h' : Spec.SplitsInto s vs) : ws = vs := splits_unique h h'

/-- C18: normalising twice is normalising once. -/
theorem c18_idempotent (s : Str) :
    normalizedMetaIdentifier (normalizedMetaIdentifier s) = normalizedMetaIdentifier s :=
  normalized_idem s

/-- C18: no leading, trailing or doubled gap; the only gap character left is the space. -/
theorem c18_no_extra_gaps (s : Str) :
    (∀ c, (normalizedMetaIdentifier s).head? = some c → c ∉ Spec.gapChars) ∧
    (∀ c, (normalizedMetaIdentifier s).getLast? = some c → c ∉ Spec.gapChars) ∧
    (∀ pre a b post, normalizedMetaIdentifier s = pre ++ a :: b :: post →
      ¬ (a ∈ Spec.gapChars ∧ b ∈ Spec.gapChars)) ∧
    (∀ c ∈ normalizedMetaIdentifier s, c ∈ Spec.gapChars → c = ' ') := by
  obtain ⟨ws, hws⟩ := splits_exists s
  rw [normalized_of_splits hws]
  exact joinSpace_tidy (splitsInto_word_nonempty hws)

example : Spec.SplitsInto " ab \t c\n".toList ["ab".toList, "c".toList] :=
  .word (g := [' ']) (w := ['a', 'b']) (rest := " \t c\n".toList) (by decide) (by decide) (by decide)
    (by decide)
    (.word (g := " \t ".toList) (w := ['c']) (rest := ['\n']) (by decide) (by decide) (by decide)
      (by decide) (.gaps (by decide)))

example : normalizedMetaIdentifier " ab \t c\n".toList = "ab c".toList := by decide

/-! ## C19 Search keys -/

/-- C19: the key is the argument without its gap characters: same other characters, same order. -/
theorem c19_key_deletes_gaps (s : Str) :
    (∀ c ∈ keyedMetaIdentifier s, c ∉ Spec.gapChars) ∧ (keyedMetaIdentifier s).Sublist s ∧
    (∀ c, c ∉ Spec.gapChars → (keyedMetaIdentifier s).count c = s.count c) := by
  refine ⟨fun c hc => ?_, List.filter_sublist, fun c hc => ?_⟩
  · have := (List.mem_filter.mp hc).2
    exact (isGapChar_false_iff c).mp (by simpa using this)
  · exact List.count_filter (by simp [(isGapChar_false_iff c).mpr hc])

/-- C19: same key iff one is obtained from the other by inserting and deleting gap characters. -/
theorem c19_same_key_iff (s t : Str) :
    keyedMetaIdentifier s = keyedMetaIdentifier t ↔ Spec.DiffersInGaps s t := keyed_eq_iff s t

/-- C19: an identifier and its normal form have the same key. -/
theorem c19_key_of_normal_form (s : Str) :
    keyedMetaIdentifier (normalizedMetaIdentifier s) = keyedMetaIdentifier s := keyed_normalized s

/-- C19: the key of a key is the key. -/
theorem c19_key_idempotent (s : Str) :
    keyedMetaIdentifier (keyedMetaIdentifier s) = keyedMetaIdentifier s := keyed_idem s

example : Spec.DiffersInGaps "a b".toList "ab\n".toList :=
  .insert "ab".toList [] '\n' (by decide) (.delete ['a'] ['b'] ' ' (by decide) (.refl _))

/-! ## C32 Locations -/

/-- C32: `Ord::cmp` is a total order: equality exactly on equal locations, antisymmetric, transitive. -/
theorem c32_total_order :
    (∀ a b : Location, Location.cmp a b = .eq ↔ a = b) ∧
    (∀ a b : Location, Location.cmp b a = (Location.cmp a b).swap) ∧
    (∀ a b c : Location, Location.cmp a b = .lt → Location.cmp b c = .lt → Location.cmp a c = .lt) :=
  ⟨Location.cmp_eq_iff, Location.cmp_swap, Location.cmp_lt_trans⟩

/-- C32: the derived `PartialOrd` agrees with `Ord`. -/
theorem c32_partial_ord_agrees (a b : Location) :
    Location.partialCmp a b = some (Location.cmp a b) ∧ (a.lt b = true ↔ Location.cmp a b = .lt) :=
  ⟨Location.partialCmp_eq_cmp a b, Location.lt_iff a b⟩

/-- C32: a location advanced over a text is the line and column reached. -/
theorem c32_tracks_text (start : Location) (text : Str) :
    start.pushStr text = Spec.lineColumn start text := Location.pushStr_eq_lineColumn start text

/-- C32: of two positions of the same text the later one is strictly greater. -/
theorem c32_later_is_greater (start : Location) (pre more : Str) (h : more ≠ []) :
    Location.cmp (Spec.lineColumn start pre) (Spec.lineColumn start (pre ++ more)) = .lt := by
  rw [← Location.pushStr_eq_lineColumn, ← Location.pushStr_eq_lineColumn, Location.pushStr_append,
    Location.cmp_same_name _ _ (by simp)]
  exact Location.pushStr_progress _ _ h

example : Spec.lineColumn (Location.new ['f']) "ab\ncd".toList = ⟨['f'], 2, 3⟩ := by decide
example : Location.cmp ⟨['f'], 2, 3⟩ ⟨['f'], 10, 1⟩ = .lt := by decide
example : Location.cmp ⟨['f'], 2, 3⟩ ⟨['f', 'g'], 1, 1⟩ = .lt := by decide

end Ebnf
