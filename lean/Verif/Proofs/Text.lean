import Verif.Spec.Text
import Verif.Model.Ident

set_option autoImplicit false

/-! # Lemmas about locations and identifiers -/

namespace Ebnf

theorem isGapChar_iff (c : Char) : isGapChar c = true ↔ c ∈ Spec.gapChars := by
  simp [isGapChar, Spec.gapChars, or_assoc]

theorem isGapChar_false_iff (c : Char) : isGapChar c = false ↔ c ∉ Spec.gapChars := by
  rw [← isGapChar_iff]; simp

namespace Location

@[simp] theorem pushStr_nil (l : Location) : l.pushStr [] = l := rfl
@[simp] theorem pushStr_cons (l : Location) (c : Char) (s : Str) :
    l.pushStr (c :: s) = (l.push c).pushStr s := rfl
@[simp] theorem pushStr_append (l : Location) (s t : Str) :
    l.pushStr (s ++ t) = (l.pushStr s).pushStr t := by
  simp [pushStr, List.foldl_append]

@[simp] theorem push_name (l : Location) (c : Char) : (l.push c).name = l.name := by
  unfold push; split <;> rfl
@[simp] theorem pushStr_name (l : Location) (s : Str) : (l.pushStr s).name = l.name := by
  induction s generalizing l with
  | nil => rfl
  | cons c s ih => simp [ih]

theorem pushStr_concat (l : Location) (s : Str) (c : Char) :
    l.pushStr (s ++ [c]) = (l.pushStr s).push c := by simp

theorem lineColumn_concat (l : Location) (s : Str) (c : Char) :
    Spec.lineColumn l (s ++ [c]) = (Spec.lineColumn l s).push c := by
  unfold Spec.lineColumn push
  by_cases h : c = '\n'
  · subst h; simp [List.count_append]; omega
  · by_cases h2 : '\n' ∈ s
    · simp [h, h2, List.count_append]; omega
    · have : ('\n' : Char) ≠ c := fun e => h e.symm
      simp [h, h2, this, List.count_append]; omega

theorem pushStr_eq_lineColumn (l : Location) (s : Str) : l.pushStr s = Spec.lineColumn l s := by
  generalize hr : s.reverse = r
  have hs : s = r.reverse := by rw [← hr]; simp
  subst hs
  clear hr
  induction r with
  | nil => simp [Spec.lineColumn]
  | cons c r ih =>
    rw [List.reverse_cons, pushStr_concat, lineColumn_concat, ih]

theorem push_lines_le (l : Location) (c : Char) : l.lines ≤ (l.push c).lines := by
  unfold push; split <;> simp

theorem pushStr_lines_le (l : Location) (s : Str) : l.lines ≤ (l.pushStr s).lines := by
  induction s generalizing l with
  | nil => simp
  | cons c s ih => exact Nat.le_trans (push_lines_le l c) (ih _)

/-- Strictly later in the text. -/
theorem pushStr_progress (l : Location) (s : Str) (h : s ≠ []) :
    l.lines < (l.pushStr s).lines ∨
      (l.lines = (l.pushStr s).lines ∧ l.columns < (l.pushStr s).columns) := by
  induction s generalizing l with
  | nil => exact absurd rfl h
  | cons c s ih =>
    have h1 : l.lines < (l.push c).lines ∨ (l.lines = (l.push c).lines ∧ l.columns < (l.push c).columns) := by
      unfold push; split <;> simp
    by_cases hs : s = []
    · subst hs; simpa using h1
    · have h2 := ih (l.push c) hs
      simp only [pushStr_cons]
      omega

theorem pushStr_ne (l : Location) (s : Str) (h : s ≠ []) : l.pushStr s ≠ l := by
  intro he
  have := pushStr_progress l s h
  rw [he] at this; omega

/-! ### Order -/

theorem cmpStr_refl (a : Str) : cmpStr a a = .eq := by
  induction a with
  | nil => rfl
  | cons c cs ih => simp [cmpStr, ih]

theorem cmpStr_eq_iff (a b : Str) : cmpStr a b = .eq ↔ a = b := by
  induction a generalizing b with
  | nil => cases b <;> simp [cmpStr]
  | cons c cs ih =>
    cases b with
    | nil => simp [cmpStr]
    | cons d ds =>
      simp only [cmpStr, List.cons.injEq]
      split
      · rename_i h; simp; intro e; subst e; exact absurd h (by simp)
      · split
        · rename_i h; simp; intro e; subst e; exact absurd h (by simp)
        · rename_i h1 h2
          rw [ih]
          have : c = d := by
            apply Char.ext
            have h1' := UInt32.not_lt.mp h1
            have h2' := UInt32.not_lt.mp h2
            exact UInt32.le_antisymm h2' h1'
          simp [this]

theorem cmpStr_swap (a b : Str) : cmpStr a b = (cmpStr b a).swap := by
  induction a generalizing b with
  | nil => cases b <;> simp [cmpStr]
  | cons c cs ih =>
    cases b with
    | nil => simp [cmpStr]
    | cons d ds =>
      simp only [cmpStr]
      by_cases h1 : c.val < d.val
      · have : ¬ d.val < c.val := by rw [UInt32.lt_iff_toNat_lt] at *; omega
        simp [h1, this]
      · by_cases h2 : d.val < c.val
        · simp [h1, h2]
        · simp [h1, h2, ih ds]

theorem cmpStr_lt_trans (a b c : Str) (h1 : cmpStr a b = .lt) (h2 : cmpStr b c = .lt) :
    cmpStr a c = .lt := by
  induction a generalizing b c with
  | nil =>
    cases b <;> cases c <;> simp_all [cmpStr]
  | cons x xs ih =>
    cases b with
    | nil => simp [cmpStr] at h1
    | cons y ys =>
      cases c with
      | nil => simp [cmpStr] at h2
      | cons z zs =>
        simp only [cmpStr, UInt32.lt_iff_toNat_lt] at *
        split at h1
        · split at h2
          · rw [if_pos (by omega)]
          · split at h2
            · simp at h2
            · rw [if_pos (by omega)]
        · split at h1
          · simp at h1
          · split at h2
            · rw [if_pos (by omega)]
            · split at h2
              · simp at h2
              · rw [if_neg (by omega), if_neg (by omega)]
                exact ih _ _ h1 h2

theorem partialCmp_eq_cmp (a b : Location) : partialCmp a b = some (cmp a b) := by
  unfold partialCmp cmp
  by_cases hn : a.name = b.name
  · rw [if_neg (by simpa using hn), hn, cmpStr_refl]
    simp only
    rcases Nat.lt_trichotomy a.lines b.lines with h | h | h
    · simp [Nat.compare_eq_lt.mpr h, h]
    · rw [Nat.compare_eq_eq.mpr h]
      simp only [h, Nat.lt_irrefl, if_false, gt_iff_lt]
      rcases Nat.lt_trichotomy a.columns b.columns with h | h | h
      · simp [Nat.compare_eq_lt.mpr h, h]
      · simp [h]
      · simp [Nat.compare_eq_gt.mpr h, h, Nat.lt_asymm h]
    · simp [Nat.compare_eq_gt.mpr h, h, Nat.lt_asymm h]
  · rw [if_pos hn]
    have : cmpStr a.name b.name ≠ .eq := fun h => hn ((cmpStr_eq_iff _ _).mp h)
    cases h : cmpStr a.name b.name <;> simp_all

theorem lt_iff (a b : Location) : a.lt b = true ↔ cmp a b = .lt := by
  simp [lt, partialCmp_eq_cmp]

/-- Comparison of two locations of the same stream. -/
theorem cmp_same_name (a b : Location) (h : a.name = b.name) :
    cmp a b = .lt ↔ (a.lines < b.lines ∨ (a.lines = b.lines ∧ a.columns < b.columns)) := by
  unfold cmp
  rw [if_neg (by simpa using h)]
  by_cases h1 : a.lines < b.lines
  · simp [h1]
  · by_cases h2 : a.lines > b.lines
    · simp [h1, h2]; omega
    · have : a.lines = b.lines := by omega
      by_cases h3 : a.columns < b.columns
      · simp [this, h3]
      · by_cases h4 : a.columns > b.columns
        · simp [this, h3, h4]
        · simp [this, h3, h4]

theorem cmp_eq_iff (a b : Location) : cmp a b = .eq ↔ a = b := by
  have h := partialCmp_eq_cmp a b
  rw [← Option.some.injEq (cmp a b), ← h]
  unfold partialCmp
  rw [Option.some.injEq]
  cases hn : cmpStr a.name b.name with
  | eq =>
    have hn' := (cmpStr_eq_iff _ _).mp hn
    cases hl : compare a.lines b.lines with
    | eq =>
      have hl' := Nat.compare_eq_eq.mp hl
      constructor
      · intro hc; have hc' := Nat.compare_eq_eq.mp hc
        cases a; cases b; simp_all
      · intro e; subst e; simp
    | lt => simp; intro e; subst e; simp at hl
    | gt => simp; intro e; subst e; simp at hl
  | lt => simp; intro e; subst e; simp [cmpStr_refl] at hn
  | gt => simp; intro e; subst e; simp [cmpStr_refl] at hn

theorem cmp_swap (a b : Location) : cmp b a = (cmp a b).swap := by
  unfold cmp
  by_cases hn : a.name = b.name
  · have h1 : ¬ (b.name ≠ a.name) := by simp [hn]
    have h2 : ¬ (a.name ≠ b.name) := by simp [hn]
    rw [if_neg h1, if_neg h2]
    rcases Nat.lt_trichotomy a.lines b.lines with h | h | h
    · simp [h, Nat.lt_asymm h]
    · rcases Nat.lt_trichotomy a.columns b.columns with h' | h' | h'
      · simp [h, h', Nat.lt_asymm h']
      · simp [h, h']
      · simp [h, h', Nat.lt_asymm h']
    · simp [h, Nat.lt_asymm h]
  · rw [if_pos hn, if_pos (fun h => hn h.symm), cmpStr_swap]

theorem cmp_lt_trans (a b c : Location) (h1 : cmp a b = .lt) (h2 : cmp b c = .lt) : cmp a c = .lt := by
  by_cases hab : a.name = b.name
  · by_cases hbc : b.name = c.name
    · rw [cmp_same_name _ _ hab] at h1
      rw [cmp_same_name _ _ hbc] at h2
      rw [cmp_same_name _ _ (hab.trans hbc)]; omega
    · unfold cmp at h2 ⊢
      rw [if_pos hbc] at h2
      rw [if_pos (hab ▸ hbc), hab]; exact h2
  · by_cases hbc : b.name = c.name
    · unfold cmp at h1 ⊢
      rw [if_pos hab] at h1
      rw [if_pos (hbc ▸ hab), ← hbc]; exact h1
    · unfold cmp at h1 h2 ⊢
      rw [if_pos hab] at h1
      rw [if_pos hbc] at h2
      have h3 := cmpStr_lt_trans _ _ _ h1 h2
      rw [if_pos, h3]
      intro e; rw [e, cmpStr_refl] at h3; cases h3

end Location

/-! ### Identifiers -/

theorem keyed_append (s t : Str) :
    keyedMetaIdentifier (s ++ t) = keyedMetaIdentifier s ++ keyedMetaIdentifier t := by
  simp [keyedMetaIdentifier]

theorem keyed_gaps (g : Str) (h : ∀ c ∈ g, c ∈ Spec.gapChars) : keyedMetaIdentifier g = [] := by
  simp only [keyedMetaIdentifier, List.filter_eq_nil_iff]
  intro c hc; simp [(isGapChar_iff c).mpr (h c hc)]

theorem keyed_word (w : Str) (h : ∀ c ∈ w, c ∉ Spec.gapChars) : keyedMetaIdentifier w = w := by
  simp only [keyedMetaIdentifier, List.filter_eq_self]
  intro c hc; simp [(isGapChar_false_iff c).mpr (h c hc)]

/-- The accumulator of the normalisation loop only grows. -/
theorem normalizeLoop_acc (s acc : Str) (ws : Bool) :
    normalizeLoop s acc ws = (acc ++ (normalizeLoop s [] ws).1, (normalizeLoop s [] ws).2) := by
  induction s generalizing acc ws with
  | nil => simp [normalizeLoop]
  | cons c s ih =>
    simp only [normalizeLoop]
    split
    · split
      · rw [ih (acc ++ [' ']), ih ([] ++ [' '])]; simp
      · rw [ih acc]
    · rw [ih (acc ++ [c]), ih ([] ++ [c])]; simp

theorem normalizeLoop_gaps (g s acc : Str) (h : ∀ c ∈ g, c ∈ Spec.gapChars) :
    normalizeLoop (g ++ s) acc true = normalizeLoop s acc true := by
  induction g with
  | nil => rfl
  | cons c g ih =>
    simp only [List.cons_append, normalizeLoop]
    rw [if_pos ((isGapChar_iff c).mpr (h c (by simp)))]
    simp [ih (fun c hc => h c (by simp [hc]))]

theorem normalizeLoop_word (w s acc : Str) (ws : Bool) (hw : w ≠ []) (h : ∀ c ∈ w, c ∉ Spec.gapChars) :
    normalizeLoop (w ++ s) acc ws = normalizeLoop s (acc ++ w) false := by
  induction w generalizing acc ws with
  | nil => exact absurd rfl hw
  | cons c w ih =>
    simp only [List.cons_append, normalizeLoop]
    rw [if_neg (by simp [(isGapChar_false_iff c).mpr (h c (by simp))])]
    by_cases hw' : w = []
    · subst hw'; simp
    · rw [ih _ _ hw' (fun c hc => h c (by simp [hc]))]; simp

/-- What the loop computes from a state in which a word has just been read. -/
theorem normalizeLoop_after_word {s : Str} {ws : List Str} (hs : Spec.SplitsInto s ws)
    (hh : ∀ c, s.head? = some c → c ∈ Spec.gapChars) :
    (s = [] ∧ ws = []) ∨ normalizeLoop s [] false = (' ' :: (normalizeLoop s [] true).1, (normalizeLoop s [] true).2) := by
  cases s with
  | nil =>
    left; refine ⟨rfl, ?_⟩
    generalize hn : ([] : Str) = n at hs
    cases hs with
    | gaps _ => rfl
    | word _ hw _ _ _ => simp at hn; exact absurd hn.2.1 hw
  | cons c s =>
    right
    have hc := (isGapChar_iff c).mpr (hh c rfl)
    simp only [normalizeLoop, hc, if_true]
    simp
    rw [normalizeLoop_acc s [' ']]; simp

theorem normalizeLoop_true_spec {s : Str} {ws : List Str} (hs : Spec.SplitsInto s ws) :
    ∃ b : Bool, normalizeLoop s [] true = (Spec.joinSpace ws ++ (if b = true ∧ ws ≠ [] then [' '] else []), b || ws.isEmpty) := by
  induction hs with
  | gaps h =>
    rename_i g
    refine ⟨true, ?_⟩
    have := normalizeLoop_gaps g [] [] h
    simp at this; rw [this]; simp [normalizeLoop, Spec.joinSpace]
  | word hg hw hn hh hr ih =>
    rename_i g w rest ws
    rw [List.append_assoc, normalizeLoop_gaps _ _ _ hg, normalizeLoop_word _ _ _ _ hw hn]
    rw [List.nil_append, normalizeLoop_acc]
    rcases normalizeLoop_after_word hr hh with ⟨h1, h2⟩ | h
    · subst h1 h2
      exact ⟨false, by simp [normalizeLoop, Spec.joinSpace]⟩
    · obtain ⟨b, hb⟩ := ih
      rw [h, hb]
      by_cases hws : ws = []
      · subst hws
        exact ⟨true, by simp [Spec.joinSpace]⟩
      · refine ⟨b, ?_⟩
        obtain ⟨w', ws', rfl⟩ : ∃ w' ws', ws = w' :: ws' := by
          cases ws with
          | nil => exact absurd rfl hws
          | cons a b => exact ⟨a, b, rfl⟩
        simp [Spec.joinSpace]

theorem splitsInto_word_nonempty {s : Str} {ws : List Str} (hs : Spec.SplitsInto s ws) :
    ∀ w ∈ ws, w ≠ [] ∧ ∀ c ∈ w, c ∉ Spec.gapChars := by
  induction hs with
  | gaps h => simp
  | word hg hw hn hh hr ih =>
    intro w' hw'
    rcases List.mem_cons.mp hw' with rfl | h
    · exact ⟨hw, hn⟩
    · exact ih _ h

theorem joinSpace_ne_nil {ws : List Str} (h : ∀ w ∈ ws, w ≠ []) (hne : ws ≠ []) :
    Spec.joinSpace ws ≠ [] := by
  cases ws with
  | nil => exact absurd rfl hne
  | cons w ws =>
    have := h w (by simp)
    cases ws with
    | nil => simpa [Spec.joinSpace]
    | cons w' ws => simp [Spec.joinSpace]

theorem normalized_of_splits {s : Str} {ws : List Str} (hs : Spec.SplitsInto s ws) :
    normalizedMetaIdentifier s = Spec.joinSpace ws := by
  obtain ⟨b, hb⟩ := normalizeLoop_true_spec hs
  simp only [normalizedMetaIdentifier, hb]
  by_cases hws : ws = []
  · subst hws; simp [Spec.joinSpace]
  · cases b
    · simp [hws]
    · simp [hws]

theorem splits_exists (s : Str) : ∃ ws, Spec.SplitsInto s ws := by
  generalize hn : s.length = n
  induction n using Nat.strongRecOn generalizing s with
  | _ n ih =>
    -- leading gaps, then the word, then the rest
    let g := s.takeWhile isGapChar
    let s1 := s.dropWhile isGapChar
    let w := s1.takeWhile (fun c => !isGapChar c)
    let rest := s1.dropWhile (fun c => !isGapChar c)
    have e1 : g ++ s1 = s := List.takeWhile_append_dropWhile
    have e2 : w ++ rest = s1 := List.takeWhile_append_dropWhile
    have hg : ∀ c ∈ g, c ∈ Spec.gapChars := fun c hc =>
      (isGapChar_iff c).mp (List.all_eq_true.mp (List.all_takeWhile (p := isGapChar) (l := s)) c hc)
    have hw : ∀ c ∈ w, c ∉ Spec.gapChars := fun c hc => by
      have := List.all_eq_true.mp (List.all_takeWhile (p := fun c => !isGapChar c) (l := s1)) c hc
      exact (isGapChar_false_iff c).mp (by simpa using this)
    by_cases hs1 : s1 = []
    · refine ⟨[], .gaps ?_⟩
      rw [← e1, hs1]; simpa using hg
    · have hwne : w ≠ [] := by
        intro h
        cases hs : s1 with
        | nil => exact hs1 hs
        | cons c cs =>
          have hc : ¬ (isGapChar c = true) := by
            have := List.head?_dropWhile_not (p := isGapChar) s
            simp only [show s.dropWhile isGapChar = s1 from rfl, hs] at this
            simpa using this
          simp [w, hs, hc] at h
      have hlen : rest.length < n := by
        have h1 : w.length + rest.length = s1.length := by rw [← List.length_append, e2]
        have h2 : g.length + s1.length = s.length := by rw [← List.length_append, e1]
        have h3 : 0 < w.length := List.length_pos_iff.mpr hwne
        omega
      obtain ⟨ws, hws⟩ := ih _ hlen rest rfl
      refine ⟨w :: ws, ?_⟩
      have hh : ∀ c, rest.head? = some c → c ∈ Spec.gapChars := by
        intro c hc
        have := List.head?_dropWhile_not (p := fun c => !isGapChar c) s1
        simp only [show s1.dropWhile (fun c => !isGapChar c) = rest from rfl, hc] at this
        exact (isGapChar_iff c).mp (by simpa using this)
      have := Spec.SplitsInto.word hg hwne hw hh hws
      rwa [List.append_assoc, e2, e1] at this

theorem splits_joinSpace {ws : List Str} (h : ∀ w ∈ ws, w ≠ [] ∧ ∀ c ∈ w, c ∉ Spec.gapChars) :
    Spec.SplitsInto (Spec.joinSpace ws) ws := by
  induction ws with
  | nil => exact .gaps (by simp [Spec.joinSpace])
  | cons w ws ih =>
    have hw := h w (by simp)
    have ih := ih (fun w' hw' => h w' (by simp [hw']))
    cases ws with
    | nil =>
      have := Spec.SplitsInto.word (g := []) (w := w) (rest := []) (ws := []) (by simp) hw.1 hw.2
        (by simp) (.gaps (by simp))
      simpa [Spec.joinSpace] using this
    | cons w' ws =>
      have hcons : Spec.SplitsInto (' ' :: Spec.joinSpace (w' :: ws)) (w' :: ws) := by
        generalize hj : Spec.joinSpace (w' :: ws) = j at ih
        generalize hq : w' :: ws = q at ih
        cases ih with
        | gaps _ => simp at hq
        | word hg hw hn hh hr =>
          rename_i g v rest vs
          have := Spec.SplitsInto.word (g := ' ' :: g) (w := v) (rest := rest) (ws := vs)
            (by intro c hc; rcases List.mem_cons.mp hc with rfl | hc; · simp [Spec.gapChars]
                · exact hg c hc) hw hn hh hr
          simpa using this
      have := Spec.SplitsInto.word (g := []) (w := w) (rest := ' ' :: Spec.joinSpace (w' :: ws))
        (by simp) hw.1 hw.2 (by simp [Spec.gapChars]) hcons
      simpa [Spec.joinSpace] using this

theorem normalized_idem (s : Str) :
    normalizedMetaIdentifier (normalizedMetaIdentifier s) = normalizedMetaIdentifier s := by
  obtain ⟨ws, hws⟩ := splits_exists s
  rw [normalized_of_splits hws]
  exact normalized_of_splits (splits_joinSpace (splitsInto_word_nonempty hws))

theorem keyed_joinSpace {ws : List Str} (h : ∀ w ∈ ws, ∀ c ∈ w, c ∉ Spec.gapChars) :
    keyedMetaIdentifier (Spec.joinSpace ws) = ws.flatten := by
  induction ws with
  | nil => rfl
  | cons w ws ih =>
    have hw := keyed_word w (h w (by simp))
    have ih := ih (fun w' hw' => h w' (by simp [hw']))
    cases ws with
    | nil => simp [Spec.joinSpace, hw]
    | cons w' ws =>
      rw [Spec.joinSpace, keyed_append, hw]
      have : keyedMetaIdentifier (' ' :: Spec.joinSpace (w' :: ws)) = keyedMetaIdentifier (Spec.joinSpace (w' :: ws)) := by
        simp [keyedMetaIdentifier, isGapChar]
      rw [this, ih]; simp
      simp

theorem keyed_of_splits {s : Str} {ws : List Str} (hs : Spec.SplitsInto s ws) :
    keyedMetaIdentifier s = ws.flatten := by
  induction hs with
  | gaps h => simpa using keyed_gaps _ h
  | word hg hw hn hh hr ih =>
    rw [keyed_append, keyed_append, keyed_gaps _ hg, keyed_word _ hn, ih]; simp

theorem keyed_normalized (s : Str) :
    keyedMetaIdentifier (normalizedMetaIdentifier s) = keyedMetaIdentifier s := by
  obtain ⟨ws, hws⟩ := splits_exists s
  rw [normalized_of_splits hws, keyed_of_splits hws,
    keyed_joinSpace (fun w hw => (splitsInto_word_nonempty hws w hw).2)]

theorem keyed_idem (s : Str) : keyedMetaIdentifier (keyedMetaIdentifier s) = keyedMetaIdentifier s := by
  simp [keyedMetaIdentifier]


theorem keyed_differs {s t : Str} (h : Spec.DiffersInGaps s t) :
    keyedMetaIdentifier s = keyedMetaIdentifier t := by
  induction h with
  | refl => rfl
  | insert pre post g hg _ ih =>
    have := (isGapChar_iff g).mpr hg
    rw [ih]; simp [keyedMetaIdentifier, this]
  | delete pre post g hg _ ih =>
    have := (isGapChar_iff g).mpr hg
    rw [ih]; simp [keyedMetaIdentifier, this]

theorem differs_trans {s t u : Str} (h : Spec.DiffersInGaps s t) (h' : Spec.DiffersInGaps t u) :
    Spec.DiffersInGaps s u := by
  induction h' with
  | refl => exact h
  | insert pre post g hg _ ih => exact .insert pre post g hg ih
  | delete pre post g hg _ ih => exact .delete pre post g hg ih

theorem differs_to_keyed (pre s : Str) :
    Spec.DiffersInGaps (pre ++ s) (pre ++ keyedMetaIdentifier s) := by
  induction s generalizing pre with
  | nil => exact .refl _
  | cons c s ih =>
    by_cases hc : isGapChar c = true
    · have h1 : Spec.DiffersInGaps (pre ++ c :: s) (pre ++ s) :=
        .delete pre s c ((isGapChar_iff c).mp hc) (.refl _)
      have : keyedMetaIdentifier (c :: s) = keyedMetaIdentifier s := by simp [keyedMetaIdentifier, hc]
      rw [this]; exact differs_trans h1 (ih pre)
    · have : keyedMetaIdentifier (c :: s) = c :: keyedMetaIdentifier s := by
        simp [keyedMetaIdentifier, hc]
      rw [this]
      have := ih (pre ++ [c])
      simpa using this

theorem differs_from_keyed (pre s : Str) :
    Spec.DiffersInGaps (pre ++ keyedMetaIdentifier s) (pre ++ s) := by
  induction s generalizing pre with
  | nil => exact .refl _
  | cons c s ih =>
    by_cases hc : isGapChar c = true
    · have : keyedMetaIdentifier (c :: s) = keyedMetaIdentifier s := by simp [keyedMetaIdentifier, hc]
      rw [this]
      exact .insert pre s c ((isGapChar_iff c).mp hc) (ih pre)
    · have : keyedMetaIdentifier (c :: s) = c :: keyedMetaIdentifier s := by
        simp [keyedMetaIdentifier, hc]
      rw [this]
      have := ih (pre ++ [c])
      simpa using this

theorem keyed_eq_iff (s t : Str) :
    keyedMetaIdentifier s = keyedMetaIdentifier t ↔ Spec.DiffersInGaps s t := by
  refine ⟨fun h => ?_, keyed_differs⟩
  have h1 := differs_to_keyed [] s
  have h2 := differs_from_keyed [] t
  rw [List.nil_append, List.nil_append] at h1 h2
  rw [h] at h1
  exact differs_trans h1 h2

theorem joinSpace_head {w : Str} {ws : List Str} :
    ∃ r, Spec.joinSpace (w :: ws) = w ++ r ∧ (∀ c, r.head? = some c → c = ' ') := by
  cases ws with
  | nil => exact ⟨[], by simp [Spec.joinSpace]⟩
  | cons v vs => exact ⟨' ' :: Spec.joinSpace (v :: vs), by simp [Spec.joinSpace]⟩

theorem joinSpace_injective {ws vs : List Str}
    (h : ∀ w ∈ ws, w ≠ [] ∧ ∀ c ∈ w, c ∉ Spec.gapChars)
    (h' : ∀ w ∈ vs, w ≠ [] ∧ ∀ c ∈ w, c ∉ Spec.gapChars)
    (e : Spec.joinSpace ws = Spec.joinSpace vs) : ws = vs := by
  have word_eq : ∀ (w v r q : Str), (∀ c ∈ w, c ∉ Spec.gapChars) → (∀ c ∈ v, c ∉ Spec.gapChars) →
      (∀ c, r.head? = some c → c = ' ') → (∀ c, q.head? = some c → c = ' ') → w ++ r = v ++ q →
      w = v ∧ r = q := by
    intro w
    induction w with
    | nil =>
      intro v r q _ hv hr hq e
      cases v with
      | nil => exact ⟨rfl, by simpa using e⟩
      | cons c v =>
        simp at e; subst e
        have := hr c (by simp)
        subst this
        exact absurd (by simp [Spec.gapChars]) (hv ' ' (by simp))
    | cons a w ih =>
      intro v r q hw hv hr hq e
      cases v with
      | nil =>
        simp at e; subst e
        have := hq a (by simp)
        subst this
        exact absurd (by simp [Spec.gapChars]) (hw ' ' (by simp))
      | cons c v =>
        simp only [List.cons_append, List.cons.injEq] at e
        obtain ⟨rfl, e⟩ := e
        obtain ⟨rfl, rfl⟩ := ih v r q (fun c hc => hw c (by simp [hc])) (fun c hc => hv c (by simp [hc]))
          hr hq e
        exact ⟨rfl, rfl⟩
  induction ws generalizing vs with
  | nil =>
    cases vs with
    | nil => rfl
    | cons v vs =>
      exact absurd e.symm (joinSpace_ne_nil (fun w hw => (h' w hw).1) (by simp))
  | cons w ws ih =>
    cases vs with
    | nil => exact absurd e (joinSpace_ne_nil (fun w hw => (h w hw).1) (by simp))
    | cons v vs =>
      have hw := h w (by simp)
      have hv := h' v (by simp)
      have hws : ∀ w ∈ ws, w ≠ [] ∧ ∀ c ∈ w, c ∉ Spec.gapChars := fun x hx => h x (by simp [hx])
      have hvs : ∀ w ∈ vs, w ≠ [] ∧ ∀ c ∈ w, c ∉ Spec.gapChars := fun x hx => h' x (by simp [hx])
      cases ws with
      | nil =>
        cases vs with
        | nil => simpa [Spec.joinSpace] using e
        | cons v' vs =>
          obtain ⟨_, h2⟩ := word_eq w v [] (' ' :: Spec.joinSpace (v' :: vs)) hw.2 hv.2 (by simp) (by simp)
            (by simpa [Spec.joinSpace] using e)
          simp at h2
      | cons w' ws =>
        cases vs with
        | nil =>
          obtain ⟨_, h2⟩ := word_eq w v (' ' :: Spec.joinSpace (w' :: ws)) [] hw.2 hv.2 (by simp) (by simp)
            (by simpa [Spec.joinSpace] using e)
          simp at h2
        | cons v' vs =>
          obtain ⟨h1, h2⟩ := word_eq w v (' ' :: Spec.joinSpace (w' :: ws)) (' ' :: Spec.joinSpace (v' :: vs))
            hw.2 hv.2 (by simp) (by simp) (by simpa [Spec.joinSpace] using e)
          rw [h1, ih hws hvs (by simpa using h2)]

theorem splits_unique {s : Str} {ws vs : List Str} (h : Spec.SplitsInto s ws)
    (h' : Spec.SplitsInto s vs) : ws = vs :=
  joinSpace_injective (splitsInto_word_nonempty h) (splitsInto_word_nonempty h')
    ((normalized_of_splits h).symm.trans (normalized_of_splits h'))

theorem joinSpace_tidy {ws : List Str} (h : ∀ w ∈ ws, w ≠ [] ∧ ∀ c ∈ w, c ∉ Spec.gapChars) :
    (∀ c, (Spec.joinSpace ws).head? = some c → c ∉ Spec.gapChars) ∧
    (∀ c, (Spec.joinSpace ws).getLast? = some c → c ∉ Spec.gapChars) ∧
    (∀ pre a b post, Spec.joinSpace ws = pre ++ a :: b :: post →
      ¬ (a ∈ Spec.gapChars ∧ b ∈ Spec.gapChars)) ∧
    (∀ c ∈ Spec.joinSpace ws, c ∈ Spec.gapChars → c = ' ') := by
  induction ws with
  | nil => simp [Spec.joinSpace]
  | cons w ws ih =>
    obtain ⟨hne, hw⟩ := h w (by simp)
    have hws : ∀ w ∈ ws, w ≠ [] ∧ ∀ c ∈ w, c ∉ Spec.gapChars := fun x hx => h x (by simp [hx])
    obtain ⟨i1, i2, i3, i4⟩ := ih hws
    have hhead : ∀ r : Str, ∀ c, (w ++ r).head? = some c → c ∉ Spec.gapChars := by
      intro r c hc
      cases w with
      | nil => exact absurd rfl hne
      | cons a w => simp at hc; subst hc; exact hw a (by simp)
    cases ws with
    | nil =>
      simp only [Spec.joinSpace] at *
      refine ⟨by simpa using hhead [], fun c hc => hw c (List.mem_of_getLast? hc), ?_, fun c hc hg => absurd hg (hw c hc)⟩
      intro pre a b post e hab
      exact hw a (by rw [e]; simp) hab.1
    | cons w' ws =>
      have hj : Spec.joinSpace (w :: w' :: ws) = w ++ ' ' :: Spec.joinSpace (w' :: ws) := rfl
      have hjn : Spec.joinSpace (w' :: ws) ≠ [] := joinSpace_ne_nil (fun w hw => (hws w hw).1) (by simp)
      rw [hj]
      refine ⟨hhead _, ?_, ?_, ?_⟩
      · intro c hc
        rw [List.getLast?_append, List.getLast?_cons] at hc
        apply i2 c
        cases hl : (Spec.joinSpace (w' :: ws)).getLast? with
        | none => exact absurd (List.getLast?_eq_none_iff.mp hl) hjn
        | some d => simpa [hl] using hc
      · intro pre a b post e hab
        rw [List.append_eq_append_iff] at e
        rcases e with ⟨as, h1, h2⟩ | ⟨bs, h1, h2⟩
        · cases as with
          | nil =>
            simp at h2
            exact i1 b (by rw [h2.2]; simp) hab.2
          | cons x xs =>
            simp only [List.cons_append, List.cons.injEq] at h2
            exact i3 xs a b post h2.2 hab
        · cases bs with
          | nil =>
            simp at h2
            exact i1 b (by rw [← h2.2]; simp) hab.2
          | cons x xs =>
            simp only [List.cons_append, List.cons.injEq] at h2
            exact hw a (by rw [h1, h2.1]; simp) hab.1
      · intro c hc hg
        rcases List.mem_append.mp hc with h1 | h1
        · exact absurd hg (hw c h1)
        · rcases List.mem_cons.mp h1 with h2 | h2
          · exact h2
          · exact i4 c h2 hg

end Ebnf
