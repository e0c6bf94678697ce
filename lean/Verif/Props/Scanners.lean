import Verif.Proofs.Running

set_option autoImplicit false

/-! # C48, C49: the scanners of the library -/

namespace Ebnf.Props

open Ebnf Ebnf.Spec

variable {dbg : Bool}

private theorem observed {r : Reader} {c : Cursor} (h : Rep r c) : Observed r c.location c.rest := by
  refine ⟨?_, fun n => ?_⟩
  · simp only [perform, Reader.location, answer, h.loc]
  · obtain ⟨r', h1, _⟩ := peek_at (dbg := r.buffer.dbg) ⟨h, rfl⟩ n
    simp only [perform, h1, answer]

private theorem observed_advance {r : Reader} {c : Cursor} {n : Nat} {own : List (Nat × Nat)} (hn : n ≤ c.rest.length)
    (h : Rep r { c.advance n with marks := own ++ c.marks }) :
    Observed r (lineColumn c.location (c.rest.take n)) (c.rest.drop n) := by
  have := observed h
  have e1 : ({ c.advance n with marks := own ++ c.marks } : Cursor).location = (c.advance n).location := rfl
  have e2 : ({ c.advance n with marks := own ++ c.marks } : Cursor).rest = (c.advance n).rest := rfl
  rw [e1, e2, loc_advance hn, rest_advance] at this
  exact this

theorem isGreedyRun (allowed : Char → Bool) (max : Option Nat) (text : Str) :
    IsGreedyRun allowed max text (greedyRun allowed max text) := by
  have hp : greedyRun allowed max text <+: text.takeWhile allowed := by
    cases max with
    | none => exact List.prefix_refl _
    | some k => exact List.take_prefix _ _
  have hw : ∀ run', run' <+: text → (∀ ch ∈ run', allowed ch = true) → run' <+: text.takeWhile allowed := by
    intro run'
    induction run' generalizing text with
    | nil => intro _ _; exact List.nil_prefix
    | cons x xs ih =>
      intro h1 h2
      obtain ⟨t, rfl⟩ := h1
      simp only [List.cons_append, List.takeWhile_cons, h2 x (by simp), if_true]
      have h3 : xs <+: (xs ++ t).takeWhile allowed := ih (xs ++ t) (by cases max <;> simp [greedyRun, List.take_prefix])
        (List.prefix_append _ _) (fun ch hc => h2 ch (by simp [hc]))
      obtain ⟨u, hu⟩ := h3
      exact ⟨u, by simp [hu]⟩
  refine ⟨hp.trans (List.takeWhile_prefix _), ?_, ?_, ?_⟩
  · intro ch hc
    exact List.all_eq_true.mp List.all_takeWhile ch (hp.subset hc)
  · intro m hm; subst hm; simp [greedyRun]; omega
  · intro run' h1 h2 h3
    have h4 := (hw run' h1 h2).length_le
    cases max with
    | none => exact h4
    | some k =>
      have := h3 k rfl
      simp only [greedyRun, List.length_take]; omega

private theorem isGreedyRun_unique {allowed : Char → Bool} {max : Option Nat} {text run run' : Str}
    (h : IsGreedyRun allowed max text run) (h' : IsGreedyRun allowed max text run') : run = run' := by
  have h1 := h.longest run' h'.isPrefix h'.onlyAllowed h'.atMost
  have h2 := h'.longest run h.isPrefix h.onlyAllowed h.atMost
  exact (List.prefix_of_prefix_length_le h.isPrefix h'.isPrefix (by omega)).eq_of_length (by omega)

/-! ## C48 -/

/-- C48: when the longest run of allowed characters, up to `max`, has at least `min` characters, `CharsScanner` matches,
reports it as one token at the place where it starts, and leaves the reader behind it. -/
theorem c48_match (allowed : Char → Bool) (min max : Option Nat) (definition : Location) {r : Reader} {here : Location}
    {text run : Str} (hi : InputAt dbg r here text) (hg : IsGreedyRun allowed max text run)
    (hmin : ∀ m, min = some m → m ≤ run.length) :
    ∃ r', (charsScanner allowed min max).scan definition r = (.ok (.match [.token definition here run]), r') ∧
      Observed r' (lineColumn here run) (text.drop run.length) := by
  obtain ⟨c, hs, rfl, rfl⟩ := input_stands hi
  have := isGreedyRun_unique hg (isGreedyRun allowed max c.rest)
  subst this
  have h := chars_tidily allowed min max definition r c hs.1 hs.2
  unfold charsRecognizer at h
  simp only at h
  rw [if_neg (by
    rintro ⟨m, h1, h2⟩
    have := hmin m h1
    omega)] at h
  obtain ⟨r', own, h1, h2, h3, _⟩ := h
  refine ⟨r', h1, ?_⟩
  have := observed_advance h2 h3
  rw [← List.prefix_iff_eq_take.mp hg.isPrefix] at this
  exact this

/-- C48: when the run is shorter than `min`, `CharsScanner` does not match and the reader stays where it is. -/
theorem c48_unmatch (allowed : Char → Bool) (min max : Option Nat) (definition : Location) {r : Reader} {here : Location}
    {text run : Str} (hi : InputAt dbg r here text) (hg : IsGreedyRun allowed max text run) (m : Nat) (hm : min = some m)
    (hmin : run.length < m) :
    ∃ r', (charsScanner allowed min max).scan definition r = (.ok .unmatch, r') ∧ Observed r' here text := by
  obtain ⟨c, hs, rfl, rfl⟩ := input_stands hi
  have := isGreedyRun_unique hg (isGreedyRun allowed max c.rest)
  subst this
  have h := chars_tidily allowed min max definition r c hs.1 hs.2
  unfold charsRecognizer at h
  simp only at h
  rw [if_pos ⟨m, hm, hmin⟩] at h
  obtain ⟨r', own, h1, h2, _⟩ := h
  exact ⟨r', h1, (observed h2 :)⟩

/-- C48: every text has exactly one greedy run. -/
theorem c48_run_unique (allowed : Char → Bool) (max : Option Nat) (text : Str) :
    ∃ run, IsGreedyRun allowed max text run ∧ ∀ run', IsGreedyRun allowed max text run' → run' = run :=
  ⟨_, isGreedyRun allowed max text, fun _ h => isGreedyRun_unique h (isGreedyRun allowed max text)⟩

example : IsGreedyRun Char.isDigit (some 3) "12a4".toList "12".toList ∧
    ((charsScanner Char.isDigit (some 1) (some 3)).scan ⟨[], 7, 7⟩ (readerOn "12a4")).1 =
      .ok (.match [.token ⟨[], 7, 7⟩ ⟨[], 1, 1⟩ "12".toList]) ∧
    ((charsScanner Char.isDigit (some 3) none).scan ⟨[], 7, 7⟩ (readerOn "12a4")).1 = .ok .unmatch ∧
    ((charsScanner Char.isDigit none (some 1)).scan ⟨[], 7, 7⟩ (readerOn "12a4")).1 =
      .ok (.match [.token ⟨[], 7, 7⟩ ⟨[], 1, 1⟩ "1".toList]) := by
  refine ⟨?_, by decide +kernel, by decide +kernel, by decide +kernel⟩
  have : greedyRun Char.isDigit (some 3) "12a4".toList = "12".toList := by decide
  rw [← this]; exact isGreedyRun _ _ _

/-! ## C49 -/

/-- C49: when the leftmost match of the expression in the next 257 characters is at their start and has at most 256
characters, `RegExScanner` matches, reports it as one token, and leaves the reader behind it. -/
theorem c49_match (source : Str) (find : Str → Option (Nat × Nat)) (definition : Location) {r : Reader} {here : Location}
    {text : Str} (hi : InputAt dbg r here text) (n : Nat) (hf : find (text.take 257) = some (0, n)) (hn : n ≤ 256)
    (hl : n ≤ text.length) :
    ∃ r', (regexScanner source find).scan definition r = (.ok (.match [.token definition here (text.take n)]), r') ∧
      Observed r' (lineColumn here (text.take n)) (text.drop n) := by
  obtain ⟨c, hs, rfl, rfl⟩ := input_stands hi
  have h := regex_tidily source find definition r c hs.1 hs.2
  unfold regexRecognizer at h
  rw [hf] at h
  simp only at h
  rw [if_pos (by simp only [List.length_take]; omega), Nat.min_eq_left hl] at h
  obtain ⟨r', own, h1, h2, h3, _⟩ := h
  exact ⟨r', h1, observed_advance h2 h3⟩

/-- C49: when the expression matches more than 256 characters there, the result is an error at the current place, and the reader stays
where it is. -/
theorem c49_too_long (source : Str) (find : Str → Option (Nat × Nat)) (definition : Location) {r : Reader} {here : Location}
    {text : Str} (hi : InputAt dbg r here text) (n : Nat) (hf : find (text.take 257) = some (0, n)) (hn : 256 < n)
    (hl : n ≤ text.length) :
    ∃ r', (regexScanner source find).scan definition r = (.err ⟨here, .regexTooLong 256⟩, r') ∧ Observed r' here text := by
  obtain ⟨c, hs, rfl, rfl⟩ := input_stands hi
  have h := regex_tidily source find definition r c hs.1 hs.2
  unfold regexRecognizer at h
  rw [hf] at h
  simp only at h
  rw [if_neg (by simp only [List.length_take]; omega)] at h
  obtain ⟨r', own, h1, h2, _⟩ := h
  exact ⟨r', h1, (observed h2 :)⟩

/-- C49: when the expression does not match, or only further on, `RegExScanner` does not match and the reader stays where
it is. -/
theorem c49_unmatch (source : Str) (find : Str → Option (Nat × Nat)) (definition : Location) {r : Reader} {here : Location}
    {text : Str} (hi : InputAt dbg r here text) (hf : ∀ n, find (text.take 257) ≠ some (0, n)) :
    ∃ r', (regexScanner source find).scan definition r = (.ok .unmatch, r') ∧ Observed r' here text := by
  obtain ⟨c, hs, rfl, rfl⟩ := input_stands hi
  have h := regex_tidily source find definition r c hs.1 hs.2
  unfold regexRecognizer at h
  cases hx : find (c.rest.take 257) with
  | none =>
    rw [hx] at h
    obtain ⟨r', own, h1, h2, _⟩ := h
    exact ⟨r', h1, (observed h2 :)⟩
  | some x =>
    obtain ⟨off, n⟩ := x
    cases off with
    | zero => exact absurd hx (hf n)
    | succ off =>
      rw [hx] at h
      obtain ⟨r', own, h1, h2, _⟩ := h
      exact ⟨r', h1, (observed h2 :)⟩

/-- An engine for `a+`: the leftmost longest run of `a`. -/
private def findAs (s : Str) : Option (Nat × Nat) :=
  let i := (s.takeWhile (· != 'a')).length
  let n := ((s.drop i).takeWhile (· == 'a')).length
  if n = 0 then none else some (i, n)

example : ((regexScanner "a+".toList findAs).scan ⟨[], 7, 7⟩ (readerOn "aab")).1 =
      .ok (.match [.token ⟨[], 7, 7⟩ ⟨[], 1, 1⟩ "aa".toList]) ∧
    ((regexScanner "a+".toList findAs).scan ⟨[], 7, 7⟩ (readerOn "baa")).1 = .ok .unmatch ∧
    findAs ("baa".toList.take 257) = some (1, 2) ∧
    ((regexScanner "a+".toList findAs).scan ⟨[], 7, 7⟩
      (Reader.withLocation (Location.new []) (.buffered (List.replicate 300 'a')) false)).1 =
        .err ⟨⟨[], 1, 1⟩, .regexTooLong 256⟩ := by
  refine ⟨by decide +kernel, by decide +kernel, by decide +kernel, by decide +kernel⟩

end Ebnf.Props
