import Verif.Proofs.Reader

set_option autoImplicit false

/-! # C24–C28: the markable reader -/

namespace Ebnf.Props

open Ebnf Ebnf.Spec

/-- A release-build reader over the source after a history of operations. -/
def readerAfter (location : Location) (s : Source) (ops : List ReaderOp) : Reader :=
  (performAll ops (Reader.withLocation location s false)).2

private theorem after_rep {location : Location} {s : Source} {text : Str} (h : Delivers s text) (ops : List ReaderOp) :
    ∃ c, RepIdle (readerAfter location s ops) c ∧ (readerAfter location s ops).buffer.dbg = false ∧
      CursorSteps ⟨location, text, 0, []⟩ ops (performAll ops (Reader.withLocation location s false)).1 c := by
  obtain ⟨as, r', c', h1, h2, h3, h4⟩ := performAll_rep (new_rep (location := location) h false) rfl ops
  refine ⟨c', ?_, ?_, ?_⟩
  · rw [readerAfter, h1]; exact h3
  · rw [readerAfter, h1]; exact h4
  · rw [h1]; exact h2

/-! ## C24 -/

/-- C24: whatever the delivery of the characters, every sequence of operations returns what the cursor over
the whole text returns. -/
theorem c24_refines_cursor (location : Location) (s : Source) (text : Str) (h : Delivers s text)
    (ops : List ReaderOp) :
    ∃ c, CursorSteps ⟨location, text, 0, []⟩ ops (performAll ops (Reader.withLocation location s false)).1 c := by
  obtain ⟨c, _, _, h1⟩ := after_rep (location := location) h ops
  exact ⟨c, h1⟩

/-- A source that delivers `hello` in three pieces. -/
private def hello : Source := ⟨['h'], [.ok ['e', 'l'], .ok [], .ok ['l', 'o']], Location.new []⟩

private theorem hello_delivers : Delivers hello "hello".toList := ⟨[['e', 'l'], [], ['l', 'o']], rfl, rfl⟩

example : (performAll [.read, .mark, .peek 3, .skip 2, .location, .resetToMark 1, .readAll, .resetToMark 1]
    (Reader.withLocation (Location.new []) hello false)).1 =
    [.char (some 'h'), .num 1, .chars ['e', 'l', 'l'], .num 2, .location ⟨[], 1, 4⟩, .num 2, .chars ['e', 'l', 'l', 'o'],
      .error ⟨⟨[], 1, 6⟩, .invalidMark 1⟩] := by decide +kernel

/-! ## C25 -/

private theorem keeping_suffix {d : Nat} {c c' : Cursor} {ops : List ReaderOp} {as : List ReaderAns}
    (h : CursorStepsKeeping d c ops as c') : ∀ pre base, c.marks = pre ++ base → base.length = d →
      ∃ pre', c'.marks = pre' ++ base := by
  induction h with
  | nil c => exact fun pre base h1 _ => ⟨pre, h1⟩
  | @cons c op a c1 ops as c2 hs hd _ ih =>
    intro pre base h1 h2
    have hdrop : ∀ newer x older, pre ++ base = newer ++ x :: older → d ≤ older.length →
        ∃ p, older = p ++ base := by
      intro newer (x : Nat × Nat) older he hle
      have := congrArg (List.drop (pre.length + base.length - older.length)) he
      have hlen := congrArg List.length he
      simp at hlen
      rcases List.append_eq_append_iff.mp he with ⟨t, h3, h4⟩ | ⟨t, h3, h4⟩
      · have := congrArg List.length h4
        simp at this
        omega
      · cases t with
        | nil =>
          simp at h4
          have := congrArg List.length h4
          simp at this
          omega
        | cons y ys =>
          simp at h4
          exact ⟨ys, h4.2⟩
    have : ∃ pre1, c1.marks = pre1 ++ base := by
      cases hs with
      | mark m _ => exact ⟨(m, c.pos) :: pre, by simp [h1]⟩
      | reset m newer p older h3 _ =>
        exact hdrop newer (m, p) older (by rw [← h1, h3]) hd
      | unmark m newer p older h3 _ =>
        exact hdrop newer (m, p) older (by rw [← h1, h3]) hd
      | _ => exact ⟨pre, h1⟩
    obtain ⟨pre1, h3⟩ := this
    exact ih pre1 base h3 h2

private theorem step_fixed {c c' : Cursor} {op : ReaderOp} {a : ReaderAns} (h : CursorStep c op a c') :
    c'.start = c.start ∧ c'.text = c.text := by cases h <;> exact ⟨rfl, rfl⟩

private theorem keeping_fixed {d : Nat} {c c' : Cursor} {ops : List ReaderOp} {as : List ReaderAns}
    (h : CursorStepsKeeping d c ops as c') : c'.start = c.start ∧ c'.text = c.text := by
  induction h with
  | nil => exact ⟨rfl, rfl⟩
  | cons hs _ _ ih => have := step_fixed hs; exact ⟨ih.1.trans this.1, ih.2.trans this.2⟩

private theorem newest_unique {m p p' : Nat} {newer older newer' older' : List (Nat × Nat)}
    (he : newer ++ (m, p) :: older = newer' ++ (m, p') :: older') (hn : ∀ x ∈ newer, x.1 ≠ m)
    (hn' : ∀ x ∈ newer', x.1 ≠ m) : p = p' ∧ older = older' := by
  induction newer generalizing newer' with
  | nil =>
    cases newer' with
    | nil => simp at he; exact he
    | cons y ys =>
      simp at he
      exact absurd (congrArg Prod.fst he.1).symm (hn' y (by simp))
  | cons x xs ih =>
    cases newer' with
    | nil =>
      simp at he
      exact absurd (congrArg Prod.fst he.1) (hn x (by simp))
    | cons y ys =>
      simp at he
      exact ih he.2 (fun z hz => hn z (by simp [hz])) (fun z hz => hn' z (by simp [hz]))

/-- Consuming a mark is deterministic. -/
private theorem step_mark_unique {c c1 c2 : Cursor} {op : ReaderOp} {a1 a2 : ReaderAns}
    (hop : ∃ m, op = .resetToMark m ∨ op = .unmark m) (h1 : CursorStep c op a1 c1) (h2 : CursorStep c op a2 c2) :
    a1 = a2 ∧ c1 = c2 := by
  cases h1 with
  | reset m newer p older h3 h4 =>
    cases h2 with
    | reset _ newer' p' older' h5 h6 =>
      obtain ⟨rfl, rfl⟩ := newest_unique (h3.symm.trans h5) h4 h6
      exact ⟨rfl, rfl⟩
    | resetInvalid _ h5 => exact absurd rfl (h5 (m, p) (by rw [h3]; simp))
  | resetInvalid m h3 =>
    cases h2 with
    | reset _ newer' p' older' h5 h6 => exact absurd rfl (h3 (m, p') (by rw [h5]; simp))
    | resetInvalid _ h5 => exact ⟨rfl, rfl⟩
  | unmark m newer p older h3 h4 =>
    cases h2 with
    | unmark _ newer' p' older' h5 h6 =>
      obtain ⟨rfl, rfl⟩ := newest_unique (h3.symm.trans h5) h4 h6
      exact ⟨rfl, rfl⟩
    | unmarkInvalid _ h5 => exact absurd rfl (h5 (m, p) (by rw [h3]; simp))
  | unmarkInvalid m h3 =>
    cases h2 with
    | unmark _ newer' p' older' h5 h6 => exact absurd rfl (h3 (m, p') (by rw [h5]; simp))
    | unmarkInvalid _ h5 => exact ⟨rfl, rfl⟩
  | _ => obtain ⟨m, h | h⟩ := hop <;> cases h

/-- The answer of an operation determines the cursor afterwards. -/
private theorem step_unique {c c1 c2 : Cursor} {op : ReaderOp} {a : ReaderAns} (h1 : CursorStep c op a c1)
    (h2 : CursorStep c op a c2) : c1 = c2 := by
  by_cases hop : ∃ m, op = .resetToMark m ∨ op = .unmark m
  · exact (step_mark_unique hop h1 h2).2
  · cases h1 with
    | reset m => exact absurd ⟨m, .inl rfl⟩ hop
    | resetInvalid m => exact absurd ⟨m, .inl rfl⟩ hop
    | unmark m => exact absurd ⟨m, .inr rfl⟩ hop
    | unmarkInvalid m => exact absurd ⟨m, .inr rfl⟩ hop
    | _ => cases h2; rfl

private theorem steps_unique {c c1 c2 : Cursor} {ops : List ReaderOp} {as : List ReaderAns} (h1 : CursorSteps c ops as c1)
    (h2 : CursorSteps c ops as c2) : c1 = c2 := by
  induction h1 with
  | nil => cases h2; rfl
  | cons hs _ ih =>
    cases h2 with
    | cons hs' h' =>
      have := step_unique hs hs'
      subst this
      exact ih h'

private theorem keeping_steps {d : Nat} {c c' : Cursor} {ops : List ReaderOp} {as : List ReaderAns}
    (h : CursorStepsKeeping d c ops as c') : CursorSteps c ops as c' := by
  induction h with
  | nil => exact .nil _
  | cons hs _ _ ih => exact .cons hs ih

private theorem readAll_answer {r : Reader} {c : Cursor} (h : RepIdle r c) : (perform .readAll r).1 = .chars c.rest := by
  obtain ⟨r', h1, _⟩ := readAll_rep h
  rw [perform, h1]; rfl

private theorem location_answer {r : Reader} {c : Cursor} (h : RepIdle r c) :
    (perform .location r).1 = .location c.location := by
  rw [perform, Reader.location, ← h.loc]; rfl

/-- C25: after any history `pre`, take a mark `m`; then perform any operations `mid` that leave it valid (at
every moment there are at least as many marks as right after taking it).  Then `reset_to_mark(m)` returns the
number of characters consumed since the mark, and location and remaining text are again those at the mark.
The cursors are only named to say "valid" and "consumed". -/
theorem c25_reset_restores (location : Location) (s : Source) (text : Str) (h : Delivers s text)
    (pre mid : List ReaderOp) (m : Nat) (c1 c2 c3 : Cursor)
    (hpre : CursorSteps ⟨location, text, 0, []⟩ pre (performAll pre (Reader.withLocation location s false)).1 c1)
    (hmark : (perform .mark (readerAfter location s pre)).1 = .num m) (hc2 : c2 = { c1 with marks := (m, c1.pos) :: c1.marks })
    (hmid : CursorStepsKeeping c2.marks.length c2 mid (performAll mid (readerAfter location s (pre ++ [.mark]))).1 c3) :
    (perform (.resetToMark m) (readerAfter location s (pre ++ [.mark] ++ mid))).1 = .num (c3.pos - c1.pos) ∧
    c1.pos ≤ c3.pos ∧
    (perform .location (readerAfter location s (pre ++ [.mark] ++ mid ++ [.resetToMark m]))).1 =
      (perform .location (readerAfter location s pre)).1 ∧
    (perform .readAll (readerAfter location s (pre ++ [.mark] ++ mid ++ [.resetToMark m]))).1 =
      (perform .readAll (readerAfter location s pre)).1 := by
  obtain ⟨c1', hr1, hd1, hs1⟩ := after_rep (location := location) h pre
  have := steps_unique hpre hs1
  subst this
  -- the mark
  obtain ⟨m', r2, h1, h2, h3, h4⟩ := mark_rep hr1
  have hm : m' = m := by
    rw [perform, h1] at hmark
    simpa [answer] using hmark
  subst hm
  have hr2 : readerAfter location s (pre ++ [.mark]) = r2 := by
    unfold readerAfter
    rw [performAll_append]
    change (performAll [.mark] (readerAfter location s pre)).2 = r2
    simp [performAll, perform, h1, answer]
  rw [← hc2] at h2
  -- the operations
  rw [hr2] at hmid
  obtain ⟨as, r3, c3', h5, h6, h7, h8⟩ := performAll_rep h2 (h3.trans hd1) mid
  rw [h5] at hmid
  have := steps_unique (keeping_steps hmid) h6
  subst this
  have hr3 : readerAfter location s (pre ++ [.mark] ++ mid) = r3 := by
    unfold readerAfter
    rw [performAll_append]
    change (performAll mid (readerAfter location s (pre ++ [.mark]))).2 = r3
    rw [hr2, h5]
  -- the reset
  obtain ⟨p', hp'⟩ := keeping_suffix hmid [] c2.marks rfl rfl
  have hfix := keeping_fixed hmid
  have hmem : (m', c1.pos) ∈ c3.marks := by rw [hp', hc2]; simp
  have hsplit := (newest_or_missing c3.marks m').resolve_right fun hn => hn _ hmem rfl
  obtain ⟨newer, p, older, h9, h10⟩ := hsplit
  obtain ⟨r4, h11, h12, _, h13⟩ := resetToMark_rep h7 h9 h10
  have hp : p = c1.pos := by
    obtain ⟨_, _, _, hmarks⟩ := h7.src
    obtain ⟨q1, q2, q3, _⟩ := hmarks m' c1.pos hmem
    obtain ⟨q4, q5, q6, _⟩ := hmarks m' p (by rw [h9]; simp)
    omega
  subst hp
  have hr4 : readerAfter location s (pre ++ [.mark] ++ mid ++ [.resetToMark m']) = r4 := by
    unfold readerAfter
    rw [performAll_append]
    change (performAll [.resetToMark m'] (readerAfter location s (pre ++ [.mark] ++ mid))).2 = r4
    rw [hr3]
    simp [performAll, perform, h11, answer]
  refine ⟨?_, h13, ?_, ?_⟩
  · rw [hr3, perform, h11]; rfl
  · rw [hr4, location_answer h12, location_answer hr1]
    simp only [Cursor.location, hfix.1, hfix.2, hc2]
  · rw [hr4, readAll_answer h12, readAll_answer hr1]
    simp only [Cursor.rest, hfix.2, hc2]

/-- The hypotheses of `c25_reset_restores` are met: a nested mark is taken and unmarked in between. -/
example : ∃ c1 c3, CursorSteps ⟨Location.new [], "hello".toList, 0, []⟩ [.read]
      (performAll [.read] (Reader.withLocation (Location.new []) hello false)).1 c1 ∧
    (perform .mark (readerAfter (Location.new []) hello [.read])).1 = .num 1 ∧
    CursorStepsKeeping 1 { c1 with marks := (1, c1.pos) :: c1.marks } [.skip 2, .mark, .read, .unmark 3]
      (performAll [.skip 2, .mark, .read, .unmark 3] (readerAfter (Location.new []) hello ([.read] ++ [.mark]))).1 c3 ∧
    c3.pos = 4 := by
  refine ⟨⟨Location.new [], "hello".toList, 1, []⟩, ⟨Location.new [], "hello".toList, 4, [(1, 1)]⟩,
    .cons (.read _) (.nil _), rfl, ?_, rfl⟩
  refine .cons (c' := ⟨Location.new [], "hello".toList, 3, [(1, 1)]⟩) (.skip _ 2) (by decide) ?_
  refine .cons (c' := ⟨Location.new [], "hello".toList, 3, [(3, 3), (1, 1)]⟩) (.mark _ 3 ?_) (by decide) ?_
  · intro m p hm; simp at hm; simp [hm]
  refine .cons (c' := ⟨Location.new [], "hello".toList, 4, [(3, 3), (1, 1)]⟩) (.read _) (by decide) ?_
  exact .cons (.unmark _ 3 [] 3 [(1, 1)] rfl (by simp)) (by decide) (.nil _)

/-! ## C26 -/

/-- C26: what the look-ahead operations return, in terms of the text that is left. -/
theorem c26_lookahead_answers (location : Location) (s : Source) (text : Str) (h : Delivers s text)
    (pre : List ReaderOp) :
    ∃ t, (perform .readAll (readerAfter location s pre)).1 = .chars t ∧
      (∀ n, (perform (.peek n) (readerAfter location s pre)).1 = .chars (t.take n)) ∧
      (∀ p, (perform (.prefixMatches p) (readerAfter location s pre)).1 = .bool (decide (p <+: t))) ∧
      (perform .isEof (readerAfter location s pre)).1 = .bool (decide (t = [])) := by
  obtain ⟨c, hr, _, _⟩ := after_rep (location := location) h pre
  refine ⟨c.rest, readAll_answer hr, fun n => ?_, fun p => ?_, ?_⟩
  · obtain ⟨r', h1, _⟩ := peek_rep hr n
    rw [perform, h1]; rfl
  · obtain ⟨r', h1, _⟩ := prefixMatches_rep hr p
    rw [perform, h1]; rfl
  · obtain ⟨r', h1, _⟩ := isEof_rep hr
    rw [perform, h1]; rfl

/-- C26: a look-ahead changes neither the location, nor the text that is left, nor what any mark is good for. -/
theorem c26_lookahead_no_effect (location : Location) (s : Source) (text : Str) (h : Delivers s text)
    (pre : List ReaderOp) (look : ReaderOp) (hl : IsLookahead look) :
    (perform .location (readerAfter location s (pre ++ [look]))).1 = (perform .location (readerAfter location s pre)).1 ∧
    (perform .readAll (readerAfter location s (pre ++ [look]))).1 = (perform .readAll (readerAfter location s pre)).1 ∧
    (∀ m, (perform (.resetToMark m) (readerAfter location s (pre ++ [look]))).1 =
      (perform (.resetToMark m) (readerAfter location s pre)).1) ∧
    (∀ m, (perform (.unmark m) (readerAfter location s (pre ++ [look]))).1 =
      (perform (.unmark m) (readerAfter location s pre)).1) := by
  obtain ⟨c, hr, hd, _⟩ := after_rep (location := location) h pre
  have hafter : readerAfter location s (pre ++ [look]) = (perform look (readerAfter location s pre)).2 := by
    unfold readerAfter
    rw [performAll_append]
    simp [performAll]
  have hr' : RepIdle (readerAfter location s (pre ++ [look])) c ∧ (readerAfter location s (pre ++ [look])).buffer.dbg = false := by
    rw [hafter]
    cases look with
    | peek n => obtain ⟨r', h1, h2, h3⟩ := peek_rep hr n; rw [perform, h1]; exact ⟨h2, h3.trans hd⟩
    | prefixMatches n => obtain ⟨r', h1, h2, h3⟩ := prefixMatches_rep hr n; rw [perform, h1]; exact ⟨h2, h3.trans hd⟩
    | isEof => obtain ⟨r', h1, h2, h3⟩ := isEof_rep hr; rw [perform, h1]; exact ⟨h2, h3.trans hd⟩
    | location => exact ⟨hr, hd⟩
    | _ => exact absurd hl (by simp [IsLookahead])
  have hans : ∀ op, (∃ m, op = .resetToMark m ∨ op = .unmark m) →
      (perform op (readerAfter location s (pre ++ [look]))).1 = (perform op (readerAfter location s pre)).1 := by
    intro op hop
    obtain ⟨a1, _, _, h1, h2, _⟩ := perform_rep hr'.1 op (by rw [hr'.2]; simp)
    obtain ⟨a2, _, _, h3, h4, _⟩ := perform_rep hr op (by rw [hd]; simp)
    rw [h1, h3]
    exact (step_mark_unique hop h2 h4).1
  exact ⟨by rw [location_answer hr'.1, location_answer hr], by rw [readAll_answer hr'.1, readAll_answer hr],
    fun m => hans _ ⟨m, .inl rfl⟩, fun m => hans _ ⟨m, .inr rfl⟩⟩

example : (performAll [.skip 1, .mark, .peek 9, .prefixMatches ['e', 'l'], .prefixMatches ['e', 'x'], .isEof, .read]
    (Reader.withLocation (Location.new []) hello false)).1 =
    [.num 1, .num 1, .chars ['e', 'l', 'l', 'o'], .bool true, .bool false, .bool false, .char (some 'e')] := by decide +kernel

/-! ## C27 -/

/-- C27 does not hold: a mark is consumed, another one is taken at the same place, and the number of the first
is accepted again. -/
theorem c27_reused : (performAll [.mark, .resetToMark 0, .resetToMark 0, .mark, .resetToMark 0]
    (Reader.withLocation (Location.new []) hello false)).1 =
    [.num 0, .num 0, .error ⟨⟨[], 1, 1⟩, .invalidMark 0⟩, .num 0, .num 0] := rfl

/-- C27 does not hold, and the stale mark may even name another place: `0` is returned for a mark in column 1 and,
after that mark is consumed, for one in column 2; going back to the first ends in column 2. -/
theorem c27_reused_elsewhere : (performAll
    [.mark, .location, .read, .resetToMark 0, .read, .mark, .read, .resetToMark 0, .location]
    (Reader.withLocation (Location.new []) hello false)).1 =
    [.num 0, .location ⟨[], 1, 1⟩, .char (some 'h'), .num 1, .char (some 'h'), .num 0, .char (some 'e'), .num 1,
     .location ⟨[], 1, 2⟩] := by decide +kernel

/-- C27: using a mark that is rejected changes nothing at all. -/
theorem c27_rejection_no_effect_partial (location : Location) (s : Source) (text : Str) (h : Delivers s text)
    (pre : List ReaderOp) (m : Nat) (e : Error) :
    ((perform (.resetToMark m) (readerAfter location s pre)).1 = .error e →
      (perform (.resetToMark m) (readerAfter location s pre)).2 = readerAfter location s pre) ∧
    ((perform (.unmark m) (readerAfter location s pre)).1 = .error e →
      (perform (.unmark m) (readerAfter location s pre)).2 = readerAfter location s pre) := by
  obtain ⟨c, hr, hd, _⟩ := after_rep (location := location) h pre
  rcases newest_or_missing c.marks m with ⟨newer, p, older, h1, h2⟩ | h1
  · obtain ⟨r1, h3, _⟩ := resetToMark_rep hr h1 h2
    obtain ⟨r2, h4, _⟩ := unmark_rep hr h1 h2 (by rw [hd]; simp)
    refine ⟨fun he => ?_, fun he => ?_⟩
    · rw [perform, h3] at he
      simp [answer] at he
    · rw [perform, h4] at he
      simp [answer] at he
  · exact ⟨fun _ => by rw [resetToMark_missing hr h1], fun _ => by rw [unmark_missing hr h1]⟩

private theorem marks_missing {c c' : Cursor} {ops : List ReaderOp} {as : List ReaderAns} {m : Nat}
    (h : CursorSteps c ops as c') : m ∉ marksTaken ops as → (∀ x ∈ c.marks, x.1 ≠ m) → ∀ x ∈ c'.marks, x.1 ≠ m := by
  induction h with
  | nil => exact fun _ h => h
  | cons hs _ ih =>
    intro h1 h2
    have hsub : ∀ {newer older : List (Nat × Nat)} {x : Nat × Nat} {ms : List (Nat × Nat)}, ms = newer ++ x :: older →
        (∀ x ∈ ms, x.1 ≠ m) → ∀ x ∈ older, x.1 ≠ m := by
      intro newer older x ms he hm y hy
      exact hm y (by rw [he]; simp [hy])
    cases hs with
    | mark m' _ =>
      simp [marksTaken] at h1
      refine ih h1.2 fun x hx => ?_
      rcases List.mem_cons.mp hx with rfl | hx
      · exact fun he => h1.1 he.symm
      · exact h2 x hx
    | reset m' newer p older h3 _ => exact ih (by simpa [marksTaken] using h1) (hsub h3 h2)
    | unmark m' newer p older h3 _ => exact ih (by simpa [marksTaken] using h1) (hsub h3 h2)
    | _ => exact ih (by simpa [marksTaken] using h1) h2

/-- C27: when no two live marks have the same number, then a mark consumed by `reset_to_mark` or `unmark`, and
all newer ones, are rejected afterwards, and stay rejected until a later `mark()` returns that number again.
What is missing is the part that fails: numbers can be given out again. -/
theorem c27_consumed_rejected_partial (location : Location) (s : Source) (text : Str) (h : Delivers s text)
    (pre mid : List ReaderOp) (c : Cursor) (use : ReaderOp) (m p m' : Nat) (newer older : List (Nat × Nat))
    (hpre : CursorSteps ⟨location, text, 0, []⟩ pre (performAll pre (Reader.withLocation location s false)).1 c)
    (hmarks : c.marks = newer ++ (m, p) :: older) (hdistinct : (c.marks.map Prod.fst).Nodup)
    (huse : use = .resetToMark m ∨ use = .unmark m) (hm' : m' ∈ newer.map Prod.fst ∨ m' = m)
    (hmid : m' ∉ marksTaken mid (performAll mid (readerAfter location s (pre ++ [use]))).1) :
    (∃ l, (perform (.resetToMark m') (readerAfter location s (pre ++ [use] ++ mid))).1 = .error ⟨l, .invalidMark m'⟩) ∧
    (∃ l, (perform (.unmark m') (readerAfter location s (pre ++ [use] ++ mid))).1 = .error ⟨l, .invalidMark m'⟩) := by
  obtain ⟨c', hr, hd, hs⟩ := after_rep (location := location) h pre
  have := steps_unique hpre hs
  subst this
  have hnew : ∀ x ∈ newer, x.1 ≠ m := by
    intro x hx he
    rw [hmarks, List.map_append, List.nodup_append] at hdistinct
    exact hdistinct.2.2 m (List.mem_map.mpr ⟨x, hx, he⟩) m (by simp) rfl
  have hold : ∀ x ∈ older, x.1 ≠ m' := by
    intro x hx he
    rw [hmarks, List.map_append, List.nodup_append, List.map_cons, List.nodup_cons] at hdistinct
    have hx' : m' ∈ older.map Prod.fst := List.mem_map.mpr ⟨x, hx, he⟩
    rcases hm' with hm' | rfl
    · exact hdistinct.2.2 m' hm' m' (by simp [hx']) rfl
    · exact hdistinct.2.1.1 hx'
  have huse' : ∃ c2, RepIdle (readerAfter location s (pre ++ [use])) c2 ∧ c2.marks = older ∧
      (readerAfter location s (pre ++ [use])).buffer.dbg = false := by
    have hafter : readerAfter location s (pre ++ [use]) = (perform use (readerAfter location s pre)).2 := by
      unfold readerAfter
      rw [performAll_append]
      simp [performAll]
    rw [hafter]
    rcases huse with rfl | rfl
    · obtain ⟨r1, h3, h4, h5, _⟩ := resetToMark_rep hr hmarks hnew
      rw [perform, h3]
      exact ⟨_, h4, rfl, h5.trans hd⟩
    · obtain ⟨r1, h3, h4, h5⟩ := unmark_rep hr hmarks hnew (by rw [hd]; simp)
      rw [perform, h3]
      exact ⟨_, h4, rfl, h5.trans hd⟩
  obtain ⟨c2, hr2, hc2, hd2⟩ := huse'
  obtain ⟨as, r3, c3, h3, h4, h5, _⟩ := performAll_rep hr2 hd2 mid
  rw [h3] at hmid
  have hafter : readerAfter location s (pre ++ [use] ++ mid) = r3 := by
    unfold readerAfter
    rw [performAll_append]
    change (performAll mid (readerAfter location s (pre ++ [use]))).2 = r3
    rw [h3]
  have hmiss := marks_missing h4 hmid (by rw [hc2]; exact hold)
  rw [hafter, resetToMark_missing h5 hmiss, unmark_missing h5 hmiss]
  exact ⟨⟨_, rfl⟩, ⟨_, rfl⟩⟩

/-- The hypotheses are met: three nested marks, the middle one is consumed. -/
example : ∃ c, CursorSteps ⟨Location.new [], "hello".toList, 0, []⟩ [.mark, .read, .mark, .read, .mark]
      (performAll [.mark, .read, .mark, .read, .mark] (Reader.withLocation (Location.new []) hello false)).1 c ∧
    c.marks = [(2, 2)] ++ (1, 1) :: [(0, 0)] ∧ (c.marks.map Prod.fst).Nodup ∧
    2 ∉ marksTaken [.mark, .read]
      (performAll [.mark, .read] (readerAfter (Location.new []) hello ([.mark, .read, .mark, .read, .mark] ++ [.resetToMark 1]))).1 := by
  refine ⟨⟨Location.new [], "hello".toList, 2, [(2, 2), (1, 1), (0, 0)]⟩, ?_, rfl, by decide, by decide +kernel⟩
  refine .cons (c' := ⟨Location.new [], "hello".toList, 0, [(0, 0)]⟩) (.mark _ 0 (by simp)) ?_
  refine .cons (c' := ⟨Location.new [], "hello".toList, 1, [(0, 0)]⟩) (.read _) ?_
  refine .cons (c' := ⟨Location.new [], "hello".toList, 1, [(1, 1), (0, 0)]⟩) (.mark _ 1 (by simp)) ?_
  refine .cons (c' := ⟨Location.new [], "hello".toList, 2, [(1, 1), (0, 0)]⟩) (.read _) ?_
  exact .cons (.mark _ 2 (by simp; omega)) (.nil _)

/-! ## C28 -/

/-- C28 does not hold: in a debug build `unmark` of the only mark leaves a non-empty buffer behind and the next
`read` trips an assertion. -/
theorem c28_debug_panic : (performAll [.mark, .read, .unmark 0, .read]
    (Reader.withLocation (Location.new []) hello true)).1 = [.num 0, .char (some 'h'), .unit, .crash] := rfl

private theorem steps_no_crash {c c' : Cursor} {ops : List ReaderOp} {as : List ReaderAns} (h : CursorSteps c ops as c') :
    .crash ∉ as := by
  induction h with
  | nil => simp
  | cons hs _ ih =>
    intro hm
    rcases List.mem_cons.mp hm with he | hm
    · subst he; cases hs
    · exact ih hm

/-- C28: a debug build does not panic, and returns what the cursor returns, as long as the only live mark is
never unmarked (it may be reset to).  Missing: histories that unmark the last live mark. -/
theorem c28_debug_no_panic_partial (location : Location) (s : Source) (text : Str) (h : Delivers s text)
    (ops : List ReaderOp) (hn : NestedUnmarks ⟨location, text, 0, []⟩ ops) :
    .crash ∉ (performAll ops (Reader.withLocation location s true)).1 ∧
    ∃ c, CursorSteps ⟨location, text, 0, []⟩ ops (performAll ops (Reader.withLocation location s true)).1 c := by
  suffices hs : ∀ (ops : List ReaderOp) (r : Reader) (c : Cursor), RepIdle r c → NestedUnmarks c ops →
      ∃ c', CursorSteps c ops (performAll ops r).1 c' by
    obtain ⟨c, hc⟩ := hs ops _ _ (new_rep h true) hn
    exact ⟨steps_no_crash hc, c, hc⟩
  intro ops
  induction ops with
  | nil => exact fun r c _ _ => ⟨c, .nil c⟩
  | cons op ops ih =>
    intro r c hr hn
    obtain ⟨a, r1, c1, h1, h2, h3, _⟩ := perform_rep hr op (by
      rintro - m newer p older rfl h5 h6
      exact (hn _ _ (.unmark c m newer p older h5 h6)).1 m rfl rfl)
    obtain ⟨c2, h5⟩ := ih r1 c1 h3 (hn a c1 h2).2
    exact ⟨c2, by simp only [performAll, h1]; exact .cons h2 h5⟩

/-- C28: a release build never panics. -/
theorem c28_release_no_panic_partial (location : Location) (s : Source) (text : Str) (h : Delivers s text)
    (ops : List ReaderOp) : .crash ∉ (performAll ops (Reader.withLocation location s false)).1 := by
  obtain ⟨c, hc⟩ := c24_refines_cursor location s text h ops
  exact steps_no_crash hc

/-- Histories without `unmark` meet the hypothesis. -/
theorem c28_without_unmark (c : Cursor) (ops : List ReaderOp) (h : ∀ m, .unmark m ∉ ops) : NestedUnmarks c ops := by
  induction ops generalizing c with
  | nil => trivial
  | cons op ops ih =>
    intro a c' _
    refine ⟨fun m hm => ?_, ih c' fun m hm => h m (by simp [hm])⟩
    subst hm
    exact absurd (by simp) (h m)

example : NestedUnmarks ⟨Location.new [], "hello".toList, 0, []⟩ [.mark, .read, .mark, .skip 3, .resetToMark 1, .peek 2] :=
  c28_without_unmark _ _ (by simp)

end Ebnf.Props
