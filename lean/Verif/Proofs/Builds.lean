import Verif.Proofs.Reader
import Verif.Spec.Builds

set_option autoImplicit false

/-! # Debug builds of the reader

A debug build does the same as a release build unless one of its assertions fails, and under a mark none fails. -/

namespace Ebnf

open Spec

variable {dbg : Bool} {α β : Type}

theorem mirrors_pure (a : α) : Mirrors (pure a : RM Reader α) := fun _ => .inr ⟨rfl, rfl, rfl⟩

theorem mirrors_lift (x : Res α) : Mirrors (RM.lift x : RM Reader α) := fun _ => .inr ⟨rfl, rfl, rfl⟩

theorem mirrors_bind {f : RM Reader α} {k : α → RM Reader β} (hf : Mirrors f) (hk : ∀ a, Mirrors (k a)) :
    Mirrors (f >>= k) := by
  intro r
  simp only [RM.bind_run]
  rcases hf r with h | ⟨h1, h2, h3⟩
  · left
    generalize f r = x at h
    obtain ⟨x, r1⟩ := x
    simp only at h; subst h; rfl
  · generalize f (rel r) = y at h1 h2
    generalize f r = x at h1 h2 h3
    obtain ⟨x, r1⟩ := x
    obtain ⟨y, r2⟩ := y
    simp only at h1 h2 h3
    subst h1 h2
    cases y with
    | ok a =>
      simp only
      rcases hk a r1 with h | ⟨a1, a2, a3⟩
      · exact .inl h
      · exact .inr ⟨a1, a2, a3.trans h3⟩
    | err e => exact .inr ⟨rfl, rfl, h3⟩
    | panic p => exact .inr ⟨rfl, rfl, h3⟩
    | diverge => exact .inr ⟨rfl, rfl, h3⟩

/-- What depends on the reader, but not on its build. -/
theorem mirrors_at {γ : Type} {g : Reader → γ} (hg : ∀ r, g (rel r) = g r) {f : γ → RM Reader α} (hf : ∀ x, Mirrors (f x)) :
    Mirrors (fun r => f (g r) r) := by
  intro r
  simp only [hg]
  exact hf (g r) r

theorem mirrors_location : Mirrors Reader.location := fun _ => .inr ⟨rfl, rfl, rfl⟩

theorem mirrors_bufferRead (b : UnreadBuffer) (n : Nat) :
    ({ b with dbg := false }).read n = ((b.read n).1, { (b.read n).2 with dbg := false }) ∧ (b.read n).2.dbg = b.dbg := by
  obtain ⟨loc, buf, next, head, stack, d⟩ := b
  simp only [UnreadBuffer.read, UnreadBuffer.remains, UnreadBuffer.truncateIfStackEmpty]
  by_cases h1 : (!decide (List.length buf > next + (List.take n (List.drop next buf)).length)) = true
  · by_cases h2 : stack.isEmpty = true
    · simp only [if_pos h1, if_pos h2]; exact ⟨trivial, trivial⟩
    · simp only [if_pos h1, if_neg h2]; exact ⟨trivial, trivial⟩
  · simp only [if_neg h1]; exact ⟨trivial, trivial⟩

theorem mirrors_append (b : UnreadBuffer) (cs : Str) : (b.append cs).1 = .panic .debugAssert ∨
    ((({ b with dbg := false } : UnreadBuffer).append cs).1 = (b.append cs).1 ∧
      (({ b with dbg := false } : UnreadBuffer).append cs).2 = { (b.append cs).2 with dbg := false } ∧ (b.append cs).2.dbg = b.dbg) := by
  simp only [UnreadBuffer.append, Bool.false_and, Bool.false_eq_true, if_false]
  by_cases hs : (!b.stack.isEmpty) = true
  · simp only [if_pos hs]
    by_cases hd : (b.dbg && b.remains) = true
    · simp only [if_pos hd]; exact .inl trivial
    · simp only [if_neg hd]; exact .inr ⟨trivial, trivial, trivial⟩
  · simp only [if_neg hs]
    by_cases hd : (b.dbg && (!b.buffer.isEmpty || b.next != 0)) = true
    · simp only [if_pos hd]; exact .inl trivial
    · simp only [if_neg hd]; exact .inr ⟨trivial, trivial, trivial⟩

theorem mirrors_readChars (n : Nat) : Mirrors (Reader.readChars n) := by
  intro r
  have hrem : (rel r).buffer.remains = r.buffer.remains := rfl
  have hsrc : (rel r).source = r.source := rfl
  unfold Reader.readChars
  rw [hrem, hsrc]
  by_cases h : r.buffer.remains = true
  · rw [if_pos h, if_pos h]
    right
    obtain ⟨h1, h2⟩ := mirrors_bufferRead r.buffer n
    simp only [rel, h1]
    exact ⟨trivial, trivial, h2⟩
  · rw [if_neg h, if_neg h]
    generalize r.source.readChars n = x
    obtain ⟨x, s⟩ := x
    cases x with
    | ok cs =>
      simp only
      by_cases hc : cs.isEmpty = true
      · rw [if_pos hc, if_pos hc]; exact .inr ⟨rfl, rfl, rfl⟩
      · rw [if_neg hc, if_neg hc]
        rcases mirrors_append r.buffer cs with h1 | ⟨h1, h2, h3⟩
        · left
          generalize r.buffer.append cs = x at h1
          obtain ⟨x, b⟩ := x
          simp only at h1; subst h1; rfl
        · right
          simp only [rel] at h1 h2 ⊢
          generalize r.buffer.append cs = x at h1 h2 h3
          generalize UnreadBuffer.append _ cs = y at h1 h2
          obtain ⟨x, b⟩ := x
          obtain ⟨y, b2⟩ := y
          simp only at h1 h2 h3
          subst h1 h2
          cases y <;> exact ⟨rfl, rfl, h3⟩
    | err e => exact .inr ⟨rfl, rfl, rfl⟩
    | panic p => exact .inr ⟨rfl, rfl, rfl⟩
    | diverge => exact .inr ⟨rfl, rfl, rfl⟩

theorem mirrors_mark : Mirrors Reader.mark := by
  intro r
  obtain ⟨src, loc, buf, next, head, stack, d⟩ := r
  cases d with
  | false => exact .inr ⟨rfl, rfl, by simp [Reader.mark, UnreadBuffer.mark]⟩
  | true =>
    cases stack with
    | nil => exact .inr ⟨rfl, rfl, rfl⟩
    | cons x xs =>
      obtain ⟨p, l⟩ := x
      by_cases hp : p ≤ head + next
      · exact .inr (by simp [Reader.mark, UnreadBuffer.mark, rel, hp])
      · exact .inl (by simp [Reader.mark, UnreadBuffer.mark, hp])

theorem mirrors_removeMark (b : UnreadBuffer) (m : Nat) :
    ({ b with dbg := false }).removeMark m = ((b.removeMark m).1, { (b.removeMark m).2 with dbg := false }) ∧
      (b.removeMark m).2.dbg = b.dbg := by
  simp only [UnreadBuffer.removeMark]
  by_cases hc : m < b.head ∨ m > b.head + b.buffer.length
  · rw [if_pos hc, if_pos hc]; exact ⟨rfl, rfl⟩
  · rw [if_neg hc, if_neg hc]
    cases UnreadBuffer.findMark m b.stack <;> exact ⟨rfl, rfl⟩

theorem mirrors_reset (m : Nat) : Mirrors (Reader.resetToMark m) := by
  intro r
  obtain ⟨h, h2⟩ := mirrors_removeMark r.buffer m
  right
  simp only [Reader.resetToMark, UnreadBuffer.revert, rel, h]
  generalize r.buffer.removeMark m = x at h2
  obtain ⟨x, b⟩ := x
  cases x with
  | ok l =>
    simp only
    by_cases hc : b.head + b.next < m
    · simp only [if_pos hc]; exact ⟨trivial, trivial, h2⟩
    · simp only [if_neg hc]; exact ⟨trivial, trivial, h2⟩
  | err e => exact ⟨rfl, rfl, h2⟩
  | panic p => exact ⟨rfl, rfl, h2⟩
  | diverge => exact ⟨rfl, rfl, h2⟩

theorem mirrors_unmark (m : Nat) : Mirrors (Reader.unmark m) := by
  intro r
  obtain ⟨h, h2⟩ := mirrors_removeMark r.buffer m
  right
  simp only [Reader.unmark, rel, h]
  generalize r.buffer.removeMark m = x at h2
  obtain ⟨x, b⟩ := x
  cases x <;> exact ⟨rfl, rfl, h2⟩

theorem mirrors_read : Mirrors Reader.read := mirrors_bind (mirrors_readChars 1) fun _ => mirrors_pure _

theorem mirrors_under {f : RM Reader α} (hf : Mirrors f) (g : α → β) :
    Mirrors (do let m ← Reader.mark; let x ← f; let _ ← Reader.resetToMark m; pure (g x) : RM Reader β) :=
  mirrors_bind mirrors_mark fun m => mirrors_bind hf fun _ => mirrors_bind (mirrors_reset m) fun _ => mirrors_pure _

theorem mirrors_isEof : Mirrors Reader.isEof := mirrors_under mirrors_read Option.isNone

theorem mirrors_prefixLoop (p : Str) : Mirrors (Reader.prefixLoop p) := by
  induction p with
  | nil => exact mirrors_pure _
  | cons x p ih =>
    refine mirrors_bind mirrors_read fun ch => ?_
    by_cases h : ch ≠ some x
    · simp only [if_pos h]; exact mirrors_pure _
    · simp only [if_neg h]; exact ih

theorem mirrors_prefixMatches (p : Str) : Mirrors (Reader.prefixMatches p) := mirrors_under (mirrors_prefixLoop p) id

theorem mirrors_peekLoop (n : Nat) : Mirrors (Reader.peekLoop n) := by
  induction n with
  | zero => exact mirrors_pure _
  | succ n ih =>
    refine mirrors_bind mirrors_read fun ch => ?_
    cases ch with
    | none => exact mirrors_pure _
    | some ch => exact mirrors_bind ih fun _ => mirrors_pure _

theorem mirrors_peek (n : Nat) : Mirrors (Reader.peek n) := mirrors_under (mirrors_peekLoop n) id

theorem mirrors_skipLoop (fuel : Nat) : ∀ n, Mirrors (Reader.skipLoop fuel n) := by
  induction fuel with
  | zero =>
    intro n
    cases n with
    | zero => exact mirrors_pure _
    | succ n => exact mirrors_lift _
  | succ fuel ih =>
    intro n
    cases n with
    | zero => exact mirrors_pure _
    | succ n =>
      refine mirrors_bind (mirrors_readChars _) fun cs => ?_
      by_cases h : cs.isEmpty = true
      · simp only [if_pos h]; exact mirrors_pure _
      · simp only [if_neg h]; exact ih _

theorem mirrors_skip (n : Nat) : Mirrors (Reader.skip n) :=
  mirrors_bind (mirrors_skipLoop n n) fun _ => mirrors_pure _

theorem mirrors_readAllLoop (fuel : Nat) : Mirrors (Reader.readAllLoop fuel) := by
  induction fuel with
  | zero => exact mirrors_lift _
  | succ fuel ih =>
    refine mirrors_bind (mirrors_readChars _) fun cs => ?_
    by_cases h : cs.isEmpty = true
    · simp only [if_pos h]; exact mirrors_pure _
    · simp only [if_neg h]; exact mirrors_bind ih fun _ => mirrors_pure _

theorem mirrors_readAll : Mirrors Reader.readAll :=
  mirrors_at (g := fun r => r.size + 1) (fun _ => rfl) mirrors_readAllLoop

/-- An operation of a debug build crashes, or answers like a release build. -/
theorem perform_mirrors (op : ReaderOp) (r : Reader) :
    (perform op r).1 = .crash ∨
      (perform op (rel r) = ((perform op r).1, rel (perform op r).2) ∧ (perform op r).2.buffer.dbg = r.buffer.dbg) := by
  have key : ∀ {α : Type} {f : RM Reader α} (g : α → ReaderAns), Mirrors f →
      (answer g (f r)).1 = .crash ∨
        (answer g (f (rel r)) = ((answer g (f r)).1, rel (answer g (f r)).2) ∧ (answer g (f r)).2.buffer.dbg = r.buffer.dbg) := by
    intro α f g hf
    rcases hf r with h | ⟨h1, h2, h3⟩
    · left
      generalize f r = x at h
      obtain ⟨x, r1⟩ := x
      simp only at h; subst h; rfl
    · right
      generalize f (rel r) = y at h1 h2
      generalize f r = x at h1 h2 h3
      obtain ⟨x, r1⟩ := x
      obtain ⟨y, r2⟩ := y
      simp only at h1 h2 h3
      subst h1 h2
      cases y <;> exact ⟨rfl, h3⟩
  cases op with
  | read => exact key _ mirrors_read
  | readChars n => exact key _ (mirrors_readChars n)
  | readAll => exact key _ mirrors_readAll
  | peek n => exact key _ (mirrors_peek n)
  | prefixMatches p => exact key _ (mirrors_prefixMatches p)
  | isEof => exact key _ mirrors_isEof
  | skip n => exact key _ (mirrors_skip n)
  | mark => exact key _ mirrors_mark
  | resetToMark m => exact key _ (mirrors_reset m)
  | unmark m => exact key _ (mirrors_unmark m)
  | location => exact key _ mirrors_location

/-- The same for a history without crash. -/
theorem performAll_mirrors (ops : List ReaderOp) :
    ∀ r, .crash ∈ (performAll ops r).1 ∨
      (performAll ops (rel r) = ((performAll ops r).1, rel (performAll ops r).2) ∧
        (performAll ops r).2.buffer.dbg = r.buffer.dbg) := by
  induction ops with
  | nil => intro r; exact .inr ⟨rfl, rfl⟩
  | cons op ops ih =>
    intro r
    simp only [performAll]
    rcases perform_mirrors op r with h | ⟨h1, h2⟩
    · left; rw [h]; simp
    · rcases ih (perform op r).2 with h | ⟨h3, h4⟩
      · left; simp [h]
      · right
        rw [h1]
        simp only [h3]
        exact ⟨trivial, h4.trans h2⟩

/-! ## No assertion fails under a mark -/

/-- Under a mark no assertion fails, and the marks stay. -/
def Quiet (f : RM Reader α) : Prop :=
  ∀ r, r.buffer.stack ≠ [] → (f r).1 ≠ .panic .debugAssert ∧ (f r).2.buffer.stack = r.buffer.stack

theorem quiet_pure (a : α) : Quiet (pure a : RM Reader α) := fun _ _ => ⟨by simp, rfl⟩

theorem quiet_diverge : Quiet (RM.lift .diverge : RM Reader α) := fun _ _ => ⟨by simp, rfl⟩

theorem quiet_bind {f : RM Reader α} {k : α → RM Reader β} (hf : Quiet f) (hk : ∀ a, Quiet (k a)) : Quiet (f >>= k) := by
  intro r hr
  simp only [RM.bind_run]
  obtain ⟨h1, h2⟩ := hf r hr
  generalize f r = x at h1 h2
  obtain ⟨x, r1⟩ := x
  simp only at h1 h2
  cases x with
  | ok a =>
    obtain ⟨a1, a2⟩ := hk a r1 (by rw [h2]; exact hr)
    exact ⟨a1, a2.trans h2⟩
  | err e => exact ⟨by simp, h2⟩
  | panic p => exact ⟨by simpa using h1, h2⟩
  | diverge => exact ⟨by simp, h2⟩

theorem source_no_panic (n : Nat) (s : Source) (p : Panic) : (s.readChars n).1 ≠ .panic p := by
  unfold Source.readChars
  by_cases h : (!s.pending.isEmpty) = true
  · rw [if_pos h]; simp
  · rw [if_neg h]
    have : ∀ (rs : List (Except Nat Str)) (l : Location), (Source.readRounds n rs l).1 ≠ .panic p := by
      intro rs
      induction rs with
      | nil => intro l; simp [Source.readRounds]
      | cons x rs ih =>
        intro l
        cases x with
        | error e => simp [Source.readRounds, Res.fail]
        | ok cs =>
          simp only [Source.readRounds]
          by_cases hc : cs.isEmpty = true
          · rw [if_pos hc]; exact ih l
          · rw [if_neg hc]; simp
    exact this _ _

theorem quiet_readChars (n : Nat) : Quiet (Reader.readChars n) := by
  intro r hr
  have hs : r.buffer.stack.isEmpty = false := by cases h : r.buffer.stack <;> simp_all
  unfold Reader.readChars
  by_cases h : r.buffer.remains = true
  · rw [if_pos h]
    refine ⟨by simp, ?_⟩
    simp only [UnreadBuffer.read, UnreadBuffer.truncateIfStackEmpty, hs, Bool.false_eq_true, if_false]
    split <;> rfl
  · rw [if_neg h]
    have hp := source_no_panic n r.source .debugAssert
    generalize r.source.readChars n = x at hp
    obtain ⟨x, s⟩ := x
    cases x with
    | ok cs =>
      simp only
      by_cases hc : cs.isEmpty = true
      · rw [if_pos hc]; exact ⟨by simp, rfl⟩
      · rw [if_neg hc]
        simp only [UnreadBuffer.append, hs, Bool.not_false, if_true, Bool.eq_false_iff.mpr h, Bool.and_false,
          Bool.false_eq_true, if_false]
        exact ⟨by simp, trivial⟩
    | err e => exact ⟨by simp [Res.fail], rfl⟩
    | panic p => exact ⟨hp, rfl⟩
    | diverge => exact ⟨by simp, rfl⟩

theorem quiet_read : Quiet Reader.read := quiet_bind (quiet_readChars 1) fun _ => quiet_pure _

theorem quiet_prefixLoop (p : Str) : Quiet (Reader.prefixLoop p) := by
  induction p with
  | nil => exact quiet_pure _
  | cons x p ih =>
    refine quiet_bind quiet_read fun ch => ?_
    by_cases h : ch ≠ some x
    · simp only [if_pos h]; exact quiet_pure _
    · simp only [if_neg h]; exact ih

theorem quiet_peekLoop (n : Nat) : Quiet (Reader.peekLoop n) := by
  induction n with
  | zero => exact quiet_pure _
  | succ n ih =>
    refine quiet_bind quiet_read fun ch => ?_
    cases ch with
    | none => exact quiet_pure _
    | some ch => exact quiet_bind ih fun _ => quiet_pure _

theorem reset_quiet (m : Nat) (r : Reader) : (Reader.resetToMark m r).1 ≠ .panic .debugAssert := by
  simp only [Reader.resetToMark, UnreadBuffer.revert, UnreadBuffer.removeMark]
  by_cases hc : m < r.buffer.head ∨ m > r.buffer.head + r.buffer.buffer.length
  · rw [if_pos hc]; simp [Res.fail]
  · rw [if_neg hc]
    cases UnreadBuffer.findMark m r.buffer.stack with
    | none => simp [Res.fail]
    | some x =>
      simp only
      by_cases h : r.buffer.head + r.buffer.next < m
      · rw [if_pos h]; simp
      · rw [if_neg h]; simp

theorem unmark_quiet (m : Nat) (r : Reader) : (Reader.unmark m r).1 ≠ .panic .debugAssert := by
  simp only [Reader.unmark, UnreadBuffer.removeMark]
  by_cases hc : m < r.buffer.head ∨ m > r.buffer.head + r.buffer.buffer.length
  · rw [if_pos hc]; simp [Res.fail]
  · rw [if_neg hc]
    cases UnreadBuffer.findMark m r.buffer.stack <;> simp [Res.fail]

/-! ## Readers at a cursor -/

/-- A reader at a cursor. -/
def Stands (dbg : Bool) (r : Reader) (c : Cursor) : Prop := Rep r c ∧ r.buffer.dbg = dbg

theorem rel_rep {r : Reader} {c : Cursor} (h : Rep r c) : RepIdle (rel r) c :=
  ⟨⟨h.src, h.pos_le, h.next_le, h.loc, h.stack, h.sorted⟩, by simp [rel]⟩

theorem rep_of_rel {r : Reader} {c : Cursor} (h : Rep (rel r) c) : Rep r c :=
  ⟨h.src, h.pos_le, h.next_le, h.loc, h.stack, h.sorted⟩

/-- What the release build does, the debug build does, unless it fails an assertion. -/
theorem in_build {f : RM Reader α} (hf : Mirrors f) {r r1 : Reader} {x : Res α}
    (hn : (f r).1 ≠ .panic .debugAssert) (h : f (rel r) = (x, r1)) {c : Cursor} (h1 : RepIdle r1 c)
    (hd : r.buffer.dbg = dbg) : ∃ r', f r = (x, r') ∧ Stands dbg r' c ∧ rel r' = r1 := by
  rcases hf r with h2 | ⟨h2, h3, h4⟩
  · exact absurd h2 hn
  · rw [h] at h2 h3
    simp only at h2 h3
    subst h2 h3
    exact ⟨(f r).2, rfl, ⟨rep_of_rel h1.toRep, h4.trans hd⟩, rfl⟩

theorem size_at {r : Reader} {c : Cursor} (h : Rep r c) : c.rest.length ≤ r.size := size_rep (r := rel r) (rel_rep h)

/-- Marks with the same number are at the same position. -/
theorem mark_position {r : Reader} {c : Cursor} (h : Rep r c) {m p p' : Nat} (h1 : (m, p) ∈ c.marks)
    (h2 : (m, p') ∈ c.marks) : p = p' := by
  obtain ⟨text, _, _, hm⟩ := h.src
  have := (hm m p h1).2.2.1
  have := (hm m p' h2).2.2.1
  omega

/-- The newest mark with a number. -/
theorem split_mark {own ms : List (Nat × Nat)} {m p : Nat}
    (hu : ∀ p', (m, p') ∈ own ++ (m, p) :: ms → p' = p) :
    ∃ newer own', own ++ (m, p) :: ms = newer ++ (m, p) :: (own' ++ ms) ∧ ∀ x ∈ newer, x.1 ≠ m := by
  rcases newest_or_missing own m with ⟨newer, p', older, h1, h2⟩ | h1
  · refine ⟨newer, older ++ [(m, p)], ?_, h2⟩
    have : p' = p := hu p' (by rw [h1]; simp)
    rw [h1, this]; simp
  · exact ⟨own, [], by simp, h1⟩

/-- `reset_to_mark` with a live mark; what was read since is in the buffer. -/
theorem reset_ahead {r : Reader} {start : Location} {text : Str} {pos : Nat} {own ms : List (Nat × Nat)} {m p : Nat}
    (h : Stands dbg r ⟨start, text, pos, own ++ (m, p) :: ms⟩) :
    ∃ k r' own', Reader.resetToMark m r = (.ok k, r') ∧ Stands dbg r' ⟨start, text, p, own' ++ ms⟩ ∧
      pos - p ≤ r'.buffer.buffer.length - r'.buffer.next := by
  obtain ⟨newer, own', h1, h2⟩ := split_mark (own := own) (ms := ms) (m := m) (p := p) (fun p' hp =>
    mark_position h.1 hp (by simp))
  obtain ⟨r', h3, h4, h5, _⟩ := resetToMark_rep (rel_rep h.1) h1 h2
  obtain ⟨r2, a1, a2, a3⟩ := in_build (mirrors_reset m) (reset_quiet m r) h3 h4 h.2
  refine ⟨_, r2, own', a1, a2, ?_⟩
  obtain ⟨t, _, _, hm⟩ := h.1.src
  obtain ⟨b1, b2, b3, _⟩ := hm m p (by simp)
  have hn := h.1.next_le
  simp only at b3
  simp only [Reader.resetToMark, UnreadBuffer.revert] at a1
  have hrm := removeMark_found (rel_rep h.1) h1 h2
  have hrm2 := (mirrors_removeMark r.buffer m).1
  have hrm3 := (mirrors_removeMark r.buffer m).2
  rw [show ({ r.buffer with dbg := false } : UnreadBuffer) = (rel r).buffer from rfl, hrm] at hrm2
  generalize r.buffer.removeMark m = x at a1 hrm2 hrm3
  obtain ⟨x, b⟩ := x
  simp only [Prod.mk.injEq] at hrm2
  obtain ⟨e1, e2⟩ := hrm2
  subst e1
  simp only at a1
  have e3 := congrArg UnreadBuffer.buffer e2
  have e4 := congrArg UnreadBuffer.head e2
  have e5 := congrArg UnreadBuffer.next e2
  simp only [rel] at e3 e4 e5
  rw [← e4, ← e5, if_neg (by omega)] at a1
  simp only [Prod.mk.injEq] at a1
  rw [← a1.2]
  simp only
  rw [← e3]
  omega

/-- `reset_to_mark` with a live mark. -/
theorem reset_back {r : Reader} {start : Location} {text : Str} {pos : Nat} {own ms : List (Nat × Nat)} {m p : Nat}
    (h : Stands dbg r ⟨start, text, pos, own ++ (m, p) :: ms⟩) :
    ∃ k r' own', Reader.resetToMark m r = (.ok k, r') ∧ Stands dbg r' ⟨start, text, p, own' ++ ms⟩ := by
  obtain ⟨k, r', own', h1, h2, _⟩ := reset_ahead h
  exact ⟨k, r', own', h1, h2⟩

/-- `unmark` with a live mark. -/
theorem unmark_back {r : Reader} {start : Location} {text : Str} {pos : Nat} {own ms : List (Nat × Nat)} {m p : Nat}
    (h : Stands dbg r ⟨start, text, pos, own ++ (m, p) :: ms⟩) :
    ∃ r' own', Reader.unmark m r = (.ok (), r') ∧ Stands dbg r' ⟨start, text, pos, own' ++ ms⟩ := by
  obtain ⟨newer, own', h1, h2⟩ := split_mark (own := own) (ms := ms) (m := m) (p := p) (fun p' hp =>
    mark_position h.1 hp (by simp))
  obtain ⟨r', h3, h4, h5⟩ := unmark_rep (rel_rep h.1) h1 h2 (by simp [rel])
  obtain ⟨r2, a1, a2, _⟩ := in_build (mirrors_unmark m) (unmark_quiet m r) h3 h4 h.2
  exact ⟨r2, own', a1, a2⟩

theorem mark_quiet {r : Reader} {c : Cursor} (h : Rep r c) : (Reader.mark r).1 ≠ .panic .debugAssert := by
  obtain ⟨text, _, _, hm⟩ := h.src
  have hs := h.stack
  cases hc : c.marks with
  | nil => rw [hc] at hs; simp only [List.map_nil] at hs; simp [Reader.mark, UnreadBuffer.mark, hs]
  | cons x xs =>
    rw [hc] at hs
    obtain ⟨m, p⟩ := x
    have := hm m p (by rw [hc]; simp)
    simp only [List.map_cons] at hs
    have hle : m ≤ r.buffer.head + r.buffer.next := by omega
    simp [Reader.mark, UnreadBuffer.mark, hs, hle]

theorem mark_at {r : Reader} {c : Cursor} (h : Stands dbg r c) :
    ∃ m r', Reader.mark r = (.ok m, r') ∧ Stands dbg r' ⟨c.start, c.text, c.pos, (m, c.pos) :: c.marks⟩ := by
  obtain ⟨m, r', h1, h2, h3, _⟩ := mark_rep (rel_rep h.1)
  obtain ⟨r2, a1, a2, _⟩ := in_build mirrors_mark (mark_quiet h.1) h1 h2 h.2
  exact ⟨m, r2, a1, a2⟩

theorem location_at {r : Reader} {c : Cursor} (h : Stands dbg r c) : Reader.location r = (.ok c.location, r) := by
  rw [Reader.location, h.1.loc]

theorem marked_stack {r : Reader} {c : Cursor} (h : Rep r c) (hm : c.marks ≠ []) : r.buffer.stack ≠ [] := by
  rw [h.stack]
  simpa using hm

/-- Reading under a mark. -/
theorem read_at {r : Reader} {c : Cursor} (h : Stands dbg r c) (hm : c.marks ≠ []) :
    ∃ r', Reader.read r = (.ok c.rest.head?, r') ∧ Stands dbg r' (c.advance (min 1 c.rest.length)) := by
  obtain ⟨r', h1, h2, _⟩ := read_rep (rel_rep h.1)
  obtain ⟨r2, a1, a2, _⟩ := in_build mirrors_read (quiet_read r (marked_stack h.1 hm)).1 h1 h2 h.2
  exact ⟨r2, a1, a2⟩

theorem under_quiet {f : RM Reader α} (hf : Quiet f) (g : α → β) {r : Reader} {c : Cursor} (h : Rep r c) :
    ((do let m ← Reader.mark; let x ← f; let _ ← Reader.resetToMark m; pure (g x) : RM Reader β) r).1 ≠ .panic .debugAssert := by
  obtain ⟨m, r1, h1, h2⟩ := mark_at (dbg := r.buffer.dbg) ⟨h, rfl⟩
  simp only [RM.bind_run, h1]
  obtain ⟨a1, _⟩ := hf r1 (marked_stack h2.1 (by simp))
  generalize f r1 = x at a1
  obtain ⟨x, r2⟩ := x
  cases x with
  | ok a =>
    simp only
    have := reset_quiet m r2
    generalize Reader.resetToMark m r2 = y at this
    obtain ⟨y, r3⟩ := y
    cases y with
    | ok k => simp
    | err e => simp
    | panic p => simpa using this
    | diverge => simp
  | err e => simp
  | panic p => simpa using a1
  | diverge => simp

theorem isEof_at {r : Reader} {c : Cursor} (h : Stands dbg r c) :
    ∃ r', Reader.isEof r = (.ok (decide (c.rest = [])), r') ∧ Stands dbg r' c := by
  obtain ⟨r', h1, h2, _⟩ := isEof_rep (rel_rep h.1)
  obtain ⟨r2, a1, a2, _⟩ := in_build mirrors_isEof (under_quiet quiet_read _ h.1) h1 h2 h.2
  exact ⟨r2, a1, a2⟩

/-- Looking ahead; what was seen is in the buffer. -/
theorem peek_at {r : Reader} {c : Cursor} (h : Stands dbg r c) (n : Nat) :
    ∃ r', Reader.peek n r = (.ok (c.rest.take n), r') ∧ Stands dbg r' c ∧
      min n c.rest.length ≤ r'.buffer.buffer.length - r'.buffer.next := by
  obtain ⟨r', h1, h2, _⟩ := peek_rep (rel_rep h.1) n
  obtain ⟨r2, a1, a2, a3⟩ := in_build (mirrors_peek n) (under_quiet (quiet_peekLoop n) id h.1) h1 h2 h.2
  refine ⟨r2, a1, a2, ?_⟩
  obtain ⟨m, ra, b1, b2, _⟩ := mark_rep (rel_rep h.1)
  obtain ⟨rb, b3, b4, b5⟩ := peekLoop_rep b2 n
  obtain ⟨k, rc, own, b6, _, b7⟩ := reset_ahead (own := []) (dbg := rb.buffer.dbg) ⟨b4.toRep, rfl⟩
  simp only [Reader.peek, RM.bind_run, b1, b3, b6, RM.pure_run, Prod.mk.injEq] at h1
  rw [← h1.2] at a3
  have e1 := congrArg (fun r => r.buffer.buffer.length) a3
  have e2 := congrArg (fun r => r.buffer.next) a3
  simp only [rel] at e1 e2
  rw [e1, e2]
  have : ({ c with marks := (m, c.pos) :: c.marks } : Cursor).rest = c.rest := rfl
  rw [this] at b7
  simp only at b7
  omega

theorem prefixLoop_matched {r : Reader} {c : Cursor} (h : RepIdle r c) (p : Str) (hp : p <+: c.rest) :
    ∃ r', Reader.prefixLoop p r = (.ok true, r') ∧ RepIdle r' (c.advance p.length) := by
  induction p generalizing r c with
  | nil => exact ⟨r, rfl, h⟩
  | cons x p ih =>
    obtain ⟨t, ht⟩ := hp
    have hr : c.rest = x :: (p ++ t) := ht.symm
    obtain ⟨r1, h1, h2, _⟩ := read_rep h
    rw [hr] at h1 h2
    rw [List.length_cons, Nat.min_eq_left (by omega)] at h2
    obtain ⟨r2, h3, h4⟩ := ih h2 (by rw [rest_cons hr]; exact ⟨t, rfl⟩)
    simp only [Reader.prefixLoop, RM.bind_run, h1, List.head?_cons, ne_eq, not_true_eq_false, if_false, h3]
    refine ⟨r2, rfl, ?_⟩
    have : (c.advance 1).advance p.length = c.advance (x :: p).length := by
      simp only [Cursor.advance, List.length_cons]; congr 1; omega
    rwa [this] at h4

theorem prefixMatches_at {r : Reader} {c : Cursor} (h : Stands dbg r c) (p : Str) :
    ∃ r', Reader.prefixMatches p r = (.ok (decide (p <+: c.rest)), r') ∧ Stands dbg r' c ∧
      (p <+: c.rest → p.length ≤ r'.buffer.buffer.length - r'.buffer.next) := by
  obtain ⟨r', h1, h2, _⟩ := prefixMatches_rep (rel_rep h.1) p
  obtain ⟨r2, a1, a2, a3⟩ := in_build (mirrors_prefixMatches p) (under_quiet (quiet_prefixLoop p) id h.1) h1 h2 h.2
  refine ⟨r2, a1, a2, fun hp => ?_⟩
  obtain ⟨m, ra, b1, b2, _⟩ := mark_rep (rel_rep h.1)
  have : ({ c with marks := (m, c.pos) :: c.marks } : Cursor).rest = c.rest := rfl
  obtain ⟨rb, b3, b4⟩ := prefixLoop_matched b2 p (by rw [this]; exact hp)
  obtain ⟨k, rc, own, b6, _, b7⟩ := reset_ahead (own := []) (dbg := rb.buffer.dbg) ⟨b4.toRep, rfl⟩
  simp only [Reader.prefixMatches, RM.bind_run, b1, b3, b6, RM.pure_run, Prod.mk.injEq] at h1
  rw [← h1.2] at a3
  have e1 := congrArg (fun r => r.buffer.buffer.length) a3
  have e2 := congrArg (fun r => r.buffer.next) a3
  simp only [rel] at e1 e2
  rw [e1, e2]
  simp only at b7
  omega

/-- No assertion fails while skipping what is in the buffer. -/
theorem skipLoop_quiet (fuel : Nat) : ∀ (n : Nat) (r : Reader), n ≤ r.buffer.buffer.length - r.buffer.next →
    (Reader.skipLoop fuel n r).1 ≠ .panic .debugAssert := by
  induction fuel with
  | zero => intro n r _; cases n <;> simp [Reader.skipLoop]
  | succ fuel ih =>
    intro n r hn
    cases n with
    | zero => simp [Reader.skipLoop]
    | succ n =>
      have hrem : r.buffer.remains = true := by simp only [UnreadBuffer.remains, decide_eq_true_eq]; omega
      have hl : (r.buffer.read (min (n + 1) 1024)).1.length = min (n + 1) 1024 := by
        simp only [UnreadBuffer.read, List.length_take, List.length_drop]; omega
      simp only [Reader.skipLoop, RM.bind_run, Reader.readChars, hrem, if_true]
      have hne : (r.buffer.read (min (n + 1) 1024)).1.isEmpty = false := by
        rw [List.isEmpty_eq_false_iff]; intro hc; rw [hc] at hl; simp at hl; omega
      rw [hne]
      simp only [Bool.false_eq_true, if_false, hl]
      by_cases hz : n + 1 - min (n + 1) 1024 = 0
      · rw [hz]; cases fuel <;> simp [Reader.skipLoop]
      · apply ih
        simp only [UnreadBuffer.read] at hl ⊢
        have hr2 : UnreadBuffer.remains { r.buffer with next := r.buffer.next + (List.take (min (n + 1) 1024) (List.drop r.buffer.next r.buffer.buffer)).length } = true := by
          simp only [UnreadBuffer.remains, hl, decide_eq_true_eq]; omega
        rw [hr2]
        simp only [Bool.not_true, Bool.false_eq_true, if_false, hl]
        omega

/-- Skipping what is in the buffer. -/
theorem skip_at {r : Reader} {c : Cursor} (h : Stands dbg r c) {n : Nat} (hn : n ≤ r.buffer.buffer.length - r.buffer.next) :
    ∃ r', Reader.skip n r = (.ok (min n c.rest.length), r') ∧ Stands dbg r' (c.advance (min n c.rest.length)) := by
  obtain ⟨r', h1, h2, _⟩ := skip_rep (rel_rep h.1) n
  have hq : (Reader.skip n r).1 ≠ .panic .debugAssert := by
    have := skipLoop_quiet n n r hn
    simp only [Reader.skip, RM.bind_run]
    generalize Reader.skipLoop n n r = x at this
    obtain ⟨x, r1⟩ := x
    cases x with
    | ok k => simp
    | err e => simp
    | panic p => simpa using this
    | diverge => simp
  obtain ⟨r2, a1, a2, _⟩ := in_build (mirrors_skip n) hq h1 h2 h.2
  exact ⟨r2, a1, a2⟩

end Ebnf
