import Verif.Proofs.Memory
import Verif.Proofs.Running

set_option autoImplicit false

/-! # When a debug build panics

A debug assertion fails exactly when an operation jams. -/

namespace Ebnf.Mem

open Spec

variable {α β : Type}

/-- No mark, and there is something to read in the buffer, or nothing in it at all. -/
def Calm (r : Reader) : Prop :=
  r.buffer.stack = [] ∧ (r.buffer.next < r.buffer.buffer.length ∨ (r.buffer.buffer = [] ∧ r.buffer.next = 0))

/-- From a calm reader no assertion fails, and the reader stays calm. -/
def Gentle (f : RM Reader α) : Prop := ∀ r, Calm r → (f r).1 ≠ .panic .debugAssert ∧ Calm (f r).2

theorem gentle_pure (a : α) : Gentle (pure a : RM Reader α) := fun _ h => ⟨by simp, h⟩

theorem gentle_diverge : Gentle (RM.lift .diverge : RM Reader α) := fun _ h => ⟨by simp, h⟩

theorem gentle_bind {f : RM Reader α} {k : α → RM Reader β} (hf : Gentle f) (hk : ∀ a, Gentle (k a)) : Gentle (f >>= k) := by
  intro r hr
  simp only [RM.bind_run]
  obtain ⟨h1, h2⟩ := hf r hr
  generalize f r = x at h1 h2
  obtain ⟨x, r1⟩ := x
  simp only at h1 h2
  cases x with
  | ok a => exact hk a r1 h2
  | err e => exact ⟨by simp, h2⟩
  | panic p => exact ⟨by simpa using h1, h2⟩
  | diverge => exact ⟨by simp, h2⟩

theorem gentle_readChars (n : Nat) : Gentle (Reader.readChars n) := by
  intro r hr
  obtain ⟨hs, hb⟩ := hr
  unfold Reader.readChars
  by_cases h : r.buffer.remains = true
  · rw [if_pos h]
    refine ⟨by simp, ?_⟩
    simp only [UnreadBuffer.read]
    by_cases hx : (!UnreadBuffer.remains { r.buffer with
        next := r.buffer.next + (List.take n (List.drop r.buffer.next r.buffer.buffer)).length }) = true
    · rw [if_pos hx]
      simp only [UnreadBuffer.truncateIfStackEmpty, hs, List.isEmpty_nil, if_true]
      exact ⟨rfl, .inr ⟨rfl, rfl⟩⟩
    · rw [if_neg hx]
      refine ⟨hs, .inl ?_⟩
      simp only [UnreadBuffer.remains, Bool.not_eq_true', decide_eq_false_iff_not, Classical.not_not] at hx
      exact hx
  · rw [if_neg h]
    have hb' : r.buffer.buffer = [] ∧ r.buffer.next = 0 := by
      rcases hb with hb | hb
      · exact absurd (by simpa [UnreadBuffer.remains] using hb) h
      · exact hb
    have hp := source_no_panic n r.source .debugAssert
    generalize r.source.readChars n = x at hp
    obtain ⟨x, s⟩ := x
    cases x with
    | ok cs =>
      simp only
      by_cases hc : cs.isEmpty = true
      · rw [if_pos hc]; exact ⟨by simp, hs, hb⟩
      · rw [if_neg hc]
        simp only [UnreadBuffer.append, hs, List.isEmpty_nil, Bool.not_true, Bool.false_eq_true, if_false, hb'.1, hb'.2,
          bne_self_eq_false, Bool.or_self, Bool.and_false]
        exact ⟨by simp, rfl, .inr ⟨rfl, rfl⟩⟩
    | err e => exact ⟨by simp [Res.fail], hs, hb⟩
    | panic p => exact ⟨hp, hs, hb⟩
    | diverge => exact ⟨by simp, hs, hb⟩

theorem gentle_read : Gentle Reader.read := gentle_bind (gentle_readChars 1) fun _ => gentle_pure _

theorem gentle_skipLoop (fuel : Nat) : ∀ n, Gentle (Reader.skipLoop fuel n) := by
  induction fuel with
  | zero =>
    intro n
    cases n with
    | zero => exact gentle_pure _
    | succ n => exact gentle_diverge
  | succ fuel ih =>
    intro n
    cases n with
    | zero => exact gentle_pure _
    | succ n =>
      refine gentle_bind (gentle_readChars _) fun cs => ?_
      by_cases h : cs.isEmpty = true
      · simp only [if_pos h]; exact gentle_pure _
      · simp only [if_neg h]; exact ih _

theorem gentle_readAllLoop (fuel : Nat) : Gentle (Reader.readAllLoop fuel) := by
  induction fuel with
  | zero => exact gentle_diverge
  | succ fuel ih =>
    refine gentle_bind (gentle_readChars _) fun cs => ?_
    by_cases h : cs.isEmpty = true
    · simp only [if_pos h]; exact gentle_pure _
    · simp only [if_neg h]; exact gentle_bind ih fun _ => gentle_pure _

theorem quiet_skipLoop (fuel : Nat) : ∀ n, Quiet (Reader.skipLoop fuel n) := by
  induction fuel with
  | zero =>
    intro n
    cases n with
    | zero => exact quiet_pure _
    | succ n => exact quiet_diverge
  | succ fuel ih =>
    intro n
    cases n with
    | zero => exact quiet_pure _
    | succ n =>
      refine quiet_bind (quiet_readChars _) fun cs => ?_
      by_cases h : cs.isEmpty = true
      · simp only [if_pos h]; exact quiet_pure _
      · simp only [if_neg h]; exact ih _

theorem quiet_readAllLoop (fuel : Nat) : Quiet (Reader.readAllLoop fuel) := by
  induction fuel with
  | zero => exact quiet_diverge
  | succ fuel ih =>
    refine quiet_bind (quiet_readChars _) fun cs => ?_
    by_cases h : cs.isEmpty = true
    · simp only [if_pos h]; exact quiet_pure _
    · simp only [if_neg h]; exact quiet_bind ih fun _ => quiet_pure _

/-- At the end of the buffer and of the text nothing happens. -/
theorem nothing_left {r : Reader} {w : Memory} (hr : Rep r w.cursor) (h : Keeps r w) (hp : w.cursor.pos = w.furthest)
    (n : Nat) (hn : n = 0 ∨ w.cursor.rest = []) : ∃ r', Reader.readChars n r = (.ok [], r') := by
  obtain ⟨text, hd, hrest, _⟩ := hr.src
  have hrem : ¬ r.buffer.remains = true := by
    simp only [UnreadBuffer.remains, decide_eq_true_eq, h.length, h.next]
    omega
  obtain ⟨cs, s', text', h1, h2, h3, h4, h5⟩ := source_readChars hd n
  have hcs : cs = [] := by
    rcases hn with hn | hn
    · subst hn; simpa using h4
    · rw [hn, h2] at hrest
      have := (List.append_eq_nil_iff.mp hrest.symm).2
      exact (List.append_eq_nil_iff.mp this).1
  subst hcs
  refine ⟨{ r with source := s' }, ?_⟩
  unfold Reader.readChars
  rw [if_neg hrem, h1]
  rfl

/-- A debug build panics when an operation jams. -/
theorem jam {r : Reader} {w : Memory} (hdb : r.buffer.dbg = true) (hr : Rep r w.cursor) (h : Keeps r w)
    (hm : w.cursor.marks = []) (hp : w.cursor.pos = w.furthest) (hh : w.held ≠ []) (hrest : w.cursor.rest ≠ [])
    (n : Nat) (hn : n ≠ 0) : (Reader.readChars n r).1 = .panic .debugAssert := by
  obtain ⟨text, hd, hre, _⟩ := hr.src
  have hst : r.buffer.stack = [] := by rw [hr.stack, hm]; rfl
  have hlen := h.length
  have hnx := h.next
  have hrem : ¬ r.buffer.remains = true := by
    simp only [UnreadBuffer.remains, decide_eq_true_eq, hlen, hnx]
    omega
  have htext : text = w.cursor.rest := by
    rw [hre, List.drop_eq_nil_of_le (by rw [hlen, hnx]; omega)]; rfl
  obtain ⟨cs, s', text', h1, h2, h3, h4, h5⟩ := source_readChars hd n
  have hcs : cs ≠ [] := fun hc => by
    rcases h5 hc with hc | hc
    · exact hn hc
    · exact hrest (by rw [← htext]; exact hc)
  unfold Reader.readChars
  rw [if_neg hrem, h1]
  simp only
  rw [if_neg (by simpa using hcs)]
  have : r.buffer.append cs = (.panic .debugAssert, r.buffer) := by
    unfold UnreadBuffer.append
    rw [if_neg (by simp [hst]), if_pos (by simp [hdb, h.buf, hh])]
  rw [this]

/-- Taking no character that is new, or with a mark, or with nothing kept: no assertion fails. -/
theorem no_jam {f : RM Reader α} {r : Reader} {w : Memory} (hr : Rep r w.cursor) (h : Keeps r w) (hg : Gentle f) (hq : Quiet f)
    (hn : w.cursor.marks = [] → w.cursor.pos = w.furthest → w.held ≠ [] → (f r).1 ≠ .panic .debugAssert) :
    (f r).1 ≠ .panic .debugAssert := by
  by_cases hm : w.cursor.marks = []
  · have hst : r.buffer.stack = [] := by rw [hr.stack, hm]; rfl
    have hlen := h.length
    have hnx := h.next
    have h1 := h.pos_le
    have h2 := h.o_le
    by_cases hp : w.cursor.pos = w.furthest
    · by_cases hh : w.held = []
      · refine (hg r ⟨hst, .inr ⟨by rw [h.buf, hh], ?_⟩⟩).1
        have := h.length
        rw [h.buf, hh] at this
        simp only [List.length_nil] at this
        omega
      · exact hn hm hp hh
    · exact (hg r ⟨hst, .inl (by omega)⟩).1
  · refine (hq r ?_).1
    rw [hr.stack]
    simpa using hm

theorem answer_panic {f : RM Reader α} {g : α → ReaderAns} {r : Reader} (h : (f r).1 = .panic .debugAssert) :
    (answer g (f r)).1 = .crash := by
  generalize f r = x at h
  obtain ⟨x, r1⟩ := x
  simp only at h; subst h; rfl

theorem bind_panic {f : RM Reader α} {k : α → RM Reader β} {r : Reader} (h : (f r).1 = .panic .debugAssert) :
    ((f >>= k) r).1 = .panic .debugAssert := by
  rw [RM.bind_run]
  generalize f r = x at h
  obtain ⟨x, r1⟩ := x
  simp only at h; subst h; rfl

/-- An operation of a debug build panics exactly when it jams. -/
theorem perform_jams {r : Reader} {w : Memory} (hdb : r.buffer.dbg = true) (hr : Rep r w.cursor) (h : Keeps r w)
    (op : ReaderOp) : (perform op r).1 = .crash ↔ Jams w op := by
  have hk : Keeps (rel r) w := ⟨h.o_le, h.pos_le, h.f_le, h.buf, h.next, h.marks⟩
  obtain ⟨a, r', c', h1, h2, _⟩ := perform_stands (r := rel r) rfl (rel_rep hr) hk op
  have hok : (perform op (rel r)).1 ≠ .crash := by
    rw [h1]; intro hx; simp only at hx; subst hx; cases h2
  have key : ∀ {α : Type} {f : RM Reader α} {g : α → ReaderAns}, Mirrors f → (answer g (f (rel r))).1 ≠ .crash →
      (f r).1 ≠ .panic .debugAssert → (answer g (f r)).1 ≠ .crash := by
    intro α f g hf ha hp
    rcases hf r with hx | ⟨hx, _, _⟩
    · exact absurd hx hp
    · generalize f (rel r) = y at ha hx
      generalize f r = x at hx
      obtain ⟨x, r1⟩ := x
      obtain ⟨y, r2⟩ := y
      simp only at hx
      subst hx
      cases y <;> simpa [answer] using ha
  have single : ∀ n, w.cursor.marks = [] → w.cursor.pos = w.furthest → w.held ≠ [] →
      ¬ (n ≠ 0 ∧ w.cursor.rest ≠ []) → ∃ r', Reader.readChars n r = (.ok [], r') := by
    intro n _ hp _ hx
    refine nothing_left hr h hp n ?_
    by_cases h0 : n = 0
    · exact .inl h0
    · by_cases h1 : w.cursor.rest = []
      · exact .inr h1
      · exact absurd ⟨h0, h1⟩ hx
  cases op with
  | read =>
    constructor
    · intro hc
      refine Classical.byContradiction fun hj => key mirrors_read hok (no_jam hr h gentle_read quiet_read fun a1 a2 a3 => ?_) hc
      obtain ⟨r1, hr1⟩ := single 1 a1 a2 a3 (fun hx => hj ⟨a1, a2, a3, hx.2, trivial⟩)
      unfold Reader.read
      rw [RM.bind_run, hr1]; simp
    · rintro ⟨a1, a2, a3, a4, _⟩
      exact answer_panic (bind_panic (jam hdb hr h a1 a2 a3 a4 1 (by simp)))
  | readChars n =>
    constructor
    · intro hc
      refine Classical.byContradiction fun hj =>
        key (mirrors_readChars n) hok (no_jam hr h (gentle_readChars n) (quiet_readChars n) fun a1 a2 a3 => ?_) hc
      obtain ⟨r1, hr1⟩ := single n a1 a2 a3 (fun hx => hj ⟨a1, a2, a3, hx.2, hx.1⟩)
      rw [hr1]; simp
    · rintro ⟨a1, a2, a3, a4, a5⟩
      exact answer_panic (jam hdb hr h a1 a2 a3 a4 n a5)
  | readAll =>
    constructor
    · intro hc
      refine Classical.byContradiction fun hj => key mirrors_readAll hok ?_ hc
      refine no_jam (f := Reader.readAllLoop (r.size + 1)) hr h (gentle_readAllLoop _) (quiet_readAllLoop _) fun a1 a2 a3 => ?_
      obtain ⟨r1, hr1⟩ := single 1024 a1 a2 a3 (fun hx => hj ⟨a1, a2, a3, hx.2, trivial⟩)
      rw [Reader.readAllLoop, RM.bind_run, hr1]; simp
    · rintro ⟨a1, a2, a3, a4, _⟩
      refine answer_panic (f := Reader.readAll) ?_
      rw [Reader.readAll, Reader.readAllLoop]
      exact bind_panic (jam hdb hr h a1 a2 a3 a4 1024 (by simp))
  | skip n =>
    constructor
    · intro hc
      refine Classical.byContradiction fun hj => key (mirrors_skip n) hok ?_ hc
      refine no_jam (f := Reader.skip n) hr h (gentle_bind (gentle_skipLoop n n) fun _ => gentle_pure _)
        (quiet_bind (quiet_skipLoop n n) fun _ => quiet_pure _) fun a1 a2 a3 => ?_
      unfold Reader.skip
      cases n with
      | zero => rw [Reader.skipLoop, RM.bind_run]; simp
      | succ n =>
        obtain ⟨r1, hr1⟩ := single (min (n + 1) 1024) a1 a2 a3 (fun hx => hj ⟨a1, a2, a3, hx.2, by simp [TakesOne]⟩)
        rw [Reader.skipLoop, RM.bind_run, RM.bind_run, hr1]; simp
    · rintro ⟨a1, a2, a3, a4, a5⟩
      refine answer_panic (f := Reader.skip n) ?_
      unfold Reader.skip
      refine bind_panic ?_
      cases n with
      | zero => exact absurd rfl a5
      | succ n =>
        rw [Reader.skipLoop]
        exact bind_panic (jam hdb hr h a1 a2 a3 a4 _ (by omega))
  | peek n =>
    refine ⟨fun hc => absurd hc (key (mirrors_peek n) hok (under_quiet (quiet_peekLoop n) id hr)), fun hj => hj.2.2.2.2.elim⟩
  | prefixMatches p =>
    refine ⟨fun hc => absurd hc (key (mirrors_prefixMatches p) hok (under_quiet (quiet_prefixLoop p) id hr)),
      fun hj => hj.2.2.2.2.elim⟩
  | isEof =>
    refine ⟨fun hc => absurd hc (key mirrors_isEof hok (under_quiet quiet_read Option.isNone hr)), fun hj => hj.2.2.2.2.elim⟩
  | mark => exact ⟨fun hc => absurd hc (key mirrors_mark hok (mark_quiet hr)), fun hj => hj.2.2.2.2.elim⟩
  | resetToMark m => exact ⟨fun hc => absurd hc (key (mirrors_reset m) hok (reset_quiet m r)), fun hj => hj.2.2.2.2.elim⟩
  | unmark m => exact ⟨fun hc => absurd hc (key (mirrors_unmark m) hok (unmark_quiet m r)), fun hj => hj.2.2.2.2.elim⟩
  | location => exact ⟨fun hc => by simp [perform, Reader.location, answer] at hc, fun hj => hj.2.2.2.2.elim⟩

/-- The state of a debug build after an operation that did not panic. -/
theorem perform_debug {r : Reader} {w : Memory} (hdb : r.buffer.dbg = true) (hr : Rep r w.cursor) (h : Keeps r w)
    (op : ReaderOp) (hc : (perform op r).1 ≠ .crash) :
    ∃ a r' c', perform op r = (a, r') ∧ perform op (rel r) = (a, rel r') ∧ CursorStep w.cursor op a c' ∧ Rep r' c' ∧
      Keeps r' (w.next op a c') ∧ r'.buffer.dbg = true := by
  have hk : Keeps (rel r) w := ⟨h.o_le, h.pos_le, h.f_le, h.buf, h.next, h.marks⟩
  obtain ⟨a, r', c', h1, h2, h3, h4, h5⟩ := perform_stands (r := rel r) rfl (rel_rep hr) hk op
  rcases perform_mirrors op r with hx | ⟨hx, hy⟩
  · exact absurd hx hc
  · have he := hx
    rw [h1, Prod.mk.injEq] at hx
    obtain ⟨e1, e2⟩ := hx
    refine ⟨a, (perform op r).2, c', Prod.ext e1.symm rfl, by rw [he, ← e1], h2, ?_, ?_, by rw [hy, hdb]⟩
    · rw [e2] at h3; exact rep_of_rel h3.toRep
    · rw [e2] at h4
      exact ⟨h4.o_le, h4.pos_le, h4.f_le, h4.buf, h4.next, h4.marks⟩

/-- A debug build without panic. -/
theorem performAll_debug {r : Reader} {w : Memory} (hdb : r.buffer.dbg = true) (hr : Rep r w.cursor) (h : Keeps r w)
    (ops : List ReaderOp) (hc : .crash ∉ (performAll ops r).1) :
    ∃ w', MemorySteps w ops (performAll ops r).1 w' ∧ Rep (performAll ops r).2 w'.cursor ∧ Keeps (performAll ops r).2 w' ∧
      (performAll ops r).2.buffer.dbg = true := by
  induction ops generalizing r w with
  | nil => exact ⟨w, .nil w, hr, h, hdb⟩
  | cons op ops ih =>
    simp only [performAll, List.mem_cons, not_or] at hc
    obtain ⟨a, r1, c1, h1, _, h2, h3, h4, h5⟩ := perform_debug hdb hr h op (fun hx => hc.1 hx.symm)
    rw [h1] at hc
    obtain ⟨w', h6, h7, h8, h9⟩ := ih (w := w.next op a c1) h5 (by rw [next_cursor]; exact h3) h4 hc.2
    simp only [performAll, h1]
    exact ⟨w', .cons h2 h6, h7, h8, h9⟩

/-- A debug build panics exactly when an operation jams. -/
theorem performAll_jams {r : Reader} {w : Memory} (hdb : r.buffer.dbg = true) (hr : Rep r w.cursor) (h : Keeps r w)
    (ops : List ReaderOp) :
    .crash ∈ (performAll ops r).1 ↔ ∃ before op after w', ops = before ++ op :: after ∧
      MemorySteps w before (performAll before (rel r)).1 w' ∧ Jams w' op := by
  induction ops generalizing r w with
  | nil => simp [performAll]
  | cons op ops ih =>
    by_cases hj : Jams w op
    · have := (perform_jams hdb hr h op).mpr hj
      refine ⟨fun _ => ⟨[], op, ops, w, rfl, .nil w, hj⟩, fun _ => ?_⟩
      simp only [performAll, this]
      simp
    · have hc := mt (perform_jams hdb hr h op).mp hj
      obtain ⟨a, r1, c1, h1, h1', h2, h3, h4, h5⟩ := perform_debug hdb hr h op hc
      have hi := ih (w := w.next op a c1) h5 (by rw [next_cursor]; exact h3) h4
      rw [h1] at hc
      have : .crash ∈ (performAll (op :: ops) r).1 ↔ .crash ∈ (performAll ops r1).1 := by
        simp only [performAll, h1, List.mem_cons]
        exact ⟨fun hx => hx.resolve_left (fun he => hc he.symm), .inr⟩
      rw [this, hi]
      constructor
      · rintro ⟨before, o, after, w', rfl, a2, a3⟩
        refine ⟨op :: before, o, after, w', rfl, ?_, a3⟩
        simp only [performAll, h1']
        exact .cons h2 a2
      · rintro ⟨before, o, after, w', e, a2, a3⟩
        cases before with
        | nil =>
          simp only [List.nil_append, List.cons.injEq] at e
          obtain ⟨rfl, rfl⟩ := e
          cases a2
          exact absurd a3 hj
        | cons o' before =>
          simp only [List.cons_append, List.cons.injEq] at e
          obtain ⟨rfl, rfl⟩ := e
          simp only [performAll, h1'] at a2
          cases a2 with
          | cons b1 b2 =>
            rw [cursorStep_det b1 h2] at b2
            exact ⟨before, o, after, w', rfl, b2, a3⟩

end Ebnf.Mem
