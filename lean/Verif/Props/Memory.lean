import Verif.Proofs.Jam

set_option autoImplicit false

/-! # C28 and C94, whatever is done with a reader

`Memory` (Spec/Memory.lean) says what a reader keeps in all histories, also in those that `unmark` the only live mark.
From it follows when exactly a debug build panics. -/

namespace Ebnf.Props

open Ebnf Ebnf.Spec

/-- The memory of a new reader. -/
private def nothing (location : Location) (text : Str) : Memory := ⟨⟨location, text, 0, []⟩, 0, 0, []⟩

/-- C28, exactly: the history of a debug build contains a panic if and only if one of its operations jams: it takes a
character that has not been looked at before, while no mark is live and something is still kept in memory.  (The answers
before it are those of a release build.) -/
theorem c28_panics_iff (location : Location) (s : Source) (text : Str) (h : Delivers s text) (ops : List ReaderOp) :
    .crash ∈ (performAll ops (Reader.withLocation location s true)).1 ↔
      ∃ before op after w, ops = before ++ op :: after ∧
        MemorySteps ⟨⟨location, text, 0, []⟩, 0, 0, []⟩ before
          (performAll before (Reader.withLocation location s false)).1 w ∧ Jams w op :=
  Mem.performAll_jams (w := nothing location text) rfl (new_rep (location := location) h true).toRep
    (Mem.new_keeps location s text true) ops

/-- C28, for the next operation: after any history of a debug build in which nothing has panicked, the next operation
panics if and only if it jams. -/
theorem c28_panics_next (location : Location) (s : Source) (text : Str) (h : Delivers s text) (ops : List ReaderOp)
    (hc : .crash ∉ (performAll ops (Reader.withLocation location s true)).1) :
    ∃ w, MemorySteps ⟨⟨location, text, 0, []⟩, 0, 0, []⟩ ops (performAll ops (Reader.withLocation location s true)).1 w ∧
      ∀ op, (perform op (performAll ops (Reader.withLocation location s true)).2).1 = .crash ↔ Jams w op := by
  obtain ⟨w, h1, h2, h3, h4⟩ := Mem.performAll_debug (w := nothing location text) rfl
    (new_rep (location := location) h true).toRep (Mem.new_keeps location s text true) ops hc
  exact ⟨w, h1, Mem.perform_jams h4 h2 h3⟩

private theorem text_kept {w w' : Memory} {ops : List ReaderOp} {as : List ReaderAns} (hw : MemorySteps w ops as w') :
    w'.cursor.text = w.cursor.text := by
  induction hw with
  | nil => rfl
  | cons hs _ ih => rw [ih, Mem.next_cursor]; cases hs <;> rfl

private theorem left_sublist {w w' : Memory} {ops : List ReaderOp} {as : List ReaderAns} (hw : MemorySteps w ops as w')
    (h : w.left.Sublist (w.cursor.text.take w.clean)) (h1 : w.clean ≤ w.furthest) :
    w'.left.Sublist (w'.cursor.text.take w'.clean) ∧ w'.clean ≤ w'.furthest := by
  induction hw with
  | nil => exact ⟨h, h1⟩
  | @cons w op a c ops as w' hs _ ih =>
    have ht : c.text = w.cursor.text := by cases hs <;> rfl
    refine ih ?_ ?_
    · unfold Memory.next
      dsimp only
      split
      · split
        · exact List.nil_sublist _
        · simp only [ht]
          have : w.held.Sublist (w.cursor.text.take w.furthest) := by
            unfold Memory.held
            have hx : w.cursor.text.take w.clean = (w.cursor.text.take w.furthest).take w.clean := by
              rw [List.take_take, Nat.min_eq_left h1]
            have := List.Sublist.append h (List.Sublist.refl ((w.cursor.text.take w.furthest).drop w.clean))
            rw [hx, List.take_append_drop] at this
            exact this
          refine this.trans ?_
          have hx : w.cursor.text.take w.furthest =
              (w.cursor.text.take (max w.furthest (reach w.cursor op a))).take w.furthest := by
            rw [List.take_take, Nat.min_eq_left (by omega)]
          rw [hx]
          exact List.take_sublist _ _
      · simp only [ht]; exact h
    · unfold Memory.next
      dsimp only
      split
      · split <;> exact Nat.le_refl _
      · dsimp only; omega

/-- C94, in all histories of either build in which nothing has panicked (in a release build nothing panics, C28): the
reader keeps exactly what `Memory` says, and that is part of the text that has been looked at, in the same order, so that
its length is bounded by the furthest position looked at. -/
theorem c94_held (location : Location) (s : Source) (text : Str) (dbg : Bool) (h : Delivers s text) (ops : List ReaderOp)
    (hc : .crash ∉ (performAll ops (Reader.withLocation location s dbg)).1) :
    ∃ w, MemorySteps ⟨⟨location, text, 0, []⟩, 0, 0, []⟩ ops (performAll ops (Reader.withLocation location s dbg)).1 w ∧
      heldBy (performAll ops (Reader.withLocation location s dbg)).2 = w.held ∧
      w.held.Sublist (text.take w.furthest) := by
  have hx : ∃ w, MemorySteps (nothing location text) ops (performAll ops (Reader.withLocation location s dbg)).1 w ∧
      Mem.Keeps (performAll ops (Reader.withLocation location s dbg)).2 w := by
    cases dbg with
    | true =>
      obtain ⟨w, h1, h2, h3, h4⟩ := Mem.performAll_debug (w := nothing location text) rfl
        (new_rep (location := location) h true).toRep (Mem.new_keeps location s text true) ops hc
      exact ⟨w, h1, h3⟩
    | false =>
      obtain ⟨as, r', w, h1, h2, h3, h4, h5⟩ := Mem.performAll_stands (w := nothing location text) rfl
        (new_rep (location := location) h false) (Mem.new_keeps location s text false) ops
      rw [h1]
      exact ⟨w, h2, h4⟩
  obtain ⟨w, h1, h2⟩ := hx
  refine ⟨w, h1, h2.buf, ?_⟩
  obtain ⟨h3, h4⟩ := left_sublist h1 (by simp [nothing]) (by simp [nothing])
  have ht : w.cursor.text = text := text_kept h1
  rw [ht] at h3
  have hx : text.take w.clean = (text.take w.furthest).take w.clean := by
    rw [List.take_take, Nat.min_eq_left h4]
  have := List.Sublist.append h3 (List.Sublist.refl ((text.take w.furthest).drop w.clean))
  rw [hx, List.take_append_drop] at this
  unfold Memory.held
  rw [ht]
  exact this

private def hello : Source := ⟨['h'], [.ok ['e', 'l'], .ok [], .ok ['l', 'o']], Location.new []⟩

private theorem hello_delivers : Delivers hello "hello".toList := ⟨[['e', 'l'], [], ['l', 'o']], rfl, rfl⟩

/-- Reading under a mark, forgetting the mark in the middle of what was read: nothing jams, the rest is read and memory
is clean again. -/
example : .crash ∉ (performAll [.mark, .skip 3, .mark, .resetToMark 3, .resetToMark 0, .mark, .read, .unmark 0, .readAll]
      (Reader.withLocation (Location.new []) hello true)).1 ∧
    heldBy (performAll [.mark, .skip 3, .mark, .resetToMark 3, .resetToMark 0, .mark, .read, .unmark 0, .readAll]
      (Reader.withLocation (Location.new []) hello true)).2 = [] := by decide +kernel

/-- After `mark`, `skip(3)`, `unmark` a debug build panics in `read`, but not in `peek(2)`, nor in `read` under a new mark. -/
example : (performAll [.mark, .skip 3, .unmark 0, .peek 2, .mark, .read, .resetToMark 3]
      (Reader.withLocation (Location.new []) hello true)).1 =
      [.num 0, .num 3, .unit, .chars ['l', 'o'], .num 3, .char (some 'l'), .num 1] ∧
    (performAll [.mark, .skip 3, .unmark 0, .read] (Reader.withLocation (Location.new []) hello true)).1 =
      [.num 0, .num 3, .unit, .crash] := by decide +kernel

/-- What a release build leaves behind need not be one piece of the text. -/
example : heldBy (performAll [.mark, .read, .unmark 0, .read, .mark, .read, .unmark 2]
    (Reader.withLocation (Location.new []) hello false)).2 = "hl".toList := by decide +kernel

/-- The memory of that history. -/
example : ∃ w, MemorySteps ⟨⟨Location.new [], "hello".toList, 0, []⟩, 0, 0, []⟩ [.mark, .read, .unmark 0]
      (performAll [.mark, .read, .unmark 0] (Reader.withLocation (Location.new []) hello false)).1 w ∧
    w.held = ['h'] ∧ Jams w .read ∧ ¬ Jams w (.readChars 0) ∧ ¬ Jams w (.peek 1) := by
  refine ⟨_, .cons (.mark _ 0 (by simp)) (.cons (.read _) (.cons (.unmark _ 0 [] 0 [] rfl (by simp)) (.nil _))), ?_, ?_, ?_, ?_⟩
  · decide +kernel
  · exact ⟨rfl, rfl, by decide +kernel, by decide +kernel, trivial⟩
  · exact fun h => h.2.2.2.2 rfl
  · exact fun h => h.2.2.2.2

end Ebnf.Props
