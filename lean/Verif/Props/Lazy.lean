import Verif.Proofs.Lazy
import Verif.Proofs.Builds

set_option autoImplicit false

/-! # C100: a reader asks its source only for what it needs -/

namespace Ebnf.Props

open Ebnf Ebnf.Spec

private theorem steps_text {w w' : Window} {ops : List ReaderOp} {as : List ReaderAns} (hw : WindowSteps w ops as w') :
    w'.cursor.text = w.cursor.text := by
  induction hw with
  | nil => rfl
  | cons hs _ ih => rw [ih]; cases hs <;> rfl

/-- Both builds do the same as long as nothing panics. -/
private theorem release_does {location : Location} {s : Source} {dbg : Bool} {ops : List ReaderOp}
    (hc : .crash ∉ (performAll ops (Reader.withLocation location s dbg)).1) :
    performAll ops (Reader.withLocation location s false) = ((performAll ops (Reader.withLocation location s dbg)).1,
      rel (performAll ops (Reader.withLocation location s dbg)).2) := by
  rcases performAll_mirrors ops (Reader.withLocation location s dbg) with h | ⟨h, _⟩
  · exact absurd h hc
  · exact h

private theorem history (location : Location) (s : Source) (text : Str) (dbg : Bool) (h : Delivers s text)
    (ops : List ReaderOp) (hc : .crash ∉ (performAll ops (Reader.withLocation location s dbg)).1) :
    ∃ w, WindowSteps ⟨⟨location, text, 0, []⟩, 0, 0⟩ ops (performAll ops (Reader.withLocation location s dbg)).1 w ∧
      RepIdle (rel (performAll ops (Reader.withLocation location s dbg)).2) w.cursor ∧
      Taken s (rel (performAll ops (Reader.withLocation location s dbg)).2) w.cursor w.furthest ∧ w.cursor.text = text := by
  obtain ⟨as, r', w', h1, h2, h3, h4, h5⟩ := performAll_taken (w := ⟨⟨location, text, 0, []⟩, 0, 0⟩)
    (new_rep (location := location) h false) (new_taken h false) ops (by simp [Reader.withLocation, UnreadBuffer.new])
  rw [release_does hc, Prod.mk.injEq] at h1
  rw [h1.1, h1.2]
  exact ⟨w', h2, h3, h4, steps_text h2⟩

/-- C100: after any history of calls in which nothing has panicked (in a release build nothing panics, C28) the source
still has to deliver everything beyond the furthest place that one of the calls has looked at. -/
theorem c100_rest (location : Location) (s : Source) (text : Str) (dbg : Bool) (h : Delivers s text)
    (ops : List ReaderOp) (hc : .crash ∉ (performAll ops (Reader.withLocation location s dbg)).1) :
    ∃ w, WindowSteps ⟨⟨location, text, 0, []⟩, 0, 0⟩ ops (performAll ops (Reader.withLocation location s dbg)).1 w ∧
      Delivers (performAll ops (Reader.withLocation location s dbg)).2.source (text.drop w.furthest) := by
  obtain ⟨w, h1, _, h3, h5⟩ := history location s text dbg h ops hc
  exact ⟨w, h1, by have := h3.left; rwa [h5] at this⟩

/-- C100: after any history of calls in which nothing has panicked, a piece of the byte stream has been asked for only if
everything that came before it has been looked at. -/
theorem c100_pieces (location : Location) (s : Source) (text : Str) (dbg : Bool) (h : Delivers s text)
    (ops : List ReaderOp) (hc : .crash ∉ (performAll ops (Reader.withLocation location s dbg)).1) :
    ∃ w, WindowSteps ⟨⟨location, text, 0, []⟩, 0, 0⟩ ops (performAll ops (Reader.withLocation location s dbg)).1 w ∧
      AsNeeded s (performAll ops (Reader.withLocation location s dbg)).2.source w.furthest := by
  obtain ⟨w, h1, _, h3, _⟩ := history location s text dbg h ops hc
  exact ⟨w, h1, h3.needed⟩

/-- C100: a call that does not go beyond what has been looked at before leaves the source alone, and so cannot block. -/
theorem c100_no_call (location : Location) (s : Source) (text : Str) (dbg : Bool) (h : Delivers s text)
    (ops : List ReaderOp) (op : ReaderOp) (hc : .crash ∉ (performAll (ops ++ [op]) (Reader.withLocation location s dbg)).1) :
    ∃ w, WindowSteps ⟨⟨location, text, 0, []⟩, 0, 0⟩ ops (performAll ops (Reader.withLocation location s dbg)).1 w ∧
      (Within w.cursor w.furthest op →
        (performAll (ops ++ [op]) (Reader.withLocation location s dbg)).2.source =
          (performAll ops (Reader.withLocation location s dbg)).2.source) := by
  have happ : ∀ (ops : List ReaderOp) (r : Reader), performAll (ops ++ [op]) r =
      ((performAll ops r).1 ++ [(perform op (performAll ops r).2).1], (perform op (performAll ops r).2).2) := by
    intro ops
    induction ops with
    | nil => intro r; rfl
    | cons o ops ih => intro r; simp only [List.cons_append, performAll, ih]
  rw [happ] at hc ⊢
  simp only [List.mem_append, List.mem_singleton, not_or] at hc
  obtain ⟨w, h1, h2, h3, h5⟩ := history location s text dbg h ops hc.1
  refine ⟨w, h1, fun hw => ?_⟩
  obtain ⟨a, r', c', h6, _, _, _, _, h7⟩ := perform_taken h2 h3 op (by simp [rel])
  rcases perform_mirrors op (performAll ops (Reader.withLocation location s dbg)).2 with h8 | ⟨h8, _⟩
  · exact absurd h8.symm hc.2
  · rw [h6, Prod.mk.injEq] at h8
    have := h7 hw
    rw [h8.2] at this
    exact this

/-- `hello` in the pieces `h`, `el`, nothing, `lo`. -/
private def inPieces : Source := ⟨['h'], [.ok ['e', 'l'], .ok [], .ok ['l', 'o']], Location.new []⟩

private theorem inPieces_delivers : Delivers inPieces "hello".toList := ⟨[['e', 'l'], [], ['l', 'o']], rfl, rfl⟩

/-- Looking at two characters asks for the second piece only; going back and reading these two does not need the
source, and reading the third does not need another piece. -/
example : (performAll [.peek 2, .read, .readChars 5] (Reader.withLocation (Location.new []) inPieces true)).2.source.rounds.length = 2 ∧
    (performAll [.peek 2, .read, .readChars 5, .read] (Reader.withLocation (Location.new []) inPieces true)).2.source.rounds.length = 2 ∧
    (performAll [.peek 2, .read, .readChars 5, .read, .isEof] (Reader.withLocation (Location.new []) inPieces true)).2.source.rounds.length = 0 := by
  decide +kernel

/-- The window after looking at two characters; the next `read` is within it. -/
example : ∃ w, WindowSteps ⟨⟨Location.new [], "hello".toList, 0, []⟩, 0, 0⟩ [.peek 2]
      (performAll [.peek 2] (Reader.withLocation (Location.new []) inPieces true)).1 w ∧
    Within w.cursor w.furthest .read ∧ Within w.cursor w.furthest (.skip 2) ∧ ¬Within w.cursor w.furthest (.skip 3) ∧
    w.furthest = 2 := by
  refine ⟨_, .cons (.peek _ 2) (.nil _), ?_, ?_, ?_, ?_⟩ <;> simp only [Within] <;> decide +kernel

/-- Also after `unmark` of the only mark nothing need panic. -/
example : .crash ∉ (performAll ([.peek 2, .mark, .read, .unmark 0, .readChars 4] ++ [.read])
    (Reader.withLocation (Location.new []) inPieces true)).1 := by decide +kernel

end Ebnf.Props
