import Verif.Proofs.Held

set_option autoImplicit false

/-! # C94: what a reader keeps in memory

Wanted: once no live mark lies before a character that has been delivered, the reader no longer holds it.
`c94_grows` and `c94_unmark_keeps` show that the code does not do this. -/

namespace Ebnf.Props

open Ebnf Ebnf.Spec

/-- C94, for histories that do not `unmark` the only live mark (either build): the reader holds exactly the
characters between the place where it last had no mark and had delivered everything it had looked at, and the furthest
place it has looked at.  What is missing is that characters behind the oldest live mark are dropped. -/
theorem c94_held_partial (location : Location) (s : Source) (text : Str) (dbg : Bool) (h : Delivers s text)
    (ops : List ReaderOp) (hn : NestedUnmarks ⟨location, text, 0, []⟩ ops) :
    ∃ w, WindowSteps ⟨⟨location, text, 0, []⟩, 0, 0⟩ ops (performAll ops (Reader.withLocation location s dbg)).1 w ∧
      heldBy (performAll ops (Reader.withLocation location s dbg)).2 = (text.take w.furthest).drop w.clean ∧
      w.clean ≤ w.cursor.pos ∧ w.cursor.pos ≤ w.furthest ∧ w.furthest ≤ text.length ∧
      ∀ x ∈ w.cursor.marks, w.clean ≤ x.2 := by
  obtain ⟨as, r', w', h1, h2, h3, h4⟩ := performAll_stands (w := ⟨⟨location, text, 0, []⟩, 0, 0⟩)
    (new_rep (location := location) h dbg) (new_holds location s text dbg) ops hn
  have ht : w'.cursor.text = text := by
    have hs : ∀ (w w' : Window) (ops : List ReaderOp) (as : List ReaderAns), WindowSteps w ops as w' →
        w'.cursor.text = w.cursor.text := by
      intro w w' ops as hw
      induction hw with
      | nil => rfl
      | cons hs _ ih => rw [ih]; cases hs <;> rfl
    exact hs _ _ _ _ h2
  refine ⟨w', by rw [h1]; exact h2, ?_, h4.o_le, h4.pos_le, by rw [← ht]; exact h4.f_le, h4.marks⟩
  rw [h1, heldBy, h4.buf, ht, List.drop_take]

/-- C94: a reader with no live mark that has delivered everything it looked at holds nothing. -/
theorem c94_nothing_left (location : Location) (s : Source) (text : Str) (dbg : Bool) (h : Delivers s text)
    (ops : List ReaderOp) (hn : NestedUnmarks ⟨location, text, 0, []⟩ ops) :
    ∃ w, WindowSteps ⟨⟨location, text, 0, []⟩, 0, 0⟩ ops (performAll ops (Reader.withLocation location s dbg)).1 w ∧
      (w.cursor.marks = [] → w.cursor.pos = w.furthest →
        heldBy (performAll ops (Reader.withLocation location s dbg)).2 = []) := by
  obtain ⟨as, r', w', h1, h2, h3, h4⟩ := performAll_stands (w := ⟨⟨location, text, 0, []⟩, 0, 0⟩)
    (new_rep (location := location) h dbg) (new_holds location s text dbg) ops hn
  refine ⟨w', by rw [h1]; exact h2, fun h5 h6 => ?_⟩
  rw [h1, heldBy, h4.buf, h4.clean h5 h6]
  simp

private theorem oneAhead_nested (ops : List ReaderOp) (h : ∀ op ∈ ops, LooksOneAhead op) (c : Cursor) :
    NestedUnmarks c ops := by
  induction ops generalizing c with
  | nil => trivial
  | cons op ops ih =>
    intro a c' _
    refine ⟨fun m he _ => ?_, ih (fun o ho => h o (by simp [ho])) c'⟩
    have := h op (by simp)
    rw [he] at this
    exact this.elim

private theorem examined_le (p s : Str) : examined p s ≤ p.length ∧ examined p s ≤ s.length := by
  induction p generalizing s with
  | nil => simp [examined]
  | cons x p ih =>
    cases s with
    | nil => simp [examined]
    | cons y s =>
      have := ih s
      simp only [examined, List.length_cons]
      split <;> omega

private theorem next_near {w : Window} {op : ReaderOp} {a : ReaderAns} {c : Cursor}
    (h2 : w.clean ≤ w.cursor.pos) (h3 : w.cursor.pos ≤ w.furthest) (h4 : w.furthest ≤ w.clean + 1)
    (hm : c.marks = []) (h5 : w.cursor.pos ≤ c.pos)
    (h : reach w.cursor op a = c.pos ∨ (c.pos = w.cursor.pos ∧ reach w.cursor op a ≤ w.cursor.pos + 1 ∧
      (w.cursor.pos = w.furthest → w.clean = w.furthest))) :
    (w.next op a c).clean ≤ (w.next op a c).cursor.pos ∧ (w.next op a c).cursor.pos ≤ (w.next op a c).furthest ∧
      (w.next op a c).furthest ≤ (w.next op a c).clean + 1 ∧
      ((w.next op a c).cursor.pos = (w.next op a c).furthest → (w.next op a c).clean = (w.next op a c).furthest) := by
  unfold Window.next
  simp only [hm, true_and]
  rcases h with h | ⟨h, h6, h7⟩
  · rw [h]
    by_cases hc : c.pos = max w.furthest c.pos
    · rw [if_pos hc]; omega
    · rw [if_neg hc]; omega
  · by_cases hc : c.pos = max w.furthest (reach w.cursor op a)
    · rw [if_pos hc]; omega
    · rw [if_neg hc]; omega

/-- C94: a program that never looks more than one character ahead never makes the reader hold more than one
character, however long the text. -/
theorem c94_one_ahead (location : Location) (s : Source) (text : Str) (dbg : Bool) (h : Delivers s text)
    (ops : List ReaderOp) (ho : ∀ op ∈ ops, LooksOneAhead op) :
    (heldBy (performAll ops (Reader.withLocation location s dbg)).2).length ≤ 1 := by
  obtain ⟨w, hw, hh, h3, h4, h5, h6⟩ := c94_held_partial location s text dbg h ops (oneAhead_nested ops ho _)
  rw [hh]
  suffices hs : ∀ (w w' : Window) (ops : List ReaderOp) (as : List ReaderAns), WindowSteps w ops as w' →
      (∀ op ∈ ops, LooksOneAhead op) → w.cursor.marks = [] → w.clean ≤ w.cursor.pos → w.cursor.pos ≤ w.furthest →
      w.furthest ≤ w.clean + 1 → (w.cursor.pos = w.furthest → w.clean = w.furthest) → w'.furthest ≤ w'.clean + 1 by
    have := hs _ _ _ _ hw ho rfl (Nat.le_refl _) (Nat.le_refl _) (by simp) (fun _ => rfl)
    simp only [List.length_drop, List.length_take]
    omega
  clear hw hh h3 h4 h5 h6 w ho h
  intro w w' ops as hw
  induction hw with
  | nil => exact fun _ _ _ _ h _ => h
  | @cons w op a c ops as w' hst _ ih =>
    intro ho hm h1 h2 h3 h4
    have hlk := ho op (by simp)
    have key : c.marks = [] ∧ w.cursor.pos ≤ c.pos ∧ (reach w.cursor op a = c.pos ∨ (c.pos = w.cursor.pos ∧
        reach w.cursor op a ≤ w.cursor.pos + 1 ∧ (w.cursor.pos = w.furthest → w.clean = w.furthest))) := by
      cases hst with
      | read => exact ⟨hm, by simp [Cursor.advance], .inl rfl⟩
      | readChars n cs => exact ⟨hm, by simp [Cursor.advance], .inl rfl⟩
      | readAll => exact ⟨hm, by simp [Cursor.advance], .inl rfl⟩
      | peek n =>
        simp only [LooksOneAhead] at hlk
        exact ⟨hm, Nat.le_refl _, .inr ⟨rfl, by simp only [reach]; omega, h4⟩⟩
      | prefixMatches p =>
        have := (examined_le p w.cursor.rest).1
        simp only [LooksOneAhead] at hlk
        exact ⟨hm, Nat.le_refl _, .inr ⟨rfl, by simp only [reach]; omega, h4⟩⟩
      | isEof => exact ⟨hm, Nat.le_refl _, .inr ⟨rfl, by simp only [reach]; omega, h4⟩⟩
      | skip n => exact ⟨hm, by simp [Cursor.advance], .inl rfl⟩
      | location => exact ⟨hm, Nat.le_refl _, .inl rfl⟩
      | mark | reset | resetInvalid | unmark | unmarkInvalid => exact hlk.elim
    obtain ⟨k1, k2, k3, k4⟩ := next_near h1 h2 h3 key.1 key.2.1 key.2.2
    exact ih (fun o hx => ho o (by simp [hx])) key.1 k1 k2 k3 k4

/-- Look two characters ahead and read one, `n` times. -/
def peekTwoReadOne : Nat → List ReaderOp
  | 0 => []
  | n + 1 => .peek 2 :: .read :: peekTwoReadOne n

private theorem peekTwo_nested (n : Nat) (c : Cursor) : NestedUnmarks c (peekTwoReadOne n) := by
  induction n generalizing c with
  | zero => trivial
  | succ n ih =>
    intro a c' _
    refine ⟨fun m he => by simp at he, ?_⟩
    intro a' c'' _
    exact ⟨fun m he => by simp at he, ih c''⟩

/-- C94 fails: a program that looks two characters ahead and reads one, over and over, makes the reader hold
everything it has read since the beginning. -/
theorem c94_grows (location : Location) (s : Source) (text : Str) (dbg : Bool) (h : Delivers s text) (n : Nat)
    (hn : 0 < n) (hl : n < text.length) :
    heldBy (performAll (peekTwoReadOne n) (Reader.withLocation location s dbg)).2 = text.take (n + 1) := by
  obtain ⟨w, hw, hh, hx⟩ := c94_held_partial location s text dbg h _ (peekTwo_nested n _)
  rw [hh]
  suffices hs : ∀ (k n : Nat) (w w' : Window) (as : List ReaderAns), WindowSteps w (peekTwoReadOne n) as w' →
      w.cursor.text = text → w.cursor.marks = [] → w.cursor.pos = k → w.clean = 0 → (0 < k → w.furthest = k + 1) →
      w.furthest ≤ k + 1 → k + n < text.length → w'.clean = 0 ∧ (0 < k + n → w'.furthest = k + n + 1) by
    obtain ⟨h1, h2⟩ := hs 0 n _ _ _ hw rfl rfl rfl rfl (by simp) (by simp) (by omega)
    rw [h1, h2 (by omega)]
    simp
  clear hx hw hh w h hn hl
  intro k n
  induction n generalizing k with
  | zero =>
    intro w w' as hw _ _ _ h1 h2 _ _
    cases hw
    exact ⟨h1, h2⟩
  | succ n ih =>
    intro w w' as hw ht hm hp h1 h2 h3 h4
    cases hw with
    | cons hs1 hw =>
    cases hs1
    cases hw with
    | cons hs2 hw =>
    cases hs2
    have hrl : w.cursor.rest.length = text.length - k := by rw [cursor_rest_length, ht, hp]
    have e1 : ∀ a, w.next (.peek 2) a w.cursor = ⟨w.cursor, k + 2, 0⟩ := fun a => by
      have hf : max w.furthest (w.cursor.pos + min 2 w.cursor.rest.length) = k + 2 := by omega
      unfold Window.next
      simp only [reach, hf]
      rw [if_neg (by omega), h1]
    have e2 : ∀ a, Window.next ⟨w.cursor, k + 2, 0⟩ .read a (w.cursor.advance (min 1 w.cursor.rest.length)) =
        ⟨w.cursor.advance (min 1 w.cursor.rest.length), k + 2, 0⟩ := fun a => by
      have hf : max (k + 2) (w.cursor.pos + min 1 w.cursor.rest.length) = k + 2 := by omega
      unfold Window.next
      simp only [reach, hf, Cursor.advance]
      rw [if_neg (by omega)]
    rw [e1] at hw
    simp only at hw
    rw [e2] at hw
    have := ih (k + 1) _ _ _ hw ht hm (by simp only [Cursor.advance]; omega) rfl (fun _ => rfl) (Nat.le_refl _) (by omega)
    rw [show k + 1 + n = k + (n + 1) by omega] at this
    exact this

/-- Reading only: nothing is looked at without being delivered. -/
def OnlyReads : ReaderOp → Prop
  | .read | .readChars _ | .readAll | .skip _ | .location => True
  | _ => False

/-- The buffer has been read to its end and no mark is left. -/
private def Stuck (held : Str) (r : Reader) : Prop :=
  r.buffer.buffer = held ∧ r.buffer.next = held.length ∧ r.buffer.stack = [] ∧ r.buffer.dbg = false

private theorem stuck_readChars {held : Str} {r : Reader} (h : Stuck held r) (n : Nat) :
    Stuck held (Reader.readChars n r).2 := by
  obtain ⟨h1, h2, h3, h4⟩ := h
  unfold Reader.readChars
  rw [if_neg (by simp [UnreadBuffer.remains, h1, h2])]
  generalize Source.readChars n r.source = x
  obtain ⟨res, s⟩ := x
  cases res with
  | ok cs =>
    simp only
    split
    · exact ⟨h1, h2, h3, h4⟩
    · unfold UnreadBuffer.append
      rw [if_neg (by simp [h3]), if_neg (by simp [h4])]
      exact ⟨h1, h2, h3, h4⟩
  | err e => exact ⟨h1, h2, h3, h4⟩
  | panic p => exact ⟨h1, h2, h3, h4⟩
  | diverge => exact ⟨h1, h2, h3, h4⟩

private theorem stuck_bind {α β : Type} {held : Str} {f : RM Reader α} {g : α → RM Reader β}
    (hf : ∀ r, Stuck held r → Stuck held (f r).2) (hg : ∀ a r, Stuck held r → Stuck held (g a r).2) :
    ∀ r, Stuck held r → Stuck held ((f >>= g) r).2 := by
  intro r h
  have h1 := hf r h
  rw [RM.bind_run]
  rcases hx : f r with ⟨res, r1⟩
  rw [hx] at h1
  cases res with
  | ok a => exact hg a r1 h1
  | err e => exact h1
  | panic p => exact h1
  | diverge => exact h1

private theorem stuck_skipLoop {held : Str} (fuel n : Nat) :
    ∀ r, Stuck held r → Stuck held (Reader.skipLoop fuel n r).2 := by
  induction fuel generalizing n with
  | zero => intro r h; cases n <;> exact h
  | succ fuel ih =>
    cases n with
    | zero => exact fun r h => h
    | succ n =>
      refine stuck_bind (fun r h => stuck_readChars h _) (fun cs r h => ?_)
      by_cases hc : cs.isEmpty = true
      · rw [if_pos hc]; exact h
      · rw [if_neg hc]; exact ih _ r h

private theorem stuck_readAllLoop {held : Str} (fuel : Nat) :
    ∀ r, Stuck held r → Stuck held (Reader.readAllLoop fuel r).2 := by
  induction fuel with
  | zero => exact fun r h => h
  | succ fuel ih =>
    refine stuck_bind (fun r h => stuck_readChars h _) (fun cs r h => ?_)
    by_cases hc : cs.isEmpty = true
    · rw [if_pos hc]; exact h
    · rw [if_neg hc]
      exact stuck_bind ih (fun _ r h => h) r h

private theorem answer_snd {α : Type} (f : α → ReaderAns) (x : Res α × Reader) : (answer f x).2 = x.2 := by
  obtain ⟨res, r⟩ := x
  cases res <;> rfl

private theorem stuck_perform {held : Str} {r : Reader} (h : Stuck held r) (op : ReaderOp) (ho : OnlyReads op) :
    Stuck held (perform op r).2 := by
  cases op with
  | read =>
    rw [perform, answer_snd]
    exact stuck_bind (fun r h => stuck_readChars h _) (fun _ r h => h) r h
  | readChars n => rw [perform, answer_snd]; exact stuck_readChars h n
  | readAll => rw [perform, answer_snd]; exact stuck_readAllLoop _ r h
  | skip n =>
    rw [perform, answer_snd]
    exact stuck_bind (stuck_skipLoop _ _) (fun _ r h => h) r h
  | location => exact h
  | _ => exact ho.elim

/-- C94 fails in a release build also after `unmark`: what was read under the mark is kept for ever by a program
that only reads on, although there is no mark any more. -/
theorem c94_unmark_keeps (location : Location) (s : Source) (text : Str) (h : Delivers s text) (n : Nat)
    (hl : n ≤ text.length) (ops : List ReaderOp) (ho : ∀ op ∈ ops, OnlyReads op) :
    heldBy (performAll (.mark :: .skip n :: .unmark 0 :: ops) (Reader.withLocation location s false)).2 = text.take n := by
  have hr := new_rep (location := location) h false
  have hh := new_holds location s text false
  obtain ⟨m, r1, h1, h2, h3, h4, _⟩ := mark_stands hr hh
  have hm0 : m = 0 := by
    have := congrArg Prod.fst h1
    simp [Reader.mark, UnreadBuffer.mark, Reader.withLocation, UnreadBuffer.new] at this
    exact this.symm
  subst hm0
  obtain ⟨r2, h5, h6, h7, h8⟩ := skip_stands h2 h3 n
  obtain ⟨r3, h9, h10, h11⟩ := unmark_rep h6 (m := 0) (p := 0) (newer := []) (older := []) rfl (by simp)
    (by rw [h8, h4]; simp [Reader.withLocation, UnreadBuffer.new])
  have hrl : min n (Cursor.rest ⟨location, text, 0, [(0, 0)]⟩).length = n := by
    simp only [Cursor.rest, List.drop_zero]; omega
  simp only at h7 h5
  rw [hrl] at h7
  unfold Moved at h7
  rw [newClean_marks (by simp [Cursor.advance])] at h7
  have hb : r3.buffer.buffer = r2.buffer.buffer ∧ r3.buffer.next = r2.buffer.next := by
    unfold Reader.unmark at h9
    rw [removeMark_found h6 (m := 0) (p := 0) (newer := []) (older := []) rfl (by simp)] at h9
    simp only [Prod.mk.injEq] at h9
    rw [← h9.2]; exact ⟨rfl, rfl⟩
  have hst : Stuck (text.take n) r3 := by
    refine ⟨?_, ?_, ?_, ?_⟩
    · rw [hb.1, h7.buf]; simp [Cursor.advance]
    · rw [hb.2, h7.next]; simp [Cursor.advance]; omega
    · rw [h10.stack]; rfl
    · rw [h11, h8, h4]; rfl
  have hall : ∀ (ops : List ReaderOp) (r : Reader), (∀ op ∈ ops, OnlyReads op) → Stuck (text.take n) r →
      Stuck (text.take n) (performAll ops r).2 := by
    intro ops
    induction ops with
    | nil => exact fun r _ h => h
    | cons op ops ih =>
      intro r ho h
      simp only [performAll]
      exact ih _ (fun o hx => ho o (by simp [hx])) (stuck_perform h op (ho op (by simp)))
  have he : (performAll (.mark :: .skip n :: .unmark 0 :: ops) (Reader.withLocation location s false)).2 =
      (performAll ops r3).2 := by
    simp only [performAll, perform, answer_snd]
    rw [h1, h5, h9]
  rw [he]
  exact (hall ops r3 ho hst).1

/-- A source that delivers `hello` in three pieces. -/
private def hello : Source := ⟨['h'], [.ok ['e', 'l'], .ok [], .ok ['l', 'o']], Location.new []⟩

private theorem hello_delivers : Delivers hello "hello".toList := ⟨[['e', 'l'], [], ['l', 'o']], rfl, rfl⟩

/-- After a mark, four characters, a second mark that is forgotten, and a return to the first mark, everything
since the first mark is held; it is dropped once it has been read again. -/
example : heldBy (performAll [.read, .mark, .skip 2, .mark, .read, .unmark 3, .resetToMark 1]
    (Reader.withLocation (Location.new []) hello true)).2 = "ell".toList ∧
    heldBy (performAll [.read, .mark, .skip 2, .mark, .read, .unmark 3, .resetToMark 1, .skip 3]
    (Reader.withLocation (Location.new []) hello true)).2 = [] := by decide +kernel

/-- The window of a short history. -/
example : ∃ w, WindowSteps ⟨⟨Location.new [], "hello".toList, 0, []⟩, 0, 0⟩ [.peek 3, .read]
      (performAll [.peek 3, .read] (Reader.withLocation (Location.new []) hello true)).1 w ∧
    heldBy (performAll [.peek 3, .read] (Reader.withLocation (Location.new []) hello true)).2 =
      ("hello".toList.take w.furthest).drop w.clean ∧ w.furthest = 3 ∧ w.clean = 0 := by
  refine ⟨_, .cons (.peek _ 3) (.cons (.read _) (.nil _)), ?_, ?_, ?_⟩ <;> decide +kernel

example : heldBy (performAll (peekTwoReadOne 4) (Reader.withLocation (Location.new []) hello false)).2 =
    "hello".toList := by
  rw [c94_grows _ _ _ _ hello_delivers 4 (by decide) (by decide)]; rfl

example : heldBy (performAll [.mark, .skip 3, .unmark 0, .readAll] (Reader.withLocation (Location.new []) hello false)).2 =
    "hel".toList :=
  c94_unmark_keeps _ _ _ hello_delivers 3 (by decide) [.readAll] (by simp [OnlyReads])

example : (heldBy (performAll [.isEof, .peek 1, .read, .prefixMatches ['e']]
    (Reader.withLocation (Location.new []) hello false)).2).length ≤ 1 ∧
    heldBy (performAll [.isEof, .peek 1, .read, .prefixMatches ['e']]
    (Reader.withLocation (Location.new []) hello false)).2 = ['e'] :=
  ⟨c94_one_ahead _ _ _ _ hello_delivers _ (by simp [LooksOneAhead]), by decide +kernel⟩

end Ebnf.Props
