import Verif.Spec.Represents
import Verif.Proofs.Text
import Verif.Proofs.Blanks

set_option autoImplicit false

/-! # The reader refines the cursor -/

namespace Ebnf

open Spec

@[simp] theorem advance_zero (c : Cursor) : c.advance 0 = c := rfl

theorem cursor_rest_length (c : Cursor) : c.rest.length = c.text.length - c.pos := by simp [Cursor.rest]

theorem take_add_prefix {text cs : Str} {pos : Nat} (h : cs <+: text.drop pos) :
    text.take (pos + cs.length) = text.take pos ++ cs := by
  obtain ⟨t, ht⟩ := h
  rw [List.take_add, ← ht]
  simp

theorem location_advance {c : Cursor} {cs : Str} (h : cs <+: c.rest) :
    (c.advance cs.length).location = c.location.pushStr cs := by
  unfold Cursor.location Cursor.advance
  simp only
  rw [take_add_prefix h, Location.pushStr_eq_lineColumn, lineColumn_append]

theorem drop_add_prefix {text cs t : Str} {pos : Nat} (h : text.drop pos = cs ++ t) :
    text.drop (pos + cs.length) = t := by
  rw [← List.drop_drop, h]; simp

/-- What the source delivers. -/
theorem source_readChars {s : Source} {text : Str} (h : Delivers s text) (n : Nat) :
    ∃ cs s' text', Source.readChars n s = (.ok cs, s') ∧ text = cs ++ text' ∧ Delivers s' text' ∧ cs.length ≤ n ∧
      (cs = [] → n = 0 ∨ text = []) := by
  obtain ⟨pieces, h1, h2⟩ := h
  unfold Source.readChars
  by_cases hp : s.pending = []
  · rw [hp] at h2 ⊢
    simp only [List.isEmpty_nil, Bool.not_true, Bool.false_eq_true, if_false]
    rw [h1]
    clear h1 hp
    subst h2
    simp only [List.nil_append]
    generalize s.location = loc
    induction pieces with
    | nil => exact ⟨[], ⟨[], [], loc⟩, [], rfl, by simp, ⟨[], rfl, rfl⟩, by simp, by simp⟩
    | cons p ps ih =>
      simp only [List.map_cons, Source.readRounds]
      cases p with
      | nil =>
        simp only [List.isEmpty_nil, if_true, List.flatten_cons, List.nil_append]
        exact ih
      | cons x xs =>
        simp only [List.isEmpty_cons, Bool.false_eq_true, if_false]
        refine ⟨(x :: xs).take n, _, (x :: xs).drop n ++ ps.flatten, rfl, ?_, ⟨ps, rfl, rfl⟩, ?_, ?_⟩
        · rw [← List.append_assoc, List.take_append_drop]; rfl
        · simp only [List.length_take]; omega
        · intro h0
          cases n with
          | zero => exact .inl rfl
          | succ n => simp at h0
  · have : s.pending.isEmpty = false := by simpa using hp
    simp only [this, Bool.not_false, if_true]
    refine ⟨s.pending.take n, _, s.pending.drop n ++ pieces.flatten, rfl, ?_, ⟨pieces, h1, rfl⟩, ?_, ?_⟩
    · rw [h2, ← List.append_assoc, List.take_append_drop]
    · simp only [List.length_take]; omega
    · intro h0
      cases n with
      | zero => exact .inl rfl
      | succ n =>
        rw [List.take_eq_nil_iff] at h0
        rcases h0 with h0 | h0
        · omega
        · exact absurd h0 hp

theorem delivers_unique {s : Source} {t t' : Str} (h : Delivers s t) (h' : Delivers s t') : t = t' := by
  obtain ⟨ps, h1, h2⟩ := h
  obtain ⟨ps', h3, h4⟩ := h'
  have : ps = ps' := by
    rw [h1] at h3
    clear h1 h2 h4
    induction ps generalizing ps' with
    | nil => cases ps' with
      | nil => rfl
      | cons => simp at h3
    | cons p ps ih =>
      cases ps' with
      | nil => simp at h3
      | cons p' ps' =>
        simp only [List.map_cons, List.cons.injEq, Except.ok.injEq] at h3
        rw [h3.1, ih _ h3.2]
  rw [h2, h4, this]

theorem bottom_none {c : Cursor} {b : UnreadBuffer}
    (h : b.stack = c.marks.map (fun x => (x.1, lineColumn c.start (c.text.take x.2)))) :
    b.stack.isEmpty = c.marks.isEmpty := by rw [h]; cases c.marks <;> rfl

/-- `read_chars` delivers a prefix of what is left. -/
theorem readChars_rep {r : Reader} {c : Cursor} (h : RepIdle r c) (n : Nat) :
    ∃ cs r', Reader.readChars n r = (.ok cs, r') ∧ RepIdle r' (c.advance cs.length) ∧ r'.buffer.dbg = r.buffer.dbg ∧
      cs <+: c.rest ∧ cs.length ≤ n ∧ (cs = [] → n = 0 ∨ c.rest = []) := by
  obtain ⟨text, hd, hrest, hmarks⟩ := h.src
  unfold Reader.readChars
  by_cases hrem : r.buffer.remains = true
  · rw [if_pos hrem]
    simp only [UnreadBuffer.remains, decide_eq_true_eq] at hrem
    unfold UnreadBuffer.read
    simp only
    generalize hcs : (r.buffer.buffer.drop r.buffer.next).take n = cs
    have hcslen : cs.length = min n (r.buffer.buffer.length - r.buffer.next) := by rw [← hcs]; simp
    have hpre : cs <+: c.rest := by
      rw [hrest, ← hcs]
      exact (List.take_prefix _ _).trans (List.prefix_append _ _)
    have hdrop : r.buffer.buffer.drop r.buffer.next = cs ++ r.buffer.buffer.drop (r.buffer.next + cs.length) := by
      have h1 := List.take_append_drop cs.length (r.buffer.buffer.drop r.buffer.next)
      rw [List.drop_drop] at h1
      have h2 : List.take cs.length (r.buffer.buffer.drop r.buffer.next) = cs := by
        exact (List.prefix_iff_eq_take.mp (hcs ▸ List.take_prefix _ _)).symm
      rw [h2] at h1
      exact h1.symm
    have hadv : (c.advance cs.length).rest = r.buffer.buffer.drop (r.buffer.next + cs.length) ++ text := by
      refine drop_add_prefix ?_
      change c.rest = _
      rw [hrest, hdrop, List.append_assoc]
    have hpos : (c.advance cs.length).pos ≤ c.text.length := by
      have := hpre.length_le
      rw [cursor_rest_length] at this
      have := h.pos_le
      simp only [Cursor.advance]; omega
    refine ⟨cs, _, rfl, ?_, ?_, hpre, by omega, ?_⟩
    · by_cases htr : (r.buffer.next + cs.length < r.buffer.buffer.length) ∨ c.marks ≠ []
      · have heq : (if (!UnreadBuffer.remains { r.buffer with next := r.buffer.next + cs.length }) = true then
            UnreadBuffer.truncateIfStackEmpty { r.buffer with next := r.buffer.next + cs.length }
            else { r.buffer with next := r.buffer.next + cs.length }) = { r.buffer with next := r.buffer.next + cs.length } := by
          split
          · rename_i hx
            simp [UnreadBuffer.remains] at hx
            unfold UnreadBuffer.truncateIfStackEmpty
            rw [bottom_none (b := { r.buffer with next := r.buffer.next + cs.length }) h.stack]
            rcases htr with htr | htr
            · omega
            · rw [if_neg (by simpa using htr)]
          · rfl
        rw [heq]
        refine ⟨⟨⟨text, hd, hadv, fun m p hm => ?_⟩, hpos, ?_, ?_, h.stack, h.sorted⟩, fun hdbg => ?_⟩
        · obtain ⟨h1, h2, h3, h4⟩ := hmarks m p hm
          refine ⟨h1, ?_, ?_, h4⟩ <;> simp only [Cursor.advance] <;> omega
        · simp only; omega
        · simp only; rw [location_advance hpre, h.loc]
        · rcases h.idle hdbg with ⟨h1, h2⟩ | ⟨h1, h2⟩ | ⟨st, m, l, h1, h2⟩ | h1
          · rw [h1, h2] at hrem; simp at hrem
          · rcases htr with htr | htr
            · exact .inr (.inl ⟨h1, htr⟩)
            · rw [h.stack] at h1; simp at h1; exact absurd h1 htr
          · exact .inr (.inr (.inl ⟨st, m, l, h1, h2⟩))
          · exact .inr (.inr (.inr h1))
      · simp only [not_or, Nat.not_lt, ne_eq, Classical.not_not] at htr
        have hst : r.buffer.stack = [] := by rw [h.stack, htr.2]; rfl
        have heq : (if (!UnreadBuffer.remains { r.buffer with next := r.buffer.next + cs.length }) = true then
            UnreadBuffer.truncateIfStackEmpty { r.buffer with next := r.buffer.next + cs.length }
            else { r.buffer with next := r.buffer.next + cs.length }) = { r.buffer with buffer := [], next := 0 } := by
          rw [if_pos (by simp [UnreadBuffer.remains]; omega)]
          unfold UnreadBuffer.truncateIfStackEmpty
          simp only
          rw [hst]
          simp
        rw [heq]
        refine ⟨⟨⟨text, hd, ?_, fun m p hm => ?_⟩, hpos, ?_, ?_, h.stack, h.sorted⟩, fun hdbg => ?_⟩
        · rw [hadv, List.drop_eq_nil_of_le htr.1]; simp
        · simp [Cursor.advance, htr.2] at hm
        · simp
        · simp only; rw [location_advance hpre, h.loc]
        · exact .inl ⟨rfl, rfl⟩
    · unfold UnreadBuffer.truncateIfStackEmpty
      split
      · split <;> rfl
      · rfl
    · intro h0
      rw [h0] at hcslen
      simp at hcslen
      omega
  · rw [if_neg hrem]
    simp only [UnreadBuffer.remains, decide_eq_true_eq, Nat.not_lt] at hrem
    have hnext : r.buffer.next = r.buffer.buffer.length := by have := h.next_le; omega
    obtain ⟨cs, s', text', h1, h2, h3, h4, h5⟩ := source_readChars hd n
    rw [h1]
    simp only
    have hrest' : c.rest = text := by rw [hrest, hnext]; simp
    have hpre : cs <+: c.rest := by rw [hrest', h2]; exact List.prefix_append _ _
    have hpos : (c.advance cs.length).pos ≤ c.text.length := by
      have := hpre.length_le
      rw [cursor_rest_length] at this
      have := h.pos_le
      simp only [Cursor.advance]; omega
    have hadv : (c.advance cs.length).rest = text' := drop_add_prefix (by rw [← h2, ← hrest']; rfl)
    by_cases hcs : cs = []
    · subst hcs
      simp only [List.isEmpty_nil, if_true]
      simp only [List.nil_append] at h2
      subst h2
      refine ⟨[], _, rfl, ?_, rfl, hpre, by simp, fun h0 => by rw [hrest']; exact h5 h0⟩
      refine ⟨⟨⟨text, h3, hrest, hmarks⟩, h.pos_le, h.next_le, h.loc, h.stack, h.sorted⟩, fun hdbg => ?_⟩
      rcases h.idle hdbg with h6 | h6 | h6 | h6
      · exact .inl h6
      · exact .inr (.inl h6)
      · exact .inr (.inr (.inl h6))
      · rw [delivers_unique hd h6] at h3
        exact .inr (.inr (.inr h3))
    · have : cs.isEmpty = false := by simpa using hcs
      simp only [this, Bool.false_eq_true, if_false]
      unfold UnreadBuffer.append
      rw [bottom_none h.stack]
      by_cases hm : c.marks = []
      · have hst : r.buffer.stack = [] := by rw [h.stack, hm]; rfl
        rw [if_neg (by simp [hm])]
        have hdb : ¬ (r.buffer.dbg && (!r.buffer.buffer.isEmpty || r.buffer.next != 0)) = true := by
          intro hx
          simp at hx
          rcases h.idle hx.1 with ⟨h6, h7⟩ | ⟨h6, h7⟩ | ⟨st, m, l, h6, h7⟩ | h6
          · simp [h6, h7] at hx
          · omega
          · rw [hst] at h6; simp at h6
          · rw [delivers_unique hd h6] at h2
            exact hcs (List.append_eq_nil_iff.mp h2.symm).1
        rw [if_neg hdb]
        simp only
        refine ⟨cs, _, rfl, ?_, rfl, hpre, h4, fun h0 => absurd h0 hcs⟩
        refine ⟨⟨⟨text', h3, ?_, fun m p hmm => ?_⟩, hpos, h.next_le, ?_, h.stack, h.sorted⟩, fun hdbg => ?_⟩
        · rw [hadv]; simp only; rw [hnext]; simp
        · simp [Cursor.advance, hm] at hmm
        · simp only; rw [location_advance hpre, h.loc]
        · rcases h.idle hdbg with h6 | ⟨h6, h7⟩ | ⟨st, m, l, h6, h7⟩ | h6
          · exact .inl h6
          · omega
          · rw [hst] at h6; simp at h6
          · rw [delivers_unique hd h6] at h2
            exact absurd (List.append_eq_nil_iff.mp h2.symm).1 hcs
      · rw [if_pos (by simpa using hm)]
        have hdb : ¬ (r.buffer.dbg && r.buffer.remains) = true := by
          intro hx
          simp [UnreadBuffer.remains] at hx
          omega
        rw [if_neg hdb]
        simp only
        refine ⟨cs, _, rfl, ?_, rfl, hpre, h4, fun h0 => absurd h0 hcs⟩
        refine ⟨⟨⟨text', h3, ?_, fun m p hmm => ?_⟩, hpos, ?_, ?_, h.stack, h.sorted⟩, fun hdbg => ?_⟩
        · rw [hadv]; simp only; rw [hnext]; simp
        · obtain ⟨h6, h7, h8, h9⟩ := hmarks m p hmm
          refine ⟨h6, ?_, ?_, ?_⟩
          · simp only; omega
          · simp only [Cursor.advance]; omega
          · simp only [Cursor.advance]
            rw [h9, h2, List.drop_append_of_le_length (by omega), List.append_assoc]
        · simp only [List.length_append]; omega
        · simp only; rw [location_advance hpre, h.loc]
        · rcases h.idle hdbg with ⟨h6, h7⟩ | ⟨h6, h7⟩ | ⟨st, m, l, h6, h7⟩ | h6
          · rcases List.eq_nil_or_concat c.marks with hx | ⟨ms, x, hx⟩
            · exact absurd hx hm
            · refine .inr (.inr (.inl ⟨ms.map (fun x => (x.1, lineColumn c.start (c.text.take x.2))), x.1,
                lineColumn c.start (c.text.take x.2), ?_, ?_⟩))
              · rw [h.stack, hx]; simp
              · obtain ⟨h8, h9, _, _⟩ := hmarks x.1 x.2 (by rw [hx]; simp)
                simp only [List.length_append]
                have : cs.length ≠ 0 := by simpa using hcs
                omega
          · omega
          · exact .inr (.inr (.inl ⟨st, m, l, h6, by simp only [List.length_append]; omega⟩))
          · rw [delivers_unique hd h6] at h2
            exact absurd (List.append_eq_nil_iff.mp h2.symm).1 hcs

/-- `mark` saves the position under a suitable number. -/
theorem mark_rep {r : Reader} {c : Cursor} (h : RepIdle r c) :
    ∃ m r', Reader.mark r = (.ok m, r') ∧ RepIdle r' { c with marks := (m, c.pos) :: c.marks } ∧
      r'.buffer.dbg = r.buffer.dbg ∧ (∀ m' p, (m', p) ∈ c.marks → (m' = m ↔ p = c.pos)) := by
  obtain ⟨text, hd, hrest, hmarks⟩ := h.src
  have hle : ∀ m' p, (m', p) ∈ c.marks → m' ≤ r.buffer.head + r.buffer.next := fun m' p hm => by
    obtain ⟨h1, h2, h3, _⟩ := hmarks m' p hm
    omega
  have heq : r.buffer.mark = (.ok (r.buffer.head + r.buffer.next),
      { r.buffer with stack := (r.buffer.head + r.buffer.next, r.buffer.location) :: r.buffer.stack }) := by
    unfold UnreadBuffer.mark
    simp only
    rw [if_neg]
    rw [h.stack]
    cases hm : c.marks with
    | nil => simp
    | cons x xs =>
      have := hle x.1 x.2 (by rw [hm]; simp)
      simp [this]
  unfold Reader.mark
  rw [heq]
  refine ⟨_, _, rfl, ?_, rfl, ?_⟩
  · refine ⟨⟨⟨text, hd, hrest, fun m' p hm => ?_⟩, h.pos_le, h.next_le, h.loc, ?_, ?_⟩, fun hdbg => ?_⟩
    · simp only [List.mem_cons, Prod.mk.injEq] at hm
      rcases hm with ⟨rfl, rfl⟩ | hm
      · simp only
        refine ⟨by omega, by omega, by omega, ?_⟩
        rw [Nat.add_sub_cancel_left]
        exact hrest
      · exact hmarks m' p hm
    · simp only [List.map_cons]
      rw [h.loc, h.stack]
      rfl
    · simp only [List.pairwise_cons]
      exact ⟨fun x hx => hle x.1 x.2 hx, h.sorted⟩
    · rcases h.idle hdbg with h6 | ⟨h6, h7⟩ | ⟨st, m, l, h6, h7⟩ | h6
      · exact .inl h6
      · refine .inr (.inr (.inl ⟨[], _, r.buffer.location, by simp only; rw [h6]; rfl, ?_⟩))
        simp only; omega
      · exact .inr (.inr (.inl ⟨(r.buffer.head + r.buffer.next, r.buffer.location) :: st, m, l, by simp only; rw [h6]; rfl, h7⟩))
      · exact .inr (.inr (.inr h6))
  · intro m' p hm
    obtain ⟨h1, h2, h3, _⟩ := hmarks m' p hm
    omega

/-- Search in a sorted stack. -/
theorem findMark_found {f : Nat → Location} {m p : Nat} {newer older : List (Nat × Nat)}
    (hs : (newer ++ (m, p) :: older).Pairwise (fun a b => b.1 ≤ a.1)) (hn : ∀ x ∈ newer, x.1 ≠ m) :
    UnreadBuffer.findMark m ((newer ++ (m, p) :: older).map (fun x => (x.1, f x.2))) =
      some (f p, older.map (fun x => (x.1, f x.2))) := by
  induction newer with
  | nil => simp [UnreadBuffer.findMark]
  | cons x xs ih =>
    simp only [List.cons_append, List.pairwise_cons] at hs
    have h1 := hn x (by simp)
    have h2 := hs.1 (m, p) (by simp)
    simp only at h2
    simp only [List.cons_append, List.map_cons, UnreadBuffer.findMark]
    rw [if_neg h1, if_neg (by omega)]
    exact ih hs.2 (fun y hy => hn y (by simp [hy]))

theorem findMark_missing {f : Nat → Location} {m : Nat} {ms : List (Nat × Nat)} (hn : ∀ x ∈ ms, x.1 ≠ m) :
    UnreadBuffer.findMark m (ms.map (fun x => (x.1, f x.2))) = none := by
  induction ms with
  | nil => rfl
  | cons x xs ih =>
    simp only [List.map_cons, UnreadBuffer.findMark]
    rw [if_neg (hn x (by simp)), ih (fun y hy => hn y (by simp [hy]))]
    simp

theorem removeMark_found {r : Reader} {c : Cursor} (h : RepIdle r c) {m p : Nat} {newer older : List (Nat × Nat)}
    (hm : c.marks = newer ++ (m, p) :: older) (hn : ∀ x ∈ newer, x.1 ≠ m) :
    r.buffer.removeMark m = (.ok (lineColumn c.start (c.text.take p)),
      { r.buffer with stack := older.map (fun x => (x.1, lineColumn c.start (c.text.take x.2))) }) := by
  obtain ⟨text, hd, hrest, hmarks⟩ := h.src
  obtain ⟨h1, h2, h3, h4⟩ := hmarks m p (by rw [hm]; simp)
  unfold UnreadBuffer.removeMark
  have := h.next_le
  rw [if_neg (by omega), h.stack, hm, findMark_found (f := fun p => lineColumn c.start (c.text.take p))
    (by have := h.sorted; rwa [hm] at this) hn]

theorem removeMark_missing {r : Reader} {c : Cursor} (h : RepIdle r c) {m : Nat} (hn : ∀ x ∈ c.marks, x.1 ≠ m) :
    r.buffer.removeMark m = (.err ⟨c.location, .invalidMark m⟩, r.buffer) := by
  unfold UnreadBuffer.removeMark
  rw [h.stack, findMark_missing (f := fun p => lineColumn c.start (c.text.take p)) hn, h.loc]
  split <;> rfl

theorem pairwise_suffix {newer older : List (Nat × Nat)} {x : Nat × Nat}
    (hs : (newer ++ x :: older).Pairwise (fun a b => b.1 ≤ a.1)) : older.Pairwise (fun a b => b.1 ≤ a.1) := by
  have := (List.pairwise_append.mp hs).2.1
  exact (List.pairwise_cons.mp this).2

/-- `reset_to_mark` returns to the saved position. -/
theorem resetToMark_rep {r : Reader} {c : Cursor} (h : RepIdle r c) {m p : Nat} {newer older : List (Nat × Nat)}
    (hm : c.marks = newer ++ (m, p) :: older) (hn : ∀ x ∈ newer, x.1 ≠ m) :
    ∃ r', Reader.resetToMark m r = (.ok (c.pos - p), r') ∧ RepIdle r' { c with pos := p, marks := older } ∧
      r'.buffer.dbg = r.buffer.dbg ∧ p ≤ c.pos := by
  obtain ⟨text, hd, hrest, hmarks⟩ := h.src
  obtain ⟨h1, h2, h3, h4⟩ := hmarks m p (by rw [hm]; simp)
  have hnl := h.next_le
  have hpl := h.pos_le
  have hso := h.sorted
  rw [hm] at hso
  unfold Reader.resetToMark UnreadBuffer.revert
  rw [removeMark_found h hm hn]
  simp only
  rw [if_neg (by omega)]
  refine ⟨_, Prod.ext (congrArg Res.ok (by omega)) rfl, ?_, rfl, by omega⟩
  · refine ⟨⟨⟨text, hd, h4, fun m' p' hm' => ?_⟩, ?_, ?_, rfl, rfl, pairwise_suffix hso⟩, fun hdbg => ?_⟩
    · obtain ⟨h5, h6, h7, h8⟩ := hmarks m' p' (by rw [hm]; simp [hm'])
      have := (List.pairwise_cons.mp (List.pairwise_append.mp hso).2.1).1 (m', p') hm'
      simp only at this
      refine ⟨h5, ?_, ?_, h8⟩ <;> simp only <;> omega
    · simp only; omega
    · simp only; omega
    · rcases h.idle hdbg with ⟨h6, h7⟩ | ⟨h6, h7⟩ | ⟨st, m', l, h6, h7⟩ | h6
      · refine .inl ⟨h6, ?_⟩
        simp only; omega
      · rw [h.stack, hm] at h6; simp at h6
      · rcases List.eq_nil_or_concat older with rfl | ⟨o, x, rfl⟩
        · refine .inr (.inl ⟨rfl, ?_⟩)
          simp only
          rw [h.stack, hm] at h6
          simp only [List.map_append, List.map_cons, List.map_nil] at h6
          have := (List.append_inj' h6 rfl).2
          simp at this
          rw [this.1]; exact h7
        · refine .inr (.inr (.inl ⟨o.map (fun x => (x.1, lineColumn c.start (c.text.take x.2))), m', l, ?_, h7⟩))
          rw [h.stack, hm] at h6
          simp only [List.concat_eq_append, List.map_append, List.map_cons, List.map_nil] at h6 ⊢
          rw [← List.cons_append, ← List.append_assoc] at h6
          have := (List.append_inj' h6 rfl).2
          rw [this]
      · exact .inr (.inr (.inr h6))

/-- `unmark` forgets the mark.  In a debug build an older mark has to be left. -/
theorem unmark_rep {r : Reader} {c : Cursor} (h : RepIdle r c) {m p : Nat} {newer older : List (Nat × Nat)}
    (hm : c.marks = newer ++ (m, p) :: older) (hn : ∀ x ∈ newer, x.1 ≠ m)
    (hdb : r.buffer.dbg = true → older ≠ []) :
    ∃ r', Reader.unmark m r = (.ok (), r') ∧ RepIdle r' { c with marks := older } ∧
      r'.buffer.dbg = r.buffer.dbg := by
  obtain ⟨text, hd, hrest, hmarks⟩ := h.src
  have hso := h.sorted
  rw [hm] at hso
  unfold Reader.unmark
  rw [removeMark_found h hm hn]
  simp only
  refine ⟨_, rfl, ?_, rfl⟩
  refine ⟨⟨⟨text, hd, hrest, fun m' p' hm' => hmarks m' p' (by rw [hm]; simp at hm' ⊢; simp [hm'])⟩, h.pos_le, h.next_le,
    h.loc, rfl, pairwise_suffix hso⟩, fun hdbg => ?_⟩
  rcases h.idle hdbg with h6 | ⟨h6, h7⟩ | ⟨st, m', l, h6, h7⟩ | h6
  · exact .inl h6
  · rw [h.stack, hm] at h6; simp at h6
  · rcases List.eq_nil_or_concat older with rfl | ⟨o, x, rfl⟩
    · exact absurd rfl (hdb hdbg)
    · refine .inr (.inr (.inl ⟨o.map (fun x => (x.1, lineColumn c.start (c.text.take x.2))), m', l, ?_, h7⟩))
      rw [h.stack, hm] at h6
      simp only [List.concat_eq_append, List.map_append, List.map_cons, List.map_nil] at h6 ⊢
      rw [← List.cons_append, ← List.append_assoc] at h6
      have := (List.append_inj' h6 rfl).2
      rw [this]
  · exact .inr (.inr (.inr h6))

/-- `read` delivers the next character. -/
theorem read_rep {r : Reader} {c : Cursor} (h : RepIdle r c) :
    ∃ r', Reader.read r = (.ok c.rest.head?, r') ∧ RepIdle r' (c.advance (min 1 c.rest.length)) ∧
      r'.buffer.dbg = r.buffer.dbg := by
  obtain ⟨cs, r', h1, h2, h3, h4, h5, h6⟩ := readChars_rep h 1
  have hcs : cs = c.rest.take 1 := by
    obtain ⟨t, ht⟩ := h4
    rw [← ht]
    cases cs with
    | nil =>
      rcases h6 rfl with h0 | h0
      · simp at h0
      · rw [h0] at ht; simp at ht; simp [ht]
    | cons x xs =>
      have : xs = [] := by simpa using h5
      subst this
      simp
  refine ⟨r', ?_, ?_, h3⟩
  · unfold Reader.read
    simp only [RM.bind_run, h1, RM.pure_run]
    rw [hcs]
    cases c.rest <;> rfl
  · rw [hcs] at h2
    simpa using h2

theorem rest_cons {c : Cursor} {x : Char} {xs : Str} (h : c.rest = x :: xs) : (c.advance 1).rest = xs := by
  have := drop_add_prefix (cs := [x]) (t := xs) (text := c.text) (pos := c.pos) h
  exact this

/-- `RepIdle` up to the position. -/
theorem peekLoop_rep {r : Reader} {c : Cursor} (h : RepIdle r c) (n : Nat) :
    ∃ r', Reader.peekLoop n r = (.ok (c.rest.take n), r') ∧ RepIdle r' (c.advance (min n c.rest.length)) ∧
      r'.buffer.dbg = r.buffer.dbg := by
  induction n generalizing r c with
  | zero => exact ⟨r, by simp [Reader.peekLoop], by simpa using h, rfl⟩
  | succ n ih =>
    obtain ⟨r1, h1, h2, h3⟩ := read_rep h
    simp only [Reader.peekLoop, RM.bind_run, h1]
    cases hr : c.rest with
    | nil =>
      rw [hr] at h2
      exact ⟨r1, by simp, by simpa using h2, h3⟩
    | cons x xs =>
      rw [hr] at h2
      simp only [List.length_cons, List.head?_cons] at h2 ⊢
      rw [Nat.min_eq_left (by omega)] at h2
      obtain ⟨r2, h4, h5, h6⟩ := ih h2
      rw [rest_cons hr] at h4 h5
      refine ⟨r2, ?_, ?_, h6.trans h3⟩
      · simp only [RM.bind_run, h4, RM.pure_run, List.take_succ_cons]
      · have : (c.advance 1).advance (min n xs.length) = c.advance (min (n + 1) (xs.length + 1)) := by
          simp only [Cursor.advance]
          congr 1
          omega
        rwa [this] at h5

theorem prefixLoop_rep {r : Reader} {c : Cursor} (h : RepIdle r c) (p : Str) :
    ∃ r' k, Reader.prefixLoop p r = (.ok (decide (p <+: c.rest)), r') ∧ RepIdle r' (c.advance k) ∧
      r'.buffer.dbg = r.buffer.dbg := by
  induction p generalizing r c with
  | nil => exact ⟨r, 0, by simp [Reader.prefixLoop], h, rfl⟩
  | cons x p ih =>
    obtain ⟨r1, h1, h2, h3⟩ := read_rep h
    simp only [Reader.prefixLoop, RM.bind_run, h1]
    by_cases hx : c.rest.head? = some x
    · rw [if_neg (by simpa using hx)]
      cases hr : c.rest with
      | nil => rw [hr] at hx; simp at hx
      | cons y ys =>
        rw [hr] at hx h2
        simp only [List.head?_cons, Option.some.injEq] at hx
        subst hx
        rw [List.length_cons, Nat.min_eq_left (by omega)] at h2
        obtain ⟨r2, k, h4, h5, h6⟩ := ih h2
        rw [rest_cons hr] at h4
        refine ⟨r2, 1 + k, ?_, ?_, h6.trans h3⟩
        · rw [h4]
          simp [List.cons_prefix_cons]
        · have : (c.advance 1).advance k = c.advance (1 + k) := by
            simp only [Cursor.advance]; congr 1; omega
          rwa [this] at h5
    · rw [if_pos hx]
      refine ⟨r1, _, ?_, h2, h3⟩
      simp only [RM.pure_run, Prod.mk.injEq, Res.ok.injEq, and_true]
      symm
      rw [decide_eq_false_iff_not]
      intro hp
      apply hx
      obtain ⟨t, ht⟩ := hp
      rw [← ht]; rfl

/-- Mark, look, reset: nothing changed. -/
theorem lookahead_rep {α β : Type} {r : Reader} {c : Cursor} (h : RepIdle r c) {f : RM Reader α} {a : α} {g : α → β}
    (hf : ∀ r1 c1, RepIdle r1 c1 → c1.pos = c.pos → c1.text = c.text → ∃ r2 k, f r1 = (.ok a, r2) ∧ RepIdle r2 (c1.advance k) ∧
      r2.buffer.dbg = r1.buffer.dbg) :
    ∃ r', (do let m ← Reader.mark; let x ← f; let _ ← Reader.resetToMark m; pure (g x) : RM Reader β) r = (.ok (g a), r') ∧
      RepIdle r' c ∧ r'.buffer.dbg = r.buffer.dbg := by
  obtain ⟨m, r1, h1, h2, h3, _⟩ := mark_rep h
  obtain ⟨r2, k, h4, h5, h6⟩ := hf r1 _ h2 rfl rfl
  obtain ⟨r3, h7, h8, h9, _⟩ := resetToMark_rep h5 (newer := []) (p := c.pos) (older := c.marks) rfl (by simp)
  refine ⟨r3, ?_, h8, by rw [h9, h6, h3]⟩
  simp only [RM.bind_run, h1, h4, h7, RM.pure_run]

theorem peek_rep {r : Reader} {c : Cursor} (h : RepIdle r c) (n : Nat) :
    ∃ r', Reader.peek n r = (.ok (c.rest.take n), r') ∧ RepIdle r' c ∧ r'.buffer.dbg = r.buffer.dbg := by
  refine lookahead_rep (g := id) h (f := Reader.peekLoop n) (fun r1 c1 h1 h2 h3 => ?_)
  obtain ⟨r2, h4, h5, h6⟩ := peekLoop_rep h1 n
  have : c1.rest = c.rest := by simp only [Cursor.rest, h2, h3]
  rw [this] at h4
  exact ⟨r2, _, h4, h5, h6⟩

theorem prefixMatches_rep {r : Reader} {c : Cursor} (h : RepIdle r c) (p : Str) :
    ∃ r', Reader.prefixMatches p r = (.ok (decide (p <+: c.rest)), r') ∧ RepIdle r' c ∧ r'.buffer.dbg = r.buffer.dbg := by
  refine lookahead_rep (g := id) h (f := Reader.prefixLoop p) (fun r1 c1 h1 h2 h3 => ?_)
  obtain ⟨r2, k, h4, h5, h6⟩ := prefixLoop_rep h1 p
  have : c1.rest = c.rest := by simp only [Cursor.rest, h2, h3]
  rw [this] at h4
  exact ⟨r2, k, h4, h5, h6⟩

theorem isEof_rep {r : Reader} {c : Cursor} (h : RepIdle r c) :
    ∃ r', Reader.isEof r = (.ok (decide (c.rest = [])), r') ∧ RepIdle r' c ∧ r'.buffer.dbg = r.buffer.dbg := by
  have := lookahead_rep (g := Option.isNone) h (f := Reader.read) (a := c.rest.head?) (fun r1 c1 h1 h2 h3 => ?_)
  · obtain ⟨r', h1, h2, h3⟩ := this
    refine ⟨r', ?_, h2, h3⟩
    have he : c.rest.head?.isNone = decide (c.rest = []) := by cases c.rest <;> simp
    rw [← he]
    exact h1
  · obtain ⟨r2, h4, h5, h6⟩ := read_rep h1
    have : c1.rest = c.rest := by simp only [Cursor.rest, h2, h3]
    rw [this] at h4 h5
    exact ⟨r2, _, h4, h5, h6⟩

theorem skipLoop_rep {r : Reader} {c : Cursor} (h : RepIdle r c) (fuel n : Nat) (hf : n ≤ fuel) :
    ∃ r', Reader.skipLoop fuel n r = (.ok (n - min n c.rest.length), r') ∧ RepIdle r' (c.advance (min n c.rest.length)) ∧
      r'.buffer.dbg = r.buffer.dbg := by
  induction fuel generalizing r c n with
  | zero =>
    have : n = 0 := by omega
    subst this
    exact ⟨r, by simp [Reader.skipLoop], by simpa using h, rfl⟩
  | succ fuel ih =>
    cases n with
    | zero => exact ⟨r, by simp [Reader.skipLoop], by simpa using h, rfl⟩
    | succ n =>
      obtain ⟨cs, r1, h1, h2, h3, h4, h5, h6⟩ := readChars_rep h (min (n + 1) 1024)
      simp only [Reader.skipLoop, RM.bind_run, h1]
      cases cs with
      | nil =>
        have hr : c.rest = [] := by exact (h6 rfl).resolve_left (by omega)
        refine ⟨r1, by simp [hr], by simpa [hr] using h2, h3⟩
      | cons x xs =>
        simp only [List.isEmpty_cons, Bool.false_eq_true, if_false]
        have hlen : (x :: xs).length ≤ n + 1 := by omega
        have hle := h4.length_le
        obtain ⟨r2, h7, h8, h9⟩ := ih h2 (n + 1 - (x :: xs).length) (by simp only [List.length_cons] at *; omega)
        have hrl : (c.advance (x :: xs).length).rest.length = c.rest.length - (x :: xs).length := by
          rw [cursor_rest_length, cursor_rest_length]
          simp only [Cursor.advance]; omega
        rw [hrl] at h7 h8
        have he1 : n + 1 - (x :: xs).length - min (n + 1 - (x :: xs).length) (c.rest.length - (x :: xs).length) =
            n + 1 - min (n + 1) c.rest.length := by omega
        have he2 : (c.advance (x :: xs).length).advance (min (n + 1 - (x :: xs).length) (c.rest.length - (x :: xs).length)) =
            c.advance (min (n + 1) c.rest.length) := by
          simp only [Cursor.advance]; congr 1; omega
        rw [he1] at h7
        rw [he2] at h8
        exact ⟨r2, h7, h8, h9.trans h3⟩

theorem skip_rep {r : Reader} {c : Cursor} (h : RepIdle r c) (n : Nat) :
    ∃ r', Reader.skip n r = (.ok (min n c.rest.length), r') ∧ RepIdle r' (c.advance (min n c.rest.length)) ∧
      r'.buffer.dbg = r.buffer.dbg := by
  obtain ⟨r1, h1, h2, h3⟩ := skipLoop_rep h n n (Nat.le_refl n)
  refine ⟨r1, ?_, h2, h3⟩
  unfold Reader.skip
  simp only [RM.bind_run, h1, RM.pure_run]
  congr 2
  omega

theorem readAllLoop_rep {r : Reader} {c : Cursor} (h : RepIdle r c) (fuel : Nat) (hf : c.rest.length < fuel) :
    ∃ r', Reader.readAllLoop fuel r = (.ok c.rest, r') ∧ RepIdle r' (c.advance c.rest.length) ∧
      r'.buffer.dbg = r.buffer.dbg := by
  induction fuel generalizing r c with
  | zero => omega
  | succ fuel ih =>
    obtain ⟨cs, r1, h1, h2, h3, h4, h5, h6⟩ := readChars_rep h 1024
    simp only [Reader.readAllLoop, RM.bind_run, h1]
    cases cs with
    | nil =>
      have hr : c.rest = [] := by exact (h6 rfl).resolve_left (by omega)
      exact ⟨r1, by simp [hr], by simpa [hr] using h2, h3⟩
    | cons x xs =>
      simp only [List.isEmpty_cons, Bool.false_eq_true, if_false]
      obtain ⟨t, ht⟩ := h4
      have hadv : (c.advance (x :: xs).length).rest = t := drop_add_prefix ht.symm
      have hlen : c.rest.length = (x :: xs).length + t.length := by rw [← ht]; simp; omega
      obtain ⟨r2, h7, h8, h9⟩ := ih h2 (by rw [hadv]; simp only [List.length_cons] at hlen; omega)
      rw [hadv] at h7 h8
      have he : (c.advance (x :: xs).length).advance t.length = c.advance c.rest.length := by
        simp only [Cursor.advance]; congr 1; omega
      rw [he] at h8
      refine ⟨r2, ?_, h8, h9.trans h3⟩
      simp only [RM.bind_run, h7, RM.pure_run]
      rw [ht]

theorem size_rep {r : Reader} {c : Cursor} (h : RepIdle r c) : c.rest.length ≤ r.size := by
  obtain ⟨text, ⟨pieces, h1, h2⟩, hrest, _⟩ := h.src
  rw [hrest, h2]
  unfold Reader.size
  rw [h1]
  rw [List.map_map, List.length_append, List.length_append, List.length_drop, List.length_flatten]
  have : ∀ f : Except Nat Str → Nat, (∀ s, f (.ok s) = s.length) →
      (List.map (f ∘ .ok) pieces).sum = (pieces.map List.length).sum := fun f hf => by
    congr 1
    exact List.map_congr_left fun s _ => hf s
  rw [this _ (fun _ => rfl)]
  omega

theorem readAll_rep {r : Reader} {c : Cursor} (h : RepIdle r c) :
    ∃ r', Reader.readAll r = (.ok c.rest, r') ∧ RepIdle r' (c.advance c.rest.length) ∧
      r'.buffer.dbg = r.buffer.dbg := by
  have := size_rep h
  exact readAllLoop_rep h _ (by omega)

theorem newest_or_missing (ms : List (Nat × Nat)) (m : Nat) :
    (∃ newer p older, ms = newer ++ (m, p) :: older ∧ ∀ x ∈ newer, x.1 ≠ m) ∨ ∀ x ∈ ms, x.1 ≠ m := by
  induction ms with
  | nil => exact .inr (by simp)
  | cons x xs ih =>
    by_cases hx : x.1 = m
    · exact .inl ⟨[], x.2, xs, by rw [← hx]; rfl, by simp⟩
    · rcases ih with ⟨newer, p, older, h1, h2⟩ | h1
      · refine .inl ⟨x :: newer, p, older, by rw [h1]; rfl, fun y hy => ?_⟩
        rcases List.mem_cons.mp hy with rfl | hy
        · exact hx
        · exact h2 y hy
      · refine .inr (fun y hy => ?_)
        rcases List.mem_cons.mp hy with rfl | hy
        · exact hx
        · exact h1 y hy

theorem resetToMark_missing {r : Reader} {c : Cursor} (h : RepIdle r c) {m : Nat} (hn : ∀ x ∈ c.marks, x.1 ≠ m) :
    perform (.resetToMark m) r = (.error ⟨c.location, .invalidMark m⟩, r) := by
  rw [perform, Reader.resetToMark, UnreadBuffer.revert, removeMark_missing h hn]
  rfl

theorem unmark_missing {r : Reader} {c : Cursor} (h : RepIdle r c) {m : Nat} (hn : ∀ x ∈ c.marks, x.1 ≠ m) :
    perform (.unmark m) r = (.error ⟨c.location, .invalidMark m⟩, r) := by
  rw [perform, Reader.unmark, removeMark_missing h hn]
  rfl

/-- One operation. -/
theorem perform_rep {r : Reader} {c : Cursor} (h : RepIdle r c) (op : ReaderOp)
    (hdb : r.buffer.dbg = true → ∀ m newer p older, op = .unmark m → c.marks = newer ++ (m, p) :: older →
      (∀ x ∈ newer, x.1 ≠ m) → older ≠ []) :
    ∃ a r' c', perform op r = (a, r') ∧ CursorStep c op a c' ∧ RepIdle r' c' ∧ r'.buffer.dbg = r.buffer.dbg := by
  have hfind := newest_or_missing c.marks
  cases op with
  | read =>
    obtain ⟨r', h1, h2, h3⟩ := read_rep h
    exact ⟨_, r', _, by rw [perform, h1]; rfl, .read c, h2, h3⟩
  | readChars n =>
    obtain ⟨cs, r', h1, h2, h3, h4, h5, h6⟩ := readChars_rep h n
    exact ⟨_, r', _, by rw [perform, h1]; rfl, .readChars c n cs h4 h5 h6, h2, h3⟩
  | readAll =>
    obtain ⟨r', h1, h2, h3⟩ := readAll_rep h
    exact ⟨_, r', _, by rw [perform, h1]; rfl, .readAll c, h2, h3⟩
  | peek n =>
    obtain ⟨r', h1, h2, h3⟩ := peek_rep h n
    exact ⟨_, r', _, by rw [perform, h1]; rfl, .peek c n, h2, h3⟩
  | prefixMatches p =>
    obtain ⟨r', h1, h2, h3⟩ := prefixMatches_rep h p
    exact ⟨_, r', _, by rw [perform, h1]; rfl, .prefixMatches c p, h2, h3⟩
  | isEof =>
    obtain ⟨r', h1, h2, h3⟩ := isEof_rep h
    exact ⟨_, r', _, by rw [perform, h1]; rfl, .isEof c, h2, h3⟩
  | skip n =>
    obtain ⟨r', h1, h2, h3⟩ := skip_rep h n
    exact ⟨_, r', _, by rw [perform, h1]; rfl, .skip c n, h2, h3⟩
  | mark =>
    obtain ⟨m, r', h1, h2, h3, h4⟩ := mark_rep h
    exact ⟨_, r', _, by rw [perform, h1]; rfl, .mark c m h4, h2, h3⟩
  | resetToMark m =>
    rcases hfind m with ⟨newer, p, older, h1, h2⟩ | h1
    · obtain ⟨r', h3, h4, h5, _⟩ := resetToMark_rep h h1 h2
      exact ⟨_, r', _, by rw [perform, h3]; rfl, .reset c m newer p older h1 h2, h4, h5⟩
    · exact ⟨_, r, c, resetToMark_missing h h1, .resetInvalid c m h1, h, rfl⟩
  | unmark m =>
    rcases hfind m with ⟨newer, p, older, h1, h2⟩ | h1
    · obtain ⟨r', h3, h4, h5⟩ := unmark_rep h h1 h2 (fun hd => hdb hd m newer p older rfl h1 h2)
      exact ⟨_, r', _, by rw [perform, h3]; rfl, .unmark c m newer p older h1 h2, h4, h5⟩
    · exact ⟨_, r, c, unmark_missing h h1, .unmarkInvalid c m h1, h, rfl⟩
  | location =>
    refine ⟨_, r, c, ?_, .location c, h, rfl⟩
    rw [perform, Reader.location, ← h.loc]; rfl

/-- A new reader stands at the beginning of the text. -/
theorem new_rep {location : Location} {s : Source} {text : Str} (h : Delivers s text) (dbg : Bool) :
    RepIdle (Reader.withLocation location s dbg) ⟨location, text, 0, []⟩ :=
  ⟨⟨⟨text, h, by simp [Cursor.rest, Reader.withLocation, UnreadBuffer.new], by simp⟩, by simp,
    by simp [Reader.withLocation, UnreadBuffer.new],
    by simp [Reader.withLocation, UnreadBuffer.new, Cursor.location, lineColumn_nil], rfl, by simp⟩,
    fun _ => .inl ⟨rfl, rfl⟩⟩

theorem performAll_rep {r : Reader} {c : Cursor} (h : RepIdle r c) (hd : r.buffer.dbg = false) (ops : List ReaderOp) :
    ∃ as r' c', performAll ops r = (as, r') ∧ CursorSteps c ops as c' ∧ RepIdle r' c' ∧ r'.buffer.dbg = false := by
  induction ops generalizing r c with
  | nil => exact ⟨[], r, c, rfl, .nil c, h, hd⟩
  | cons op ops ih =>
    obtain ⟨a, r1, c1, h1, h2, h3, h4⟩ := perform_rep h op (by rw [hd]; simp)
    obtain ⟨as, r2, c2, h5, h6, h7⟩ := ih h3 (h4.trans hd)
    exact ⟨a :: as, r2, c2, by simp only [performAll, h1, h5], .cons h2 h6, h7⟩

/-- Operations in either build. -/
theorem performAll_nested {r : Reader} {c : Cursor} (h : RepIdle r c) (ops : List ReaderOp)
    (hd : r.buffer.dbg = true → NestedUnmarks c ops) :
    ∃ as r' c', performAll ops r = (as, r') ∧ CursorSteps c ops as c' ∧ RepIdle r' c' ∧ r'.buffer.dbg = r.buffer.dbg := by
  induction ops generalizing r c with
  | nil => exact ⟨[], r, c, rfl, .nil c, h, rfl⟩
  | cons op ops ih =>
    obtain ⟨a, r1, c1, h1, h2, h3, h4⟩ := perform_rep h op (by
      rintro hdb m newer p older rfl h5 h6
      exact (hd hdb _ _ (.unmark c m newer p older h5 h6)).1 m rfl rfl)
    obtain ⟨as, r2, c2, h5, h6, h7, h8⟩ := ih h3 (fun hdb => (hd (h4.symm.trans hdb) a c1 h2).2)
    exact ⟨a :: as, r2, c2, by simp only [performAll, h1, h5], .cons h2 h6, h7, h8.trans h4⟩

theorem performAll_append (a b : List ReaderOp) (r : Reader) :
    performAll (a ++ b) r = ((performAll a r).1 ++ (performAll b (performAll a r).2).1,
      (performAll b (performAll a r).2).2) := by
  induction a generalizing r with
  | nil => rfl
  | cons op a ih => simp only [List.cons_append, performAll, ih]

end Ebnf
