import Verif.Spec.Words

set_option autoImplicit false

/-! # 64-bit integers: the reader (lemmas for C101) -/

namespace Ebnf.Word

open Spec

theorem add_fits {checks : Bool} {a b : Nat} (h : a + b < 2 ^ 64) : add checks a b = .ok (a + b) := by
  unfold add
  rw [if_pos (by simpa [u64Size] using h)]

theorem sub_fits {checks : Bool} {a b : Nat} (h : b ≤ a) : sub checks a b = .ok (a - b) := by
  unfold sub
  rw [if_pos h]

theorem _root_.Ebnf.Spec.Fits.mono {l : Location} {n m : Nat} (h : Fits l n) (hm : m ≤ n) : Fits l m := by
  unfold Fits at h ⊢
  omega

theorem push_fits {checks : Bool} {l : Location} {ch : Char} {n : Nat} (h : Fits l (n + 1)) :
    push checks l ch = .ok (l.push ch) ∧ Fits (l.push ch) n := by
  unfold Fits at h
  unfold push Location.push Fits
  by_cases hc : ch = '\n'
  · rw [if_pos hc, if_pos hc, add_fits (by omega)]
    exact ⟨rfl, by simp only; omega⟩
  · rw [if_neg hc, if_neg hc, add_fits (by omega)]
    exact ⟨rfl, by simp only; omega⟩

theorem pushStr_fits {checks : Bool} {s : Str} : ∀ {l : Location} {n : Nat}, Fits l (s.length + n) →
    pushStr checks l s = .ok (l.pushStr s) ∧ Fits (l.pushStr s) n := by
  induction s with
  | nil => intro l n h; exact ⟨rfl, by simpa [Location.pushStr] using h⟩
  | cons ch s ih =>
    intro l n h
    obtain ⟨h1, h2⟩ := push_fits (checks := checks) (ch := ch) (n := s.length + n) (h.mono (by simp only [List.length_cons]; omega))
    obtain ⟨h3, h4⟩ := ih h2
    refine ⟨?_, h4⟩
    rw [pushStr, h1]
    exact h3

/-- All numbers are small enough for the characters that are left. -/
structure Small (r : Reader) : Prop where
  next_le : r.buffer.next ≤ r.buffer.buffer.length
  head : r.buffer.head + r.buffer.buffer.length + leftIn r.source < 2 ^ 64
  here : Fits r.buffer.location (r.buffer.buffer.length - r.buffer.next + leftIn r.source)
  below : ∀ x ∈ r.buffer.stack, x.1 ≤ r.buffer.head + r.buffer.next
  sorted : r.buffer.stack.Pairwise (fun x y => y.1 ≤ x.1)
  marks : ∀ x ∈ r.buffer.stack, Fits x.2 (r.buffer.buffer.length - (x.1 - r.buffer.head) + leftIn r.source)
  source : Fits r.source.location (leftIn r.source)

theorem rounds_fits {checks : Bool} {n : Nat} {rs : List (Except Nat Str)} {loc : Location} (h : Fits loc (leftIn ⟨[], rs, loc⟩)) :
    readRounds checks n rs loc = Source.readRounds n rs loc ∧
      Fits (Source.readRounds n rs loc).2.location (leftIn (Source.readRounds n rs loc).2) ∧
      leftIn (Source.readRounds n rs loc).2 ≤ leftIn ⟨[], rs, loc⟩ ∧
      ∀ cs, (Source.readRounds n rs loc).1 = .ok cs → leftIn (Source.readRounds n rs loc).2 + cs.length ≤ leftIn ⟨[], rs, loc⟩ := by
  induction rs with
  | nil => exact ⟨rfl, h, Nat.le_refl _, fun cs hc => by cases hc; simp [Source.readRounds]⟩
  | cons x rs ih =>
    cases x with
    | error e =>
      refine ⟨rfl, ?_, ?_, fun cs hc => by cases hc⟩
      · simp only [Source.readRounds]; exact h.mono (by simp [leftIn])
      · simp [Source.readRounds, leftIn]
    | ok chars =>
      cases hcs : chars with
      | nil =>
        rw [hcs] at h
        have e : leftIn ⟨[], Except.ok [] :: rs, loc⟩ = leftIn ⟨[], rs, loc⟩ := by simp [leftIn]
        rw [e] at h ⊢
        exact ih h
      | cons y ys =>
        rw [← hcs]
        have hne : chars.isEmpty = false := by rw [hcs]; rfl
        have hl : (chars.take n).length + (chars.drop n).length = chars.length := by
          rw [← List.length_append, List.take_append_drop]
        have hle : (chars.take n).length + leftIn ⟨chars.drop n, rs, loc⟩ = leftIn ⟨[], .ok chars :: rs, loc⟩ := by
          simp only [leftIn, List.map_cons, List.sum_cons, List.length_nil]
          omega
        obtain ⟨h1, h2⟩ := pushStr_fits (checks := checks) (s := chars.take n) (n := leftIn ⟨chars.drop n, rs, loc⟩) (hle ▸ h)
        unfold readRounds Source.readRounds
        rw [hne, h1]
        simp only [Bool.false_eq_true, if_false, andThen]
        refine ⟨trivial, h2, ?_, fun cs hc => ?_⟩
        · rw [← hle]; simp only [leftIn]; omega
        · cases hc; rw [← hle]; simp only [leftIn]; omega

theorem source_fits {checks : Bool} {n : Nat} {s : Source} (h : Fits s.location (leftIn s)) :
    sourceRead checks n s = Source.readChars n s ∧
      Fits (Source.readChars n s).2.location (leftIn (Source.readChars n s).2) ∧
      leftIn (Source.readChars n s).2 ≤ leftIn s ∧
      ∀ cs, (Source.readChars n s).1 = .ok cs → leftIn (Source.readChars n s).2 + cs.length ≤ leftIn s := by
  obtain ⟨pending, rounds, location⟩ := s
  unfold sourceRead Source.readChars
  cases hp : pending with
  | nil => rw [hp] at h; exact rounds_fits h
  | cons y ys =>
    rw [← hp]
    have hne : pending.isEmpty = false := by rw [hp]; rfl
    have hl : (pending.take n).length + (pending.drop n).length = pending.length := by
      rw [← List.length_append, List.take_append_drop]
    have hle : (pending.take n).length + leftIn ⟨pending.drop n, rounds, location⟩ = leftIn ⟨pending, rounds, location⟩ := by
      simp only [leftIn]
      omega
    obtain ⟨h1, h2⟩ := pushStr_fits (checks := checks) (s := pending.take n) (n := leftIn ⟨pending.drop n, rounds, location⟩) (hle ▸ h)
    simp only [hne, Bool.not_false, if_true, h1, andThen]
    refine ⟨trivial, h2, ?_, fun cs hc => ?_⟩
    · rw [← hle]; simp only [leftIn]; omega
    · cases hc; rw [← hle]; simp only [leftIn]; omega

theorem small_source {r : Reader} (h : Small r) {s : Source} (hs : Fits s.location (leftIn s)) (hl : leftIn s ≤ leftIn r.source) :
    Small { r with source := s } := by
  refine ⟨h.next_le, ?_, ?_, h.below, h.sorted, fun x hx => ?_, hs⟩
  · have := h.head; simp only; omega
  · exact h.here.mono (by simp only; omega)
  · exact (h.marks x hx).mono (by simp only; omega)

theorem readChars_small {r : Reader} (h : Small r) (n : Nat) :
    readChars n r = Reader.readChars n r ∧ Small (Reader.readChars n r).2 := by
  unfold readChars Reader.readChars
  by_cases hrem : r.buffer.remains = true
  · rw [if_pos hrem, if_pos hrem]
    have hn := h.next_le
    have hk : ((r.buffer.buffer.drop r.buffer.next).take n).length ≤ r.buffer.buffer.length - r.buffer.next := by
      rw [List.length_take, List.length_drop]; omega
    generalize hcs : (r.buffer.buffer.drop r.buffer.next).take n = cs at hk
    obtain ⟨h1, h2⟩ := pushStr_fits (checks := r.buffer.dbg) (s := cs)
      (n := r.buffer.buffer.length - r.buffer.next - cs.length + leftIn r.source)
      (h.here.mono (by omega))
    unfold bufferRead UnreadBuffer.read
    dsimp only
    rw [hcs, h1]
    simp only [andThen]
    generalize hb : (if (!UnreadBuffer.remains { r.buffer with next := r.buffer.next + cs.length }) = true then
      UnreadBuffer.truncateIfStackEmpty { r.buffer with next := r.buffer.next + cs.length }
      else { r.buffer with next := r.buffer.next + cs.length }) = b'
    have hb' : b' = { r.buffer with next := r.buffer.next + cs.length } ∨
        (r.buffer.stack = [] ∧ r.buffer.buffer.length ≤ r.buffer.next + cs.length ∧
          b' = { r.buffer with buffer := [], next := 0 }) := by
      rw [← hb]
      by_cases hx : UnreadBuffer.remains { r.buffer with next := r.buffer.next + cs.length } = true
      · rw [if_neg (by simp [hx])]; exact .inl rfl
      · rw [if_pos (by simp [hx])]
        unfold UnreadBuffer.truncateIfStackEmpty
        simp only [UnreadBuffer.remains, decide_eq_true_eq] at hx
        by_cases hs : r.buffer.stack = []
        · rw [if_pos (by simp [hs])]; exact .inr ⟨hs, by omega, rfl⟩
        · rw [if_neg (by simp [hs])]; exact .inl rfl
    have hloc : b'.location = r.buffer.location := by
      rcases hb' with rfl | ⟨_, _, rfl⟩ <;> rfl
    rw [hloc]
    refine ⟨rfl, ?_⟩
    rcases hb' with rfl | ⟨hs, hl, rfl⟩
    · refine ⟨?_, h.head, ?_, fun x hx => ?_, h.sorted, h.marks, h.source⟩
      · simp only; omega
      · exact h2.mono (by simp only; omega)
      · have := h.below x hx; simp only; omega
    · refine ⟨Nat.le_refl _, ?_, ?_, ?_, ?_, ?_, h.source⟩
      · have := h.head; simp only [List.length_nil]; omega
      · exact h2.mono (by simp only [List.length_nil]; omega)
      · simp [hs]
      · simp [hs]
      · simp [hs]
  · rw [if_neg hrem, if_neg hrem]
    simp only [UnreadBuffer.remains, decide_eq_true_eq] at hrem
    have hn := h.next_le
    have hnl : r.buffer.next = r.buffer.buffer.length := by omega
    obtain ⟨h1, h2, h3, h4⟩ := source_fits (checks := r.buffer.dbg) (n := n) h.source
    rw [h1]
    generalize Source.readChars n r.source = y at h2 h3 h4
    obtain ⟨res, s⟩ := y
    simp only at h2 h3 h4
    cases res with
    | ok cs =>
      have h4 := h4 cs rfl
      simp only
      by_cases hemp : cs.isEmpty = true
      · rw [if_pos hemp, if_pos hemp]
        exact ⟨rfl, small_source h h2 h3⟩
      · rw [if_neg hemp, if_neg hemp]
        have hfit : Fits r.buffer.location (cs.length + leftIn s) := h.here.mono (by omega)
        obtain ⟨h5, h6⟩ := pushStr_fits (checks := r.buffer.dbg) (s := cs) hfit
        have hhd := h.head
        unfold bufferAppend UnreadBuffer.append
        rw [h5, add_fits (checks := r.buffer.dbg) (a := r.buffer.head) (b := cs.length) (by omega)]
        simp only [andThen]
        by_cases hst : (!r.buffer.stack.isEmpty) = true
        · rw [if_pos hst]
          by_cases hda : (r.buffer.dbg && r.buffer.remains) = true
          · rw [if_pos hda]
            exact ⟨rfl, small_source h h2 h3⟩
          · rw [if_neg hda]
            refine ⟨rfl, ?_, ?_, ?_, fun x hx => ?_, h.sorted, fun x hx => ?_, h2⟩
            · simp only [List.length_append]; omega
            · simp only [List.length_append]; omega
            · exact h6.mono (by simp only [List.length_append]; omega)
            · have := h.below x hx; simp only; omega
            · have := h.below x hx
              exact (h.marks x hx).mono (by simp only [List.length_append]; omega)
        · rw [if_neg hst]
          by_cases hda : (r.buffer.dbg && (!r.buffer.buffer.isEmpty || r.buffer.next != 0)) = true
          · rw [if_pos hda]
            exact ⟨rfl, small_source h h2 h3⟩
          · rw [if_neg hda]
            have hs : r.buffer.stack = [] := by simpa using hst
            refine ⟨rfl, h.next_le, ?_, ?_, ?_, ?_, ?_, h2⟩
            · simp only; omega
            · exact h6.mono (by simp only; omega)
            · simp [hs]
            · simp [hs]
            · simp [hs]
    | err e => exact ⟨rfl, small_source h h2 h3⟩
    | panic p => exact ⟨rfl, small_source h h2 h3⟩
    | diverge => exact ⟨rfl, small_source h h2 h3⟩

/-- The number of characters ahead. -/
def avail (r : Reader) : Nat := r.buffer.buffer.length - r.buffer.next + leftIn r.source

/-- Reading takes what it returns from the characters ahead, and leaves the marks alone. -/
theorem readChars_takes {r : Reader} (h : Small r) (n : Nat) :
    (Reader.readChars n r).2.buffer.stack = r.buffer.stack ∧ avail (Reader.readChars n r).2 ≤ avail r ∧
      ∀ cs, (Reader.readChars n r).1 = .ok cs → cs.length + avail (Reader.readChars n r).2 ≤ avail r := by
  unfold Reader.readChars
  by_cases hrem : r.buffer.remains = true
  · rw [if_pos hrem]
    have hn := h.next_le
    have hk : ((r.buffer.buffer.drop r.buffer.next).take n).length ≤ r.buffer.buffer.length - r.buffer.next := by
      rw [List.length_take, List.length_drop]; omega
    generalize hcs : (r.buffer.buffer.drop r.buffer.next).take n = cs at hk
    unfold UnreadBuffer.read
    dsimp only
    rw [hcs]
    by_cases hx : UnreadBuffer.remains { r.buffer with next := r.buffer.next + cs.length } = true
    · rw [if_neg (by simp [hx])]
      refine ⟨rfl, ?_, fun cs' hc => ?_⟩
      · simp only [avail]; omega
      · cases hc; simp only [avail]; omega
    · rw [if_pos (by simp [hx])]
      unfold UnreadBuffer.truncateIfStackEmpty
      simp only [UnreadBuffer.remains, decide_eq_true_eq] at hx
      by_cases hs : r.buffer.stack = []
      · rw [if_pos (by simp [hs])]
        refine ⟨rfl, ?_, fun cs' hc => ?_⟩
        · simp only [avail, List.length_nil]; omega
        · cases hc; simp only [avail, List.length_nil]; omega
      · rw [if_neg (by simp [hs])]
        refine ⟨rfl, ?_, fun cs' hc => ?_⟩
        · simp only [avail]; omega
        · cases hc; simp only [avail]; omega
  · rw [if_neg hrem]
    simp only [UnreadBuffer.remains, decide_eq_true_eq] at hrem
    have hn := h.next_le
    obtain ⟨_, _, h3, h4⟩ := source_fits (checks := r.buffer.dbg) (n := n) h.source
    generalize Source.readChars n r.source = y at h3 h4
    obtain ⟨res, s⟩ := y
    simp only at h3 h4
    cases res with
    | ok cs =>
      have h4 := h4 cs rfl
      simp only
      by_cases hemp : cs.isEmpty = true
      · rw [if_pos hemp]
        refine ⟨rfl, ?_, fun cs' hc => ?_⟩
        · simp only [avail]; omega
        · cases hc; simp only [avail, List.length_nil]; omega
      · rw [if_neg hemp]
        unfold UnreadBuffer.append
        by_cases hst : (!r.buffer.stack.isEmpty) = true
        · rw [if_pos hst]
          by_cases hda : (r.buffer.dbg && r.buffer.remains) = true
          · rw [if_pos hda]
            exact ⟨rfl, by simp only [avail]; omega, fun cs' hc => by cases hc⟩
          · rw [if_neg hda]
            refine ⟨rfl, ?_, fun cs' hc => ?_⟩
            · simp only [avail, List.length_append]; omega
            · cases hc; simp only [avail, List.length_append]; omega
        · rw [if_neg hst]
          by_cases hda : (r.buffer.dbg && (!r.buffer.buffer.isEmpty || r.buffer.next != 0)) = true
          · rw [if_pos hda]
            exact ⟨rfl, by simp only [avail]; omega, fun cs' hc => by cases hc⟩
          · rw [if_neg hda]
            refine ⟨rfl, ?_, fun cs' hc => ?_⟩
            · simp only [avail]; omega
            · cases hc; simp only [avail]; omega
    | err e => exact ⟨rfl, by simp only [avail]; omega, fun cs' hc => by cases hc⟩
    | panic p => exact ⟨rfl, by simp only [avail]; omega, fun cs' hc => by cases hc⟩
    | diverge => exact ⟨rfl, by simp only [avail]; omega, fun cs' hc => by cases hc⟩

theorem mark_small {r : Reader} (h : Small r) : mark r = Reader.mark r ∧ Small (Reader.mark r).2 := by
  have hn := h.next_le
  have hh := h.head
  unfold mark Reader.mark bufferMark UnreadBuffer.mark
  rw [add_fits (by omega)]
  simp only [andThen]
  have hsm : Small { r with buffer := { r.buffer with stack := (r.buffer.head + r.buffer.next, r.buffer.location) :: r.buffer.stack } } := by
    refine ⟨h.next_le, h.head, h.here, fun x hx => ?_, ?_, fun x hx => ?_, h.source⟩
    · simp only [List.mem_cons] at hx
      rcases hx with rfl | hx
      · exact Nat.le_refl _
      · exact h.below x hx
    · exact List.pairwise_cons.2 ⟨fun y hy => h.below y hy, h.sorted⟩
    · simp only [List.mem_cons] at hx
      rcases hx with rfl | hx
      · exact h.here.mono (by simp only; omega)
      · exact h.marks x hx
  have hb := h.below
  obtain ⟨src, loc, buf, next, head, stack, dbg⟩ := r
  cases stack with
  | nil => simpa using hsm
  | cons x st =>
    obtain ⟨p, k⟩ := x
    have hp : p ≤ head + next := hb (p, k) (by simp)
    simpa [hp] using hsm

theorem mark_pushes (r : Reader) (h : Small r) : (Reader.mark r).1 = .ok (r.buffer.head + r.buffer.next) ∧
    (Reader.mark r).2.buffer.stack = (r.buffer.head + r.buffer.next, r.buffer.location) :: r.buffer.stack ∧
    avail (Reader.mark r).2 = avail r := by
  have hb := h.below
  unfold Reader.mark UnreadBuffer.mark
  obtain ⟨src, loc, buf, next, head, stack, dbg⟩ := r
  cases stack with
  | nil => simp [avail]
  | cons x st =>
    obtain ⟨p, k⟩ := x
    have hp : p ≤ head + next := hb (p, k) (by simp)
    simp [hp, avail]

theorem removeMark_same {r : Reader} (h : Small r) (m : Nat) : removeMark r.buffer m = r.buffer.removeMark m := by
  have hh := h.head
  unfold removeMark UnreadBuffer.removeMark
  rw [add_fits (by omega)]
  simp only [andThen]
  by_cases h1 : m < r.buffer.head
  · rw [if_pos h1, if_pos (.inl h1)]
  · rw [if_neg h1]
    by_cases h2 : m > r.buffer.head + r.buffer.buffer.length
    · rw [if_pos h2, if_pos (.inr h2)]
    · rw [if_neg h2, if_neg (by omega)]
      cases UnreadBuffer.findMark m r.buffer.stack <;> rfl

theorem findMark_some {m : Nat} : ∀ {st : List (Nat × Location)} {l : Location} {st' : List (Nat × Location)},
    UnreadBuffer.findMark m st = some (l, st') → ∃ newer, st = newer ++ (m, l) :: st' := by
  intro st
  induction st with
  | nil => intro l st' h; simp [UnreadBuffer.findMark] at h
  | cons x st ih =>
    intro l st' h
    obtain ⟨p, k⟩ := x
    unfold UnreadBuffer.findMark at h
    by_cases hp : p = m
    · rw [if_pos hp] at h
      simp only [Option.some.injEq, Prod.mk.injEq] at h
      exact ⟨[], by rw [hp, h.1, h.2]; rfl⟩
    · rw [if_neg hp] at h
      by_cases hlt : p < m
      · rw [if_pos hlt] at h; simp at h
      · rw [if_neg hlt] at h
        obtain ⟨newer, hn⟩ := ih h
        exact ⟨(p, k) :: newer, by rw [hn]; rfl⟩

/-- What `remove_mark` does. -/
theorem removeMark_cases (b : UnreadBuffer) (m : Nat) :
    (∃ e, b.removeMark m = (.err e, b)) ∨ ∃ newer l st, (b.stack = newer ++ (m, l) :: st ∧ UnreadBuffer.findMark m b.stack = some (l, st)) ∧
      b.head ≤ m ∧ b.removeMark m = (.ok l, { b with stack := st }) := by
  unfold UnreadBuffer.removeMark
  by_cases h1 : m < b.head ∨ m > b.head + b.buffer.length
  · rw [if_pos h1]; exact .inl ⟨_, rfl⟩
  · rw [if_neg h1]
    cases hf : UnreadBuffer.findMark m b.stack with
    | none => exact .inl ⟨_, rfl⟩
    | some x =>
      obtain ⟨l, st⟩ := x
      obtain ⟨newer, hn⟩ := findMark_some hf
      exact .inr ⟨newer, l, st, ⟨hn, rfl⟩, by omega, rfl⟩

/-- The newest mark with that number, if it is there. -/
theorem suffix_older {m : Nat} {l l' : Location} {st st' A : List (Nat × Location)}
    (hf : UnreadBuffer.findMark m st = some (l', st')) (hA : (m, l) :: A <:+ st) : A <:+ st' := by
  obtain ⟨top, ht⟩ := hA
  have key : ∀ (top : List (Nat × Location)) (st : List (Nat × Location)), top ++ (m, l) :: A = st →
      UnreadBuffer.findMark m st = some (l', st') → A <:+ st' := by
    intro top
    induction top with
    | nil =>
      intro st h1 h2
      rw [← h1] at h2
      simp only [List.nil_append, UnreadBuffer.findMark, if_true, Option.some.injEq, Prod.mk.injEq] at h2
      rw [h2.2]
      exact List.suffix_refl _
    | cons x top ih =>
      intro st h1 h2
      obtain ⟨p, k⟩ := x
      rw [← h1] at h2
      unfold UnreadBuffer.findMark at h2
      simp only [List.cons_append] at h2
      by_cases hp : p = m
      · rw [if_pos hp] at h2
        simp only [Option.some.injEq, Prod.mk.injEq] at h2
        exact ⟨top ++ [(m, l)], by rw [← h2.2]; simp⟩
      · rw [if_neg hp] at h2
        by_cases hlt : p < m
        · rw [if_pos hlt] at h2; simp at h2
        · rw [if_neg hlt] at h2
          exact ih _ rfl h2
  exact key top st ht hf

theorem unmark_small {r : Reader} (h : Small r) (m : Nat) :
    unmark m r = Reader.unmark m r ∧ Small (Reader.unmark m r).2 := by
  unfold unmark Reader.unmark
  rw [removeMark_same h]
  rcases removeMark_cases r.buffer m with ⟨e, h1⟩ | ⟨newer, l, st, ⟨h1, hf⟩, h2, h3⟩
  · rw [h1]; exact ⟨rfl, h⟩
  · rw [h3]
    have hsub : ∀ x ∈ st, x ∈ r.buffer.stack := fun x hx => by rw [h1]; simp [hx]
    have hs := h.sorted
    rw [h1] at hs
    exact ⟨rfl, h.next_le, h.head, h.here, fun x hx => h.below x (hsub x hx),
      (List.pairwise_cons.1 (List.pairwise_append.1 hs).2.1).2, fun x hx => h.marks x (hsub x hx), h.source⟩

theorem reset_small {r : Reader} (h : Small r) (m : Nat) :
    resetToMark m r = Reader.resetToMark m r ∧ Small (Reader.resetToMark m r).2 := by
  unfold resetToMark Reader.resetToMark revert UnreadBuffer.revert
  rw [removeMark_same h]
  rcases removeMark_cases r.buffer m with ⟨e, h1⟩ | ⟨newer, l, st, ⟨h1, hf⟩, h2, h3⟩
  · rw [h1]; exact ⟨rfl, h⟩
  · rw [h3]
    have hsub : ∀ x ∈ st, x ∈ r.buffer.stack := fun x hx => by rw [h1]; simp [hx]
    have hs := h.sorted
    rw [h1] at hs
    have hs2 := List.pairwise_cons.1 (List.pairwise_append.1 hs).2.1
    have hm : (m, l) ∈ r.buffer.stack := by rw [h1]; simp
    have hb := h.below _ hm
    have hh := h.head
    have hn := h.next_le
    simp only at hb ⊢
    rw [add_fits (by omega), sub_fits h2]
    simp only [andThen]
    rw [sub_fits hb, if_neg (by omega)]
    refine ⟨rfl, ?_, h.head, h.marks _ hm, fun x hx => ?_, hs2.2, fun x hx => h.marks x (hsub x hx), h.source⟩
    · simp only; omega
    · have := hs2.1 x hx; simp only at this ⊢; omega

theorem unmark_pops {r : Reader} {m : Nat} {l : Location} {A : List (Nat × Location)} (hA : (m, l) :: A <:+ r.buffer.stack) :
    A <:+ (Reader.unmark m r).2.buffer.stack := by
  unfold Reader.unmark
  rcases removeMark_cases r.buffer m with ⟨e, h1⟩ | ⟨newer, l', st, ⟨h1, hf⟩, h2, h3⟩
  · rw [h1]; exact List.IsSuffix.trans (List.suffix_cons _ _) hA
  · rw [h3]; exact suffix_older hf hA

theorem reset_pops {r : Reader} (h : Small r) {m : Nat} {l : Location} {A : List (Nat × Location)} (hA : (m, l) :: A <:+ r.buffer.stack) :
    A <:+ (Reader.resetToMark m r).2.buffer.stack ∧
      ∀ k, (Reader.resetToMark m r).1 = .ok k → Fits l (avail (Reader.resetToMark m r).2) := by
  have hl := h.marks (m, l) (hA.subset (by simp))
  unfold Reader.resetToMark UnreadBuffer.revert
  rcases removeMark_cases r.buffer m with ⟨e, h1⟩ | ⟨newer, l', st, ⟨h1, hf⟩, h2, h3⟩
  · rw [h1]; exact ⟨List.IsSuffix.trans (List.suffix_cons _ _) hA, fun k hk => by cases hk⟩
  · rw [h3]
    have hm : (m, l') ∈ r.buffer.stack := by rw [h1]; simp
    have hb := h.below _ hm
    simp only at hb ⊢
    rw [if_neg (by omega)]
    exact ⟨suffix_older hf hA, fun k _ => hl⟩

theorem new_small {location : Location} {s : Source} {dbg : Bool} (h : Fits location (leftIn s)) (hs : Fits s.location (leftIn s)) :
    Small (Reader.withLocation location s dbg) := by
  refine ⟨Nat.le_refl _, ?_, ?_, ?_, ?_, ?_, hs⟩
  · unfold Fits at h
    simp only [Reader.withLocation, UnreadBuffer.new, List.length_nil]; omega
  · exact h.mono (by simp [Reader.withLocation, UnreadBuffer.new])
  · simp [Reader.withLocation, UnreadBuffer.new]
  · simp [Reader.withLocation, UnreadBuffer.new]
  · simp [Reader.withLocation, UnreadBuffer.new]

/-! ## Beyond -/

theorem push_not_newline {checks : Bool} {l : Location} {ch : Char} (h : ch ≠ '\n') :
    push checks l ch = (add checks l.columns 1 >>= fun c => .ok { l with columns := c }) := by
  unfold push
  rw [if_neg h]
  rfl

theorem pushStr_overflow {text : Str} : ∀ {l : Location}, '\n' ∉ text → l.columns < 2 ^ 64 → 2 ^ 64 ≤ l.columns + text.length →
    pushStr true l text = .panic .overflow := by
  induction text with
  | nil => intro l _ h1 h2; simp only [List.length_nil] at h2; omega
  | cons ch text ih =>
    intro l hn h1 h2
    simp only [List.mem_cons, not_or] at hn
    simp only [List.length_cons] at h2
    rw [pushStr, push_not_newline (fun h => hn.1 h.symm)]
    by_cases hc : l.columns + 1 < 2 ^ 64
    · rw [add_fits hc]
      exact ih hn.2 hc (by simp only; omega)
    · unfold add
      rw [if_neg (by simpa [u64Size] using hc)]
      rfl

theorem pushStr_wraps {text : Str} : ∀ {l : Location}, '\n' ∉ text → l.columns < 2 ^ 64 →
    pushStr false l text = .ok { l with columns := (l.columns + text.length) % 2 ^ 64 } := by
  induction text with
  | nil => intro l _ h1; simp only [List.length_nil, Nat.add_zero, Nat.mod_eq_of_lt h1]; rfl
  | cons ch text ih =>
    intro l hn h1
    simp only [List.mem_cons, not_or] at hn
    rw [pushStr, push_not_newline (fun h => hn.1 h.symm)]
    by_cases hc : l.columns + 1 < 2 ^ 64
    · rw [add_fits hc]
      show pushStr false { l with columns := l.columns + 1 } text = _
      rw [ih hn.2 hc]
      simp only [List.length_cons]
      congr 3
      omega
    · unfold add
      rw [if_neg (by simpa [u64Size] using hc)]
      show pushStr false { l with columns := (l.columns + 1) % u64Size } text = _
      have e : (l.columns + 1) % u64Size = 0 := by unfold u64Size; omega
      rw [e, ih hn.2 (by simp only; omega)]
      simp only [List.length_cons]
      congr 2
      omega

theorem new_overflow {location : Location} {text : Str} (hn : '\n' ∉ text) (hlo : location.columns < 2 ^ 64)
    (hhi : 2 ^ 64 ≤ location.columns + text.length) :
    ∃ p r, readChars text.length (Reader.withLocation location (.buffered text) true) = (.panic p, r) := by
  have hne : text.isEmpty = false := by
    cases text with
    | nil => simp only [List.length_nil] at hhi; omega
    | cons x xs => rfl
  have h := pushStr_overflow hn hlo hhi
  unfold readChars
  rw [if_neg (by simp [Reader.withLocation, UnreadBuffer.new, UnreadBuffer.remains])]
  simp only [Reader.withLocation, UnreadBuffer.new, Source.buffered, sourceRead, hne, Bool.not_false, if_true, List.take_length]
  have key : ∀ {l : Location}, (∃ l', pushStr true l text = .ok l') ∨ ∃ p, pushStr true l text = .panic p := by
    clear h hhi hne hn
    induction text with
    | nil => intro l; exact .inl ⟨l, rfl⟩
    | cons x xs ih =>
      intro l
      rw [pushStr]
      have hp : (∃ l', push true l x = .ok l') ∨ ∃ p, push true l x = .panic p := by
        unfold push add
        split <;> split <;> simp
      rcases hp with ⟨l', hp⟩ | ⟨p, hp⟩
      · rw [hp]; exact ih
      · rw [hp]; exact .inr ⟨p, rfl⟩
  rcases key (l := Location.new []) with ⟨l', h1⟩ | ⟨p, h1⟩
  · rw [h1]
    simp only [andThen, hne, Bool.false_eq_true, if_false]
    unfold bufferAppend
    by_cases ha : 0 + text.length < 2 ^ 64
    · simp [add_fits ha, andThen, h]
    · have : add true 0 text.length = .panic .overflow := by
        unfold add; rw [if_neg (by simpa [u64Size] using ha)]; rfl
      simp [this, andThen]
  · rw [h1]
    exact ⟨p, _, rfl⟩

theorem new_wraps {location : Location} {text : Str} (hn : '\n' ∉ text) (hlo : location.columns < 2 ^ 64) :
    ∃ r, readChars text.length (Reader.withLocation location (.buffered text) false) = (.ok text, r) ∧
      r.buffer.location = { location with columns := (location.columns + text.length) % 2 ^ 64 } := by
  unfold readChars
  rw [if_neg (by simp [Reader.withLocation, UnreadBuffer.new, UnreadBuffer.remains])]
  cases ht : text with
  | nil =>
    refine ⟨_, rfl, ?_⟩
    simp [Reader.withLocation, UnreadBuffer.new, Source.buffered, Nat.mod_eq_of_lt hlo]
  | cons x xs =>
    rw [← ht]
    have hne : text.isEmpty = false := by rw [ht]; rfl
    have h1 : pushStr false (Location.new []) text = .ok { Location.new [] with columns := ((Location.new []).columns + text.length) % 2 ^ 64 } :=
      pushStr_wraps hn (by simp [Location.new, Location.withLocation])
    have h2 := pushStr_wraps hn hlo
    have h3 : ∃ k, add false 0 text.length = .ok k := by
      unfold add; split <;> simp
    obtain ⟨k, h3⟩ := h3
    simp only [Reader.withLocation, UnreadBuffer.new, Source.buffered, sourceRead, hne, Bool.not_false, if_true, List.take_length, h1, andThen]
    simp [bufferAppend, andThen, h2, h3]

end Ebnf.Word
