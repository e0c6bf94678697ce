import Verif.Spec.Meter
import Verif.Proofs.DynSim
import Verif.Proofs.Dyn
import Verif.Proofs.Words

set_option autoImplicit false

/-! # Lemmas: what reading costs (C104) -/

namespace Ebnf.Meter

open Ebnf Ebnf.Spec

/-! ## The functions are the same -/

theorem rounds_same (n : Nat) (rs : List (Except Nat Str)) (loc : Location) : (readRounds n rs loc).1 = Source.readRounds n rs loc := by
  induction rs with
  | nil => rfl
  | cons x rs ih =>
    cases x with
    | error e => rfl
    | ok chars =>
      rw [readRounds, Source.readRounds]
      cases chars with
      | nil => exact ih
      | cons c cs => rfl

theorem source_same (n : Nat) (s : Source) : (sourceRead n s).1 = Source.readChars n s := by
  unfold sourceRead Source.readChars
  by_cases h : (!s.pending.isEmpty) = true
  · rw [if_pos h, if_pos h]
  · rw [if_neg h, if_neg h]; exact rounds_same n _ _

theorem bufferRead_same (b : UnreadBuffer) (n : Nat) : (bufferRead b n).1 = b.read n := rfl

theorem append_same (b : UnreadBuffer) (buf : Str) : (append b buf).1 = b.append buf := by
  unfold append UnreadBuffer.append
  by_cases h : (!b.stack.isEmpty) = true
  · rw [if_pos h, if_pos h]
    by_cases h2 : (b.dbg && b.remains) = true
    · rw [if_pos h2, if_pos h2]
    · rw [if_neg h2, if_neg h2]
  · rw [if_neg h, if_neg h]
    by_cases h2 : (b.dbg && (!b.buffer.isEmpty || b.next != 0)) = true
    · rw [if_pos h2, if_pos h2]
    · rw [if_neg h2, if_neg h2]

theorem mark_same (b : UnreadBuffer) : (mark b).1 = b.mark := by
  unfold mark UnreadBuffer.mark
  dsimp only
  generalize (b.dbg && !(match b.stack with | [] => true | (p, _) :: _ => decide (p ≤ b.head + b.next))) = t
  cases t <;> rfl

theorem findMark_same (m : Nat) (st : List (Nat × Location)) : (findMark m st).1 = UnreadBuffer.findMark m st := by
  induction st with
  | nil => rfl
  | cons x st ih =>
    obtain ⟨p, l⟩ := x
    rw [findMark, UnreadBuffer.findMark]
    by_cases h1 : p = m
    · rw [if_pos h1, if_pos h1]
    · rw [if_neg h1, if_neg h1]
      by_cases h2 : p < m
      · rw [if_pos h2, if_pos h2]
      · rw [if_neg h2, if_neg h2]; exact ih

theorem removeMark_same (b : UnreadBuffer) (m : Nat) : (removeMark b m).1 = b.removeMark m := by
  unfold removeMark UnreadBuffer.removeMark
  by_cases h1 : m < b.head ∨ m > b.head + b.buffer.length
  · rw [if_pos h1, if_pos h1]
  · rw [if_neg h1, if_neg h1, ← findMark_same]
    obtain ⟨o, k⟩ := findMark m b.stack
    cases o <;> rfl

theorem revert_same (b : UnreadBuffer) (m : Nat) : (revert b m).1 = b.revert m := by
  unfold revert UnreadBuffer.revert
  rw [← removeMark_same]
  obtain ⟨⟨x, b'⟩, k⟩ := removeMark b m
  cases x <;> rfl

/-! ## The source -/

theorem round_cons (c : Char) (cs : Str) : roundTwice (.ok (c :: cs)) = (cs.length + 1) * (cs.length + 6) := rfl

theorem triangle_drop {p k : Nat} (h : k ≤ p) (hk : k ≠ 0) : 2 * p + (p - k) * (p - k + 1) ≤ p * (p + 1) := by
  obtain ⟨q, rfl⟩ := Nat.exists_eq_add_of_le h
  obtain ⟨j, rfl⟩ := Nat.exists_eq_succ_of_ne_zero hk
  rw [Nat.add_sub_cancel_left]
  simp only [Nat.succ_eq_add_one, Nat.add_mul, Nat.mul_add, Nat.mul_one, Nat.one_mul]
  omega

theorem round_drop {p k : Nat} (h : k ≤ p) (hk : k ≠ 0) : 2 * (1 + p + k + 2 * (p - k)) + (p - k) * (p - k + 1) ≤ p * (p + 5) := by
  have := triangle_drop h hk
  rw [Nat.mul_add p p 1] at this
  rw [Nat.mul_add p p 5]
  omega

theorem rounds_steps (n : Nat) (hn : n ≠ 0) (rs : List (Except Nat Str)) (loc : Location) :
    2 * (readRounds n rs loc).2 + stepsTwice (readRounds n rs loc).1.2 ≤ (rs.map roundTwice).sum ∧
    (n = 1 → 2 * (readRounds n rs loc).2 + stepsTwice (readRounds n rs loc).1.2 = (rs.map roundTwice).sum) := by
  induction rs with
  | nil => exact ⟨Nat.le_refl _, fun _ => rfl⟩
  | cons x rs ih =>
    cases x with
    | error e =>
      rw [readRounds]
      simp only [stepsTwice, List.map_cons, List.sum_cons, roundTwice, List.length_nil]
      exact ⟨by omega, fun _ => by omega⟩
    | ok chars =>
      rw [readRounds]
      cases chars with
      | nil =>
        rw [if_pos (by rfl)]
        simp only [List.map_cons, List.sum_cons, roundTwice]
        exact ⟨by omega, fun h => by have := ih.2 h; omega⟩
      | cons c cs =>
        rw [if_neg (by simp)]
        simp only [List.map_cons, List.sum_cons, round_cons, stepsTwice, List.length_take, List.length_drop, List.length_cons]
        constructor
        · have := round_drop (p := cs.length + 1) (k := min n (cs.length + 1)) (by omega) (by omega)
          rw [show cs.length + 1 - n = cs.length + 1 - min n (cs.length + 1) by omega]
          rw [show cs.length + 1 + 5 = cs.length + 6 by omega] at this
          omega
        · rintro rfl
          simp only [Nat.add_sub_cancel, Nat.add_mul, Nat.mul_add, Nat.mul_one, Nat.one_mul]
          rw [Nat.min_eq_left (by omega)]
          omega

theorem source_steps (n : Nat) (hn : n ≠ 0) (s : Source) :
    2 * (sourceRead n s).2 + stepsTwice (sourceRead n s).1.2 ≤ stepsTwice s ∧
    (n = 1 → 2 * (sourceRead n s).2 + stepsTwice (sourceRead n s).1.2 = stepsTwice s) := by
  unfold sourceRead
  cases hp : s.pending with
  | nil =>
    rw [if_neg (by simp)]
    have := rounds_steps n hn s.rounds s.location
    have e : stepsTwice s = (s.rounds.map roundTwice).sum := by simp [stepsTwice, hp]
    rw [e]; exact this
  | cons c cs =>
    rw [if_pos (by simp), if_neg hn]
    simp only [stepsTwice, hp, List.length_take, List.length_drop, List.length_cons]
    constructor
    · have := triangle_drop (p := cs.length + 1) (k := min n (cs.length + 1)) (by omega) (by omega)
      rw [show cs.length + 1 - n = cs.length + 1 - min n (cs.length + 1) by omega]
      omega
    · rintro rfl
      simp only [Nat.add_sub_cancel, Nat.add_mul, Nat.mul_add, Nat.mul_one, Nat.one_mul]
      rw [Nat.min_eq_left (by omega)]
      omega

theorem rounds_length {n : Nat} {rs : List (Except Nat Str)} {loc : Location} {chars : Str} (h : (readRounds n rs loc).1.1 = .ok chars) :
    chars.length ≤ n := by
  induction rs with
  | nil => rw [readRounds] at h; cases h; exact Nat.zero_le _
  | cons x rs ih =>
    cases x with
    | error e => rw [readRounds] at h; cases h
    | ok cs =>
      rw [readRounds] at h
      cases cs with
      | nil => exact ih h
      | cons c cs => cases h; exact List.length_take_le _ _

theorem source_length {n : Nat} {s : Source} {chars : Str} (h : (sourceRead n s).1.1 = .ok chars) : chars.length ≤ n := by
  unfold sourceRead at h
  by_cases hp : (!s.pending.isEmpty) = true
  · rw [if_pos hp] at h; cases h; exact List.length_take_le _ _
  · rw [if_neg hp] at h; exact rounds_length h

/-- The number of characters that a call returned. -/
def got : Res Str → Nat
  | .ok cs => cs.length
  | _ => 0

theorem rounds_left (n : Nat) (rs : List (Except Nat Str)) (loc : Location) :
    got (readRounds n rs loc).1.1 + leftIn (readRounds n rs loc).1.2 ≤ leftIn ⟨[], rs, loc⟩ := by
  induction rs with
  | nil => exact Nat.le_refl _
  | cons x rs ih =>
    cases x with
    | error e => rw [readRounds]; simp [got, leftIn, Res.fail]
    | ok cs =>
      rw [readRounds]
      cases cs with
      | nil => refine Nat.le_trans ih ?_; simp [leftIn]
      | cons c cs =>
        rw [if_neg (by simp)]
        simp only [got, leftIn, List.length_take, List.length_drop, List.map_cons, List.sum_cons, List.length_nil, List.length_cons]
        omega

theorem source_left (n : Nat) (s : Source) : got (sourceRead n s).1.1 + leftIn (sourceRead n s).1.2 ≤ leftIn s := by
  unfold sourceRead
  cases hp : s.pending with
  | nil =>
    rw [if_neg (by simp)]
    refine Nat.le_trans (rounds_left n _ _) ?_
    simp [leftIn, hp]
  | cons c cs =>
    rw [if_pos (by simp)]
    simp only [got, leftIn, hp, List.length_take, List.length_drop, List.length_cons]
    omega

/-- What a reader can still deliver. -/
def left (r : Reader) : Nat := r.buffer.buffer.length - r.buffer.next + leftIn r.source

/-! ## The reader -/

/-- The place in the buffer. -/
def Sound (r : Reader) : Prop := r.buffer.next ≤ r.buffer.buffer.length

theorem bufferRead_facts (b : UnreadBuffer) (n : Nat) (h : b.next ≤ b.buffer.length) :
    (bufferRead b n).1.2.next ≤ (bufferRead b n).1.2.buffer.length ∧ (bufferRead b n).2 = (bufferRead b n).1.1.length ∧
    (bufferRead b n).1.1.length = min n (b.buffer.length - b.next) ∧ (bufferRead b n).1.2.stack = b.stack ∧
    (∀ k, n ≤ k → k ≤ b.buffer.length - b.next →
      k - (bufferRead b n).1.1.length ≤ (bufferRead b n).1.2.buffer.length - (bufferRead b n).1.2.next) ∧
    (b.stack ≠ [] → (bufferRead b n).1.2.head = b.head ∧ (bufferRead b n).1.2.buffer = b.buffer ∧
      (bufferRead b n).1.2.next = b.next + (bufferRead b n).1.1.length) ∧
    (bufferRead b n).1.1.length + ((bufferRead b n).1.2.buffer.length - (bufferRead b n).1.2.next) ≤ b.buffer.length - b.next := by
  have hl : ((b.buffer.drop b.next).take n).length = min n (b.buffer.length - b.next) := by simp
  unfold bufferRead
  dsimp only
  generalize (b.buffer.drop b.next).take n = chars at hl ⊢
  unfold UnreadBuffer.remains UnreadBuffer.truncateIfStackEmpty
  dsimp only
  by_cases hr : b.buffer.length > b.next + chars.length
  · have e : (!decide (b.buffer.length > b.next + chars.length)) = false := by simp [hr]
    rw [e]
    simp only [Bool.false_eq_true, if_false]
    exact ⟨by omega, trivial, hl, trivial, fun k _ _ => by omega, fun _ => ⟨trivial, trivial, trivial⟩, by omega⟩
  · have e : (!decide (b.buffer.length > b.next + chars.length)) = true := by simp [hr]
    rw [e]
    simp only [if_true]
    cases hst : b.stack with
    | nil =>
      simp only [List.isEmpty_nil, if_true, List.length_nil]
      exact ⟨by omega, trivial, hl, trivial, fun k _ _ => by omega, fun h => absurd rfl h, by omega⟩
    | cons x xs =>
      simp only [List.isEmpty_cons, Bool.false_eq_true, if_false]
      exact ⟨by omega, trivial, hl, trivial, fun k _ _ => by omega, fun _ => ⟨trivial, trivial, trivial⟩, by omega⟩

theorem append_facts (b : UnreadBuffer) (buf : Str) (h : b.next ≤ b.buffer.length) :
    (append b buf).1.2.next ≤ (append b buf).1.2.buffer.length ∧ (append b buf).2 ≤ 2 * buf.length ∧ ((append b buf).1.1 ≠ .ok () → (append b buf).2 = 0) ∧
    (append b buf).1.2.buffer.length - (append b buf).1.2.next ≤ b.buffer.length - b.next ∧ (append b buf).1.2.stack = b.stack ∧
    (∀ e, (append b buf).1.1 ≠ .err e) ∧
    (b.stack ≠ [] → (append b buf).1.1 = .ok () → (append b buf).1.2.head = b.head ∧
      (append b buf).1.2.buffer = b.buffer ++ buf ∧ (append b buf).1.2.next = b.next + buf.length) := by
  unfold append
  cases hst : b.stack with
  | nil =>
    rw [if_neg (by simp)]
    by_cases h2 : (b.dbg && (!b.buffer.isEmpty || b.next != 0)) = true
    · rw [if_pos h2]
      exact ⟨h, Nat.zero_le _, fun _ => rfl, Nat.le_refl _, hst, nofun, fun h => absurd rfl h⟩
    · rw [if_neg h2]
      exact ⟨h, Nat.zero_le _, fun _ => rfl, Nat.le_refl _, rfl, nofun, fun h => absurd rfl h⟩
  | cons x xs =>
    rw [if_pos (by simp)]
    by_cases h2 : (b.dbg && b.remains) = true
    · rw [if_pos h2]
      exact ⟨h, Nat.zero_le _, fun _ => rfl, Nat.le_refl _, hst, nofun, nofun⟩
    · rw [if_neg h2]
      exact ⟨by simp only [List.length_append]; omega, Nat.le_refl _, fun h => absurd rfl h, by simp only [List.length_append]; omega, rfl, nofun, fun _ _ => ⟨rfl, rfl, rfl⟩⟩

/-- What `read_chars` does, and what it costs. -/
structure ReadFacts (n : Nat) (r : Metered) (out : Res Str × Metered) : Prop where
  answer : out.1 = (Reader.readChars n r.reader).1
  reader : out.2.reader = (Reader.readChars n r.reader).2
  sound : Sound out.2.reader
  atMost : n ≠ 0 → 2 * out.2.moved + stepsTwice out.2.reader.source ≤ 2 * r.moved + stepsTwice r.reader.source
  exactly : n = 1 → 2 * out.2.moved + stepsTwice out.2.reader.source = 2 * r.moved + stepsTwice r.reader.source
  copied : out.2.copied ≤ r.copied + 2 * got out.1
  left : got out.1 + left out.2.reader ≤ left r.reader
  marks : out.2.marks = r.marks
  stack : out.2.reader.buffer.stack = r.reader.buffer.stack
  length : ∀ chars, out.1 = .ok chars → chars.length ≤ n
  pinned : r.reader.buffer.stack ≠ [] → ∀ chars, out.1 = .ok chars → out.2.reader.buffer.head = r.reader.buffer.head ∧
    r.reader.buffer.buffer.length ≤ out.2.reader.buffer.buffer.length ∧ out.2.reader.buffer.next = r.reader.buffer.next + chars.length
  ahead : ∀ k, n ≤ k → n ≠ 0 → k ≤ r.reader.buffer.buffer.length - r.reader.buffer.next →
    out.2.moved = r.moved ∧ out.2.reader.source = r.reader.source ∧
    ∀ chars, out.1 = .ok chars → chars.length = n ∧ k - chars.length ≤ out.2.reader.buffer.buffer.length - out.2.reader.buffer.next
  ended : out.1 = .ok [] → n ≠ 0 → out.2.reader.source = ⟨[], [], out.2.reader.source.location⟩

theorem rounds_ended {n : Nat} (hn : n ≠ 0) {rs : List (Except Nat Str)} {loc : Location} (h : (readRounds n rs loc).1.1 = .ok []) :
    (readRounds n rs loc).1.2 = ⟨[], [], loc⟩ := by
  induction rs with
  | nil => rfl
  | cons x rs ih =>
    cases x with
    | error e => rw [readRounds] at h; cases h
    | ok cs =>
      rw [readRounds] at h ⊢
      cases cs with
      | nil => exact ih h
      | cons c cs =>
        obtain ⟨j, rfl⟩ := Nat.exists_eq_succ_of_ne_zero hn
        cases h

theorem source_ended {n : Nat} (hn : n ≠ 0) {s : Source} (h : (sourceRead n s).1.1 = .ok []) :
    (sourceRead n s).1.2 = ⟨[], [], (sourceRead n s).1.2.location⟩ := by
  unfold sourceRead at h ⊢
  cases hp : s.pending with
  | nil =>
    rw [hp, if_neg (by simp)] at h
    rw [if_neg (by simp), rounds_ended hn h]
  | cons c cs =>
    rw [hp, if_pos (by simp)] at h
    obtain ⟨j, rfl⟩ := Nat.exists_eq_succ_of_ne_zero hn
    cases h

theorem readChars_facts (n : Nat) (r : Metered) (h : Sound r.reader) : ReadFacts n r (Metered.readChars n r) := by
  unfold Metered.readChars
  cases hr : r.reader.buffer.remains with
  | true =>
    have hb := bufferRead_facts r.reader.buffer n h
    have hc : Reader.readChars n r.reader = (.ok (r.reader.buffer.read n).1, { r.reader with buffer := (r.reader.buffer.read n).2 }) := by
      unfold Reader.readChars; rw [hr]; rfl
    have hm : r.reader.buffer.next < r.reader.buffer.buffer.length := by
      unfold UnreadBuffer.remains at hr; exact of_decide_eq_true hr
    rw [← bufferRead_same] at hc
    simp only [if_true]
    generalize bufferRead r.reader.buffer n = q at hb hc
    obtain ⟨⟨chars, b⟩, k⟩ := q
    obtain ⟨h1, h2, h3, h4, h5, h6, h7⟩ := hb
    simp only at h1 h2 h3 h4 h5 h6 h7 hc
    refine ⟨by rw [hc], by rw [hc], h1, fun _ => Nat.le_refl _, fun _ => rfl, ?_, ?_, rfl, h4, ?_, ?_, ?_, ?_⟩
    · simp only [got]; omega
    · simp only [got, left]; omega
    · intro cs hcs; cases hcs; show chars.length ≤ n; omega
    · intro hs cs hcs
      cases hcs
      obtain ⟨a1, a2, a3⟩ := h6 hs
      exact ⟨a1, by rw [a2]; exact Nat.le_refl _, a3⟩
    · intro k' hk hn hk'
      refine ⟨rfl, rfl, fun cs hcs => ?_⟩
      cases hcs
      exact ⟨by show chars.length = n; omega, h5 k' hk hk'⟩
    · intro he hn
      cases he
      simp only [List.length_nil] at h3
      omega
  | false =>
    simp only [Bool.false_eq_true, if_false]
    have hm : ¬ r.reader.buffer.next < r.reader.buffer.buffer.length := by
      unfold UnreadBuffer.remains at hr; exact of_decide_eq_false hr
    have hah : ∀ {P : Prop} k, n ≤ k → n ≠ 0 → k ≤ r.reader.buffer.buffer.length - r.reader.buffer.next → P := by
      intro P k h1 h2 h3; omega
    have hst := fun hn => source_steps n hn r.reader.source
    have hlen := fun chars => source_length (n := n) (s := r.reader.source) (chars := chars)
    have hleft := source_left n r.reader.source
    have hend := fun hn => source_ended (n := n) hn (s := r.reader.source)
    have hsame := source_same n r.reader.source
    generalize sourceRead n r.reader.source = q at hst hlen hend hsame hleft
    obtain ⟨⟨x, s⟩, k⟩ := q
    simp only at hst hlen hend hsame hleft
    cases x with
    | ok chars =>
      have hl := hlen chars rfl
      cases chars with
      | nil =>
        have hc : Reader.readChars n r.reader = (.ok [], { r.reader with source := s }) := by
          unfold Reader.readChars; rw [hr, ← hsame]; rfl
        refine ⟨by rw [hc]; rfl, by rw [hc]; rfl, h, fun hn => ?_, fun hn => ?_, Nat.le_add_right _ _, (by simp only [got, List.isEmpty_nil, if_true, left] at hleft ⊢; omega), rfl, rfl, ?_, ?_, ?_, ?_⟩
        · have := (hst hn).1; simp only [List.isEmpty_nil, if_true]; omega
        · have := (hst (by omega)).2 hn; simp only [List.isEmpty_nil, if_true]; omega
        · intro cs hcs; cases hcs; exact Nat.zero_le _
        · intro _ cs hcs; cases hcs; exact ⟨rfl, Nat.le_refl _, rfl⟩
        · intro k' h1 h2 h3; exact hah k' h1 h2 h3
        · intro _ hn; exact hend hn rfl
      | cons c cs =>
        have ha := append_facts r.reader.buffer (c :: cs) h
        have has := append_same r.reader.buffer (c :: cs)
        simp only [List.isEmpty_cons, Bool.false_eq_true, if_false]
        have hc : Reader.readChars n r.reader = (match (append r.reader.buffer (c :: cs)).1 with
            | (.ok (), b) => (.ok (c :: cs), ⟨s, b⟩)
            | (.err e, b) => (.err e, ⟨s, b⟩)
            | (.panic p, b) => (.panic p, ⟨s, b⟩)
            | (.diverge, b) => (.diverge, ⟨s, b⟩)) := by
          unfold Reader.readChars; rw [hr, ← hsame, has]; rfl
        generalize append r.reader.buffer (c :: cs) = q at ha hc
        obtain ⟨⟨y, b⟩, j⟩ := q
        obtain ⟨h1, h2, h6, h7, h3, h4, h5⟩ := ha
        simp only at h1 h2 h3 h4 h5 h6 h7 hc
        cases y with
        | ok u =>
          refine ⟨by rw [hc], by rw [hc], h1, fun hn => ?_, fun hn => ?_, ?_, ?_, rfl, h3, ?_, ?_, ?_, ?_⟩
          · have := (hst hn).1; simp only; omega
          · have := (hst (by omega)).2 hn; simp only; omega
          · simp only [got]; omega
          · simp only [got, left] at hleft ⊢; omega
          · intro cs' hcs; cases hcs; exact hl
          · intro hs cs' hcs
            cases hcs
            obtain ⟨a1, a2, a3⟩ := h5 hs rfl
            exact ⟨a1, by simp only; rw [a2]; simp, a3⟩
          · intro k' h1 h2 h3; exact hah k' h1 h2 h3
          · nofun
        | err e => exact absurd rfl (h4 e)
        | panic p =>
          refine ⟨by rw [hc], by rw [hc], h1, fun hn => ?_, fun hn => ?_, ?_, ?_, rfl, h3, nofun, nofun, ?_, nofun⟩
          · have := (hst hn).1; simp only; omega
          · have := (hst (by omega)).2 hn; simp only; omega
          · simp only [h6 nofun, got]; omega
          · simp only [got, left] at hleft ⊢; omega
          · intro k' h1 h2 h3; exact hah k' h1 h2 h3
        | diverge =>
          refine ⟨by rw [hc], by rw [hc], h1, fun hn => ?_, fun hn => ?_, ?_, ?_, rfl, h3, nofun, nofun, ?_, nofun⟩
          · have := (hst hn).1; simp only; omega
          · have := (hst (by omega)).2 hn; simp only; omega
          · simp only [h6 nofun, got]; omega
          · simp only [got, left] at hleft ⊢; omega
          · intro k' h1 h2 h3; exact hah k' h1 h2 h3
    | err e =>
      have hc : Reader.readChars n r.reader = (.fail r.reader.buffer.location
        (.wrapped e.location (match e.msg with | .streamError c => c | _ => 0)), { r.reader with source := s }) := by
        unfold Reader.readChars; rw [hr, ← hsame]; rfl
      refine ⟨by rw [hc]; rfl, by rw [hc], h, fun hn => ?_, fun hn => ?_, Nat.le_add_right _ _, (by simp only [got, Res.fail, left] at hleft ⊢; omega), rfl, rfl, nofun, nofun, ?_, nofun⟩
      · have := (hst hn).1; simp only; omega
      · have := (hst (by omega)).2 hn; simp only; omega
      · intro k' h1 h2 h3; exact hah k' h1 h2 h3
    | panic p =>
      have hc : Reader.readChars n r.reader = (.panic p, { r.reader with source := s }) := by
        unfold Reader.readChars; rw [hr, ← hsame]; rfl
      refine ⟨by rw [hc], by rw [hc], h, fun hn => ?_, fun hn => ?_, Nat.le_add_right _ _, (by simp only [got, Res.fail, left] at hleft ⊢; omega), rfl, rfl, nofun, nofun, ?_, nofun⟩
      · have := (hst hn).1; simp only; omega
      · have := (hst (by omega)).2 hn; simp only; omega
      · intro k' h1 h2 h3; exact hah k' h1 h2 h3
    | diverge =>
      have hc : Reader.readChars n r.reader = (.diverge, { r.reader with source := s }) := by
        unfold Reader.readChars; rw [hr, ← hsame]; rfl
      refine ⟨by rw [hc], by rw [hc], h, fun hn => ?_, fun hn => ?_, Nat.le_add_right _ _, (by simp only [got, Res.fail, left] at hleft ⊢; omega), rfl, rfl, nofun, nofun, ?_, nofun⟩
      · have := (hst hn).1; simp only; omega
      · have := (hst (by omega)).2 hn; simp only; omega
      · intro k' h1 h2 h3; exact hah k' h1 h2 h3

/-! ## Marks -/

theorem findMark_steps (m : Nat) (st : List (Nat × Location)) : (findMark m st).2 ≤ st.length ∧
    ∀ l st', (findMark m st).1 = some (l, st') → (findMark m st).2 + st'.length = st.length := by
  induction st with
  | nil => exact ⟨Nat.le_refl _, nofun⟩
  | cons x st ih =>
    obtain ⟨p, l⟩ := x
    rw [findMark]
    by_cases h1 : p = m
    · rw [if_pos h1]
      refine ⟨by simp, ?_⟩
      intro l' st' h
      cases h
      simp only [List.length_cons]; omega
    · rw [if_neg h1]
      by_cases h2 : p < m
      · rw [if_pos h2]; exact ⟨by simp, nofun⟩
      · rw [if_neg h2]
        refine ⟨by simp only [List.length_cons]; omega, ?_⟩
        intro l' st' h
        have := ih.2 l' st' h
        simp only [List.length_cons]; omega

/-- What a call that deals with marks does, and what it costs. -/
structure MarkFacts {α : Type} (extra : Nat) (r : Metered) (out : Res α × Metered) : Prop where
  sound : Sound out.2.reader
  moved : out.2.moved = r.moved
  copied : out.2.copied = r.copied
  source : out.2.reader.source = r.reader.source
  buffer : out.2.reader.buffer.buffer = r.reader.buffer.buffer
  head : out.2.reader.buffer.head = r.reader.buffer.head
  marks : out.2.marks ≤ r.marks + 2 * r.reader.buffer.stack.length + extra
  paid : ∀ a, out.1 = .ok a → out.2.marks + out.2.reader.buffer.stack.length ≤ r.marks + r.reader.buffer.stack.length + extra
  stack : 2 * out.2.reader.buffer.stack.length ≤ 2 * r.reader.buffer.stack.length + extra

theorem mark_facts (r : Metered) (h : Sound r.reader) :
    (Metered.mark r).1 = (Reader.mark r.reader).1 ∧ (Metered.mark r).2.reader = (Reader.mark r.reader).2 ∧ MarkFacts 2 r (Metered.mark r) ∧
    ∀ m, (Metered.mark r).1 = .ok m → m = r.reader.buffer.head + r.reader.buffer.next ∧
      (Metered.mark r).2.reader.buffer.next = r.reader.buffer.next ∧ (Metered.mark r).2.reader.buffer.stack ≠ [] ∧
      (Metered.mark r).2.reader.buffer.stack.length = r.reader.buffer.stack.length + 1 := by
  have hs := mark_same r.reader.buffer
  unfold Metered.mark Reader.mark
  rw [← hs]
  unfold mark
  dsimp only
  generalize (r.reader.buffer.dbg && !(match r.reader.buffer.stack with | [] => true | (p, _) :: _ => decide (p ≤ r.reader.buffer.head + r.reader.buffer.next))) = t
  cases t with
  | true =>
    simp only [if_true]
    exact ⟨trivial, trivial, ⟨h, rfl, rfl, rfl, rfl, rfl, by simp only; omega, nofun, by simp only; omega⟩, nofun⟩
  | false =>
    simp only [Bool.false_eq_true, if_false]
    refine ⟨trivial, trivial, ⟨h, rfl, rfl, rfl, rfl, rfl, ?_, ?_, ?_⟩, ?_⟩
    · simp only; omega
    · intro a _; simp only [List.length_cons]; omega
    · simp only [List.length_cons]; omega
    · intro m hm
      simp only [Res.ok.injEq] at hm
      exact ⟨hm.symm, trivial, by simp, by simp⟩

/-- What `remove_mark` costs. -/
theorem removeMark_facts (b : UnreadBuffer) (m : Nat) :
    (∃ e k, removeMark b m = ((.err e, b), k) ∧ k ≤ 2 * b.stack.length) ∨
    ∃ l st k, removeMark b m = ((.ok l, { b with stack := st }), k) ∧ k + st.length = b.stack.length ∧
      b.head ≤ m ∧ m ≤ b.head + b.buffer.length := by
  unfold removeMark
  by_cases h1 : m < b.head ∨ m > b.head + b.buffer.length
  · rw [if_pos h1]; exact .inl ⟨_, _, rfl, by omega⟩
  · rw [if_neg h1]
    have hf := findMark_steps m b.stack
    generalize findMark m b.stack = q at hf
    obtain ⟨o, k⟩ := q
    simp only at hf
    cases o with
    | none => exact .inl ⟨_, _, rfl, by omega⟩
    | some x =>
      obtain ⟨l, st⟩ := x
      exact .inr ⟨l, st, k, rfl, hf.2 l st rfl, by omega, by omega⟩

theorem reset_facts (m : Nat) (r : Metered) (h : Sound r.reader) :
    (Metered.resetToMark m r).1 = (Reader.resetToMark m r.reader).1 ∧
    (Metered.resetToMark m r).2.reader = (Reader.resetToMark m r.reader).2 ∧ MarkFacts 0 r (Metered.resetToMark m r) ∧
    ∀ n, (Metered.resetToMark m r).1 = .ok n → (Metered.resetToMark m r).2.reader.buffer.next = m - r.reader.buffer.head := by
  have hs := revert_same r.reader.buffer m
  unfold Metered.resetToMark Reader.resetToMark
  rw [← hs]
  unfold revert
  unfold Sound at h
  rcases removeMark_facts r.reader.buffer m with ⟨e, k, h1, h2⟩ | ⟨l, st, k, h1, h2, h3, h4⟩
  · rw [h1]
    refine ⟨rfl, rfl, ⟨h, rfl, rfl, rfl, rfl, rfl, ?_, nofun, ?_⟩, nofun⟩
    · simp only; omega
    · simp only; omega
  · rw [h1]
    dsimp only
    by_cases hu : r.reader.buffer.head + r.reader.buffer.next < m
    · rw [if_pos hu]
      refine ⟨rfl, rfl, ⟨?_, rfl, rfl, rfl, rfl, rfl, ?_, nofun, ?_⟩, nofun⟩
      · unfold Sound; simp only; omega
      · simp only; omega
      · simp only; omega
    · rw [if_neg hu]
      refine ⟨rfl, rfl, ⟨?_, rfl, rfl, rfl, rfl, rfl, ?_, ?_, ?_⟩, ?_⟩
      · unfold Sound; simp only; omega
      · simp only; omega
      · intro a _; simp only; omega
      · simp only; omega
      · intro n _; rfl

theorem unmark_facts (m : Nat) (r : Metered) (h : Sound r.reader) :
    (Metered.unmark m r).1 = (Reader.unmark m r.reader).1 ∧
    (Metered.unmark m r).2.reader = (Reader.unmark m r.reader).2 ∧ MarkFacts 0 r (Metered.unmark m r) := by
  have hs := removeMark_same r.reader.buffer m
  unfold Metered.unmark Reader.unmark
  rw [← hs]
  rcases removeMark_facts r.reader.buffer m with ⟨e, k, h1, h2⟩ | ⟨l, st, k, h1, h2, h3, h4⟩
  · rw [h1]
    refine ⟨rfl, rfl, ⟨h, rfl, rfl, rfl, rfl, rfl, ?_, nofun, ?_⟩⟩
    · simp only; omega
    · simp only; omega
  · rw [h1]
    refine ⟨rfl, rfl, ⟨h, rfl, rfl, rfl, rfl, rfl, ?_, ?_, ?_⟩⟩
    · simp only; omega
    · intro a _; simp only; omega
    · simp only; omega

end Ebnf.Meter
