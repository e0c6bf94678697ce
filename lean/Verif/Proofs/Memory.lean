import Verif.Spec.Memory
import Verif.Proofs.Held
import Verif.Proofs.Builds

set_option autoImplicit false

/-! # The reader keeps the memory

The same walk as in `Proofs/Held.lean`, for readers that may have been `unmark`ed; here in a release build. -/

namespace Ebnf.Mem

open Spec

/-- The reader keeps what the memory says. -/
structure Keeps (r : Reader) (w : Memory) : Prop where
  o_le : w.clean ≤ w.cursor.pos
  pos_le : w.cursor.pos ≤ w.furthest
  f_le : w.furthest ≤ w.cursor.text.length
  buf : r.buffer.buffer = w.held
  next : r.buffer.next = w.left.length + (w.cursor.pos - w.clean)
  marks : ∀ x ∈ w.cursor.marks, w.clean ≤ x.2

theorem held_length {w : Memory} (h1 : w.furthest ≤ w.cursor.text.length) :
    w.held.length = w.left.length + (w.furthest - w.clean) := by
  simp only [Memory.held, List.length_append, List.length_drop, List.length_take]
  omega

theorem Keeps.length {r : Reader} {w : Memory} (h : Keeps r w) :
    r.buffer.buffer.length = w.left.length + (w.furthest - w.clean) := by
  rw [h.buf, held_length h.f_le]

/-- The memory after reading on to the cursor `c`. -/
def moved (w : Memory) (c : Cursor) : Memory :=
  let f := max w.furthest c.pos
  if w.cursor.marks = [] ∧ c.pos = f then
    if w.cursor.pos < w.furthest then ⟨c, f, f, []⟩ else ⟨c, f, f, w.held⟩
  else ⟨c, f, w.clean, w.left⟩

theorem moved_cursor (w : Memory) (c : Cursor) : (moved w c).cursor = c := by
  unfold moved; dsimp only; split
  · split <;> rfl
  · rfl

theorem held_clean (c : Cursor) (f : Nat) (l : Str) : Memory.held ⟨c, f, f, l⟩ = l := by
  simp only [Memory.held]
  rw [List.drop_eq_nil_of_le (by simp; omega), List.append_nil]

theorem moved_moved {w : Memory} {a b : Nat} (h : w.cursor.pos ≤ w.furthest) :
    moved (moved w (w.cursor.advance a)) (w.cursor.advance (a + b)) = moved w (w.cursor.advance (a + b)) := by
  obtain ⟨⟨st, text, pos, marks⟩, f, o, l⟩ := w
  simp only [Cursor.advance] at h ⊢
  by_cases hm : marks = []
  · subst hm
    by_cases h1 : pos < f
    · by_cases h2 : pos + a < f
      · have e1 : moved ⟨⟨st, text, pos, []⟩, f, o, l⟩ ⟨st, text, pos + a, []⟩ = ⟨⟨st, text, pos + a, []⟩, f, o, l⟩ := by
          unfold moved; dsimp only
          rw [if_neg (by omega), show max f (pos + a) = f by omega]
        rw [e1]
        unfold moved; dsimp only
        by_cases h3 : pos + (a + b) = max f (pos + (a + b))
        · rw [if_pos ⟨rfl, h3⟩, if_pos h2, if_pos ⟨rfl, h3⟩, if_pos h1]
        · rw [if_neg (fun x => h3 x.2), if_neg (fun x => h3 x.2)]
      · have e1 : moved ⟨⟨st, text, pos, []⟩, f, o, l⟩ ⟨st, text, pos + a, []⟩ =
            ⟨⟨st, text, pos + a, []⟩, pos + a, pos + a, []⟩ := by
          unfold moved; dsimp only
          rw [if_pos ⟨rfl, by omega⟩, if_pos h1, show max f (pos + a) = pos + a by omega]
        rw [e1]
        unfold moved; dsimp only
        rw [if_pos ⟨rfl, by omega⟩, if_neg (by omega), if_pos ⟨rfl, by omega⟩, if_pos h1, held_clean,
          show max f (pos + (a + b)) = pos + (a + b) by omega, show max (pos + a) (pos + (a + b)) = pos + (a + b) by omega]
    · have e1 : moved ⟨⟨st, text, pos, []⟩, f, o, l⟩ ⟨st, text, pos + a, []⟩ =
          ⟨⟨st, text, pos + a, []⟩, pos + a, pos + a, Memory.held ⟨⟨st, text, pos, []⟩, f, o, l⟩⟩ := by
        unfold moved; dsimp only
        rw [if_pos ⟨rfl, by omega⟩, if_neg h1, show max f (pos + a) = pos + a by omega]
      rw [e1]
      unfold moved; dsimp only
      rw [if_pos ⟨rfl, by omega⟩, if_neg (by omega), if_pos ⟨rfl, by omega⟩, if_neg h1, held_clean,
        show max f (pos + (a + b)) = pos + (a + b) by omega, show max (pos + a) (pos + (a + b)) = pos + (a + b) by omega]
  · have e1 : moved ⟨⟨st, text, pos, marks⟩, f, o, l⟩ ⟨st, text, pos + a, marks⟩ =
        ⟨⟨st, text, pos + a, marks⟩, max f (pos + a), o, l⟩ := by
      unfold moved; dsimp only
      rw [if_neg (fun x => hm x.1)]
    rw [e1]
    unfold moved; dsimp only
    rw [if_neg (fun x => hm x.1), if_neg (fun x => hm x.1), show max (max f (pos + a)) (pos + (a + b)) = max f (pos + (a + b)) by omega]

theorem moved_out {w : Memory} {c : Cursor} {f : Nat} (h1 : w.cursor.marks = []) (h2 : max w.furthest c.pos = f) (h3 : c.pos = f)
    (h4 : w.cursor.pos < w.furthest) : moved w c = ⟨c, f, f, []⟩ := by
  subst h2
  unfold moved; dsimp only
  rw [if_pos ⟨h1, h3⟩, if_pos h4]

theorem moved_left {w : Memory} {c : Cursor} {f : Nat} (h1 : w.cursor.marks = []) (h2 : max w.furthest c.pos = f) (h3 : c.pos = f)
    (h4 : ¬ w.cursor.pos < w.furthest) : moved w c = ⟨c, f, f, w.held⟩ := by
  subst h2
  unfold moved; dsimp only
  rw [if_pos ⟨h1, h3⟩, if_neg h4]

theorem moved_in {w : Memory} {c : Cursor} {f : Nat} (h2 : max w.furthest c.pos = f) (h1 : ¬ (w.cursor.marks = [] ∧ c.pos = f)) :
    moved w c = ⟨c, f, w.clean, w.left⟩ := by
  subst h2
  unfold moved; dsimp only
  rw [if_neg h1]

theorem keeps_zero {r : Reader} {w : Memory} (h : Keeps r w) : Keeps r (moved w w.cursor) := by
  have h1 := h.pos_le
  unfold moved
  dsimp only
  rw [Nat.max_eq_left h1]
  by_cases hm : w.cursor.marks = [] ∧ w.cursor.pos = w.furthest
  · rw [if_pos hm, if_neg (by omega)]
    refine ⟨by dsimp only; omega, by dsimp only; omega, h.f_le, by rw [held_clean, h.buf], ?_, by simp [hm.1]⟩
    dsimp only
    have := h.o_le
    rw [h.next, held_length h.f_le]; omega
  · rw [if_neg hm]; exact h

theorem readChars_keeps {r r' : Reader} {w : Memory} {n : Nat} {cs : Str} (hd : r.buffer.dbg = false) (hr : RepIdle r w.cursor)
    (h : Keeps r w) (he : Reader.readChars n r = (.ok cs, r')) (hp : cs <+: w.cursor.rest) :
    Keeps r' (moved w (w.cursor.advance cs.length)) := by
  have hlen := h.length
  have hst : r.buffer.stack.isEmpty = w.cursor.marks.isEmpty := bottom_none hr.stack
  have h1 := h.o_le
  have h2 := h.pos_le
  have h3 := h.f_le
  have hpl : w.cursor.pos + cs.length ≤ w.cursor.text.length := by
    have := hp.length_le
    rw [cursor_rest_length] at this
    omega
  unfold Reader.readChars at he
  by_cases hrem : r.buffer.remains = true
  · rw [if_pos hrem] at he
    simp only [UnreadBuffer.remains, decide_eq_true_eq, h.next, hlen] at hrem
    unfold UnreadBuffer.read at he
    simp only at he
    simp only [Prod.mk.injEq, Res.ok.injEq] at he
    obtain ⟨he1, he2⟩ := he
    rw [he1] at he2
    have hcl : cs.length = min n (w.furthest - w.cursor.pos) := by
      rw [← he1, List.length_take, List.length_drop, hlen, h.next]
      congr 1; omega
    have hmx : max w.furthest (w.cursor.advance cs.length).pos = w.furthest := by simp only [Cursor.advance]; omega
    by_cases hend : w.cursor.marks = [] ∧ w.cursor.pos + cs.length = w.furthest
    · rw [moved_out hend.1 hmx hend.2 (by omega)]
      have hb : r'.buffer.buffer = [] ∧ r'.buffer.next = 0 := by
        rw [← he2]
        rw [if_pos (by simp [UnreadBuffer.remains, hlen, h.next]; omega)]
        simp only [UnreadBuffer.truncateIfStackEmpty]
        rw [if_pos (by rw [hst, hend.1]; rfl)]
        exact ⟨rfl, rfl⟩
      refine ⟨by simp only [Cursor.advance]; omega, by simp only [Cursor.advance]; omega, h3, by rw [hb.1, held_clean], ?_,
        by simp [Cursor.advance, hend.1]⟩
      rw [hb.2]; simp only [List.length_nil, Cursor.advance]; omega
    · rw [moved_in hmx hend]
      have hb : r'.buffer.buffer = r.buffer.buffer ∧ r'.buffer.next = r.buffer.next + cs.length := by
        rw [← he2]
        split
        · rename_i hx
          simp [UnreadBuffer.remains, hlen, h.next] at hx
          have hm : w.cursor.marks ≠ [] := fun hm => hend ⟨hm, by omega⟩
          simp only [UnreadBuffer.truncateIfStackEmpty]
          rw [if_neg (by rw [hst]; simpa using hm)]
          exact ⟨rfl, rfl⟩
        · exact ⟨rfl, rfl⟩
      refine ⟨by simp only [Cursor.advance]; omega, by simp only [Cursor.advance]; omega, h3, by rw [hb.1, h.buf]; rfl, ?_, h.marks⟩
      rw [hb.2, h.next]; simp only [Cursor.advance]; omega
  · rw [if_neg hrem] at he
    simp only [UnreadBuffer.remains, decide_eq_true_eq, h.next, hlen] at hrem
    have hpf : w.cursor.pos = w.furthest := by omega
    generalize Source.readChars n r.source = x at he
    obtain ⟨res, s⟩ := x
    cases res with
    | ok cs' =>
      simp only at he
      cases hemp : cs'.isEmpty with
      | true =>
        rw [hemp, if_pos rfl] at he
        simp only [Prod.mk.injEq, Res.ok.injEq] at he
        obtain ⟨rfl, rfl⟩ := he
        simp only [List.length_nil, advance_zero]
        refine keeps_zero (r := ⟨s, r.buffer⟩) ?_
        exact ⟨h.o_le, h.pos_le, h.f_le, h.buf, h.next, h.marks⟩
      | false =>
        rw [hemp, if_neg (by simp)] at he
        unfold UnreadBuffer.append at he
        by_cases hm : w.cursor.marks = []
        · rw [if_neg (by rw [hst, hm]; simp), if_neg (by simp [hd])] at he
          simp only [Prod.mk.injEq, Res.ok.injEq] at he
          obtain ⟨rfl, rfl⟩ := he
          rw [moved_left (f := w.cursor.pos + cs'.length) hm (by simp only [Cursor.advance]; omega) rfl (by omega)]
          refine ⟨Nat.le_refl _, Nat.le_refl _, hpl, by rw [held_clean]; exact h.buf, ?_, by simp [Cursor.advance, hm]⟩
          simp only [Cursor.advance]
          rw [h.next, held_length h3]; omega
        · rw [if_pos (by rw [hst]; simpa using hm), if_neg (by simp [hd])] at he
          simp only [Prod.mk.injEq, Res.ok.injEq] at he
          obtain ⟨rfl, rfl⟩ := he
          rw [moved_in (f := w.cursor.pos + cs'.length) (by simp only [Cursor.advance]; omega) (fun x => hm x.1)]
          refine ⟨by simp only [Cursor.advance]; omega, Nat.le_refl _, hpl, ?_, by simp only [Cursor.advance]; rw [h.next]; omega, h.marks⟩
          simp only [h.buf, Memory.held, Cursor.advance]
          rw [List.append_assoc, take_add_prefix (h := hp), hpf, List.drop_append_of_le_length (by simp; omega)]
    | err e => simp [Res.fail] at he
    | panic p => simp at he
    | diverge => simp at he

theorem readChars_stands {r : Reader} {w : Memory} (hd : r.buffer.dbg = false) (hr : RepIdle r w.cursor) (h : Keeps r w) (n : Nat) :
    ∃ cs r', Reader.readChars n r = (.ok cs, r') ∧ RepIdle r' (w.cursor.advance cs.length) ∧
      Keeps r' (moved w (w.cursor.advance cs.length)) ∧ r'.buffer.dbg = false ∧
      cs <+: w.cursor.rest ∧ cs.length ≤ n ∧ (cs = [] → n = 0 ∨ w.cursor.rest = []) := by
  obtain ⟨cs, r', h1, h2, h3, h4, h5, h6⟩ := readChars_rep hr n
  exact ⟨cs, r', h1, h2, readChars_keeps hd hr h h1 h4, h3.trans hd, h4, h5, h6⟩

theorem read_stands {r : Reader} {w : Memory} (hd : r.buffer.dbg = false) (hr : RepIdle r w.cursor) (h : Keeps r w) :
    ∃ r', Reader.read r = (.ok w.cursor.rest.head?, r') ∧ RepIdle r' (w.cursor.advance (min 1 w.cursor.rest.length)) ∧
      Keeps r' (moved w (w.cursor.advance (min 1 w.cursor.rest.length))) ∧ r'.buffer.dbg = false := by
  obtain ⟨r', h1, h2, h3⟩ := read_rep hr
  obtain ⟨cs, r1, h4, h5, h6, h7, h8, h9, h10⟩ := readChars_stands hd hr h 1
  have hl : cs.length = min 1 w.cursor.rest.length := by
    have := h8.length_le
    cases cs with
    | nil =>
      rcases h10 rfl with h0 | h0
      · simp at h0
      · simp [h0]
    | cons x xs => simp at h9 this ⊢; subst h9; simp at this ⊢; omega
  unfold Reader.read at h1
  simp only [RM.bind_run, h4, RM.pure_run, Prod.mk.injEq] at h1
  refine ⟨r', ?_, h2, ?_, h3.trans hd⟩
  · unfold Reader.read
    simp only [RM.bind_run, h4, RM.pure_run, Prod.mk.injEq]
    exact h1
  · rw [hl, h1.2] at h6; exact h6

/-- Take one more part of the way. -/
theorem keeps_on {r : Reader} {w : Memory} {a b : Nat} (hp : w.cursor.pos ≤ w.furthest)
    (h : Keeps r (moved (moved w (w.cursor.advance a)) ((w.cursor.advance a).advance b))) :
    Keeps r (moved w (w.cursor.advance (a + b))) := by
  rw [advance_advance, moved_moved hp] at h
  exact h

theorem peekLoop_stands {r : Reader} {w : Memory} (hd : r.buffer.dbg = false) (hr : RepIdle r w.cursor) (h : Keeps r w) (n : Nat) :
    ∃ r', Reader.peekLoop n r = (.ok (w.cursor.rest.take n), r') ∧ RepIdle r' (w.cursor.advance (min n w.cursor.rest.length)) ∧
      Keeps r' (moved w (w.cursor.advance (min n w.cursor.rest.length))) ∧ r'.buffer.dbg = false := by
  induction n generalizing r w with
  | zero => exact ⟨r, by simp [Reader.peekLoop], by simpa using hr, by simpa using keeps_zero h, hd⟩
  | succ n ih =>
    obtain ⟨r1, h1, h2, hm, h3⟩ := read_stands hd hr h
    simp only [Reader.peekLoop, RM.bind_run, h1]
    cases hc : w.cursor.rest with
    | nil =>
      rw [hc] at h2 hm
      exact ⟨r1, by simp, by simpa using h2, by simpa using hm, h3⟩
    | cons x xs =>
      rw [hc] at h2 hm
      simp only [List.length_cons, List.head?_cons] at h2 hm ⊢
      rw [Nat.min_eq_left (by omega)] at h2 hm
      obtain ⟨r2, h4, h5, h7, h6⟩ := ih h3 (by rw [moved_cursor]; exact h2) hm
      rw [moved_cursor, rest_cons hc] at h4 h5 h7
      have h8 := keeps_on h.pos_le h7
      rw [advance_advance] at h5
      have he : 1 + min n xs.length = min (n + 1) (xs.length + 1) := by omega
      rw [he] at h8 h5
      refine ⟨r2, ?_, h5, h8, h6⟩
      simp only [RM.bind_run, h4, RM.pure_run, List.take_succ_cons]

theorem prefixLoop_stands {r : Reader} {w : Memory} (hd : r.buffer.dbg = false) (hr : RepIdle r w.cursor) (h : Keeps r w) (p : Str) :
    ∃ r', Reader.prefixLoop p r = (.ok (decide (p <+: w.cursor.rest)), r') ∧ RepIdle r' (w.cursor.advance (examined p w.cursor.rest)) ∧
      Keeps r' (moved w (w.cursor.advance (examined p w.cursor.rest))) ∧ r'.buffer.dbg = false := by
  induction p generalizing r w with
  | nil => exact ⟨r, by simp [Reader.prefixLoop], by simpa [examined] using hr, by simpa [examined] using keeps_zero h, hd⟩
  | cons x p ih =>
    obtain ⟨r1, h1, h2, hm, h3⟩ := read_stands hd hr h
    simp only [Reader.prefixLoop, RM.bind_run, h1]
    by_cases hx : w.cursor.rest.head? = some x
    · rw [if_neg (by simpa using hx)]
      cases hc : w.cursor.rest with
      | nil => rw [hc] at hx; simp at hx
      | cons y ys =>
        rw [hc] at hx h2 hm
        simp only [List.head?_cons, Option.some.injEq] at hx
        subst hx
        rw [List.length_cons, Nat.min_eq_left (by omega)] at h2 hm
        obtain ⟨r2, h4, h5, h7, h6⟩ := ih h3 (by rw [moved_cursor]; exact h2) hm
        rw [moved_cursor, rest_cons hc] at h4 h5 h7
        have h8 := keeps_on h.pos_le h7
        rw [advance_advance] at h5
        refine ⟨r2, ?_, by simpa [examined] using h5, by simpa [examined] using h8, h6⟩
        rw [h4]
        simp [List.cons_prefix_cons]
    · rw [if_pos hx]
      cases hc : w.cursor.rest with
      | nil =>
        rw [hc] at h2 hm
        exact ⟨r1, by simp, by simpa [examined] using h2, by simpa [examined] using hm, h3⟩
      | cons y ys =>
        rw [hc] at hx h2 hm
        simp only [List.head?_cons, Option.some.injEq] at hx
        rw [List.length_cons, Nat.min_eq_left (by omega)] at h2 hm
        refine ⟨r1, ?_, by simpa [examined, hx] using h2, by simpa [examined, hx] using hm, h3⟩
        simp [List.cons_prefix_cons, Ne.symm hx]

theorem skipLoop_stands {r : Reader} {w : Memory} (hd : r.buffer.dbg = false) (hr : RepIdle r w.cursor) (h : Keeps r w) (fuel n : Nat)
    (hf : n ≤ fuel) :
    ∃ r', Reader.skipLoop fuel n r = (.ok (n - min n w.cursor.rest.length), r') ∧ RepIdle r' (w.cursor.advance (min n w.cursor.rest.length)) ∧
      Keeps r' (moved w (w.cursor.advance (min n w.cursor.rest.length))) ∧ r'.buffer.dbg = false := by
  induction fuel generalizing r w n with
  | zero =>
    have : n = 0 := by omega
    subst this
    exact ⟨r, by simp [Reader.skipLoop], by simpa using hr, by simpa using keeps_zero h, hd⟩
  | succ fuel ih =>
    cases n with
    | zero => exact ⟨r, by simp [Reader.skipLoop], by simpa using hr, by simpa using keeps_zero h, hd⟩
    | succ n =>
      obtain ⟨cs, r1, h1, h2, hm, h3, h4, h5, h6⟩ := readChars_stands hd hr h (min (n + 1) 1024)
      simp only [Reader.skipLoop, RM.bind_run, h1]
      cases cs with
      | nil =>
        have hc : w.cursor.rest = [] := by exact (h6 rfl).resolve_left (by omega)
        exact ⟨r1, by simp [hc], by simpa [hc] using h2, by simpa [hc] using hm, h3⟩
      | cons x xs =>
        simp only [List.isEmpty_cons, Bool.false_eq_true, if_false]
        have hlen : (x :: xs).length ≤ n + 1 := by omega
        have hle := h4.length_le
        obtain ⟨r2, h7, h8, h10, h9⟩ := ih h3 (by rw [moved_cursor]; exact h2) hm (n + 1 - (x :: xs).length)
          (by simp only [List.length_cons] at *; omega)
        rw [moved_cursor] at h7 h8 h10
        have hrl : (w.cursor.advance (x :: xs).length).rest.length = w.cursor.rest.length - (x :: xs).length := by
          rw [cursor_rest_length, cursor_rest_length]
          simp only [Cursor.advance]; omega
        rw [hrl] at h7 h8 h10
        have he1 : n + 1 - (x :: xs).length - min (n + 1 - (x :: xs).length) (w.cursor.rest.length - (x :: xs).length) =
            n + 1 - min (n + 1) w.cursor.rest.length := by omega
        have he2 : (x :: xs).length + min (n + 1 - (x :: xs).length) (w.cursor.rest.length - (x :: xs).length) =
            min (n + 1) w.cursor.rest.length := by omega
        rw [he1] at h7
        have h11 := keeps_on h.pos_le h10
        rw [advance_advance] at h8
        rw [he2] at h8 h11
        exact ⟨r2, h7, h8, h11, h9⟩

theorem skip_stands {r : Reader} {w : Memory} (hd : r.buffer.dbg = false) (hr : RepIdle r w.cursor) (h : Keeps r w) (n : Nat) :
    ∃ r', Reader.skip n r = (.ok (min n w.cursor.rest.length), r') ∧ RepIdle r' (w.cursor.advance (min n w.cursor.rest.length)) ∧
      Keeps r' (moved w (w.cursor.advance (min n w.cursor.rest.length))) ∧ r'.buffer.dbg = false := by
  obtain ⟨r1, h1, h2, hm, h3⟩ := skipLoop_stands hd hr h n n (Nat.le_refl n)
  refine ⟨r1, ?_, h2, hm, h3⟩
  unfold Reader.skip
  simp only [RM.bind_run, h1, RM.pure_run]
  congr 2
  omega

theorem readAllLoop_stands {r : Reader} {w : Memory} (hd : r.buffer.dbg = false) (hr : RepIdle r w.cursor) (h : Keeps r w) (fuel : Nat)
    (hf : w.cursor.rest.length < fuel) :
    ∃ r', Reader.readAllLoop fuel r = (.ok w.cursor.rest, r') ∧ RepIdle r' (w.cursor.advance w.cursor.rest.length) ∧
      Keeps r' (moved w (w.cursor.advance w.cursor.rest.length)) ∧ r'.buffer.dbg = false := by
  induction fuel generalizing r w with
  | zero => omega
  | succ fuel ih =>
    obtain ⟨cs, r1, h1, h2, hm, h3, h4, h5, h6⟩ := readChars_stands hd hr h 1024
    simp only [Reader.readAllLoop, RM.bind_run, h1]
    cases cs with
    | nil =>
      have hc : w.cursor.rest = [] := by exact (h6 rfl).resolve_left (by omega)
      exact ⟨r1, by simp [hc], by simpa [hc] using h2, by simpa [hc] using hm, h3⟩
    | cons x xs =>
      simp only [List.isEmpty_cons, Bool.false_eq_true, if_false]
      obtain ⟨t, ht⟩ := h4
      have hadv : (w.cursor.advance (x :: xs).length).rest = t := drop_add_prefix ht.symm
      have hlen : w.cursor.rest.length = (x :: xs).length + t.length := by rw [← ht]; simp; omega
      obtain ⟨r2, h7, h8, h10, h9⟩ := ih h3 (by rw [moved_cursor]; exact h2) hm
        (by rw [moved_cursor, hadv]; simp only [List.length_cons] at hlen; omega)
      rw [moved_cursor, hadv] at h7 h8 h10
      have h11 := keeps_on h.pos_le h10
      rw [advance_advance] at h8
      rw [← hlen] at h8 h11
      refine ⟨r2, ?_, h8, h11, h9⟩
      simp only [RM.bind_run, h7, RM.pure_run]
      rw [ht]

theorem mark_stands {r : Reader} {w : Memory} (hr : RepIdle r w.cursor) (h : Keeps r w) :
    ∃ m r', Reader.mark r = (.ok m, r') ∧ RepIdle r' { w.cursor with marks := (m, w.cursor.pos) :: w.cursor.marks } ∧
      Keeps r' { w with cursor := { w.cursor with marks := (m, w.cursor.pos) :: w.cursor.marks } } ∧
      r'.buffer.dbg = r.buffer.dbg ∧ (∀ m' p, (m', p) ∈ w.cursor.marks → (m' = m ↔ p = w.cursor.pos)) := by
  obtain ⟨m, r', h1, h2, h3, h4⟩ := mark_rep hr
  refine ⟨m, r', h1, h2, ?_, h3, h4⟩
  have hb : r'.buffer.buffer = r.buffer.buffer ∧ r'.buffer.next = r.buffer.next := by
    have hb : r.buffer.mark.2.buffer = r.buffer.buffer ∧ r.buffer.mark.2.next = r.buffer.next := by
      unfold UnreadBuffer.mark
      dsimp only
      generalize (r.buffer.dbg && _) = b
      cases b <;> exact ⟨rfl, rfl⟩
    have h5 := congrArg Prod.snd h1
    simp only [Reader.mark] at h5
    rw [← h5]; exact hb
  refine ⟨h.o_le, h.pos_le, h.f_le, by rw [hb.1, h.buf]; rfl, by rw [hb.2, h.next], ?_⟩
  intro x hx
  simp only [List.mem_cons] at hx
  rcases hx with rfl | hx
  · exact h.o_le
  · exact h.marks x hx

theorem resetToMark_stands {r : Reader} {w : Memory} (hr : RepIdle r w.cursor) (h : Keeps r w) {m p : Nat}
    {newer older : List (Nat × Nat)}
    (hm : w.cursor.marks = newer ++ (m, p) :: older) (hn : ∀ x ∈ newer, x.1 ≠ m) :
    ∃ r', Reader.resetToMark m r = (.ok (w.cursor.pos - p), r') ∧ RepIdle r' { w.cursor with pos := p, marks := older } ∧
      Keeps r' { w with cursor := { w.cursor with pos := p, marks := older } } ∧ r'.buffer.dbg = r.buffer.dbg := by
  obtain ⟨r', h1, h2, h3, h4⟩ := resetToMark_rep hr hm hn
  refine ⟨r', h1, h2, ?_, h3⟩
  have hop := h.marks (m, p) (by rw [hm]; simp)
  have hpl := h.pos_le
  simp only at hop
  have hb : r'.buffer.buffer = r.buffer.buffer ∧ r'.buffer.next = m - r.buffer.head := by
    unfold Reader.resetToMark UnreadBuffer.revert at h1
    rw [removeMark_found hr hm hn] at h1
    simp only at h1
    split at h1
    · simp at h1
    · simp only [Prod.mk.injEq] at h1
      rw [← h1.2]; exact ⟨rfl, rfl⟩
  obtain ⟨text, _, _, hmarks⟩ := hr.src
  obtain ⟨h5, h6, h7, _⟩ := hmarks m p (by rw [hm]; simp)
  have hnx := h.next
  have hol := h.o_le
  refine ⟨hop, by simp only; omega, h.f_le, by rw [hb.1, h.buf]; rfl, by rw [hb.2]; simp only; omega, ?_⟩
  intro x hx
  exact h.marks x (by rw [hm]; simp at hx ⊢; simp [hx])

theorem unmark_stands {r : Reader} {w : Memory} (hd : r.buffer.dbg = false) (hr : RepIdle r w.cursor) (h : Keeps r w) {m p : Nat}
    {newer older : List (Nat × Nat)}
    (hm : w.cursor.marks = newer ++ (m, p) :: older) (hn : ∀ x ∈ newer, x.1 ≠ m) :
    ∃ r', Reader.unmark m r = (.ok (), r') ∧ RepIdle r' { w.cursor with marks := older } ∧
      Keeps r' { w with cursor := { w.cursor with marks := older } } ∧ r'.buffer.dbg = r.buffer.dbg := by
  obtain ⟨r', h1, h2, h3⟩ := unmark_rep hr hm hn (fun hx => by rw [hd] at hx; cases hx)
  refine ⟨r', h1, h2, ?_, h3⟩
  have hb : r'.buffer.buffer = r.buffer.buffer ∧ r'.buffer.next = r.buffer.next := by
    unfold Reader.unmark at h1
    rw [removeMark_found hr hm hn] at h1
    simp only [Prod.mk.injEq] at h1
    rw [← h1.2]; exact ⟨rfl, rfl⟩
  refine ⟨h.o_le, h.pos_le, h.f_le, by rw [hb.1, h.buf]; rfl, by rw [hb.2, h.next], ?_⟩
  intro x hx
  exact h.marks x (by rw [hm]; simp at hx ⊢; simp [hx])

/-- Mark, look, reset. -/
theorem lookahead_stands {α β : Type} {r : Reader} {w : Memory} (hd : r.buffer.dbg = false) (hr : RepIdle r w.cursor) (h : Keeps r w)
    {act : RM Reader α} {a : α} {g : α → β} {k : Nat}
    (hf : ∀ r1 w1, r1.buffer.dbg = false → RepIdle r1 w1.cursor → Keeps r1 w1 → w1.cursor.pos = w.cursor.pos →
      w1.cursor.text = w.cursor.text → ∃ r2, act r1 = (.ok a, r2) ∧
      RepIdle r2 (w1.cursor.advance k) ∧ Keeps r2 (moved w1 (w1.cursor.advance k)) ∧ r2.buffer.dbg = false) :
    ∃ r', (do let m ← Reader.mark; let x ← act; let _ ← Reader.resetToMark m; pure (g x) : RM Reader β) r =
        (.ok (g a), r') ∧ RepIdle r' w.cursor ∧ Keeps r' { w with furthest := max w.furthest (w.cursor.pos + k) } ∧
        r'.buffer.dbg = false := by
  obtain ⟨m, r1, h1, h2, h10, h3, _⟩ := mark_stands hr h
  obtain ⟨r2, h4, h5, h11, h6⟩ := hf r1 _ (h3.trans hd) h2 h10 rfl rfl
  rw [moved_in (f := max w.furthest (w.cursor.pos + k)) rfl (by simp)] at h11
  obtain ⟨r3, h7, h8, h12, h9⟩ := resetToMark_stands (w := ⟨_, _, _, _⟩) h5 h11 (newer := []) (p := w.cursor.pos)
    (older := w.cursor.marks) rfl (by simp)
  refine ⟨r3, ?_, h8, h12, by rw [h9, h6]⟩
  simp only [RM.bind_run, h1, h4, h7, RM.pure_run]

theorem moved_next {w : Memory} {r' : Reader} {op : ReaderOp} {a : ReaderAns} {c' : Cursor} (ho : MovesOn op)
    (hre : reach w.cursor op a = c'.pos) (h : Keeps r' (moved w c')) : Keeps r' (w.next op a c') := by
  unfold Memory.next
  simp only [hre, ho, true_and]
  exact h

theorem keeps_next {w : Memory} {r' : Reader} {op : ReaderOp} {a : ReaderAns} {c' : Cursor} {f : Nat} (ho : ¬ MovesOn op)
    (hf : max w.furthest (reach w.cursor op a) = f) (h : Keeps r' ⟨c', f, w.clean, w.left⟩) :
    Keeps r' (w.next op a c') := by
  unfold Memory.next
  simp only [hf, ho, false_and, if_false]
  exact h

theorem next_cursor (w : Memory) (op : ReaderOp) (a : ReaderAns) (c : Cursor) : (w.next op a c).cursor = c := by
  unfold Memory.next; dsimp only; split
  · split <;> rfl
  · rfl

/-- One operation. -/
theorem perform_stands {r : Reader} {w : Memory} (hd : r.buffer.dbg = false) (hr : RepIdle r w.cursor) (h : Keeps r w)
    (op : ReaderOp) :
    ∃ a r' c', perform op r = (a, r') ∧ CursorStep w.cursor op a c' ∧ RepIdle r' c' ∧
      Keeps r' (w.next op a c') ∧ r'.buffer.dbg = false := by
  have hfind := newest_or_missing w.cursor.marks
  have hpl := h.pos_le
  have hmax : max w.furthest w.cursor.pos = w.furthest := by omega
  cases op with
  | read =>
    obtain ⟨r', h1, h2, h4, h3⟩ := read_stands hd hr h
    exact ⟨_, r', _, by rw [perform, h1]; rfl, .read _, h2, moved_next trivial rfl h4, h3⟩
  | readChars n =>
    obtain ⟨cs, r', h1, h2, h7, h3, h4, h5, h6⟩ := readChars_stands hd hr h n
    exact ⟨_, r', _, by rw [perform, h1]; rfl, .readChars _ n cs h4 h5 h6, h2, moved_next trivial rfl h7, h3⟩
  | readAll =>
    have := size_rep hr
    obtain ⟨r', h1, h2, h4, h3⟩ := readAllLoop_stands hd hr h (r.size + 1) (by omega)
    exact ⟨_, r', _, by rw [perform, Reader.readAll, h1]; rfl, .readAll _, h2, moved_next trivial rfl h4, h3⟩
  | peek n =>
    obtain ⟨r', h1, h2, h4, h3⟩ := lookahead_stands (g := id) (a := w.cursor.rest.take n)
        (k := min n w.cursor.rest.length) hd hr h (act := Reader.peekLoop n) (fun r1 w1 h0 h1 h5 h2 h3 => by
      obtain ⟨r2, h6, h7, h8, h9⟩ := peekLoop_stands h0 h1 h5 n
      rw [rest_of_eq h2 h3] at h6 h7 h8
      exact ⟨r2, h6, h7, h8, h9⟩)
    have h1' : Reader.peek n r = (.ok (w.cursor.rest.take n), r') := h1
    exact ⟨_, r', _, by rw [perform, h1']; rfl, .peek _ n, h2, keeps_next id rfl h4, h3⟩
  | prefixMatches p =>
    obtain ⟨r', h1, h2, h4, h3⟩ := lookahead_stands (g := id) (a := decide (p <+: w.cursor.rest))
        (k := examined p w.cursor.rest) hd hr h (act := Reader.prefixLoop p) (fun r1 w1 h0 h1 h5 h2 h3 => by
      obtain ⟨r2, h6, h7, h8, h9⟩ := prefixLoop_stands h0 h1 h5 p
      rw [rest_of_eq h2 h3] at h6 h7 h8
      exact ⟨r2, h6, h7, h8, h9⟩)
    have h1' : Reader.prefixMatches p r = (.ok (decide (p <+: w.cursor.rest)), r') := h1
    exact ⟨_, r', _, by rw [perform, h1']; rfl, .prefixMatches _ p, h2, keeps_next id rfl h4, h3⟩
  | isEof =>
    obtain ⟨r', h1, h2, h4, h3⟩ := lookahead_stands (g := Option.isNone) (a := w.cursor.rest.head?)
        (k := min 1 w.cursor.rest.length) hd hr h (act := Reader.read) (fun r1 w1 h0 h1 h5 h2 h3 => by
      obtain ⟨r2, h6, h7, h8, h9⟩ := read_stands h0 h1 h5
      rw [rest_of_eq h2 h3] at h6 h7 h8
      exact ⟨r2, h6, h7, h8, h9⟩)
    have h1' : Reader.isEof r = (.ok w.cursor.rest.head?.isNone, r') := h1
    have he : w.cursor.rest.head?.isNone = decide (w.cursor.rest = []) := by cases w.cursor.rest <;> simp
    rw [he] at h1'
    exact ⟨_, r', _, by rw [perform, h1']; rfl, .isEof _, h2, keeps_next id rfl h4, h3⟩
  | skip n =>
    obtain ⟨r', h1, h2, h4, h3⟩ := skip_stands hd hr h n
    exact ⟨_, r', _, by rw [perform, h1]; rfl, .skip _ n, h2, moved_next trivial rfl h4, h3⟩
  | mark =>
    obtain ⟨m, r', h1, h2, h5, h3, h4⟩ := mark_stands hr h
    exact ⟨_, r', _, by rw [perform, h1]; rfl, .mark _ m h4, h2, keeps_next id hmax h5, h3.trans hd⟩
  | resetToMark m =>
    rcases hfind m with ⟨newer, p, older, h1, h2⟩ | h1
    · obtain ⟨r', h3, h4, h6, h5⟩ := resetToMark_stands hr h h1 h2
      exact ⟨_, r', _, by rw [perform, h3]; rfl, .reset _ m newer p older h1 h2, h4, keeps_next id hmax h6, h5.trans hd⟩
    · exact ⟨_, r, _, resetToMark_missing hr h1, .resetInvalid _ m h1, hr, keeps_next id hmax h, hd⟩
  | unmark m =>
    rcases hfind m with ⟨newer, p, older, h1, h2⟩ | h1
    · obtain ⟨r', h3, h4, h6, h5⟩ := unmark_stands hd hr h h1 h2
      exact ⟨_, r', _, by rw [perform, h3]; rfl, .unmark _ m newer p older h1 h2, h4, keeps_next id hmax h6, h5.trans hd⟩
    · exact ⟨_, r, _, unmark_missing hr h1, .unmarkInvalid _ m h1, hr, keeps_next id hmax h, hd⟩
  | location =>
    refine ⟨_, r, w.cursor, ?_, .location _, hr, keeps_next id hmax h, hd⟩
    rw [perform, Reader.location, ← hr.loc]; rfl

theorem performAll_stands {r : Reader} {w : Memory} (hd : r.buffer.dbg = false) (hr : RepIdle r w.cursor) (h : Keeps r w)
    (ops : List ReaderOp) :
    ∃ as r' w', performAll ops r = (as, r') ∧ MemorySteps w ops as w' ∧ RepIdle r' w'.cursor ∧ Keeps r' w' ∧
      r'.buffer.dbg = false := by
  induction ops generalizing r w with
  | nil => exact ⟨[], r, w, rfl, .nil w, hr, h, hd⟩
  | cons op ops ih =>
    obtain ⟨a, r1, c1, h1, h2, h3, h4, h9⟩ := perform_stands hd hr h op
    obtain ⟨as, r2, w2, h5, h6, h7, h8, h10⟩ := ih (w := w.next op a c1) h9 (by rw [next_cursor]; exact h3) h4
    exact ⟨a :: as, r2, w2, by simp only [performAll, h1, h5], .cons h2 h6, h7, h8, h10⟩

theorem new_keeps (location : Location) (s : Source) (text : Str) (dbg : Bool) :
    Keeps (Reader.withLocation location s dbg) ⟨⟨location, text, 0, []⟩, 0, 0, []⟩ :=
  ⟨Nat.le_refl _, Nat.le_refl _, Nat.zero_le _, rfl, rfl, by simp⟩

end Ebnf.Mem
