import Verif.Spec.Lazy
import Verif.Proofs.Held

set_option autoImplicit false

/-! # What the reader has taken from its source -/

namespace Ebnf

open Spec

/-- The reader has taken the first `f` characters from its source, which was `s₀`. -/
structure Taken (s₀ : Source) (r : Reader) (c : Cursor) (f : Nat) : Prop where
  whole : Delivers s₀ c.text
  needed : AsNeeded s₀ r.source f
  left : Delivers r.source (c.text.drop f)
  pos_le : c.pos ≤ f
  f_le : f ≤ c.text.length

theorem asNeeded_start {s : Source} {text : Str} (h : Delivers s text) : AsNeeded s s 0 := by
  obtain ⟨pieces, h1, _⟩ := h
  exact ⟨[], pieces, by simpa using h1, h1, fun front last he => by simp at he⟩

theorem AsNeeded.mono {s₀ s : Source} {f f' : Nat} (h : AsNeeded s₀ s f) (hf : f ≤ f') : AsNeeded s₀ s f' := by
  obtain ⟨a, l, h1, h2, h3⟩ := h
  exact ⟨a, l, h1, h2, fun front last he => Nat.le_trans (h3 front last he) hf⟩

/-- Asking for pieces stops at the first that is not empty. -/
theorem readRounds_needed (n : Nat) (left : List Str) (loc : Location) :
    ∃ d l, left = d ++ l ∧ (Source.readRounds n (left.map .ok) loc).2.rounds = l.map .ok ∧
      ∀ front last, d = front ++ [last] → front.flatten = [] := by
  induction left with
  | nil => exact ⟨[], [], rfl, rfl, fun _ _ he => by simp at he⟩
  | cons p ps ih =>
    simp only [List.map_cons, Source.readRounds]
    cases p with
    | nil =>
      obtain ⟨d, l, h1, h2, h3⟩ := ih
      refine ⟨[] :: d, l, by rw [h1]; rfl, by simpa using h2, fun front last he => ?_⟩
      cases front with
      | nil => rfl
      | cons x front =>
        simp only [List.cons_append, List.cons.injEq] at he
        rw [← he.1, List.flatten_cons, h3 front last he.2]
        rfl
    | cons x xs =>
      refine ⟨[x :: xs], ps, rfl, rfl, fun front last he => ?_⟩
      have := congrArg List.length he
      simp only [List.length_cons, List.length_nil, List.length_append] at this
      rw [List.eq_nil_of_length_eq_zero (l := front) (by omega)]
      rfl

theorem source_needed {s₀ s : Source} {text : Str} {f : Nat} (hw : Delivers s₀ text) (h : AsNeeded s₀ s f)
    (hd : Delivers s (text.drop f)) (hf : f ≤ text.length) (n : Nat) : AsNeeded s₀ (Source.readChars n s).2 f := by
  unfold Source.readChars
  by_cases hp : s.pending = []
  · rw [hp, if_neg (by simp)]
    obtain ⟨asked, left, h1, h2, h3⟩ := h
    obtain ⟨d, l, h4, h5, h6⟩ := readRounds_needed n left s.location
    rw [h2]
    refine ⟨asked ++ d, l, by rw [h1, h4, List.append_assoc], h5, fun front last he => ?_⟩
    have hlen : s₀.pending.length + asked.flatten.length = f := by
      have e1 := congrArg List.length (delivers_unique hw ⟨_, h1, rfl⟩)
      have e2 := congrArg List.length (delivers_unique hd ⟨_, h2, rfl⟩)
      simp only [hp, List.flatten_append, List.length_append, List.length_drop, List.length_nil] at e1 e2
      omega
    rcases List.eq_nil_or_concat d with hd0 | ⟨d', x, hd0⟩
    · rw [hd0, List.append_nil] at he
      exact h3 front last he
    · rw [List.concat_eq_append] at hd0
      rw [hd0, ← List.append_assoc] at he
      have hfr := (List.append_inj' he rfl).1
      rw [← hfr, List.length_append, List.flatten_append, h6 d' x hd0, List.append_nil]
      omega
  · rw [if_pos (by simpa using hp)]
    exact h

theorem Taken.unread {s₀ : Source} {r : Reader} {c : Cursor} {f : Nat} (hr : RepIdle r c) (h : Taken s₀ r c f) :
    r.buffer.buffer.length - r.buffer.next = f - c.pos := by
  obtain ⟨text, hd, hrest, _⟩ := hr.src
  rw [delivers_unique hd h.left] at hrest
  have := congrArg List.length hrest
  have h1 := h.pos_le
  have h2 := h.f_le
  rw [cursor_rest_length, List.length_append, List.length_drop, List.length_drop] at this
  omega

theorem readChars_needed {s₀ : Source} {r : Reader} {c : Cursor} {f : Nat} (h : Taken s₀ r c f) (n : Nat)
    {cs : Str} {r' : Reader} (h1 : Reader.readChars n r = (.ok cs, r')) : AsNeeded s₀ r'.source f := by
  unfold Reader.readChars at h1
  by_cases hrem : r.buffer.remains = true
  · rw [if_pos hrem] at h1
    unfold UnreadBuffer.read at h1
    simp only [Prod.mk.injEq, Res.ok.injEq] at h1
    have hsrc : r'.source = r.source := by rw [← h1.2]
    rw [hsrc]
    exact h.needed
  · rw [if_neg hrem] at h1
    have hn := source_needed h.whole h.needed h.left h.f_le n
    generalize Source.readChars n r.source = y at h1 hn
    obtain ⟨res, s'⟩ := y
    have hs : r'.source = s' := by
      cases res with
      | ok cs' =>
        simp only at h1
        by_cases hemp : cs'.isEmpty = true
        · rw [if_pos hemp] at h1
          simp only [Prod.mk.injEq] at h1
          rw [← h1.2]
        · rw [if_neg hemp] at h1
          generalize r.buffer.append cs' = x at h1
          obtain ⟨res, b⟩ := x
          cases res with
          | ok u => simp only [Prod.mk.injEq] at h1; rw [← h1.2]
          | err e => simp at h1
          | panic p => simp at h1
          | diverge => simp at h1
      | err e => simp only [Prod.mk.injEq] at h1; rw [← h1.2]
      | panic p => simp at h1
      | diverge => simp at h1
    rw [hs]
    exact hn

theorem readChars_taken {s₀ : Source} {r : Reader} {c : Cursor} {f : Nat} (hr : RepIdle r c) (h : Taken s₀ r c f) (n : Nat) :
    ∃ cs r', Reader.readChars n r = (.ok cs, r') ∧ RepIdle r' (c.advance cs.length) ∧
      Taken s₀ r' (c.advance cs.length) (max f (c.pos + cs.length)) ∧ r'.buffer.dbg = r.buffer.dbg ∧
      (cs <+: c.rest ∧ cs.length ≤ n ∧ (cs = [] → n = 0 ∨ c.rest = [])) ∧
      (c.pos < f → r'.source = r.source ∧ c.pos + cs.length ≤ f) := by
  obtain ⟨cs, r', h1, h2, h3, h4, h5, h6⟩ := readChars_rep hr n
  have hu := h.unread hr
  have hp := h.pos_le
  have hf := h.f_le
  have hpl : c.pos + cs.length ≤ c.text.length := by
    have := h4.length_le
    rw [cursor_rest_length] at this
    omega
  have hn : AsNeeded s₀ r'.source (max f (c.pos + cs.length)) :=
    AsNeeded.mono (readChars_needed h n h1) (Nat.le_max_left _ _)
  suffices hs : Delivers r'.source (c.text.drop (max f (c.pos + cs.length))) ∧
      (c.pos < f → r'.source = r.source ∧ c.pos + cs.length ≤ f) from
    ⟨cs, r', h1, h2, ⟨h.whole, hn, hs.1, Nat.le_max_right _ _, Nat.max_le.mpr ⟨hf, hpl⟩⟩, h3, ⟨h4, h5, h6⟩, hs.2⟩
  unfold Reader.readChars at h1
  by_cases hrem : r.buffer.remains = true
  · rw [if_pos hrem] at h1
    unfold UnreadBuffer.read at h1
    simp only [Prod.mk.injEq, Res.ok.injEq] at h1
    have hl : cs.length ≤ f - c.pos := by
      rw [← h1.1, List.length_take, List.length_drop, hu]; omega
    have hsrc : r'.source = r.source := by rw [← h1.2]
    rw [Nat.max_eq_left (by omega), hsrc]
    exact ⟨h.left, fun _ => ⟨rfl, by omega⟩⟩
  · rw [if_neg hrem] at h1
    simp only [UnreadBuffer.remains, decide_eq_true_eq] at hrem
    have hpf : c.pos = f := by omega
    refine ⟨?_, fun hlt => by omega⟩
    obtain ⟨cs', s', text', h7, h8, h9, _, _⟩ := source_readChars h.left n
    rw [h7] at h1
    simp only at h1
    rw [Nat.max_eq_right (by omega), hpf]
    have key : cs = cs' ∧ r'.source = s' := by
      cases hemp : cs'.isEmpty with
      | true =>
        rw [hemp, if_pos rfl] at h1
        simp only [Prod.mk.injEq, Res.ok.injEq] at h1
        rw [List.isEmpty_iff] at hemp
        exact ⟨by rw [hemp, ← h1.1], by rw [← h1.2]⟩
      | false =>
        rw [hemp, if_neg (by simp)] at h1
        generalize r.buffer.append cs' = x at h1
        obtain ⟨res, b⟩ := x
        cases res with
        | ok u =>
          simp only [Prod.mk.injEq, Res.ok.injEq] at h1
          exact ⟨h1.1.symm, by rw [← h1.2]⟩
        | err e => simp at h1
        | panic p => simp at h1
        | diverge => simp at h1
    rw [key.2, key.1, drop_add_prefix h8]
    exact h9

theorem read_taken {s₀ : Source} {r : Reader} {c : Cursor} {f : Nat} (hr : RepIdle r c) (h : Taken s₀ r c f) :
    ∃ r', Reader.read r = (.ok c.rest.head?, r') ∧ RepIdle r' (c.advance (min 1 c.rest.length)) ∧
      Taken s₀ r' (c.advance (min 1 c.rest.length)) (max f (c.pos + min 1 c.rest.length)) ∧ r'.buffer.dbg = r.buffer.dbg ∧
      (c.pos < f → r'.source = r.source) := by
  obtain ⟨r', h1, h2, h3⟩ := read_rep hr
  obtain ⟨cs, r1, h4, h5, h6, h7, ⟨h8, h9, h10⟩, h11⟩ := readChars_taken hr h 1
  have hl : cs.length = min 1 c.rest.length := by
    have := h8.length_le
    cases cs with
    | nil =>
      rcases h10 rfl with h0 | h0
      · simp at h0
      · simp [h0]
    | cons x xs => simp at h9 this ⊢; subst h9; simp at this ⊢; omega
  unfold Reader.read at h1
  simp only [RM.bind_run, h4, RM.pure_run, Prod.mk.injEq] at h1
  refine ⟨r', ?_, h2, ?_, h3, fun hlt => ?_⟩
  · unfold Reader.read
    simp only [RM.bind_run, h4, RM.pure_run, Prod.mk.injEq]
    exact h1
  · rw [hl, h1.2] at h6; exact h6
  · rw [← h1.2]; exact (h11 hlt).1

theorem Taken.zero {s₀ : Source} {r : Reader} {c : Cursor} {f : Nat} (h : Taken s₀ r c f) : Taken s₀ r (c.advance 0) (max f (c.pos + 0)) := by
  have := h.pos_le
  rw [Nat.max_eq_left (by omega)]
  exact h

theorem Taken.advance {s₀ : Source} {r : Reader} {c : Cursor} {f a b : Nat}
    (h : Taken s₀ r ((c.advance a).advance b) (max (max f (c.pos + a)) ((c.advance a).pos + b))) :
    Taken s₀ r (c.advance (a + b)) (max f (c.pos + (a + b))) := by
  rw [advance_advance] at h
  rw [show max f (c.pos + (a + b)) = max (max f (c.pos + a)) ((c.advance a).pos + b) by simp only [Cursor.advance]; omega]
  exact h

theorem peekLoop_taken {s₀ : Source} {r : Reader} {c : Cursor} {f : Nat} (hr : RepIdle r c) (h : Taken s₀ r c f) (n : Nat) :
    ∃ r', Reader.peekLoop n r = (.ok (c.rest.take n), r') ∧ RepIdle r' (c.advance (min n c.rest.length)) ∧
      Taken s₀ r' (c.advance (min n c.rest.length)) (max f (c.pos + min n c.rest.length)) ∧ r'.buffer.dbg = r.buffer.dbg ∧
      (c.pos + n ≤ f → r'.source = r.source) := by
  induction n generalizing r c f with
  | zero => exact ⟨r, by simp [Reader.peekLoop], by simpa using hr, by simpa using h.zero, rfl, fun _ => rfl⟩
  | succ n ih =>
    obtain ⟨r1, h1, h2, hm, h3, hs⟩ := read_taken hr h
    simp only [Reader.peekLoop, RM.bind_run, h1]
    cases hc : c.rest with
    | nil =>
      rw [hc] at h2 hm
      exact ⟨r1, by simp, by simpa using h2, by simpa using hm, h3, fun hl => hs (by omega)⟩
    | cons x xs =>
      rw [hc] at h2 hm
      simp only [List.length_cons, List.head?_cons] at h2 hm ⊢
      rw [Nat.min_eq_left (by omega)] at h2 hm
      obtain ⟨r2, h4, h5, h7, h6, hs2⟩ := ih h2 hm
      rw [rest_cons hc] at h4 h5 h7
      have h8 := h7.advance
      rw [advance_advance] at h5
      have he : 1 + min n xs.length = min (n + 1) (xs.length + 1) := by omega
      rw [he] at h8 h5
      refine ⟨r2, ?_, h5, h8, h6.trans h3, fun hl => ?_⟩
      · simp only [RM.bind_run, h4, RM.pure_run, List.take_succ_cons]
      · rw [hs2 (by simp only [Cursor.advance]; omega), hs (by omega)]

theorem prefixLoop_taken {s₀ : Source} {r : Reader} {c : Cursor} {f : Nat} (hr : RepIdle r c) (h : Taken s₀ r c f) (p : Str) :
    ∃ r', Reader.prefixLoop p r = (.ok (decide (p <+: c.rest)), r') ∧ RepIdle r' (c.advance (examined p c.rest)) ∧
      Taken s₀ r' (c.advance (examined p c.rest)) (max f (c.pos + examined p c.rest)) ∧ r'.buffer.dbg = r.buffer.dbg ∧
      (c.pos + p.length ≤ f → r'.source = r.source) := by
  induction p generalizing r c f with
  | nil => exact ⟨r, by simp [Reader.prefixLoop], by simpa [examined] using hr, by simpa [examined] using h.zero, rfl, fun _ => rfl⟩
  | cons x p ih =>
    obtain ⟨r1, h1, h2, hm, h3, hs⟩ := read_taken hr h
    simp only [Reader.prefixLoop, RM.bind_run, h1, List.length_cons]
    by_cases hx : c.rest.head? = some x
    · rw [if_neg (by simpa using hx)]
      cases hc : c.rest with
      | nil => rw [hc] at hx; simp at hx
      | cons y ys =>
        rw [hc] at hx h2 hm
        simp only [List.head?_cons, Option.some.injEq] at hx
        subst hx
        rw [List.length_cons, Nat.min_eq_left (by omega)] at h2 hm
        obtain ⟨r2, h4, h5, h7, h6, hs2⟩ := ih h2 hm
        rw [rest_cons hc] at h4 h5 h7
        have h8 := h7.advance
        rw [advance_advance] at h5
        refine ⟨r2, ?_, by simpa [examined] using h5, by simpa [examined] using h8, h6.trans h3, fun hl => ?_⟩
        · rw [h4]
          simp [List.cons_prefix_cons]
        · rw [hs2 (by simp only [Cursor.advance]; omega), hs (by omega)]
    · rw [if_pos hx]
      cases hc : c.rest with
      | nil =>
        rw [hc] at h2 hm
        exact ⟨r1, by simp, by simpa [examined] using h2, by simpa [examined] using hm, h3, fun hl => hs (by omega)⟩
      | cons y ys =>
        rw [hc] at hx h2 hm
        simp only [List.head?_cons, Option.some.injEq] at hx
        rw [List.length_cons, Nat.min_eq_left (by omega)] at h2 hm
        refine ⟨r1, ?_, by simpa [examined, hx] using h2, by simpa [examined, hx] using hm, h3, fun hl => hs (by omega)⟩
        simp [List.cons_prefix_cons, Ne.symm hx]

theorem skipLoop_taken {s₀ : Source} {r : Reader} {c : Cursor} {f : Nat} (hr : RepIdle r c) (h : Taken s₀ r c f) (fuel n : Nat)
    (hf : n ≤ fuel) :
    ∃ r', Reader.skipLoop fuel n r = (.ok (n - min n c.rest.length), r') ∧ RepIdle r' (c.advance (min n c.rest.length)) ∧
      Taken s₀ r' (c.advance (min n c.rest.length)) (max f (c.pos + min n c.rest.length)) ∧ r'.buffer.dbg = r.buffer.dbg ∧
      (c.pos + n ≤ f → r'.source = r.source) := by
  induction fuel generalizing r c n f with
  | zero =>
    have : n = 0 := by omega
    subst this
    exact ⟨r, by simp [Reader.skipLoop], by simpa using hr, by simpa using h.zero, rfl, fun _ => rfl⟩
  | succ fuel ih =>
    cases n with
    | zero => exact ⟨r, by simp [Reader.skipLoop], by simpa using hr, by simpa using h.zero, rfl, fun _ => rfl⟩
    | succ n =>
      obtain ⟨cs, r1, h1, h2, hm, h3, ⟨h4, h5, h6⟩, hs⟩ := readChars_taken hr h (min (n + 1) 1024)
      simp only [Reader.skipLoop, RM.bind_run, h1]
      cases cs with
      | nil =>
        have hc : c.rest = [] := by exact (h6 rfl).resolve_left (by omega)
        exact ⟨r1, by simp [hc], by simpa [hc] using h2, by simpa [hc] using hm, h3, fun hl => (hs (by omega)).1⟩
      | cons x xs =>
        simp only [List.isEmpty_cons, Bool.false_eq_true, if_false]
        have hlen : (x :: xs).length ≤ n + 1 := by omega
        have hle := h4.length_le
        obtain ⟨r2, h7, h8, h10, h9, hs2⟩ := ih h2 hm (n + 1 - (x :: xs).length) (by simp only [List.length_cons] at *; omega)
        have hrl : (c.advance (x :: xs).length).rest.length = c.rest.length - (x :: xs).length := by
          rw [cursor_rest_length, cursor_rest_length]
          simp only [Cursor.advance]; omega
        rw [hrl] at h7 h8 h10
        have he1 : n + 1 - (x :: xs).length - min (n + 1 - (x :: xs).length) (c.rest.length - (x :: xs).length) =
            n + 1 - min (n + 1) c.rest.length := by omega
        have he2 : (x :: xs).length + min (n + 1 - (x :: xs).length) (c.rest.length - (x :: xs).length) =
            min (n + 1) c.rest.length := by omega
        rw [he1] at h7
        have h11 := h10.advance
        rw [advance_advance] at h8
        rw [he2] at h8 h11
        refine ⟨r2, h7, h8, h11, h9.trans h3, fun hl => ?_⟩
        rw [hs2 (by simp only [Cursor.advance]; omega), (hs (by omega)).1]

theorem readAllLoop_taken {s₀ : Source} {r : Reader} {c : Cursor} {f : Nat} (hr : RepIdle r c) (h : Taken s₀ r c f) (fuel : Nat)
    (hf : c.rest.length < fuel) :
    ∃ r', Reader.readAllLoop fuel r = (.ok c.rest, r') ∧ RepIdle r' (c.advance c.rest.length) ∧
      Taken s₀ r' (c.advance c.rest.length) (max f (c.pos + c.rest.length)) ∧ r'.buffer.dbg = r.buffer.dbg := by
  induction fuel generalizing r c f with
  | zero => omega
  | succ fuel ih =>
    obtain ⟨cs, r1, h1, h2, hm, h3, ⟨h4, h5, h6⟩, _⟩ := readChars_taken hr h 1024
    simp only [Reader.readAllLoop, RM.bind_run, h1]
    cases cs with
    | nil =>
      have hc : c.rest = [] := by exact (h6 rfl).resolve_left (by omega)
      exact ⟨r1, by simp [hc], by simpa [hc] using h2, by simpa [hc] using hm, h3⟩
    | cons x xs =>
      simp only [List.isEmpty_cons, Bool.false_eq_true, if_false]
      obtain ⟨t, ht⟩ := h4
      have hadv : (c.advance (x :: xs).length).rest = t := drop_add_prefix ht.symm
      have hlen : c.rest.length = (x :: xs).length + t.length := by rw [← ht]; simp; omega
      obtain ⟨r2, h7, h8, h10, h9⟩ := ih h2 hm (by rw [hadv]; simp only [List.length_cons] at hlen; omega)
      rw [hadv] at h7 h8 h10
      have h11 := h10.advance
      rw [advance_advance] at h8
      rw [← hlen] at h8 h11
      refine ⟨r2, ?_, h8, h11, h9.trans h3⟩
      simp only [RM.bind_run, h7, RM.pure_run]
      rw [ht]

theorem mark_source (r : Reader) : (Reader.mark r).2.source = r.source := rfl

theorem reset_source (m : Nat) (r : Reader) : (Reader.resetToMark m r).2.source = r.source := rfl

theorem unmark_source (m : Nat) (r : Reader) : (Reader.unmark m r).2.source = r.source := by
  unfold Reader.unmark
  generalize r.buffer.removeMark m = x
  obtain ⟨res, b⟩ := x
  cases res <;> rfl

/-- Mark, look, reset. -/
theorem lookahead_taken {α β : Type} {s₀ : Source} {r : Reader} {c : Cursor} {f : Nat} (hr : RepIdle r c) (h : Taken s₀ r c f)
    {act : RM Reader α} {a : α} {g : α → β} {k : Nat} {P : Prop}
    (hf : ∀ r1 c1, RepIdle r1 c1 → Taken s₀ r1 c1 f → c1.pos = c.pos → c1.text = c.text → ∃ r2, act r1 = (.ok a, r2) ∧
      RepIdle r2 (c1.advance k) ∧ Taken s₀ r2 (c1.advance k) (max f (c.pos + k)) ∧ r2.buffer.dbg = r1.buffer.dbg ∧
      (P → r2.source = r1.source)) :
    ∃ r', (do let m ← Reader.mark; let x ← act; let _ ← Reader.resetToMark m; pure (g x) : RM Reader β) r =
        (.ok (g a), r') ∧ RepIdle r' c ∧ Taken s₀ r' c (max f (c.pos + k)) ∧ r'.buffer.dbg = r.buffer.dbg ∧
        (P → r'.source = r.source) := by
  obtain ⟨m, r1, h1, h2, h3, _⟩ := mark_rep hr
  have s1 : r1.source = r.source := by rw [← mark_source r, h1]
  obtain ⟨r2, h4, h5, h11, h6, hs⟩ := hf r1 _ h2 ⟨h.whole, by rw [s1]; exact h.needed, by rw [s1]; exact h.left, h.pos_le, h.f_le⟩ rfl rfl
  obtain ⟨r3, h7, h8, h9, _⟩ := resetToMark_rep h5 (newer := []) (p := c.pos) (older := c.marks) rfl (by simp)
  have s3 : r3.source = r2.source := by rw [← reset_source m r2, h7]
  refine ⟨r3, ?_, h8, ⟨h.whole, by rw [s3]; exact h11.needed, by rw [s3]; exact h11.left, ?_, h11.f_le⟩, by rw [h9, h6, h3], fun hP => by rw [s3, hs hP, s1]⟩
  · simp only [RM.bind_run, h1, h4, h7, RM.pure_run]
  · have := h.pos_le; omega

/-- One operation. -/
theorem perform_taken {s₀ : Source} {r : Reader} {w : Window} (hr : RepIdle r w.cursor) (h : Taken s₀ r w.cursor w.furthest)
    (op : ReaderOp) (hdb : r.buffer.dbg = true → ∀ m newer p older, op = .unmark m → w.cursor.marks = newer ++ (m, p) :: older →
      (∀ x ∈ newer, x.1 ≠ m) → older ≠ []) :
    ∃ a r' c', perform op r = (a, r') ∧ CursorStep w.cursor op a c' ∧ RepIdle r' c' ∧
      Taken s₀ r' (w.next op a c').cursor (w.next op a c').furthest ∧
      r'.buffer.dbg = r.buffer.dbg ∧ (Within w.cursor w.furthest op → r'.source = r.source) := by
  have hfind := newest_or_missing w.cursor.marks
  have hpl := h.pos_le
  have hmax : max w.furthest w.cursor.pos = w.furthest := by omega
  cases op with
  | read =>
    obtain ⟨r', h1, h2, h4, h3, hs⟩ := read_taken hr h
    exact ⟨_, r', _, by rw [perform, h1]; rfl, .read _, h2, h4, h3, hs⟩
  | readChars n =>
    obtain ⟨cs, r', h1, h2, h7, h3, ⟨h4, h5, h6⟩, hs⟩ := readChars_taken hr h n
    exact ⟨_, r', _, by rw [perform, h1]; rfl, .readChars _ n cs h4 h5 h6, h2, h7, h3, fun hw => (hs hw).1⟩
  | readAll =>
    have := size_rep hr
    obtain ⟨r', h1, h2, h4, h3⟩ := readAllLoop_taken hr h (r.size + 1) (by omega)
    exact ⟨_, r', _, by rw [perform, Reader.readAll, h1]; rfl, .readAll _, h2, h4, h3, fun hw => hw.elim⟩
  | peek n =>
    obtain ⟨r', h1, h2, h4, h3, hs⟩ := lookahead_taken (g := id) (a := w.cursor.rest.take n)
        (P := w.cursor.pos + n ≤ w.furthest)
        (k := min n w.cursor.rest.length) hr h (act := Reader.peekLoop n) (fun r1 c1 h1 h5 h2 h3 => by
      obtain ⟨r2, h6, h7, h8, h9⟩ := peekLoop_taken h1 h5 n
      rw [rest_of_eq h2 h3] at h6 h7 h8
      rw [h2] at h8 h9
      exact ⟨r2, h6, h7, h8, h9⟩)
    have h1' : Reader.peek n r = (.ok (w.cursor.rest.take n), r') := h1
    exact ⟨_, r', _, by rw [perform, h1']; rfl, .peek _ n, h2, h4, h3, hs⟩
  | prefixMatches p =>
    obtain ⟨r', h1, h2, h4, h3, hs⟩ := lookahead_taken (g := id) (a := decide (p <+: w.cursor.rest))
        (P := w.cursor.pos + p.length ≤ w.furthest)
        (k := examined p w.cursor.rest) hr h (act := Reader.prefixLoop p) (fun r1 c1 h1 h5 h2 h3 => by
      obtain ⟨r2, h6, h7, h8, h9⟩ := prefixLoop_taken h1 h5 p
      rw [rest_of_eq h2 h3] at h6 h7 h8
      rw [h2] at h8 h9
      exact ⟨r2, h6, h7, h8, h9⟩)
    have h1' : Reader.prefixMatches p r = (.ok (decide (p <+: w.cursor.rest)), r') := h1
    exact ⟨_, r', _, by rw [perform, h1']; rfl, .prefixMatches _ p, h2, h4, h3, hs⟩
  | isEof =>
    obtain ⟨r', h1, h2, h4, h3, hs⟩ := lookahead_taken (g := Option.isNone) (a := w.cursor.rest.head?)
        (P := w.cursor.pos < w.furthest)
        (k := min 1 w.cursor.rest.length) hr h (act := Reader.read) (fun r1 c1 h1 h5 h2 h3 => by
      obtain ⟨r2, h6, h7, h8, h9⟩ := read_taken h1 h5
      rw [rest_of_eq h2 h3] at h6 h7 h8
      rw [h2] at h8 h9
      exact ⟨r2, h6, h7, h8, h9⟩)
    have h1' : Reader.isEof r = (.ok w.cursor.rest.head?.isNone, r') := h1
    have he : w.cursor.rest.head?.isNone = decide (w.cursor.rest = []) := by cases w.cursor.rest <;> simp
    rw [he] at h1'
    exact ⟨_, r', _, by rw [perform, h1']; rfl, .isEof _, h2, h4, h3, hs⟩
  | skip n =>
    obtain ⟨r', h1, h2, h4, h3, hs⟩ := skipLoop_taken hr h n n (Nat.le_refl n)
    have h1' : Reader.skip n r = (.ok (min n w.cursor.rest.length), r') := by
      unfold Reader.skip
      simp only [RM.bind_run, h1, RM.pure_run]
      congr 2
      omega
    exact ⟨_, r', _, by rw [perform, h1']; rfl, .skip _ n, h2, h4, h3, hs⟩
  | mark =>
    obtain ⟨m, r', h1, h2, h3, h4⟩ := mark_rep hr
    have hs : r'.source = r.source := by rw [← mark_source r, h1]
    refine ⟨_, r', _, by rw [perform, h1]; rfl, .mark _ m h4, h2, ⟨h.whole, ?_, ?_, ?_, ?_⟩, h3, fun _ => hs⟩
    · rw [hs]; simp only [Window.next, reach, hmax]; exact h.needed
    · rw [hs]; simp only [Window.next, reach, hmax]; exact h.left
    · simp only [Window.next, reach, hmax]; exact h.pos_le
    · simp only [Window.next, reach, hmax]; exact h.f_le
  | resetToMark m =>
    rcases hfind m with ⟨newer, p, older, h1, h2⟩ | h1
    · obtain ⟨r', h3, h4, h5, hp⟩ := resetToMark_rep hr h1 h2
      have hs : r'.source = r.source := by rw [← reset_source m r, h3]
      refine ⟨_, r', _, by rw [perform, h3]; rfl, .reset _ m newer p older h1 h2, h4, ⟨h.whole, ?_, ?_, ?_, ?_⟩, h5, fun _ => hs⟩
      · rw [hs]; simp only [Window.next, reach, hmax]; exact h.needed
      · rw [hs]; simp only [Window.next, reach, hmax]; exact h.left
      · simp only [Window.next, reach, hmax]; omega
      · simp only [Window.next, reach, hmax]; exact h.f_le
    · refine ⟨_, r, _, resetToMark_missing hr h1, .resetInvalid _ m h1, hr, ?_, rfl, fun _ => rfl⟩
      simp only [Window.next, reach, hmax]; exact h
  | unmark m =>
    rcases hfind m with ⟨newer, p, older, h1, h2⟩ | h1
    · obtain ⟨r', h3, h4, h5⟩ := unmark_rep hr h1 h2 (fun hd => hdb hd m newer p older rfl h1 h2)
      have hs : r'.source = r.source := by rw [← unmark_source m r, h3]
      refine ⟨_, r', _, by rw [perform, h3]; rfl, .unmark _ m newer p older h1 h2, h4, ⟨h.whole, ?_, ?_, ?_, ?_⟩, h5, fun _ => hs⟩
      · rw [hs]; simp only [Window.next, reach, hmax]; exact h.needed
      · rw [hs]; simp only [Window.next, reach, hmax]; exact h.left
      · simp only [Window.next, reach, hmax]; exact h.pos_le
      · simp only [Window.next, reach, hmax]; exact h.f_le
    · refine ⟨_, r, _, unmark_missing hr h1, .unmarkInvalid _ m h1, hr, ?_, rfl, fun _ => rfl⟩
      simp only [Window.next, reach, hmax]; exact h
  | location =>
    refine ⟨_, r, w.cursor, ?_, .location _, hr, ?_, rfl, fun _ => rfl⟩
    · rw [perform, Reader.location, ← hr.loc]; rfl
    · simp only [Window.next, reach, hmax]; exact h

theorem performAll_taken {s₀ : Source} {r : Reader} {w : Window} (hr : RepIdle r w.cursor) (h : Taken s₀ r w.cursor w.furthest)
    (ops : List ReaderOp) (hd : r.buffer.dbg = true → NestedUnmarks w.cursor ops) :
    ∃ as r' w', performAll ops r = (as, r') ∧ WindowSteps w ops as w' ∧ RepIdle r' w'.cursor ∧
      Taken s₀ r' w'.cursor w'.furthest ∧ r'.buffer.dbg = r.buffer.dbg := by
  induction ops generalizing r w with
  | nil => exact ⟨[], r, w, rfl, .nil w, hr, h, rfl⟩
  | cons op ops ih =>
    obtain ⟨a, r1, c1, h1, h2, h3, h4, h9, _⟩ := perform_taken hr h op (by
      rintro hdb m newer p older rfl h5 h6
      exact (hd hdb _ _ (.unmark _ m newer p older h5 h6)).1 m rfl rfl)
    obtain ⟨as, r2, w2, h5, h6, h7, h8, h10⟩ := ih (w := w.next op a c1) h3 h4 (fun hdb => (hd (h9.symm.trans hdb) a c1 h2).2)
    exact ⟨a :: as, r2, w2, by simp only [performAll, h1, h5], .cons h2 h6, h7, h8, h10.trans h9⟩

theorem new_taken {location : Location} {s : Source} {text : Str} (h : Delivers s text) (dbg : Bool) :
    Taken s (Reader.withLocation location s dbg) ⟨location, text, 0, []⟩ 0 :=
  ⟨h, asNeeded_start h, by rw [List.drop_zero]; exact h, Nat.le_refl _, Nat.zero_le _⟩

end Ebnf
