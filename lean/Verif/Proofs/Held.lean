import Verif.Spec.Held
import Verif.Proofs.Reader

set_option autoImplicit false

/-! # The reader holds the window -/

namespace Ebnf

open Spec

/-- The reader holds what lies between `o` and `f`. -/
structure Holds (r : Reader) (c : Cursor) (f o : Nat) : Prop where
  o_le : o ≤ c.pos
  pos_le : c.pos ≤ f
  f_le : f ≤ c.text.length
  buf : r.buffer.buffer = (c.text.drop o).take (f - o)
  next : r.buffer.next = c.pos - o
  clean : c.marks = [] → c.pos = f → o = f
  marks : ∀ x ∈ c.marks, o ≤ x.2
  bottom : ∀ ms m p, c.marks = ms ++ [(m, p)] → p = f → o = f

theorem Holds.length {r : Reader} {c : Cursor} {f o : Nat} (h : Holds r c f o) : r.buffer.buffer.length = f - o := by
  have := h.f_le
  rw [h.buf]; simp; omega

/-- The new clean position. -/
def newClean (c : Cursor) (f o : Nat) : Nat := if c.marks = [] ∧ c.pos = f then f else o

theorem newClean_marks {c : Cursor} {f o : Nat} (h : c.marks ≠ []) : newClean c f o = o := by
  rw [newClean, if_neg (by simp [h])]

theorem Holds.newClean {r : Reader} {c : Cursor} {f o : Nat} (h : Holds r c f o) : newClean c f o = o := by
  unfold Ebnf.newClean
  split
  · rename_i hx; exact (h.clean hx.1 hx.2).symm
  · rfl

theorem readChars_holds {r r' : Reader} {c : Cursor} {f o n : Nat} {cs : Str} (hr : RepIdle r c) (h : Holds r c f o)
    (he : Reader.readChars n r = (.ok cs, r')) (hp : cs <+: c.rest) :
    Holds r' (c.advance cs.length) (max f (c.pos + cs.length))
      (newClean (c.advance cs.length) (max f (c.pos + cs.length)) o) := by
  have hlen := h.length
  have hst : r.buffer.stack.isEmpty = c.marks.isEmpty := bottom_none hr.stack
  have h1 := h.o_le
  have h2 := h.pos_le
  have h3 := h.f_le
  have hpl : c.pos + cs.length ≤ c.text.length := by
    have := hp.length_le
    rw [cursor_rest_length] at this
    omega
  unfold Reader.readChars at he
  by_cases hrem : r.buffer.remains = true
  · rw [if_pos hrem] at he
    simp only [UnreadBuffer.remains, decide_eq_true_eq, h.next, hlen] at hrem
    unfold UnreadBuffer.read at he
    simp only at he
    simp only [Prod.mk.injEq, Res.ok.injEq] at he
    obtain ⟨he1, he2⟩ := he
    rw [he1] at he2
    have hcl : cs.length = min n (f - c.pos) := by
      rw [← he1, List.length_take, List.length_drop, hlen, h.next]
      congr 1; omega
    rw [show max f (c.pos + cs.length) = f by omega]
    by_cases hend : c.marks = [] ∧ c.pos + cs.length = f
    · have hn : newClean (c.advance cs.length) f o = f := by
        rw [newClean, if_pos]; exact hend
      rw [hn]
      have hb : r'.buffer.buffer = [] ∧ r'.buffer.next = 0 := by
        rw [← he2]
        rw [if_pos (by simp [UnreadBuffer.remains, hlen, h.next]; omega)]
        simp only [UnreadBuffer.truncateIfStackEmpty]
        rw [if_pos (by rw [hst, hend.1]; rfl)]
        exact ⟨rfl, rfl⟩
      refine ⟨by simp only [Cursor.advance]; omega, by simp only [Cursor.advance]; omega, h3, by rw [hb.1]; simp, ?_, fun _ _ => rfl,
        ?_, fun _ _ _ _ _ => rfl⟩
      · rw [hb.2]; simp only [Cursor.advance]; omega
      · intro x hx; simp only [Cursor.advance, hend.1] at hx; simp at hx
    · have hn : newClean (c.advance cs.length) f o = o := by
        rw [newClean, if_neg]; exact hend
      rw [hn]
      have hb : r'.buffer.buffer = r.buffer.buffer ∧ r'.buffer.next = r.buffer.next + cs.length := by
        rw [← he2]
        split
        · rename_i hx
          simp [UnreadBuffer.remains, hlen, h.next] at hx
          have hm : c.marks ≠ [] := fun hm => hend ⟨hm, by omega⟩
          simp only [UnreadBuffer.truncateIfStackEmpty]
          rw [if_neg (by rw [hst]; simpa using hm)]
          exact ⟨rfl, rfl⟩
        · exact ⟨rfl, rfl⟩
      refine ⟨by simp only [Cursor.advance]; omega, by simp only [Cursor.advance]; omega, h3, by rw [hb.1, h.buf]; rfl, ?_,
        fun hm hc => absurd ⟨hm, hc⟩ hend, h.marks, h.bottom⟩
      rw [hb.2, h.next]; simp only [Cursor.advance]; omega
  · rw [if_neg hrem] at he
    simp only [UnreadBuffer.remains, decide_eq_true_eq, h.next, hlen] at hrem
    have hpf : c.pos = f := by omega
    generalize Source.readChars n r.source = x at he
    obtain ⟨res, s⟩ := x
    cases res with
    | ok cs' =>
      simp only at he
      cases hemp : cs'.isEmpty with
      | true =>
        rw [hemp, if_pos rfl] at he
        simp only [Prod.mk.injEq, Res.ok.injEq] at he
        obtain ⟨rfl, rfl⟩ := he
        simp only [List.length_nil, advance_zero, Nat.add_zero]
        rw [Nat.max_eq_left h2, h.newClean]
        exact ⟨h.o_le, h.pos_le, h.f_le, h.buf, h.next, h.clean, h.marks, h.bottom⟩
      | false =>
        rw [hemp, if_neg (by simp)] at he
        unfold UnreadBuffer.append at he
        by_cases hm : c.marks = []
        · rw [if_neg (by rw [hst, hm]; simp)] at he
          by_cases hd : (r.buffer.dbg && (!r.buffer.buffer.isEmpty || r.buffer.next != 0)) = true
          · rw [if_pos hd] at he; simp at he
          · rw [if_neg hd] at he
            simp only [Prod.mk.injEq, Res.ok.injEq] at he
            obtain ⟨rfl, rfl⟩ := he
            have hof := h.clean hm hpf
            rw [show max f (c.pos + cs'.length) = c.pos + cs'.length by omega]
            rw [newClean, if_pos ⟨hm, rfl⟩]
            refine ⟨Nat.le_refl _, Nat.le_refl _, hpl, ?_, ?_, fun _ _ => rfl, ?_, fun _ _ _ _ _ => rfl⟩
            · simp only [h.buf, hof]; simp
            · simp only [h.next, Cursor.advance]; omega
            · intro x hx; simp only [Cursor.advance, hm] at hx; simp at hx
        · rw [if_pos (by rw [hst]; simpa using hm)] at he
          by_cases hd : (r.buffer.dbg && r.buffer.remains) = true
          · rw [if_pos hd] at he; simp at he
          · rw [if_neg hd] at he
            simp only [Prod.mk.injEq, Res.ok.injEq] at he
            obtain ⟨rfl, rfl⟩ := he
            rw [newClean_marks (c := c.advance cs'.length) hm]
            rw [show max f (c.pos + cs'.length) = c.pos + cs'.length by omega]
            have hne : 0 < cs'.length := by
              cases cs' with
              | nil => simp at hemp
              | cons => simp
            refine ⟨by simp only [Cursor.advance]; omega, Nat.le_refl _, hpl, ?_, ?_, fun hm' => absurd hm' hm, h.marks, ?_⟩
            · simp only [h.buf, Cursor.advance]
              obtain ⟨t, ht⟩ := hp
              have : c.text.drop o = (c.text.drop o).take (f - o) ++ (cs' ++ t) := by
                have hdd : c.text.drop f = (c.text.drop o).drop (f - o) := by
                  rw [List.drop_drop]; congr 1; omega
                rw [ht, Cursor.rest, hpf, hdd, List.take_append_drop]
              have hfo : ((c.text.drop o).take (f - o)).length = f - o := by simp; omega
              generalize (c.text.drop o).take (f - o) = y at this hfo
              rw [this, show c.pos + cs'.length - o = (y ++ cs').length by simp; omega, ← List.append_assoc, List.take_left]
            · simp only [h.next, Cursor.advance]; omega
            · intro ms m p hms hpp
              have hmem : (m, p) ∈ c.marks := by
                have : c.marks = ms ++ [(m, p)] := hms
                rw [this]; simp
              obtain ⟨text, _, _, hmarks⟩ := hr.src
              obtain ⟨_, _, hx, _⟩ := hmarks m p hmem
              omega
    | err e => simp [Res.fail] at he
    | panic p => simp at he
    | diverge => simp at he

/-- Moving from `c` to `c'` by reading. -/
def Moved (r' : Reader) (c' : Cursor) (f o : Nat) : Prop :=
  Holds r' c' (max f c'.pos) (newClean c' (max f c'.pos) o)

theorem moved_zero {r : Reader} {c : Cursor} {f o : Nat} (h : Holds r c f o) : Moved r c f o := by
  unfold Moved
  rw [Nat.max_eq_left h.pos_le, h.newClean]
  exact h

theorem moved_trans {r : Reader} {c c' : Cursor} {f o : Nat} (hm : c'.marks = c.marks) (hp : c.pos ≤ c'.pos)
    (hf : c.pos ≤ f)
    (h : Moved r c' (max f c.pos) (newClean c (max f c.pos) o)) : Moved r c' f o := by
  unfold Moved at *
  rw [show max (max f c.pos) c'.pos = max f c'.pos by omega] at h
  unfold newClean at h ⊢
  rw [hm] at h ⊢
  by_cases h0 : c.marks = []
  · by_cases h1 : c'.pos = max f c'.pos
    · rw [if_pos ⟨h0, h1⟩] at h ⊢; exact h
    · rw [if_neg (by omega)] at h ⊢
      by_cases h2 : c.pos = max f c.pos
      · omega
      · rw [if_neg (by omega)] at h; exact h
  · simpa [h0] using h

theorem readChars_stands {r : Reader} {c : Cursor} {f o : Nat} (hr : RepIdle r c) (h : Holds r c f o) (n : Nat) :
    ∃ cs r', Reader.readChars n r = (.ok cs, r') ∧ RepIdle r' (c.advance cs.length) ∧
      Moved r' (c.advance cs.length) f o ∧ r'.buffer.dbg = r.buffer.dbg ∧
      cs <+: c.rest ∧ cs.length ≤ n ∧ (cs = [] → n = 0 ∨ c.rest = []) := by
  obtain ⟨cs, r', h1, h2, h3, h4, h5, h6⟩ := readChars_rep hr n
  exact ⟨cs, r', h1, h2, readChars_holds hr h h1 h4, h3, h4, h5, h6⟩

theorem read_stands {r : Reader} {c : Cursor} {f o : Nat} (hr : RepIdle r c) (h : Holds r c f o) :
    ∃ r', Reader.read r = (.ok c.rest.head?, r') ∧ RepIdle r' (c.advance (min 1 c.rest.length)) ∧
      Moved r' (c.advance (min 1 c.rest.length)) f o ∧ r'.buffer.dbg = r.buffer.dbg := by
  obtain ⟨r', h1, h2, h3⟩ := read_rep hr
  obtain ⟨cs, r1, h4, h5, h6, h7, h8, h9, h10⟩ := readChars_stands hr h 1
  have hl : cs.length = min 1 c.rest.length := by
    have := h8.length_le
    cases cs with
    | nil =>
      rcases h10 rfl with h0 | h0
      · simp at h0
      · simp [h0]
    | cons x xs => simp at h9 this ⊢; subst h9; simp at this ⊢; omega
  unfold Reader.read at h1
  simp only [RM.bind_run, h4, RM.pure_run, Prod.mk.injEq] at h1
  refine ⟨r', ?_, h2, ?_, h3⟩
  · unfold Reader.read
    simp only [RM.bind_run, h4, RM.pure_run, Prod.mk.injEq]
    exact h1
  · rw [hl, h1.2] at h6; exact h6

theorem advance_advance (c : Cursor) (a b : Nat) : (c.advance a).advance b = c.advance (a + b) := by
  simp only [Cursor.advance, Nat.add_assoc]

theorem moved_advance {r : Reader} {c : Cursor} {f o a b : Nat}
    (h : Moved r ((c.advance a).advance b) (max f (c.pos + a)) (newClean (c.advance a) (max f (c.pos + a)) o)) :
    Moved r (c.advance (a + b)) f o := by
  rw [← advance_advance]
  by_cases ha : c.pos + a ≤ f
  · exact moved_trans (c := c.advance a) rfl (by simp [Cursor.advance]) (by simpa [Cursor.advance] using ha) h
  · unfold Moved at h ⊢
    have h1 : max (max f (c.pos + a)) ((c.advance a).advance b).pos = max f ((c.advance a).advance b).pos := by
      simp only [Cursor.advance]; omega
    rw [h1] at h
    have h2 : ((c.advance a).advance b).pos = max f ((c.advance a).advance b).pos := by
      simp only [Cursor.advance]; omega
    unfold newClean at h ⊢
    by_cases h0 : c.marks = []
    · rw [if_pos ⟨h0, h2⟩] at h ⊢; exact h
    · rw [if_neg (fun hx => h0 hx.1)] at h ⊢
      rw [if_neg (fun hx => h0 hx.1)] at h
      exact h

theorem peekLoop_stands {r : Reader} {c : Cursor} {f o : Nat} (hr : RepIdle r c) (h : Holds r c f o) (n : Nat) :
    ∃ r', Reader.peekLoop n r = (.ok (c.rest.take n), r') ∧ RepIdle r' (c.advance (min n c.rest.length)) ∧
      Moved r' (c.advance (min n c.rest.length)) f o ∧ r'.buffer.dbg = r.buffer.dbg := by
  induction n generalizing r c f o with
  | zero => exact ⟨r, by simp [Reader.peekLoop], by simpa using hr, by simpa using moved_zero h, rfl⟩
  | succ n ih =>
    obtain ⟨r1, h1, h2, hm, h3⟩ := read_stands hr h
    simp only [Reader.peekLoop, RM.bind_run, h1]
    cases hc : c.rest with
    | nil =>
      rw [hc] at h2 hm
      exact ⟨r1, by simp, by simpa using h2, by simpa using hm, h3⟩
    | cons x xs =>
      rw [hc] at h2 hm
      simp only [List.length_cons, List.head?_cons] at h2 hm ⊢
      rw [Nat.min_eq_left (by omega)] at h2 hm
      obtain ⟨r2, h4, h5, h7, h6⟩ := ih h2 hm
      rw [rest_cons hc] at h4 h5 h7
      have h8 := moved_advance h7
      rw [advance_advance] at h5
      have he : 1 + min n xs.length = min (n + 1) (xs.length + 1) := by omega
      rw [he] at h8 h5
      refine ⟨r2, ?_, h5, h8, h6.trans h3⟩
      simp only [RM.bind_run, h4, RM.pure_run, List.take_succ_cons]

theorem prefixLoop_stands {r : Reader} {c : Cursor} {f o : Nat} (hr : RepIdle r c) (h : Holds r c f o) (p : Str) :
    ∃ r', Reader.prefixLoop p r = (.ok (decide (p <+: c.rest)), r') ∧ RepIdle r' (c.advance (examined p c.rest)) ∧
      Moved r' (c.advance (examined p c.rest)) f o ∧ r'.buffer.dbg = r.buffer.dbg := by
  induction p generalizing r c f o with
  | nil => exact ⟨r, by simp [Reader.prefixLoop], by simpa [examined] using hr, by simpa [examined] using moved_zero h, rfl⟩
  | cons x p ih =>
    obtain ⟨r1, h1, h2, hm, h3⟩ := read_stands hr h
    simp only [Reader.prefixLoop, RM.bind_run, h1]
    by_cases hx : c.rest.head? = some x
    · rw [if_neg (by simpa using hx)]
      cases hc : c.rest with
      | nil => rw [hc] at hx; simp at hx
      | cons y ys =>
        rw [hc] at hx h2 hm
        simp only [List.head?_cons, Option.some.injEq] at hx
        subst hx
        rw [List.length_cons, Nat.min_eq_left (by omega)] at h2 hm
        obtain ⟨r2, h4, h5, h7, h6⟩ := ih h2 hm
        rw [rest_cons hc] at h4 h5 h7
        have h8 := moved_advance h7
        rw [advance_advance] at h5
        refine ⟨r2, ?_, by simpa [examined] using h5, by simpa [examined] using h8, h6.trans h3⟩
        rw [h4]
        simp [List.cons_prefix_cons]
    · rw [if_pos hx]
      cases hc : c.rest with
      | nil =>
        rw [hc] at h2 hm
        exact ⟨r1, by simp, by simpa [examined] using h2, by simpa [examined] using hm, h3⟩
      | cons y ys =>
        rw [hc] at hx h2 hm
        simp only [List.head?_cons, Option.some.injEq] at hx
        rw [List.length_cons, Nat.min_eq_left (by omega)] at h2 hm
        refine ⟨r1, ?_, by simpa [examined, hx] using h2, by simpa [examined, hx] using hm, h3⟩
        simp [List.cons_prefix_cons, Ne.symm hx]

theorem skipLoop_stands {r : Reader} {c : Cursor} {f o : Nat} (hr : RepIdle r c) (h : Holds r c f o) (fuel n : Nat)
    (hf : n ≤ fuel) :
    ∃ r', Reader.skipLoop fuel n r = (.ok (n - min n c.rest.length), r') ∧ RepIdle r' (c.advance (min n c.rest.length)) ∧
      Moved r' (c.advance (min n c.rest.length)) f o ∧ r'.buffer.dbg = r.buffer.dbg := by
  induction fuel generalizing r c n f o with
  | zero =>
    have : n = 0 := by omega
    subst this
    exact ⟨r, by simp [Reader.skipLoop], by simpa using hr, by simpa using moved_zero h, rfl⟩
  | succ fuel ih =>
    cases n with
    | zero => exact ⟨r, by simp [Reader.skipLoop], by simpa using hr, by simpa using moved_zero h, rfl⟩
    | succ n =>
      obtain ⟨cs, r1, h1, h2, hm, h3, h4, h5, h6⟩ := readChars_stands hr h (min (n + 1) 1024)
      simp only [Reader.skipLoop, RM.bind_run, h1]
      cases cs with
      | nil =>
        have hc : c.rest = [] := by exact (h6 rfl).resolve_left (by omega)
        exact ⟨r1, by simp [hc], by simpa [hc] using h2, by simpa [hc] using hm, h3⟩
      | cons x xs =>
        simp only [List.isEmpty_cons, Bool.false_eq_true, if_false]
        have hlen : (x :: xs).length ≤ n + 1 := by omega
        have hle := h4.length_le
        obtain ⟨r2, h7, h8, h10, h9⟩ := ih h2 hm (n + 1 - (x :: xs).length) (by simp only [List.length_cons] at *; omega)
        have hrl : (c.advance (x :: xs).length).rest.length = c.rest.length - (x :: xs).length := by
          rw [cursor_rest_length, cursor_rest_length]
          simp only [Cursor.advance]; omega
        rw [hrl] at h7 h8 h10
        have he1 : n + 1 - (x :: xs).length - min (n + 1 - (x :: xs).length) (c.rest.length - (x :: xs).length) =
            n + 1 - min (n + 1) c.rest.length := by omega
        have he2 : (x :: xs).length + min (n + 1 - (x :: xs).length) (c.rest.length - (x :: xs).length) =
            min (n + 1) c.rest.length := by omega
        rw [he1] at h7
        have h11 := moved_advance h10
        rw [advance_advance] at h8
        rw [he2] at h8 h11
        exact ⟨r2, h7, h8, h11, h9.trans h3⟩

theorem skip_stands {r : Reader} {c : Cursor} {f o : Nat} (hr : RepIdle r c) (h : Holds r c f o) (n : Nat) :
    ∃ r', Reader.skip n r = (.ok (min n c.rest.length), r') ∧ RepIdle r' (c.advance (min n c.rest.length)) ∧
      Moved r' (c.advance (min n c.rest.length)) f o ∧ r'.buffer.dbg = r.buffer.dbg := by
  obtain ⟨r1, h1, h2, hm, h3⟩ := skipLoop_stands hr h n n (Nat.le_refl n)
  refine ⟨r1, ?_, h2, hm, h3⟩
  unfold Reader.skip
  simp only [RM.bind_run, h1, RM.pure_run]
  congr 2
  omega

theorem readAllLoop_stands {r : Reader} {c : Cursor} {f o : Nat} (hr : RepIdle r c) (h : Holds r c f o) (fuel : Nat)
    (hf : c.rest.length < fuel) :
    ∃ r', Reader.readAllLoop fuel r = (.ok c.rest, r') ∧ RepIdle r' (c.advance c.rest.length) ∧
      Moved r' (c.advance c.rest.length) f o ∧ r'.buffer.dbg = r.buffer.dbg := by
  induction fuel generalizing r c f o with
  | zero => omega
  | succ fuel ih =>
    obtain ⟨cs, r1, h1, h2, hm, h3, h4, h5, h6⟩ := readChars_stands hr h 1024
    simp only [Reader.readAllLoop, RM.bind_run, h1]
    cases cs with
    | nil =>
      have hc : c.rest = [] := by exact (h6 rfl).resolve_left (by omega)
      exact ⟨r1, by simp [hc], by simpa [hc] using h2, by simpa [hc] using hm, h3⟩
    | cons x xs =>
      simp only [List.isEmpty_cons, Bool.false_eq_true, if_false]
      obtain ⟨t, ht⟩ := h4
      have hadv : (c.advance (x :: xs).length).rest = t := drop_add_prefix ht.symm
      have hlen : c.rest.length = (x :: xs).length + t.length := by rw [← ht]; simp; omega
      obtain ⟨r2, h7, h8, h10, h9⟩ := ih h2 hm (by rw [hadv]; simp only [List.length_cons] at hlen; omega)
      rw [hadv] at h7 h8 h10
      have h11 := moved_advance h10
      rw [advance_advance] at h8
      rw [← hlen] at h8 h11
      refine ⟨r2, ?_, h8, h11, h9.trans h3⟩
      simp only [RM.bind_run, h7, RM.pure_run]
      rw [ht]

theorem mark_stands {r : Reader} {c : Cursor} {f o : Nat} (hr : RepIdle r c) (h : Holds r c f o) :
    ∃ m r', Reader.mark r = (.ok m, r') ∧ RepIdle r' { c with marks := (m, c.pos) :: c.marks } ∧
      Holds r' { c with marks := (m, c.pos) :: c.marks } f o ∧
      r'.buffer.dbg = r.buffer.dbg ∧ (∀ m' p, (m', p) ∈ c.marks → (m' = m ↔ p = c.pos)) := by
  obtain ⟨m, r', h1, h2, h3, h4⟩ := mark_rep hr
  refine ⟨m, r', h1, h2, ?_, h3, h4⟩
  have hb : r'.buffer.buffer = r.buffer.buffer ∧ r'.buffer.next = r.buffer.next := by
    have hb : r.buffer.mark.2.buffer = r.buffer.buffer ∧ r.buffer.mark.2.next = r.buffer.next := by
      unfold UnreadBuffer.mark
      dsimp only
      generalize (r.buffer.dbg && _) = b
      cases b <;> exact ⟨rfl, rfl⟩
    have h5 := congrArg Prod.snd h1
    simp only [Reader.mark] at h5
    rw [← h5]; exact hb
  refine ⟨h.o_le, h.pos_le, h.f_le, by rw [hb.1, h.buf], by rw [hb.2, h.next], by simp, ?_, ?_⟩
  · intro x hx
    simp only [List.mem_cons] at hx
    rcases hx with rfl | hx
    · exact h.o_le
    · exact h.marks x hx
  · intro ms m' p hms hp
    simp only at hms
    cases ms with
    | nil =>
      simp only [List.nil_append, List.cons.injEq, Prod.mk.injEq] at hms
      exact h.clean hms.2 (by rw [hms.1.2]; exact hp)
    | cons y ys =>
      simp only [List.cons_append, List.cons.injEq] at hms
      exact h.bottom ys m' p hms.2 hp

theorem resetToMark_stands {r : Reader} {c : Cursor} {f o : Nat} (hr : RepIdle r c) (h : Holds r c f o) {m p : Nat}
    {newer older : List (Nat × Nat)}
    (hm : c.marks = newer ++ (m, p) :: older) (hn : ∀ x ∈ newer, x.1 ≠ m) :
    ∃ r', Reader.resetToMark m r = (.ok (c.pos - p), r') ∧ RepIdle r' { c with pos := p, marks := older } ∧
      Holds r' { c with pos := p, marks := older } f o ∧ r'.buffer.dbg = r.buffer.dbg := by
  obtain ⟨r', h1, h2, h3, h4⟩ := resetToMark_rep hr hm hn
  refine ⟨r', h1, h2, ?_, h3⟩
  have hop := h.marks (m, p) (by rw [hm]; simp)
  have hpl := h.pos_le
  simp only at hop
  have hb : r'.buffer.buffer = r.buffer.buffer ∧ r'.buffer.next = m - r.buffer.head := by
    unfold Reader.resetToMark UnreadBuffer.revert at h1
    rw [removeMark_found hr hm hn] at h1
    simp only at h1
    split at h1
    · simp at h1
    · simp only [Prod.mk.injEq] at h1
      rw [← h1.2]; exact ⟨rfl, rfl⟩
  obtain ⟨text, _, _, hmarks⟩ := hr.src
  obtain ⟨h5, h6, h7, _⟩ := hmarks m p (by rw [hm]; simp)
  have hnx := h.next
  have hol := h.o_le
  refine ⟨hop, by simp only; omega, h.f_le, by rw [hb.1, h.buf], by rw [hb.2]; simp only; omega, ?_, ?_, ?_⟩
  · intro h8 h9
    simp only at h8 h9
    exact h.bottom newer m p (by rw [hm, h8]) h9
  · intro x hx
    exact h.marks x (by rw [hm]; simp at hx ⊢; simp [hx])
  · intro ms m' p' h8 h9
    simp only at h8
    exact h.bottom (newer ++ (m, p) :: ms) m' p' (by rw [hm, h8]; simp) h9

theorem unmark_stands {r : Reader} {c : Cursor} {f o : Nat} (hr : RepIdle r c) (h : Holds r c f o) {m p : Nat}
    {newer older : List (Nat × Nat)}
    (hm : c.marks = newer ++ (m, p) :: older) (hn : ∀ x ∈ newer, x.1 ≠ m) (ho : older ≠ []) :
    ∃ r', Reader.unmark m r = (.ok (), r') ∧ RepIdle r' { c with marks := older } ∧
      Holds r' { c with marks := older } f o ∧ r'.buffer.dbg = r.buffer.dbg := by
  obtain ⟨r', h1, h2, h3⟩ := unmark_rep hr hm hn (fun _ => ho)
  refine ⟨r', h1, h2, ?_, h3⟩
  have hb : r'.buffer.buffer = r.buffer.buffer ∧ r'.buffer.next = r.buffer.next := by
    unfold Reader.unmark at h1
    rw [removeMark_found hr hm hn] at h1
    simp only [Prod.mk.injEq] at h1
    rw [← h1.2]; exact ⟨rfl, rfl⟩
  refine ⟨h.o_le, h.pos_le, h.f_le, by rw [hb.1, h.buf], by rw [hb.2, h.next], fun hx => absurd hx ho, ?_, ?_⟩
  · intro x hx
    exact h.marks x (by rw [hm]; simp at hx ⊢; simp [hx])
  · intro ms m' p' h8 h9
    simp only at h8
    exact h.bottom (newer ++ (m, p) :: ms) m' p' (by rw [hm, h8]; simp) h9

/-- Mark, look, reset. -/
theorem lookahead_stands {α β : Type} {r : Reader} {c : Cursor} {f o : Nat} (hr : RepIdle r c) (h : Holds r c f o)
    {act : RM Reader α} {a : α} {g : α → β} {k : Nat}
    (hf : ∀ r1 c1, RepIdle r1 c1 → Holds r1 c1 f o → c1.pos = c.pos → c1.text = c.text → ∃ r2, act r1 = (.ok a, r2) ∧
      RepIdle r2 (c1.advance k) ∧ Moved r2 (c1.advance k) f o ∧ r2.buffer.dbg = r1.buffer.dbg) :
    ∃ r', (do let m ← Reader.mark; let x ← act; let _ ← Reader.resetToMark m; pure (g x) : RM Reader β) r =
        (.ok (g a), r') ∧ RepIdle r' c ∧ Holds r' c (max f (c.pos + k)) o ∧ r'.buffer.dbg = r.buffer.dbg := by
  obtain ⟨m, r1, h1, h2, h10, h3, _⟩ := mark_stands hr h
  obtain ⟨r2, h4, h5, h11, h6⟩ := hf r1 _ h2 h10 rfl rfl
  unfold Moved at h11
  rw [newClean_marks (by simp [Cursor.advance])] at h11
  obtain ⟨r3, h7, h8, h12, h9⟩ := resetToMark_stands h5 h11 (newer := []) (p := c.pos) (older := c.marks) rfl (by simp)
  refine ⟨r3, ?_, h8, h12, by rw [h9, h6, h3]⟩
  simp only [RM.bind_run, h1, h4, h7, RM.pure_run]

theorem moved_next {w : Window} {r' : Reader} {op : ReaderOp} {a : ReaderAns} {c' : Cursor}
    (hre : reach w.cursor op a = c'.pos) (h : Moved r' c' w.furthest w.clean) :
    Holds r' (w.next op a c').cursor (w.next op a c').furthest (w.next op a c').clean := by
  unfold Window.next
  simp only [hre]
  exact h

theorem holds_next {w : Window} {r' : Reader} {op : ReaderOp} {a : ReaderAns} {c' : Cursor} {f : Nat}
    (hf : max w.furthest (reach w.cursor op a) = f) (h : Holds r' c' f w.clean) :
    Holds r' (w.next op a c').cursor (w.next op a c').furthest (w.next op a c').clean := by
  unfold Window.next
  have := h.newClean
  unfold newClean at this
  simp only [hf, this]
  exact h

theorem rest_of_eq {c c1 : Cursor} (h2 : c1.pos = c.pos) (h3 : c1.text = c.text) : c1.rest = c.rest := by
  simp only [Cursor.rest, h2, h3]

/-- One operation. -/
theorem perform_stands {r : Reader} {w : Window} (hr : RepIdle r w.cursor) (h : Holds r w.cursor w.furthest w.clean)
    (op : ReaderOp) (hdb : ∀ m newer p older, op = .unmark m → w.cursor.marks = newer ++ (m, p) :: older →
      (∀ x ∈ newer, x.1 ≠ m) → older ≠ []) :
    ∃ a r' c', perform op r = (a, r') ∧ CursorStep w.cursor op a c' ∧ RepIdle r' c' ∧
      Holds r' (w.next op a c').cursor (w.next op a c').furthest (w.next op a c').clean ∧
      r'.buffer.dbg = r.buffer.dbg := by
  have hfind := newest_or_missing w.cursor.marks
  have hpl := h.pos_le
  have hmax : max w.furthest w.cursor.pos = w.furthest := by omega
  cases op with
  | read =>
    obtain ⟨r', h1, h2, h4, h3⟩ := read_stands hr h
    exact ⟨_, r', _, by rw [perform, h1]; rfl, .read _, h2, moved_next rfl h4, h3⟩
  | readChars n =>
    obtain ⟨cs, r', h1, h2, h7, h3, h4, h5, h6⟩ := readChars_stands hr h n
    exact ⟨_, r', _, by rw [perform, h1]; rfl, .readChars _ n cs h4 h5 h6, h2, moved_next rfl h7, h3⟩
  | readAll =>
    have := size_rep hr
    obtain ⟨r', h1, h2, h4, h3⟩ := readAllLoop_stands hr h (r.size + 1) (by omega)
    exact ⟨_, r', _, by rw [perform, Reader.readAll, h1]; rfl, .readAll _, h2, moved_next rfl h4, h3⟩
  | peek n =>
    obtain ⟨r', h1, h2, h4, h3⟩ := lookahead_stands (g := id) (a := w.cursor.rest.take n)
        (k := min n w.cursor.rest.length) hr h (act := Reader.peekLoop n) (fun r1 c1 h1 h5 h2 h3 => by
      obtain ⟨r2, h6, h7, h8, h9⟩ := peekLoop_stands h1 h5 n
      rw [rest_of_eq h2 h3] at h6 h7 h8
      exact ⟨r2, h6, h7, h8, h9⟩)
    have h1' : Reader.peek n r = (.ok (w.cursor.rest.take n), r') := h1
    exact ⟨_, r', _, by rw [perform, h1']; rfl, .peek _ n, h2, holds_next rfl h4, h3⟩
  | prefixMatches p =>
    obtain ⟨r', h1, h2, h4, h3⟩ := lookahead_stands (g := id) (a := decide (p <+: w.cursor.rest))
        (k := examined p w.cursor.rest) hr h (act := Reader.prefixLoop p) (fun r1 c1 h1 h5 h2 h3 => by
      obtain ⟨r2, h6, h7, h8, h9⟩ := prefixLoop_stands h1 h5 p
      rw [rest_of_eq h2 h3] at h6 h7 h8
      exact ⟨r2, h6, h7, h8, h9⟩)
    have h1' : Reader.prefixMatches p r = (.ok (decide (p <+: w.cursor.rest)), r') := h1
    exact ⟨_, r', _, by rw [perform, h1']; rfl, .prefixMatches _ p, h2, holds_next rfl h4, h3⟩
  | isEof =>
    obtain ⟨r', h1, h2, h4, h3⟩ := lookahead_stands (g := Option.isNone) (a := w.cursor.rest.head?)
        (k := min 1 w.cursor.rest.length) hr h (act := Reader.read) (fun r1 c1 h1 h5 h2 h3 => by
      obtain ⟨r2, h6, h7, h8, h9⟩ := read_stands h1 h5
      rw [rest_of_eq h2 h3] at h6 h7 h8
      exact ⟨r2, h6, h7, h8, h9⟩)
    have h1' : Reader.isEof r = (.ok w.cursor.rest.head?.isNone, r') := h1
    have he : w.cursor.rest.head?.isNone = decide (w.cursor.rest = []) := by cases w.cursor.rest <;> simp
    rw [he] at h1'
    exact ⟨_, r', _, by rw [perform, h1']; rfl, .isEof _, h2, holds_next rfl h4, h3⟩
  | skip n =>
    obtain ⟨r', h1, h2, h4, h3⟩ := skip_stands hr h n
    exact ⟨_, r', _, by rw [perform, h1]; rfl, .skip _ n, h2, moved_next rfl h4, h3⟩
  | mark =>
    obtain ⟨m, r', h1, h2, h5, h3, h4⟩ := mark_stands hr h
    exact ⟨_, r', _, by rw [perform, h1]; rfl, .mark _ m h4, h2, holds_next hmax h5, h3⟩
  | resetToMark m =>
    rcases hfind m with ⟨newer, p, older, h1, h2⟩ | h1
    · obtain ⟨r', h3, h4, h6, h5⟩ := resetToMark_stands hr h h1 h2
      exact ⟨_, r', _, by rw [perform, h3]; rfl, .reset _ m newer p older h1 h2, h4, holds_next hmax h6, h5⟩
    · exact ⟨_, r, _, resetToMark_missing hr h1, .resetInvalid _ m h1, hr, holds_next hmax h, rfl⟩
  | unmark m =>
    rcases hfind m with ⟨newer, p, older, h1, h2⟩ | h1
    · obtain ⟨r', h3, h4, h6, h5⟩ := unmark_stands hr h h1 h2 (hdb m newer p older rfl h1 h2)
      exact ⟨_, r', _, by rw [perform, h3]; rfl, .unmark _ m newer p older h1 h2, h4, holds_next hmax h6, h5⟩
    · exact ⟨_, r, _, unmark_missing hr h1, .unmarkInvalid _ m h1, hr, holds_next hmax h, rfl⟩
  | location =>
    refine ⟨_, r, w.cursor, ?_, .location _, hr, holds_next hmax h, rfl⟩
    rw [perform, Reader.location, ← hr.loc]; rfl

theorem performAll_stands {r : Reader} {w : Window} (hr : RepIdle r w.cursor) (h : Holds r w.cursor w.furthest w.clean)
    (ops : List ReaderOp) (hd : NestedUnmarks w.cursor ops) :
    ∃ as r' w', performAll ops r = (as, r') ∧ WindowSteps w ops as w' ∧ RepIdle r' w'.cursor ∧
      Holds r' w'.cursor w'.furthest w'.clean := by
  induction ops generalizing r w with
  | nil => exact ⟨[], r, w, rfl, .nil w, hr, h⟩
  | cons op ops ih =>
    obtain ⟨a, r1, c1, h1, h2, h3, h4, h9⟩ := perform_stands hr h op (by
      rintro m newer p older rfl h5 h6
      exact (hd _ _ (.unmark _ m newer p older h5 h6)).1 m rfl rfl)
    obtain ⟨as, r2, w2, h5, h6, h7, h8⟩ := ih (w := w.next op a c1) h3 h4 (hd a c1 h2).2
    exact ⟨a :: as, r2, w2, by simp only [performAll, h1, h5], .cons h2 h6, h7, h8⟩

theorem new_holds (location : Location) (s : Source) (text : Str) (dbg : Bool) :
    Holds (Reader.withLocation location s dbg) ⟨location, text, 0, []⟩ 0 0 :=
  ⟨Nat.le_refl _, Nat.le_refl _, Nat.zero_le _, rfl, rfl, fun _ _ => rfl, by simp, by simp⟩

end Ebnf
