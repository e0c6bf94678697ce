import Verif.Proofs.Faults

set_option autoImplicit false

/-! # Where a failing operation leaves the reader -/

namespace Ebnf

open Spec

variable {dbg : Bool} {α β : Type}

/-- Apart from the failures of its source, the reader stands at the cursor. -/
abbrev StandsF (dbg : Bool) (r : Reader) (c : Cursor) : Prop := Stands dbg (steady r) c

/-- A reader of this build may read on at the cursor. -/
def Open (dbg : Bool) (c : Cursor) : Prop := dbg = false ∨ c.marks ≠ []

theorem rel_release {r : Reader} (h : r.buffer.dbg = false) : rel r = r := by
  obtain ⟨s, b⟩ := r
  obtain ⟨a1, a2, a3, a4, a5, d⟩ := b
  simp only at h; subst h; rfl

/-- Reading where it is allowed. -/
theorem readChars_at {r : Reader} {c : Cursor} (h : Stands dbg r c) (ho : Open dbg c) (n : Nat) :
    ∃ cs r', Reader.readChars n r = (.ok cs, r') ∧ Stands dbg r' (c.advance cs.length) ∧ cs <+: c.rest ∧ cs.length ≤ n ∧
      (cs = [] → n = 0 ∨ c.rest = []) := by
  obtain ⟨cs, r', h1, h2, h3, h4, h5, h6⟩ := readChars_rep (rel_rep h.1) n
  rcases ho with hd | hm
  · have hr := rel_release (h.2.trans hd)
    rw [hr] at h1 h3
    exact ⟨cs, r', h1, ⟨h2.toRep, h3.trans h.2⟩, h4, h5, h6⟩
  · obtain ⟨r2, a1, a2, _⟩ := in_build (mirrors_readChars n) (quiet_readChars n r (marked_stack h.1 hm)).1 h1 h2 h.2
    exact ⟨cs, r2, a1, a2, h4, h5, h6⟩

theorem open_advance {c : Cursor} (h : Open dbg c) (k : Nat) : Open dbg (c.advance k) := h

/-- `read_chars` fails and stays, or reads. -/
theorem readChars_F {r : Reader} {c : Cursor} (h : StandsF dbg r c) (ho : Open dbg c) (n : Nat) :
    (∃ e r', Reader.readChars n r = (.err e, r') ∧ StandsF dbg r' c) ∨
    (∃ cs r', Reader.readChars n r = (.ok cs, r') ∧ StandsF dbg r' (c.advance cs.length) ∧ cs <+: c.rest ∧ cs.length ≤ n ∧
      (cs = [] → n = 0 ∨ c.rest = [])) := by
  rcases readChars_fault n r with ⟨below, code, r', h1, h2, _⟩ | ⟨h1, _⟩
  · exact .inl ⟨_, r', h1, by rw [StandsF, h2]; exact h⟩
  · obtain ⟨cs, r', h3, h4, h5⟩ := readChars_at h ho n
    right
    rw [h3] at h1
    generalize Reader.readChars n r = x at h1
    obtain ⟨x, r1⟩ := x
    injection h1 with h6 h7
    subst h6 h7
    exact ⟨cs, r1, rfl, h4, h5⟩

theorem read_F {r : Reader} {c : Cursor} (h : StandsF dbg r c) (ho : Open dbg c) :
    (∃ e r', Reader.read r = (.err e, r') ∧ StandsF dbg r' c) ∨
    (∃ r', Reader.read r = (.ok c.rest.head?, r') ∧ StandsF dbg r' (c.advance (min 1 c.rest.length))) := by
  unfold Reader.read
  simp only [RM.bind_run]
  rcases readChars_F h ho 1 with ⟨e, r', h1, h2⟩ | ⟨cs, r', h1, h2, h3, h4, h5⟩
  · exact .inl ⟨e, r', by rw [h1], h2⟩
  · right
    rw [h1]
    refine ⟨r', ?_, ?_⟩ <;> cases cs with
    | nil =>
      have : c.rest = [] := by simpa using h5
      simp_all
    | cons x xs =>
      have : xs = [] := by cases xs <;> simp_all
      subst this
      obtain ⟨t, ht⟩ := h3
      rw [← ht] at *
      simp_all

theorem peekLoop_F {n : Nat} : ∀ {r : Reader} {c : Cursor}, StandsF dbg r c → Open dbg c → ∀ e,
    (Reader.peekLoop n r).1 = .err e →
    ∃ k, k < n ∧ k ≤ c.rest.length ∧ StandsF dbg (Reader.peekLoop n r).2 (c.advance k) := by
  induction n with
  | zero => intro r c _ _ e h; simp [Reader.peekLoop] at h
  | succ n ih =>
    intro r c h ho e he
    unfold Reader.peekLoop at he ⊢
    simp only [RM.bind_run] at he ⊢
    rcases read_F h ho with ⟨e', r', h1, h2⟩ | ⟨r', h1, h2⟩
    · rw [h1]
      exact ⟨0, by omega, by omega, h2⟩
    · rw [h1] at he ⊢
      cases hr : c.rest with
      | nil => rw [hr] at he; simp at he
      | cons x xs =>
        rw [hr] at h2 he
        simp only [List.head?_cons, RM.bind_run] at he ⊢
        have hm : min 1 (x :: xs).length = 1 := by simp
        rw [hm] at h2
        have hx : (c.advance 1).rest = xs := rest_cons hr
        have ih' := ih h2 (open_advance ho 1)
        generalize Reader.peekLoop n r' = y at he ih'
        obtain ⟨y, r2⟩ := y
        cases y with
        | ok a => simp at he
        | panic p => simp at he
        | diverge => simp at he
        | err e' =>
          obtain ⟨k, h3, h4, h5⟩ := ih' e' rfl
          refine ⟨k + 1, by omega, by simp only [List.length_cons]; rw [hx] at h4; omega, ?_⟩
          have : c.advance (k + 1) = (c.advance 1).advance k := by
            simp [Cursor.advance, Nat.add_assoc, Nat.add_comm 1 k]
          rw [this]; exact h5

theorem prefixLoop_F {p : Str} : ∀ {r : Reader} {c : Cursor}, StandsF dbg r c → Open dbg c → ∀ e,
    (Reader.prefixLoop p r).1 = .err e →
    ∃ k, k < p.length ∧ p.take k <+: c.rest ∧ StandsF dbg (Reader.prefixLoop p r).2 (c.advance k) := by
  induction p with
  | nil => intro r c _ _ e h; simp [Reader.prefixLoop] at h
  | cons ch p ih =>
    intro r c h ho e he
    unfold Reader.prefixLoop at he ⊢
    simp only [RM.bind_run] at he ⊢
    rcases read_F h ho with ⟨e', r', h1, h2⟩ | ⟨r', h1, h2⟩
    · rw [h1]
      exact ⟨0, by simp, by simp, h2⟩
    · rw [h1] at he ⊢
      simp only at he ⊢
      by_cases hc : c.rest.head? ≠ some ch
      · rw [if_pos hc] at he; simp at he
      · rw [if_neg hc] at he ⊢
        obtain ⟨xs, hr⟩ : ∃ xs, c.rest = ch :: xs := by
          cases hr : c.rest with
          | nil => rw [hr] at hc; simp at hc
          | cons x xs => rw [hr] at hc; simp at hc; exact ⟨xs, by rw [hc]⟩
        rw [hr] at h2
        have hm : min 1 (ch :: xs).length = 1 := by simp
        rw [hm] at h2
        have hx : (c.advance 1).rest = xs := rest_cons hr
        obtain ⟨k, h3, h4, h5⟩ := ih h2 (open_advance ho 1) e he
        refine ⟨k + 1, by simp only [List.length_cons]; omega, ?_, ?_⟩
        · rw [hx] at h4
          rw [hr, List.take_succ_cons]
          exact List.cons_prefix_cons.mpr ⟨rfl, h4⟩
        · have : c.advance (k + 1) = (c.advance 1).advance k := by
            simp [Cursor.advance, Nat.add_assoc, Nat.add_comm 1 k]
          rw [this]; exact h5

theorem skipLoop_F {fuel : Nat} : ∀ {n : Nat} {r : Reader} {c : Cursor}, StandsF dbg r c → Open dbg c → ∀ e,
    (Reader.skipLoop fuel n r).1 = .err e →
    ∃ k, k < n ∧ k ≤ c.rest.length ∧ StandsF dbg (Reader.skipLoop fuel n r).2 (c.advance k) := by
  induction fuel with
  | zero => intro n r c _ _ e h; cases n <;> simp [Reader.skipLoop] at h
  | succ fuel ih =>
    intro n r c h ho e he
    cases n with
    | zero => simp [Reader.skipLoop] at he
    | succ n =>
      unfold Reader.skipLoop at he ⊢
      simp only [RM.bind_run] at he ⊢
      rcases readChars_F h ho (min (n + 1) 1024) with ⟨e', r', h1, h2⟩ | ⟨cs, r', h1, h2, h3, h4, h5⟩
      · rw [h1]
        exact ⟨0, by omega, by omega, h2⟩
      · rw [h1] at he ⊢
        simp only at he ⊢
        by_cases hc : cs.isEmpty = true
        · rw [if_pos hc] at he; simp at he
        · rw [if_neg hc] at he ⊢
          obtain ⟨k, h6, h7, h8⟩ := ih h2 (open_advance ho _) e he
          have hrest : (c.advance cs.length).rest.length = c.rest.length - cs.length := by
            simp [Cursor.rest, Cursor.advance]; omega
          have hl := h3.length_le
          refine ⟨cs.length + k, by omega, by omega, ?_⟩
          have : c.advance (cs.length + k) = (c.advance cs.length).advance k := by
            simp [Cursor.advance, Nat.add_assoc]
          rw [this]; exact h8

theorem readAllLoop_F {fuel : Nat} : ∀ {r : Reader} {c : Cursor}, StandsF dbg r c → Open dbg c → ∀ e,
    (Reader.readAllLoop fuel r).1 = .err e →
    ∃ k, k ≤ c.rest.length ∧ StandsF dbg (Reader.readAllLoop fuel r).2 (c.advance k) := by
  induction fuel with
  | zero => intro r c _ _ e h; simp [Reader.readAllLoop] at h
  | succ fuel ih =>
    intro r c h ho e he
    unfold Reader.readAllLoop at he ⊢
    simp only [RM.bind_run] at he ⊢
    rcases readChars_F h ho 1024 with ⟨e', r', h1, h2⟩ | ⟨cs, r', h1, h2, h3, h4, h5⟩
    · rw [h1]
      exact ⟨0, by omega, h2⟩
    · rw [h1] at he ⊢
      simp only at he ⊢
      by_cases hc : cs.isEmpty = true
      · rw [if_pos hc] at he; simp at he
      · rw [if_neg hc] at he ⊢
        simp only [RM.bind_run] at he ⊢
        have ih' := ih h2 (open_advance ho _)
        generalize Reader.readAllLoop fuel r' = y at he ih'
        obtain ⟨y, r2⟩ := y
        cases y with
        | ok a => simp at he
        | panic p => simp at he
        | diverge => simp at he
        | err e' =>
          obtain ⟨k, h7, h8⟩ := ih' e' rfl
          have hrest : (c.advance cs.length).rest.length = c.rest.length - cs.length := by
            simp [Cursor.rest, Cursor.advance]; omega
          have hl := h3.length_le
          refine ⟨cs.length + k, by omega, ?_⟩
          have : c.advance (cs.length + k) = (c.advance cs.length).advance k := by
            simp [Cursor.advance, Nat.add_assoc]
          rw [this]; exact h8

/-- What does not touch the source. -/
theorem untouched {f : RM Reader α} (hf : ∀ r, f (steady r) = ((f r).1, steady (f r).2)) {r r1 : Reader} {x : Res α}
    (h : f (steady r) = (x, r1)) : ∃ r', f r = (x, r') ∧ steady r' = r1 := by
  rw [hf] at h
  injection h with h1 h2
  exact ⟨(f r).2, by rw [← h1], h2⟩

theorem mark_steady (r : Reader) : Reader.mark (steady r) = ((Reader.mark r).1, steady (Reader.mark r).2) := rfl

theorem reset_steady (m : Nat) (r : Reader) :
    Reader.resetToMark m (steady r) = ((Reader.resetToMark m r).1, steady (Reader.resetToMark m r).2) := rfl

theorem unmark_steady (m : Nat) (r : Reader) :
    Reader.unmark m (steady r) = ((Reader.unmark m r).1, steady (Reader.unmark m r).2) := by
  simp only [Reader.unmark, steady]
  generalize r.buffer.removeMark m = x
  obtain ⟨x, b⟩ := x
  cases x <;> rfl

theorem mark_F {r : Reader} {c : Cursor} (h : StandsF dbg r c) :
    ∃ m r', Reader.mark r = (.ok m, r') ∧ StandsF dbg r' ⟨c.start, c.text, c.pos, (m, c.pos) :: c.marks⟩ ∧ NewMark c m := by
  obtain ⟨m, r1, h1, h2, h3, h4⟩ := mark_rep (rel_rep h.1)
  obtain ⟨r2, a1, a2, _⟩ := in_build mirrors_mark (mark_quiet h.1) h1 h2 h.2
  obtain ⟨r3, b1, b2⟩ := untouched mark_steady a1
  exact ⟨m, r3, b1, by rw [StandsF, b2]; exact a2, h4⟩

theorem reset_F {r : Reader} {start : Location} {text : Str} {pos : Nat} {own ms : List (Nat × Nat)} {m p : Nat}
    (h : StandsF dbg r ⟨start, text, pos, own ++ (m, p) :: ms⟩) :
    ∃ k r' own', Reader.resetToMark m r = (.ok k, r') ∧ StandsF dbg r' ⟨start, text, p, own' ++ ms⟩ := by
  obtain ⟨k, r1, own', h1, h2⟩ := reset_back h
  obtain ⟨r3, b1, b2⟩ := untouched (reset_steady m) h1
  exact ⟨k, r3, own', b1, by rw [StandsF, b2]; exact h2⟩

theorem unmark_F {r : Reader} {start : Location} {text : Str} {pos : Nat} {own ms : List (Nat × Nat)} {m p : Nat}
    (h : StandsF dbg r ⟨start, text, pos, own ++ (m, p) :: ms⟩) :
    ∃ r' own', Reader.unmark m r = (.ok (), r') ∧ StandsF dbg r' ⟨start, text, pos, own' ++ ms⟩ := by
  obtain ⟨r1, own', h1, h2⟩ := unmark_back h
  obtain ⟨r3, b1, b2⟩ := untouched (unmark_steady m) h1
  exact ⟨r3, own', b1, by rw [StandsF, b2]; exact h2⟩

theorem location_F {r : Reader} {c : Cursor} (h : StandsF dbg r c) : Reader.location r = (.ok c.location, r) := by
  have := h.1.loc
  rw [Reader.location, ← this]; rfl

/-- A method that passes failures on fails, or does what it does over a source that does not fail. -/
theorem passes_F {f : RM Reader α} (hf : PassesFaults f) {r r1 : Reader} {x : Res α} (h : f (steady r) = (x, r1)) :
    (∃ e r', f r = (.err e, r') ∧ IsFault e) ∨ ∃ r', f r = (x, r') ∧ steady r' = r1 := by
  rcases hf r with ⟨e, h1, h2⟩ | h1
  · exact .inl ⟨e, (f r).2, by rw [← h1], h2⟩
  · rw [h1] at h
    injection h with h2 h3
    exact .inr ⟨(f r).2, by rw [← h2], h3⟩

/-- A failing look-ahead leaves its mark. -/
theorem under_F {f : RM Reader α} {g : α → β} {r : Reader} {c : Cursor} {P : Nat → Prop} (h : StandsF dbg r c)
    (hp : PassesFaults f)
    (hok : ∀ r1 c1, Stands dbg r1 c1 → c1.marks ≠ [] → c1.rest = c.rest →
      ∃ a r2 k, f r1 = (.ok a, r2) ∧ Stands dbg r2 (c1.advance k))
    (hf : ∀ r1 c1, StandsF dbg r1 c1 → c1.marks ≠ [] → c1.rest = c.rest → ∀ e, (f r1).1 = .err e →
      ∃ k, P k ∧ StandsF dbg (f r1).2 (c1.advance k)) {e : Error}
    (he : ((do let m ← Reader.mark; let x ← f; let _ ← Reader.resetToMark m; pure (g x) : RM Reader β) r).1 = .err e) :
    ∃ k m, P k ∧ NewMark c m ∧
      StandsF dbg ((do let m ← Reader.mark; let x ← f; let _ ← Reader.resetToMark m; pure (g x) : RM Reader β) r).2
        { c.advance k with marks := (m, c.pos) :: c.marks } := by
  obtain ⟨m, r1, h1, h2, h3⟩ := mark_F h
  simp only [RM.bind_run, h1] at he ⊢
  have hf' := hf r1 _ h2 (by simp) rfl
  obtain ⟨a, r2, k, h4, h5⟩ := hok (steady r1) _ h2 (by simp) rfl
  rcases passes_F hp h4 with ⟨e', r3, h6, _⟩ | ⟨r3, h6, h7⟩
  · rw [h6] at hf' ⊢
    obtain ⟨k, h8, h9⟩ := hf' e' rfl
    exact ⟨k, m, h8, h3, h9⟩
  · exfalso
    subst h7
    obtain ⟨k', r4, own', h8, _⟩ := reset_F (own := []) h5
    rw [h6] at he
    simp only [h8, RM.pure_run] at he
    cases he

/-- `peek` with a failing source. -/
theorem peek_F {r : Reader} {c : Cursor} (h : StandsF dbg r c) (n : Nat) {e : Error} (he : (Reader.peek n r).1 = .err e) :
    ∃ k m, (k < n ∧ k ≤ c.rest.length) ∧ NewMark c m ∧
      StandsF dbg (Reader.peek n r).2 { c.advance k with marks := (m, c.pos) :: c.marks } := by
  refine under_F (g := id) h (passes_peekLoop n).spec (fun r1 c1 h1 hm _ => ?_) (fun r1 c1 h1 hm hr e he => ?_) he
  · obtain ⟨r2, a1, a2, _⟩ := peekLoop_rep (rel_rep h1.1) n
    obtain ⟨r3, b1, b2, _⟩ := in_build (mirrors_peekLoop n) (quiet_peekLoop n r1 (marked_stack h1.1 hm)).1 a1 a2 h1.2
    exact ⟨_, r3, _, b1, b2⟩
  · obtain ⟨k, a1, a2, a3⟩ := peekLoop_F h1 (.inr hm) e he
    exact ⟨k, ⟨a1, by rw [← hr]; exact a2⟩, a3⟩

/-- `prefix_matches` with a failing source. -/
theorem prefixMatches_F {r : Reader} {c : Cursor} (h : StandsF dbg r c) (p : Str) {e : Error}
    (he : (Reader.prefixMatches p r).1 = .err e) :
    ∃ k m, (k < p.length ∧ p.take k <+: c.rest) ∧ NewMark c m ∧
      StandsF dbg (Reader.prefixMatches p r).2 { c.advance k with marks := (m, c.pos) :: c.marks } := by
  refine under_F (g := id) h (passes_prefixLoop p).spec (fun r1 c1 h1 hm _ => ?_) (fun r1 c1 h1 hm hr e he => ?_) he
  · obtain ⟨r2, k, a1, a2, _⟩ := prefixLoop_rep (rel_rep h1.1) p
    obtain ⟨r3, b1, b2, _⟩ := in_build (mirrors_prefixLoop p) (quiet_prefixLoop p r1 (marked_stack h1.1 hm)).1 a1 a2 h1.2
    exact ⟨_, r3, _, b1, b2⟩
  · obtain ⟨k, a1, a2, a3⟩ := prefixLoop_F h1 (.inr hm) e he
    exact ⟨k, ⟨a1, by rw [← hr]; exact a2⟩, a3⟩

/-- `is_eof` with a failing source. -/
theorem isEof_F {r : Reader} {c : Cursor} (h : StandsF dbg r c) {e : Error} (he : (Reader.isEof r).1 = .err e) :
    ∃ m, NewMark c m ∧ StandsF dbg (Reader.isEof r).2 { c with marks := (m, c.pos) :: c.marks } := by
  have := under_F (g := Option.isNone) (P := fun k => k = 0) h passes_read.spec (fun r1 c1 h1 hm _ => ?_)
    (fun r1 c1 h1 hm hr e he => ?_) he
  · obtain ⟨k, m, rfl, h1, h2⟩ := this
    exact ⟨m, h1, h2⟩
  · obtain ⟨r2, a1, a2⟩ := read_at h1 hm
    exact ⟨_, r2, _, a1, a2⟩
  · rcases read_F h1 (.inr hm) with ⟨e', r', a1, a2⟩ | ⟨r', a1, a2⟩
    · exact ⟨0, rfl, by rw [a1]; exact a2⟩
    · rw [a1] at he; cases he

end Ebnf
