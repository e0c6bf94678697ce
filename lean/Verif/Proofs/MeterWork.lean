import Verif.Proofs.MeterParse
import Verif.Spec.Work
import Verif.Model.Steps

set_option autoImplicit false

/-! # Lemmas: what a parse costs in all (C105) -/

namespace Ebnf.Meter

open Ebnf.Spec Ebnf.Dyn

/-- Steps over marks taken, and marks that may have to be looked at later. -/
def phi (s : Metered) : Nat := s.marks + s.reader.buffer.stack.length

/-- At most `c` characters are copied and, up to those that are left set, `d` marks made or looked at. -/
structure Cost {α : Type} (c d : Nat) (s : Metered) (out : Res α × Metered) : Prop where
  sound : Sound out.2.reader
  size : out.2.reader.size ≤ s.reader.size
  copied : out.2.copied ≤ s.copied + c
  ok : ∀ a, out.1 = .ok a → phi out.2 ≤ phi s + d
  all : out.2.marks ≤ 3 * (phi s + d) + 3

variable {α β : Type} {c d c' d' : Nat} {s : Metered}

theorem cost_here (hs : Sound s.reader) (x : Res α) : Cost 0 0 s (x, s) :=
  ⟨hs, Nat.le_refl _, Nat.le_refl _, fun _ _ => Nat.le_refl _, by simp only [phi]; omega⟩

theorem Cost.mono {out : Res α × Metered} (h : Cost c d s out) (hc : c ≤ c') (hd : d ≤ d') : Cost c' d' s out :=
  ⟨h.sound, h.size, by have := h.copied; omega, fun a ha => by have := h.ok a ha; omega, by have := h.all; omega⟩

theorem Cost.stop {x : Res α} {y : Res β} {s1 : Metered} (h : Cost c d s (x, s1)) (hy : ∀ b, y ≠ .ok b) : Cost c d s (y, s1) :=
  ⟨h.sound, h.size, h.copied, fun b hb => absurd hb (hy b), h.all⟩

theorem Cost.pure {a : α} {s1 : Metered} (h : Cost c d s (.ok a, s1)) (y : Res β) : Cost c d s (y, s1) :=
  ⟨h.sound, h.size, h.copied, fun _ _ => h.ok a rfl, h.all⟩

theorem Cost.trans {a : α} {s1 : Metered} {out : Res β × Metered} (h : Cost c d s (.ok a, s1)) (h' : Cost c' d' s1 out) :
    Cost (c + c') (d + d') s out := by
  have h1 := h.ok a rfl
  have h2 := h.copied
  simp only at h1 h2
  exact ⟨h'.sound, Nat.le_trans h'.size h.size, by have := h'.copied; omega, fun b hb => by have := h'.ok b hb; omega,
    by have := h'.all; omega⟩

theorem cost_bind {x : RM Metered α} {f : α → RM Metered β} (h : Cost c d s (x s))
    (hf : ∀ a, (x s).1 = .ok a → Cost c' d' (x s).2 (f a (x s).2)) : Cost (c + c') (d + d') s ((x >>= f) s) := by
  simp only [RM.bind_run]
  generalize x s = q at h hf
  obtain ⟨a, s1⟩ := q
  cases a with
  | ok a => exact h.trans (hf a rfl)
  | err e => exact (h.stop nofun).mono (Nat.le_add_right _ _) (Nat.le_add_right _ _)
  | panic e => exact (h.stop nofun).mono (Nat.le_add_right _ _) (Nat.le_add_right _ _)
  | diverge => exact (h.stop nofun).mono (Nat.le_add_right _ _) (Nat.le_add_right _ _)

theorem cost_loop {out : Res α × Metered} (h : LoopFacts c s out) : Cost (2 * c) 0 s out := by
  refine ⟨h.sound, h.size, h.copied, fun _ _ => ?_, ?_⟩
  · simp only [phi]; rw [h.marks, h.stack]; exact Nat.le_refl _
  · rw [h.marks]; simp only [phi]; omega

theorem cost_marks {extra : Nat} {out : Res α × Metered} (h : MarkFacts extra s out) : Cost 0 extra s out := by
  refine ⟨h.sound, ?_, by rw [h.copied]; exact Nat.le_refl _, fun a ha => ?_, ?_⟩
  · rw [size_eq, size_eq, h.source, h.buffer]; exact Nat.le_refl _
  · have := h.paid a ha; simp only [phi]; omega
  · have := h.marks; simp only [phi]; omega

theorem cost_mark (hs : Sound s.reader) : Cost 0 2 s (Metered.mark s) := cost_marks (mark_facts s hs).2.2.1

theorem cost_reset (m : Nat) (hs : Sound s.reader) : Cost 0 0 s (Metered.resetToMark m s) := cost_marks (reset_facts m s hs).2.2.1

theorem cost_unmark (m : Nat) (hs : Sound s.reader) : Cost 0 0 s (Metered.unmark m s) := cost_marks (unmark_facts m s hs).2.2

/-! ## Looking ahead -/

/-- The same, and an error leaves no more marks either. -/
def CostE (c d : Nat) (s : Metered) (out : Res α × Metered) : Prop := Cost c d s out ∧ ∀ e, out.1 = .err e → phi out.2 ≤ phi s + d

theorem costE_bind {x : RM Metered α} {f : α → RM Metered β} (h : CostE c d s (x s))
    (hf : ∀ a, (x s).1 = .ok a → CostE c' d' (x s).2 (f a (x s).2)) : CostE (c + c') (d + d') s ((x >>= f) s) := by
  refine ⟨cost_bind h.1 fun a ha => (hf a ha).1, ?_⟩
  simp only [RM.bind_run]
  obtain ⟨h, he⟩ := h
  generalize x s = q at h hf he
  obtain ⟨a, s1⟩ := q
  cases a with
  | ok a =>
    intro e hh
    have h1 := (hf a rfl).2 e hh
    have h2 := h.ok a rfl
    simp only at h1 h2 ⊢
    omega
  | err e => intro e' _; have := he e rfl; simp only at this ⊢; omega
  | panic e => nofun
  | diverge => nofun

theorem costE_pure (hs : Sound s.reader) (a : α) : CostE 0 0 s ((pure a : RM Metered α) s) := ⟨cost_here hs _, nofun⟩

/-- Setting a mark does not fail, and it is the last one. -/
theorem mark_last (s : Metered) : (∀ e, (Metered.mark s).1 ≠ .err e) ∧ ∀ m, (Metered.mark s).1 = .ok m →
    m = s.reader.buffer.head + s.reader.buffer.next ∧
    (Metered.mark s).2.reader.buffer = { s.reader.buffer with stack := (m, s.reader.buffer.location) :: s.reader.buffer.stack } := by
  unfold Metered.mark mark
  dsimp only
  generalize (s.reader.buffer.dbg && !(match s.reader.buffer.stack with | [] => true | (p, _) :: _ => decide (p ≤ s.reader.buffer.head + s.reader.buffer.next))) = t
  cases t with
  | true => exact ⟨nofun, nofun⟩
  | false =>
    simp only [Bool.false_eq_true, if_false]
    refine ⟨nofun, fun m hm => ?_⟩
    cases hm
    exact ⟨rfl, rfl⟩

/-- Going back to the last mark does not fail. -/
theorem reset_last {m : Nat} {l : Location} {st : List (Nat × Location)} (h : s.reader.buffer.stack = (m, l) :: st)
    (h1 : s.reader.buffer.head ≤ m) (h2 : m ≤ s.reader.buffer.head + s.reader.buffer.buffer.length) (e : Error) :
    (Metered.resetToMark m s).1 ≠ .err e := by
  have hr : removeMark s.reader.buffer m = ((.ok l, { s.reader.buffer with stack := st }), 1) := by
    unfold removeMark
    rw [if_neg (by omega), h]
    unfold findMark
    rw [if_pos rfl]
  unfold Metered.resetToMark revert
  rw [hr]
  dsimp only
  split <;> nofun

theorem costE_look {loop : RM Metered α} {f : α → β} (hs : Sound s.reader) (hl : ∀ s, Sound s.reader → LoopFacts c s (loop s)) :
    CostE (2 * c) 2 s ((do let m ← Metered.mark; let x ← loop; let _ ← Metered.resetToMark m; pure (f x) : RM Metered β) s) := by
  have hm := cost_mark hs
  have hlast := mark_last s
  simp only [RM.bind_run]
  generalize Metered.mark s = q at hm hlast
  obtain ⟨m, s1⟩ := q
  cases m with
  | ok m =>
    obtain ⟨e1, e2⟩ := hlast.2 m rfl
    have h1 := hl s1 hm.sound
    simp only at e2 ⊢
    generalize loop s1 = q at h1
    obtain ⟨a, s2⟩ := q
    have hc := hm.trans (cost_loop h1)
    rw [Nat.zero_add] at hc
    cases a with
    | ok a =>
      simp only
      have h2 := cost_reset m h1.sound
      have hne : s1.reader.buffer.stack ≠ [] := by rw [e2]; simp
      obtain ⟨k1, k2⟩ := h1.kept hne a rfl
      have hst := h1.stack
      simp only at h2 k1 k2 hst
      rw [e2] at k1 k2 hst
      simp only at k1 k2 hst
      have hr := reset_last hst (by omega) (by have := hs; unfold Sound at this; omega)
      generalize Metered.resetToMark m s2 = q at h2 hr
      obtain ⟨k, s3⟩ := q
      have h3 := hc.trans h2
      cases k with
      | ok k => exact ⟨h3.pure _, nofun⟩
      | err e => exact absurd rfl (hr e)
      | panic e => exact ⟨h3.stop nofun, nofun⟩
      | diverge => exact ⟨h3.stop nofun, nofun⟩
    | err e =>
      refine ⟨hc.stop nofun, fun e' _ => ?_⟩
      have g1 := hm.ok m rfl
      have g2 := h1.marks
      have g3 := h1.stack
      simp only [phi] at g1 g2 g3 ⊢
      rw [g2, g3]; exact g1
    | panic e => exact ⟨hc.stop nofun, nofun⟩
    | diverge => exact ⟨hc.stop nofun, nofun⟩
  | err e => exact absurd rfl (hlast.1 e)
  | panic e => exact ⟨(hm.stop nofun).mono (Nat.zero_le _) (Nat.le_refl _), nofun⟩
  | diverge => exact ⟨(hm.stop nofun).mono (Nat.zero_le _) (Nat.le_refl _), nofun⟩

theorem cost_eof (hs : Sound s.reader) : CostE 2 2 s (Metered.required.isEof s) :=
  costE_look (loop := Metered.required.read) (f := fun ch => ch.isNone) hs fun _ hs => loop_read hs

theorem cost_peek (n : Nat) (hs : Sound s.reader) : CostE (2 * n) 2 s (Metered.required.peek n s) :=
  costE_look (loop := Metered.required.peekLoop n) (f := fun b => b) hs fun _ hs => loop_peek n hs

theorem cost_prefix (p : Str) (hs : Sound s.reader) : CostE (2 * p.length) 2 s (Metered.required.prefixMatches p s) :=
  costE_look (loop := Metered.required.prefixLoop p) (f := fun b => b) hs fun _ hs => loop_prefix p hs

theorem cost_skip (n : Nat) (hs : Sound s.reader) : Cost (2 * n) 0 s (Metered.required.skip n s) :=
  cost_loop (loop_bind (fun _ => n) (loop_skip n n hs) (Nat.le_refl _) fun _ _ => loop_pure (loop_skip n n hs).sound _ _)

theorem cost_streamPrefix (hs : Sound s.reader) : CostE 20 4 s (Dyn.streamPrefix Metered.required.methods s) := by
  unfold Dyn.streamPrefix
  have h1 := cost_eof hs
  have hso := h1.1.sound
  refine costE_bind (c' := 18) (d' := 2) h1 fun b _ => ?_
  cases b with
  | true => exact ⟨(costE_pure hso _).1.mono (Nat.zero_le _) (Nat.zero_le _), nofun⟩
  | false =>
    have h2 := cost_peek 9 hso
    exact costE_bind (c' := 0) (d' := 0) h2 fun text _ => costE_pure h2.1.sound _

theorem cost_errExpected (g : Graph) (current : Option Nat) (hs : Sound s.reader) :
    Cost 20 4 s (Dyn.errExpected Metered.required.methods g current s) := by
  obtain ⟨h, he⟩ := cost_streamPrefix hs
  unfold Dyn.errExpected
  generalize Dyn.streamPrefix Metered.required.methods s = q at h he
  obtain ⟨x, s1⟩ := q
  cases x with
  | ok a => exact h.pure _
  | err e => exact ⟨h.sound, h.size, h.copied, fun _ _ => he e rfl, h.all⟩
  | panic e => exact h.stop nofun
  | diverge => exact h.stop nofun

theorem cost_location (hs : Sound s.reader) : Cost 0 0 s (Dyn.location Metered.required.methods s) := cost_here hs _

/-! ## Scanners -/

theorem unmark_next (m : Nat) (s : Metered) : (Metered.unmark m s).2.reader.buffer.next = s.reader.buffer.next := by
  unfold Metered.unmark
  rcases removeMark_facts s.reader.buffer m with ⟨e, k, h, _⟩ | ⟨l, st, k, h, _⟩ <;> rw [h]

theorem left_marks {extra : Nat} {out : Res α × Metered} (h : MarkFacts extra s out) (hn : out.2.reader.buffer.next = s.reader.buffer.next) :
    left out.2.reader = left s.reader := by
  unfold left
  rw [h.buffer, h.source, hn]

theorem read_left (hs : Sound s.reader) : left (Metered.required.read s).2.reader ≤ left s.reader ∧
    ∀ ch, (Metered.required.read s).1 = .ok (some ch) → left (Metered.required.read s).2.reader + 1 ≤ left s.reader := by
  have h := (readChars_facts 1 s hs).left
  change left (CharReader.read Metered.readChars s).2.reader ≤ _ ∧ ∀ ch, (CharReader.read Metered.readChars s).1 = _ →
    left (CharReader.read Metered.readChars s).2.reader + 1 ≤ _
  unfold CharReader.read
  simp only [RM.bind_run]
  generalize Metered.readChars 1 s = q at h
  obtain ⟨x, s1⟩ := q
  cases x with
  | ok cs =>
    simp only [got, RM.pure_run] at h ⊢
    refine ⟨by omega, fun ch hc => ?_⟩
    cases cs with
    | nil => cases hc
    | cons c cs => simp only [List.length_cons] at h; omega
  | err e => simp only [got] at h ⊢; exact ⟨by omega, nofun⟩
  | panic e => simp only [got] at h ⊢; exact ⟨by omega, nofun⟩
  | diverge => simp only [got] at h ⊢; exact ⟨by omega, nofun⟩

/-- What reading one character costs, if at most `b` are left. -/
theorem read_got (hs : Sound s.reader) : LoopFacts (left s.reader - left (Metered.required.read s).2.reader) s (Metered.required.read s) := by
  have h := (readChars_facts 1 s hs).left
  obtain ⟨h1, h2⟩ := loop_readChars 1 hs
  have e : (Metered.required.read s).2 = (Metered.readChars 1 s).2 := by
    change (CharReader.read Metered.readChars s).2 = _
    unfold CharReader.read
    simp only [RM.bind_run]
    cases hx : Metered.readChars 1 s with
    | mk x s1 => cases x <;> rfl
  rw [e]
  exact loop_weaken (loop_bind (x := Metered.readChars 1) got h1 (Nat.le_refl _) fun cs _ => loop_pure h1.sound _ _) (by omega)

theorem cost_charsLoop (allowed : Char → Bool) (max : Option Nat) (fuel : Nat) : ∀ (b count : Nat) {s : Metered}, Sound s.reader →
    (left s.reader ≤ b ∨ ∃ M, max = some M ∧ M - count ≤ b) →
    Cost (2 * b) (2 * b + 2) s (Dyn.charsLoop Metered.required.methods allowed max fuel count s) := by
  induction fuel with
  | zero => intro b count s hs _; exact (cost_here hs _).mono (Nat.zero_le _) (Nat.zero_le _)
  | succ fuel ih =>
    intro b count s hs hb
    unfold Dyn.charsLoop
    by_cases hm : ((max.map fun m => decide (count < m)).getD true) = true
    · rw [if_pos hm]
      have hb' : left s.reader ≤ b ∨ ∃ M, max = some M ∧ M - count ≤ b ∧ count < M := by
        rcases hb with hb | ⟨M, h1, h2⟩
        · exact .inl hb
        · refine .inr ⟨M, h1, h2, ?_⟩
          rw [h1] at hm
          simpa using hm
      have hmk : Cost 0 2 s (Metered.required.methods.mark s) := cost_mark hs
      have hl1 : ∀ m, (Metered.required.methods.mark s).1 = .ok m → left (Metered.required.methods.mark s).2.reader = left s.reader := fun m h =>
        left_marks (mark_facts s hs).2.2.1 ((mark_facts s hs).2.2.2 m h).2.1
      simp only [RM.bind_run]
      generalize Metered.required.methods.mark s = q at hmk hl1
      obtain ⟨x, s1⟩ := q
      cases x with
      | ok m2 =>
        have hl1 := hl1 m2 rfl
        simp only at hl1 ⊢
        have hs1 : Sound s1.reader := hmk.sound
        have hr1 := read_left hs1
        have hr2 := read_got hs1
        have hr3 := loop_read hs1
        change left (Metered.required.methods.read s1).2.reader ≤ _ ∧ ∀ ch, (Metered.required.methods.read s1).1 = _ →
          left (Metered.required.methods.read s1).2.reader + 1 ≤ _ at hr1
        change LoopFacts (_ - left (Metered.required.methods.read s1).2.reader) s1 (Metered.required.methods.read s1) at hr2
        change LoopFacts _ s1 (Metered.required.methods.read s1) at hr3
        generalize Metered.required.methods.read s1 = q at hr1 hr2 hr3
        obtain ⟨y, s2⟩ := q
        simp only at hr1 hr2 hr3 ⊢
        have hc1 : Cost (2 * b) 2 s (y, s2) := by
          rcases hb' with hb' | ⟨M, _, h2, h3⟩
          · exact (hmk.trans (cost_loop hr2)).mono (by omega) (by omega)
          · exact (hmk.trans (cost_loop hr3)).mono (by omega) (by omega)
        cases y with
        | ok o =>
          cases o with
          | none => exact (hc1.pure _).mono (Nat.le_refl _) (by omega)
          | some ch =>
            have hb1 : 1 ≤ b := by
              rcases hb' with hb' | ⟨M, _, h2, h3⟩
              · have := hr1.2 ch rfl; omega
              · omega
            have hc2 : Cost 2 2 s (.ok (some ch), s2) := (hmk.trans (cost_loop hr3)).mono (by omega) (by omega)
            simp only
            by_cases hp : (!allowed ch) = true
            · rw [if_pos hp]
              simp only [RM.bind_run]
              have h4 : Cost 0 0 s2 (Metered.required.methods.resetToMark m2 s2) := cost_reset m2 hr2.sound
              generalize Metered.required.methods.resetToMark m2 s2 = q at h4
              obtain ⟨z, s3⟩ := q
              have h5 := (hc2.trans h4).mono (c' := 2 * b) (d' := 2 * b + 2) (by omega) (by omega)
              cases z with
              | ok z => exact h5.pure _
              | err e => exact h5.stop nofun
              | panic e => exact h5.stop nofun
              | diverge => exact h5.stop nofun
            · rw [if_neg hp]
              simp only [RM.bind_run]
              have h4 : Cost 0 0 s2 (Metered.required.methods.unmark m2 s2) := cost_unmark m2 hr2.sound
              have hl3 : left (Metered.required.methods.unmark m2 s2).2.reader = left s2.reader := left_marks (unmark_facts m2 s2 hr2.sound).2.2 (unmark_next m2 s2)
              generalize Metered.required.methods.unmark m2 s2 = q at h4 hl3
              obtain ⟨z, s3⟩ := q
              have h5 := hc2.trans h4
              cases z with
              | ok z =>
                simp only at hl3 ⊢
                have h6 := ih (b - 1) (count + 1) h4.sound (by
                  rcases hb' with hb' | ⟨M, h1, h2, h3⟩
                  · refine .inl ?_; have := hr1.2 ch rfl; simp only; omega
                  · exact .inr ⟨M, h1, by omega⟩)
                simp only at h6
                generalize Dyn.charsLoop Metered.required.methods allowed max fuel (count + 1) s3 = q at h6
                obtain ⟨w, s4⟩ := q
                have h7 := (h5.trans h6).mono (c' := 2 * b) (d' := 2 * b + 2) (by omega) (by omega)
                cases w with
                | ok w => exact h7.pure _
                | err e => exact h7.stop nofun
                | panic e => exact h7.stop nofun
                | diverge => exact h7.stop nofun
              | err e => exact (h5.stop nofun).mono (by omega) (by omega)
              | panic e => exact (h5.stop nofun).mono (by omega) (by omega)
              | diverge => exact (h5.stop nofun).mono (by omega) (by omega)
        | err e => exact (hc1.stop nofun).mono (Nat.le_refl _) (by omega)
        | panic e => exact (hc1.stop nofun).mono (Nat.le_refl _) (by omega)
        | diverge => exact (hc1.stop nofun).mono (Nat.le_refl _) (by omega)
      | err e => exact (hmk.stop nofun).mono (Nat.zero_le _) (by omega)
      | panic e => exact (hmk.stop nofun).mono (Nat.zero_le _) (by omega)
      | diverge => exact (hmk.stop nofun).mono (Nat.zero_le _) (by omega)
    · rw [if_neg hm]
      exact (cost_here hs _).mono (Nat.zero_le _) (Nat.zero_le _)

theorem cost_scan {N D : Nat} {scanner : SpecialScanner} {scan : Location → RM Metered Reaction} (h : ScanWithin N D scanner scan)
    (hs : Sound s.reader) (hN : s.reader.size ≤ N) (l : Location) : Cost (4 * D) (2 * D + 4) s (scan l s) := by
  cases h with
  | default content => exact (cost_here hs _).mono (Nat.zero_le _) (Nat.zero_le _)
  | chars allowed min max h =>
    unfold Dyn.charsScan
    have hmk := cost_mark hs
    refine (cost_bind (c' := 2 * D) (d' := 2 * D + 2) hmk fun mark _ => ?_).mono (by omega) (by omega)
    have hs1 : Sound (Metered.mark s).2.reader := hmk.sound
    have hN1 := Nat.le_trans hmk.size hN
    change Cost _ _ (Metered.mark s).2 _
    change Sound (Metered.mark s).2.reader at hs1
    generalize (Metered.mark s).2 = s1 at hs1 hN1
    refine (cost_bind (c' := 2 * D) (d' := 2 * D + 2) (cost_location hs1) fun location _ => ?_).mono (by omega) (by omega)
    change Cost _ _ s1 ((do
      let buffer ← Dyn.charsLoop Metered.required.methods allowed max (Metered.required.methods.size s1 + 1) 0
      if (min.map fun m => decide (buffer.length < m)).getD false then do
        let _ ← Metered.required.methods.resetToMark mark
        pure .unmatch
      else pure (.match [.token l location buffer]) : RM Metered Reaction) s1)
    have h1 := cost_charsLoop allowed max (Metered.required.methods.size s1 + 1) D 0 hs1 (by
      rcases h with h | ⟨M, h1, h2⟩
      · exact .inl (Nat.le_trans left_le (Nat.le_trans hN1 h))
      · exact .inr ⟨M, h1, by omega⟩)
    refine (cost_bind (c' := 0) (d' := 0) h1 fun buffer _ => ?_)
    have hs2 := h1.sound
    generalize (Dyn.charsLoop Metered.required.methods allowed max (Metered.required.methods.size s1 + 1) 0 s1).2 = s2 at hs2
    by_cases hm : ((min.map fun m => decide (buffer.length < m)).getD false) = true
    · rw [if_pos hm]
      exact cost_bind (c' := 0) (d' := 0) (cost_reset mark hs2) fun _ _ => cost_here (cost_reset mark hs2).sound _
    · rw [if_neg hm]
      exact cost_here hs2 _
  | regex source find h =>
    unfold Dyn.regexScan
    refine (cost_bind (c' := 4 * D) (d' := 2) (cost_location hs) fun location _ => ?_).mono (by omega) (by omega)
    change Cost _ _ s _
    have h1 := (cost_peek 257 hs).1
    refine (cost_bind (c := 514) (c' := 512) (d := 2) (d' := 0) h1 fun text _ => ?_).mono (by omega) (by omega)
    have hs1 := h1.sound
    change Sound (Metered.required.peek 257 s).2.reader at hs1
    change Cost _ _ (Metered.required.peek 257 s).2 _
    generalize (Metered.required.peek 257 s).2 = s1 at hs1
    have hskip : ∀ len, Cost 512 0 s1 ((if (text.take len).length > 256 then do
        let here ← Dyn.location Metered.required.methods
        RM.lift (.fail here (.regexTooLong 256))
      else do
        let _ ← Metered.required.methods.skip (text.take len).length
        pure (.match [.token l location (text.take len)]) : RM Metered Reaction) s1) := by
      intro len
      by_cases hl : (text.take len).length > 256
      · rw [if_pos hl]; exact (cost_here hs1 _).mono (Nat.zero_le _) (Nat.le_refl _)
      · rw [if_neg hl]
        have h2 := cost_skip (text.take len).length hs1
        exact (cost_bind (c' := 0) (d' := 0) h2 fun _ _ => cost_here h2.sound _).mono (by omega) (by omega)
    cases hf : find text with
    | none => exact (cost_here hs1 _).mono (Nat.zero_le _) (Nat.le_refl _)
    | some x =>
      obtain ⟨i, len⟩ := x
      cases i with
      | zero => exact hskip len
      | succ i => exact (cost_here hs1 _).mono (Nat.zero_le _) (Nat.le_refl _)

/-! ## The machine -/

/-- `y` does on the reader what `x` does on the reader whose steps are counted. -/
def Plain (x : RM Metered α) (y : RM Reader α) : Prop := ∀ s, Sound s.reader → y s.reader = ((x s).1, (x s).2.reader)

theorem plain_of {x : RM Metered α} {y : RM Reader α} (h : Same (Paid fun _ => True) x y) : Plain x y := by
  intro s hs
  obtain ⟨h1, h2, _⟩ := h s s.reader ⟨rfl, trivial, hs⟩
  exact (Prod.ext h1 h2).symm

theorem plain_mark : Plain Metered.required.methods.mark Reader.mark := fun s hs =>
  (Prod.ext (mark_facts s hs).1 (mark_facts s hs).2.1).symm

theorem plain_reset (m : Nat) : Plain (Metered.required.methods.resetToMark m) (Reader.resetToMark m) := fun s hs =>
  (Prod.ext (reset_facts m s hs).1 (reset_facts m s hs).2.1).symm

theorem plain_unmark (m : Nat) : Plain (Metered.required.methods.unmark m) (Reader.unmark m) := fun s hs =>
  (Prod.ext (unmark_facts m s hs).1 (unmark_facts m s hs).2.1).symm

theorem tell (s : Metered) : Dyn.location Metered.required.methods s = (.ok s.reader.buffer.location, s) := rfl

/-- With `k` instructions executed, a run costs at most `C * k` and, but for two, `A * k`. -/
def Works (N C A : Nat) (run : RM Metered (Prospect × List Event)) (count : Reader → Nat) : Prop :=
  ∀ s, Sound s.reader → s.reader.size ≤ N → Cost (C * count s.reader) (A * count s.reader - 2) s (run s) ∧
    ∀ x, (run s).1 = .ok x → 1 ≤ count s.reader

variable {N C A : Nat}

theorem two_le {k : Nat} (hA : 2 ≤ A) (hk : 1 ≤ k) : 2 ≤ A * k := Nat.le_trans hA (Nat.le_mul_of_pos_right A hk)

theorem works_loop {body : RM Metered (Prospect × List Event)} {plain : Run} {count : Reader → Nat} (hA : 2 ≤ A) (hp : Plain body plain)
    (hw : Works N C A body count) (min max fuel : Nat) : ∀ i temp s, Sound s.reader → s.reader.size ≤ N →
    Cost (C * repetitionSteps plain count max fuel i s.reader) (A * repetitionSteps plain count max fuel i s.reader + 2) s
      (Dyn.repetitionLoop Metered.required.methods body min max fuel i temp s) := by
  induction fuel with
  | zero => intro i temp s hs _; exact (cost_here hs _).mono (Nat.zero_le _) (Nat.zero_le _)
  | succ fuel ih =>
    intro i temp s hs hN
    unfold Dyn.repetitionLoop repetitionSteps
    by_cases hi : i < max
    · rw [if_pos hi, if_pos hi, plain_mark s hs]
      simp only [RM.bind_run, tell]
      have h1 : Cost 0 2 s (Metered.required.methods.mark s) := cost_mark hs
      generalize Metered.required.methods.mark s = x at h1
      obtain ⟨x, s1⟩ := x
      cases x with
      | ok m =>
        simp only
        have hN1 := Nat.le_trans h1.size hN
        obtain ⟨h2, h3⟩ := hw s1 h1.sound hN1
        rw [hp s1 h1.sound]
        generalize body s1 = y at h2 h3
        obtain ⟨y, s2⟩ := y
        have h4 := h1.trans h2
        cases y with
        | ok pe =>
          have h3 := two_le hA (h3 _ rfl)
          obtain ⟨p, evs⟩ := pe
          cases p with
          | notThisWay e =>
            simp only
            by_cases hm : i < min
            · rw [if_pos hm]
              exact (h4.pure _).mono (by rw [Nat.mul_add]; omega) (by rw [Nat.mul_add]; omega)
            · rw [if_neg hm]
              simp only [RM.bind_run]
              have h5 : Cost 0 0 s2 (Metered.required.methods.resetToMark m s2) := cost_reset m h2.sound
              generalize Metered.required.methods.resetToMark m s2 = z at h5
              obtain ⟨z, s3⟩ := z
              have h6 := (h4.trans h5).mono (c' := C * (count s1.reader + 0)) (d' := A * (count s1.reader + 0) + 2) (by rw [Nat.mul_add]; omega)
                (by rw [Nat.mul_add]; omega)
              cases z with
              | ok z => exact h6.pure _
              | err e => exact h6.stop nofun
              | panic e => exact h6.stop nofun
              | diverge => exact h6.stop nofun
          | proceed =>
            simp only [RM.bind_run, tell]
            by_cases hl : max = u32Max ∧ s2.reader.buffer.location = s.reader.buffer.location
            · rw [if_pos hl, if_pos hl]
              exact (h4.pure _).mono (by rw [Nat.mul_add]; omega) (by rw [Nat.mul_add]; omega)
            · rw [if_neg hl, if_neg hl]
              have h5 := ih (i + 1) (temp ++ evs) s2 h2.sound (Nat.le_trans h2.size hN1)
              exact (h4.trans h5).mono (by rw [Nat.mul_add]; omega) (by rw [Nat.mul_add]; omega)
        | err e => exact (h4.stop nofun).mono (by rw [Nat.mul_add]; omega) (by rw [Nat.mul_add]; omega)
        | panic e => exact (h4.stop nofun).mono (by rw [Nat.mul_add]; omega) (by rw [Nat.mul_add]; omega)
        | diverge => exact (h4.stop nofun).mono (by rw [Nat.mul_add]; omega) (by rw [Nat.mul_add]; omega)
      | err e => exact (h1.stop nofun).mono (Nat.zero_le _) (by omega)
      | panic e => exact (h1.stop nofun).mono (Nat.zero_le _) (by omega)
      | diverge => exact (h1.stop nofun).mono (Nat.zero_le _) (by omega)
    · rw [if_neg hi, if_neg hi]
      exact (cost_here hs _).mono (Nat.zero_le _) (Nat.zero_le _)

theorem works_or {run : Nat → RM Metered (Prospect × List Event)} {plain : Nat → Run} {count : Nat → Reader → Nat} (hA : 2 ≤ A)
    (hp : ∀ a, Plain (run a) (plain a)) (hw : ∀ a, Works N C A (run a) (count a)) : ∀ subs errors s, Sound s.reader → s.reader.size ≤ N →
    Cost (C * orSteps plain count subs s.reader) (A * orSteps plain count subs s.reader + 2) s
      (Dyn.orLoop Metered.required.methods run subs errors s)
  | [], errors, s, hs, _ => (cost_here hs _).mono (Nat.zero_le _) (Nat.zero_le _)
  | sub :: subs, errors, s, hs, hN => by
    unfold Dyn.orLoop orSteps
    rw [plain_mark s hs]
    simp only [RM.bind_run]
    have h1 : Cost 0 2 s (Metered.required.methods.mark s) := cost_mark hs
    generalize Metered.required.methods.mark s = x at h1
    obtain ⟨x, s1⟩ := x
    cases x with
    | ok m =>
      simp only
      have hN1 := Nat.le_trans h1.size hN
      obtain ⟨h2, h3⟩ := hw sub s1 h1.sound hN1
      rw [hp sub s1 h1.sound]
      generalize run sub s1 = y at h2 h3
      obtain ⟨y, s2⟩ := y
      have h4 := h1.trans h2
      cases y with
      | ok pe =>
        have h3 := two_le hA (h3 _ rfl)
        obtain ⟨p, evs⟩ := pe
        cases p with
        | proceed => exact (h4.pure _).mono (by rw [Nat.mul_add]; omega) (by rw [Nat.mul_add]; omega)
        | notThisWay e =>
          simp only [RM.bind_run]
          rw [plain_reset m s2 h2.sound]
          have h5 : Cost 0 0 s2 (Metered.required.methods.resetToMark m s2) := cost_reset m h2.sound
          generalize Metered.required.methods.resetToMark m s2 = z at h5
          obtain ⟨z, s3⟩ := z
          have h6 := h4.trans h5
          cases z with
          | ok z =>
            dsimp only
            have h7 := works_or hA hp hw subs (errors ++ [e]) s3 h5.sound (Nat.le_trans h5.size (Nat.le_trans h2.size hN1))
            exact (h6.trans h7).mono (by rw [Nat.mul_add]; omega) (by rw [Nat.mul_add]; omega)
          | err e => exact (h6.stop nofun).mono (by rw [Nat.mul_add]; omega) (by rw [Nat.mul_add]; omega)
          | panic e => exact (h6.stop nofun).mono (by rw [Nat.mul_add]; omega) (by rw [Nat.mul_add]; omega)
          | diverge => exact (h6.stop nofun).mono (by rw [Nat.mul_add]; omega) (by rw [Nat.mul_add]; omega)
      | err e => exact (h4.stop nofun).mono (by rw [Nat.mul_add]; omega) (by rw [Nat.mul_add]; omega)
      | panic e => exact (h4.stop nofun).mono (by rw [Nat.mul_add]; omega) (by rw [Nat.mul_add]; omega)
      | diverge => exact (h4.stop nofun).mono (by rw [Nat.mul_add]; omega) (by rw [Nat.mul_add]; omega)
    | err e => exact (h1.stop nofun).mono (Nat.zero_le _) (by omega)
    | panic e => exact (h1.stop nofun).mono (Nat.zero_le _) (by omega)
    | diverge => exact (h1.stop nofun).mono (Nat.zero_le _) (by omega)

theorem cost_terminal {g : Graph} {addr : Nat} {instr : Instruction} {D : Nat} {p : Str} (hD : p.length ≤ D) (hs : Sound s.reader) :
    Cost (4 * D + 20) 6 s (Dyn.scanTerminal Metered.required.methods g addr instr p s) := by
  unfold Dyn.scanTerminal
  have h1 : Cost (2 * p.length) 2 s (Metered.required.methods.prefixMatches p s) := (cost_prefix p hs).1
  refine (cost_bind (c' := 2 * D + 20) (d' := 4) h1 fun b _ => ?_).mono (by omega) (by omega)
  have hs1 := h1.sound
  generalize (Metered.required.methods.prefixMatches p s).2 = s1 at hs1
  cases b with
  | true =>
    have h2 : Cost (2 * p.length) 0 s1 (Metered.required.methods.skip p.length s1) := cost_skip p.length hs1
    exact (cost_bind (c' := 2 * p.length) (d' := 0) (cost_location hs1) fun l _ =>
      cost_bind (c' := 0) (d' := 0) h2 fun _ _ => cost_here h2.sound _).mono (by omega) (by omega)
  | false =>
    have h2 := cost_errExpected g (some addr) hs1
    exact (cost_bind (c' := 0) (d' := 0) h2 fun e _ => cost_here h2.sound _).mono (by omega) (by omega)

theorem works_special {g : Graph} {addr : Nat} {instr : Instruction} {D : Nat} {scanner : SpecialScanner} {scan : Location → RM Metered Reaction}
    (h : ScanWithin N D scanner scan) (hscan : Plain (scan instr.definition) (scanner.scan instr.definition))
    {run : Nat → RM Metered (Prospect × List Event)} {count : Nat → Reader → Nat} (hw : ∀ a, Works N C A (run a) (count a))
    (hs : Sound s.reader) (hN : s.reader.size ≤ N) :
    Cost (C * specialSteps g instr scanner count s.reader + (4 * D + 20)) (A * specialSteps g instr scanner count s.reader + (2 * D + 10)) s
      (Dyn.scanSpecial Metered.required.methods g addr instr scan run s) := by
  unfold Dyn.scanSpecial specialSteps
  rw [plain_mark s hs]
  simp only [RM.bind_run]
  have h1 : Cost 0 2 s (Metered.required.methods.mark s) := cost_mark hs
  generalize Metered.required.methods.mark s = x at h1
  obtain ⟨x, s1⟩ := x
  cases x with
  | ok m =>
    simp only
    have hN1 := Nat.le_trans h1.size hN
    rw [hscan s1 h1.sound]
    have h2 := cost_scan h h1.sound hN1 instr.definition
    generalize scan instr.definition s1 = y at h2
    obtain ⟨y, s2⟩ := y
    have h4 := h1.trans h2
    have hN2 := Nat.le_trans h2.size hN1
    cases y with
    | ok reaction =>
      cases reaction with
      | «match» evs =>
        simp only [RM.bind_run]
        have h5 : Cost 0 0 s2 (Metered.required.methods.unmark m s2) := cost_unmark m h2.sound
        generalize Metered.required.methods.unmark m s2 = z at h5
        obtain ⟨z, s3⟩ := z
        have h6 := (h4.trans h5).mono (c' := C * 0 + (4 * D + 20)) (d' := A * 0 + (2 * D + 10)) (by omega) (by omega)
        cases z with
        | ok z => exact h6.pure _
        | err e => exact h6.stop nofun
        | panic e => exact h6.stop nofun
        | diverge => exact h6.stop nofun
      | unmatch =>
        simp only [RM.bind_run]
        have h5 : Cost 0 0 s2 (Metered.required.methods.resetToMark m s2) := cost_reset m h2.sound
        generalize Metered.required.methods.resetToMark m s2 = z at h5
        obtain ⟨z, s3⟩ := z
        have h6 := h4.trans h5
        cases z with
        | ok z =>
          simp only
          have h7 := cost_errExpected g (some addr) h5.sound
          simp only at h7
          generalize Dyn.errExpected Metered.required.methods g (some addr) s3 = w at h7
          obtain ⟨w, s4⟩ := w
          have h8 := (h6.trans h7).mono (c' := C * 0 + (4 * D + 20)) (d' := A * 0 + (2 * D + 10)) (by omega) (by omega)
          cases w with
          | ok w => exact h8.pure _
          | err e => exact h8.stop nofun
          | panic e => exact h8.stop nofun
          | diverge => exact h8.stop nofun
        | err e => exact (h6.stop nofun).mono (by omega) (by omega)
        | panic e => exact (h6.stop nofun).mono (by omega) (by omega)
        | diverge => exact (h6.stop nofun).mono (by omega) (by omega)
      | forward name =>
        simp only
        cases g.indexOfLabel name with
        | none =>
          simp only [RM.bind_run]
          have h5 : Cost 0 0 s2 (Metered.required.methods.resetToMark m s2) := cost_reset m h2.sound
          generalize Metered.required.methods.resetToMark m s2 = z at h5
          obtain ⟨z, s3⟩ := z
          have h6 := (h4.trans h5).mono (c' := C * 0 + (4 * D + 20)) (d' := A * 0 + (2 * D + 10)) (by omega) (by omega)
          cases z with
          | ok z => exact h6.pure _
          | err e => exact h6.stop nofun
          | panic e => exact h6.stop nofun
          | diverge => exact h6.stop nofun
        | some next =>
          simp only [RM.bind_run]
          rw [plain_unmark m s2 h2.sound]
          have h5 : Cost 0 0 s2 (Metered.required.methods.unmark m s2) := cost_unmark m h2.sound
          generalize Metered.required.methods.unmark m s2 = z at h5
          obtain ⟨z, s3⟩ := z
          have h6 := h4.trans h5
          cases z with
          | ok z =>
            simp only
            have h7 := (hw next s3 h5.sound (Nat.le_trans h5.size hN2)).1
            generalize run next s3 = w at h7
            obtain ⟨w, s4⟩ := w
            have h8 := (h6.trans h7).mono (c' := C * count next s3.reader + (4 * D + 20)) (d' := A * count next s3.reader + (2 * D + 10)) (by omega) (by omega)
            cases w with
            | ok w => exact h8.pure _
            | err e => exact h8.stop nofun
            | panic e => exact h8.stop nofun
            | diverge => exact h8.stop nofun
          | err e => exact (h6.stop nofun).mono (by omega) (by omega)
          | panic e => exact (h6.stop nofun).mono (by omega) (by omega)
          | diverge => exact (h6.stop nofun).mono (by omega) (by omega)
    | err e => exact (h4.stop nofun).mono (by omega) (by omega)
    | panic e => exact (h4.stop nofun).mono (by omega) (by omega)
    | diverge => exact (h4.stop nofun).mono (by omega) (by omega)
  | err e => exact (h1.stop nofun).mono (Nat.zero_le _) (by omega)
  | panic e => exact (h1.stop nofun).mono (Nat.zero_le _) (by omega)
  | diverge => exact (h1.stop nofun).mono (Nat.zero_le _) (by omega)

theorem works_step {scan : SpecialScanner → Location → RM Metered Reaction} {g : Graph} {D : Nat} (hC : 4 * D + 20 ≤ C) (hA : 2 * D + 12 ≤ A)
    {run : Nat → RM Metered (Prospect × List Event)} {plain : Nat → Run} {inner : Nat → Run} {count : Nat → Reader → Nat} (hp : ∀ a, Plain (run a) (plain a))
    (hw : ∀ a, Works N C A (run a) (count a)) (fuel addr : Nat) {instr : Instruction}
    (hl : match instr.step with
      | .scan (.terminal p) => p.length ≤ D
      | .scan (.special scanner) => ScanWithin N D scanner (scan scanner)
      | .scan (.exception _ _) => False
      | _ => True)
    (hscan : ∀ scanner, instr.step = .scan (.special scanner) → Plain (scan scanner instr.definition) (scanner.scan instr.definition))
    (hs : Sound s.reader) (hN : s.reader.size ≤ N) :
    Cost (C * callSteps g plain count fuel instr s.reader + C) (A * callSteps g plain count fuel instr s.reader + (A - 2)) s
      (Dyn.execStep Metered.required.methods scan g run inner fuel addr instr s) := by
  unfold Dyn.execStep callSteps
  have h2 : 2 ≤ A := by omega
  cases hstep : instr.step with
  | repetition min max sub =>
    simp only
    exact (works_loop h2 (hp sub) (hw sub) min max fuel 0 [] s hs hN).mono (by omega) (by omega)
  | or subs =>
    simp only [RM.bind_run]
    have h1 := works_or h2 hp hw subs [] s hs hN
    generalize Dyn.orLoop Metered.required.methods run subs [] s = x at h1
    obtain ⟨x, s1⟩ := x
    cases x with
    | ok out =>
      cases out with
      | ok evs => exact (h1.pure _).mono (by omega) (by omega)
      | error errors =>
        simp only
        cases errors.reverse with
        | nil => exact (h1.pure _).mono (by omega) (by omega)
        | cons last others =>
          simp only [RM.bind_run, tell]
          by_cases hx : (pickError last others).location = s1.reader.buffer.location
          · rw [if_pos hx]
            simp only [RM.bind_run]
            have h7 := cost_errExpected g (some addr) h1.sound
            simp only at h7
            generalize Dyn.errExpected Metered.required.methods g (some addr) s1 = w at h7
            obtain ⟨w, s4⟩ := w
            have h8 := (h1.trans h7).mono (c' := C * orSteps plain count subs s.reader + C)
              (d' := A * orSteps plain count subs s.reader + (A - 2)) (by omega) (by omega)
            cases w with
            | ok w => exact h8.pure _
            | err e => exact h8.stop nofun
            | panic e => exact h8.stop nofun
            | diverge => exact h8.stop nofun
          · rw [if_neg hx]
            exact (h1.pure _).mono (by omega) (by omega)
    | err e => exact (h1.stop nofun).mono (by omega) (by omega)
    | panic e => exact (h1.stop nofun).mono (by omega) (by omega)
    | diverge => exact (h1.stop nofun).mono (by omega) (by omega)
  | alias name =>
    simp only
    cases g.indexOfLabel name with
    | none => exact (cost_here hs _).mono (Nat.zero_le _) (Nat.zero_le _)
    | some address =>
      simp only
      cases g.canonicalName name with
      | none => exact (cost_here hs _).mono (Nat.zero_le _) (Nat.zero_le _)
      | some label =>
        simp only [RM.bind_run, tell]
        have h1 := (hw address s hs hN).1
        generalize run address s = x at h1
        obtain ⟨x, s1⟩ := x
        have h3 := h1.mono (c' := C * count address s.reader + C) (d' := A * count address s.reader + (A - 2)) (by omega) (by omega)
        cases x with
        | ok out =>
          obtain ⟨p, evs⟩ := out
          cases p with
          | proceed => exact h3.pure _
          | notThisWay e => exact h3.pure _
        | err e => exact h3.stop nofun
        | panic e => exact h3.stop nofun
        | diverge => exact h3.stop nofun
  | scan sc =>
    cases sc with
    | terminal p =>
      rw [hstep] at hl
      simp only at hl ⊢
      exact (cost_terminal hl hs).mono (by omega) (by omega)
    | special scanner =>
      have hl' := hscan scanner hstep
      rw [hstep] at hl
      simp only at hl ⊢
      exact (works_special hl hl' hw hs hN).mono (by omega) (by omega)
    | empty => exact (cost_here hs _).mono (Nat.zero_le _) (Nat.zero_le _)
    | exception a b =>
      rw [hstep] at hl
      exact hl.elim

theorem library_of {D : Nat} {scanner : SpecialScanner} {scan : Location → RM Metered Reaction} (h : ScanWithin N D scanner scan) :
    LibraryScan Metered.required.methods scanner scan := by
  cases h with
  | default content => exact .default content
  | chars allowed min max h => exact .chars allowed min max
  | regex source find h => exact .regex source find

theorem library_within {scan : SpecialScanner → Location → RM Metered Reaction} {g : Graph} {D : Nat} (hl : LooksWithin N D scan g) :
    LibraryScanners Metered.required.methods scan g := by
  intro addr instr scanner h1 h2
  have := hl addr instr h1
  rw [h2] at this
  exact library_of this

theorem own_eq : Reader.required.methods = own := Props.c98_same

theorem plain_run {scan : SpecialScanner → Location → RM Metered Reaction} {g : Graph} (hl : LibraryScanners Metered.required.methods scan g) (fuel : Nat)
    (next : Option Nat) : Plain (Dyn.runFrom Metered.required.methods scan g fuel next) (Ebnf.runFrom g fuel next) := by
  rw [← run_same, ← own_eq]
  exact plain_of (same_run paid_agree (fun addr instr scanner h1 h2 d => paid_scan (hl addr instr scanner h1 h2) d) fuel next)

theorem plain_step {scan : SpecialScanner → Location → RM Metered Reaction} {g : Graph} (hl : LibraryScanners Metered.required.methods scan g)
    (fuel depth addr : Nat) {instr : Instruction} (hi : g.instruction addr = some instr) :
    Plain (Dyn.execStep Metered.required.methods scan g (fun a => Dyn.runFrom Metered.required.methods scan g fuel (some a))
      (fun a => Ebnf.runFrom g fuel (some a)) depth addr instr) (Ebnf.execStep g (fun a => Ebnf.runFrom g fuel (some a)) depth addr instr) := by
  have h := same_run (R := Paid fun _ => True) paid_agree (fun addr instr scanner h1 h2 d => paid_scan (hl addr instr scanner h1 h2) d) fuel
  rw [← step_same, ← own_eq]
  refine plain_of (same_step paid_agree (fun a => ?_) _ depth addr instr fun scanner h2 d => paid_scan (hl addr instr scanner hi h2) d)
  have := h (some a)
  rw [own_eq, run_same] at this
  exact this

theorem works_run {scan : SpecialScanner → Location → RM Metered Reaction} {g : Graph} {D : Nat} (hC : C = 4 * D + 20) (hA : A = 2 * D + 12)
    (hl : LooksWithin N D scan g) (fuel : Nat) : ∀ addr,
    Works N C A (Dyn.runFrom Metered.required.methods scan g fuel (some addr)) (stepsFrom g fuel (some addr)) := by
  have hlib := library_within hl
  induction fuel with
  | zero => intro addr s hs _; exact ⟨(cost_here hs _).mono (Nat.zero_le _) (Nat.zero_le _), nofun⟩
  | succ fuel ih =>
    intro addr s hs hN
    rw [Dyn.runFrom, stepsFrom]
    cases hi : g.instruction addr with
    | none => exact ⟨(cost_here hs _).mono (Nat.zero_le _) (Nat.zero_le _), nofun⟩
    | some instr =>
      simp only
      refine ⟨?_, fun _ _ => by omega⟩
      have h1 := works_step (g := g) (Nat.le_of_eq hC.symm) (Nat.le_of_eq hA.symm) (inner := fun a => Ebnf.runFrom g fuel (some a)) (fun a => plain_run hlib fuel (some a)) ih fuel addr (hl addr instr hi)
        (fun scanner h2 => plain_of (paid_scan (hlib addr instr scanner hi h2) _)) hs hN (s := s)
      rw [plain_step hlib fuel fuel addr hi s hs]
      simp only [RM.bind_run]
      generalize Dyn.execStep Metered.required.methods scan g (fun a => Dyn.runFrom Metered.required.methods scan g fuel (some a))
        (fun a => Ebnf.runFrom g fuel (some a)) fuel addr instr s = x at h1
      generalize callSteps g (fun a => Ebnf.runFrom g fuel (some a)) (fun a => stepsFrom g fuel (some a)) fuel instr s.reader = k at h1
      have e1 : ∀ n, C * k + C + C * n = C * (1 + k + n) := fun n => by simp only [Nat.mul_add]; omega
      have e2 : ∀ n, A * k + A + A * n = A * (1 + k + n) := fun n => by simp only [Nat.mul_add]; omega
      obtain ⟨x, s1⟩ := x
      have h0 := h1.mono (c' := C * (1 + k + 0)) (d' := A * (1 + k + 0) - 2) (by have := e1 0; omega) (by have := e2 0; omega)
      cases x with
      | ok out =>
        obtain ⟨p, evs⟩ := out
        cases p with
        | notThisWay e => exact h0.pure _
        | proceed =>
          simp only [RM.bind_run]
          have h2 : Cost (C * stepsFrom g fuel instr.next s1.reader) (A * stepsFrom g fuel instr.next s1.reader) s1
              (Dyn.runFrom Metered.required.methods scan g fuel instr.next s1) := by
            cases instr.next with
            | some a => exact (ih a s1 h1.sound (Nat.le_trans h1.size hN)).1.mono (Nat.le_refl _) (Nat.sub_le _ _)
            | none =>
              cases fuel with
              | zero => exact (cost_here h1.sound _).mono (Nat.zero_le _) (Nat.zero_le _)
              | succ fuel => exact (cost_here h1.sound _).mono (Nat.zero_le _) (Nat.zero_le _)
          generalize Dyn.runFrom Metered.required.methods scan g fuel instr.next s1 = y at h2
          generalize stepsFrom g fuel instr.next s1.reader = n at h2
          obtain ⟨y, s2⟩ := y
          have h3 := (h1.trans h2).mono (c' := C * (1 + k + n)) (d' := A * (1 + k + n) - 2) (by have := e1 n; omega) (by have := e2 n; omega)
          cases y with
          | ok y => exact h3.pure _
          | err e => exact h3.stop nofun
          | panic e => exact h3.stop nofun
          | diverge => exact h3.stop nofun
      | err e => exact h0.stop nofun
      | panic e => exact h0.stop nofun
      | diverge => exact h0.stop nofun

/-- What `parse` costs more than its run. -/
theorem cost_parse {scan : SpecialScanner → Location → RM Metered Reaction} {m : Machine} {fuel k j : Nat}
    (h1 : Cost k j s (Dyn.runFrom Metered.required.methods scan m.graph fuel (some m.entry) s)) :
    Cost (k + 22) (j + 6) s (Dyn.parse Metered.required.methods scan m fuel s) := by
  unfold Dyn.parse
  refine (cost_bind (c' := 22) (d' := 6) h1 fun out _ => ?_).mono (Nat.le_refl _) (by omega)
  have hs1 := h1.sound
  generalize (Dyn.runFrom Metered.required.methods scan m.graph fuel (some m.entry) s).2 = s1 at hs1
  obtain ⟨p, events⟩ := out
  cases p with
  | notThisWay e => exact (cost_here hs1 _).mono (Nat.zero_le _) (Nat.zero_le _)
  | proceed =>
    have h2 : Cost 2 2 s1 (Metered.required.methods.isEof s1) := (cost_eof hs1).1
    refine (cost_bind (c' := 20) (d' := 4) h2 fun b _ => ?_).mono (by omega) (by omega)
    have hs2 := h2.sound
    generalize (Metered.required.methods.isEof s1).2 = s2 at hs2
    cases b with
    | true =>
      simp only [if_true, RM.bind_run, RM.get_run]
      by_cases hx : (Metered.required.methods.debug s2 && !labelsAgree events) = true
      · rw [if_pos hx]; exact (cost_here hs2 _).mono (Nat.zero_le _) (Nat.zero_le _)
      · rw [if_neg hx]; exact (cost_here hs2 _).mono (Nat.zero_le _) (Nat.zero_le _)
    | false =>
      have h3 := cost_errExpected m.graph none hs2
      exact (cost_bind (c' := 0) (d' := 0) h3 fun e _ => cost_here h3.sound _).mono (by omega) (by omega)

/-- What `parse` costs. -/
theorem works_parse {scan : SpecialScanner → Location → RM Metered Reaction} {m : Machine} {D : Nat} (hl : LooksWithin N D scan m.graph) (fuel : Nat)
    (hs : Sound s.reader) (hN : s.reader.size ≤ N) :
    Cost ((4 * D + 20) * m.steps fuel s.reader + 22) ((2 * D + 12) * m.steps fuel s.reader + 6) s
      (Dyn.parse Metered.required.methods scan m fuel s) :=
  (cost_parse (works_run rfl rfl hl fuel m.entry s hs hN).1).mono (Nat.le_refl _) (by unfold Machine.steps; omega)

end Ebnf.Meter
