import Verif.Proofs.MeterWork
import Verif.Spec.Builds
import Verif.Spec.Future

set_option autoImplicit false

/-! # Lemmas: what has not been asked for does not matter (C108) -/

namespace Ebnf.Future

open Ebnf Ebnf.Spec Ebnf.Meter

variable {α β : Type} {L L' : Nat}

/-- Something is taken, and the reader stays in order. -/
def Shrinks (f : RM Reader α) : Prop := ∀ r, Sound r → Sound (f r).2 ∧ ∃ taken, r.source.rounds = taken ++ (f r).2.source.rounds

/-- `f`, where less than `L` characters are left, and `f'`, where less than `L'` are left with another future, do the same. -/
def Foresee (L L' : Nat) (f f' : RM Reader α) : Prop := ∀ r, Sound r →
  Sound (f r).2 ∧
  ∃ taken, r.source.rounds = taken ++ (f r).2.source.rounds ∧
    ((f r).2.source.rounds ≠ [] → left r < L → ∀ rest, left (withFuture r (taken ++ rest)) < L' →
      f' (withFuture r (taken ++ rest)) = ((f r).1, withFuture (f r).2 rest))

theorem Causal.foresee {f : RM Reader α} (h : Causal f) : Foresee L L' f f := by
  intro r hs
  obtain ⟨h1, taken, h2, h3⟩ := h r hs
  exact ⟨h1, taken, h2, fun hn _ rest _ => h3 hn rest⟩

theorem Causal.shrinks {f : RM Reader α} (h : Causal f) : Shrinks f := fun r hs => by
  obtain ⟨h1, taken, h2, _⟩ := h r hs
  exact ⟨h1, taken, h2⟩

theorem Foresee.shrinks {f f' : RM Reader α} (h : Foresee L L' f f') : Shrinks f := fun r hs => by
  obtain ⟨h1, taken, h2, _⟩ := h r hs
  exact ⟨h1, taken, h2⟩

theorem Shrinks.none {f : RM Reader α} (h : Shrinks f) (f' : RM Reader α) : Foresee L 0 f f' := fun r hs => by
  obtain ⟨h1, taken, h2⟩ := h r hs
  exact ⟨h1, taken, h2, fun _ _ rest hx => absurd hx (Nat.not_lt_zero _)⟩

theorem shrinks_pure (a : α) : Shrinks (pure a : RM Reader α) := fun _ hs => ⟨hs, [], rfl⟩

theorem shrinks_lift (x : Res α) : Shrinks (RM.lift x : RM Reader α) := fun _ hs => ⟨hs, [], rfl⟩

theorem shrinks_bind {f : RM Reader α} {k : α → RM Reader β} (hf : Shrinks f) (hk : ∀ a, Shrinks (k a)) : Shrinks (f >>= k) := by
  intro r hs
  simp only [RM.bind_run]
  have h := hf r hs
  generalize f r = x at h
  obtain ⟨x, r1⟩ := x
  obtain ⟨h1, t1, h2⟩ := h
  cases x with
  | ok a =>
    obtain ⟨h3, t2, h4⟩ := hk a r1 h1
    exact ⟨h3, t1 ++ t2, by rw [List.append_assoc, ← h4]; exact h2⟩
  | err e => exact ⟨h1, t1, h2⟩
  | panic e => exact ⟨h1, t1, h2⟩
  | diverge => exact ⟨h1, t1, h2⟩

/-- `f` uses up `d` characters. -/
def Uses (f : RM Reader α) (d : α → Nat) : Prop := ∀ r, Sound r → ∀ a, (f r).1 = .ok a → left (f r).2 + d a ≤ left r

theorem foresee_bind {f : RM Reader α} {k k' : α → RM Reader β} {d : α → Nat} (hf : Causal f) (hd : Uses f d)
    (hk : ∀ a, Foresee (L - d a) (L' - d a) (k a) (k' a)) : Foresee L L' (f >>= k) (f >>= k') := by
  intro r hs
  simp only [RM.bind_run]
  have h := hf r hs
  have hd1 := hd r hs
  cases hx : f r with
  | mk x r1 =>
  rw [hx] at h hd1
  obtain ⟨h1, t1, h2, h3⟩ := h
  cases x with
  | ok a =>
    simp only
    obtain ⟨h4, t2, h5, h6⟩ := hk a r1 h1
    refine ⟨h4, t1 ++ t2, by rw [List.append_assoc, ← h5]; exact h2, fun hn hl rest hl' => ?_⟩
    have hn1 : r1.source.rounds ≠ [] := by rw [h5]; simp [hn]
    have h7 := h3 hn1 (t2 ++ rest)
    rw [List.append_assoc] at hl' ⊢
    have hd2 := hd (withFuture r (t1 ++ (t2 ++ rest))) hs a (by rw [h7])
    have hd3 := hd1 a rfl
    rw [h7] at hd2 ⊢
    simp only at hd2 hd3 ⊢
    exact h6 hn (by omega) rest (by omega)
  | err e => exact ⟨h1, t1, h2, fun hn _ rest _ => by rw [h3 hn rest]⟩
  | panic e => exact ⟨h1, t1, h2, fun hn _ rest _ => by rw [h3 hn rest]⟩
  | diverge => exact ⟨h1, t1, h2, fun hn _ rest _ => by rw [h3 hn rest]⟩

theorem causal_pure (a : α) : Causal (pure a : RM Reader α) := fun _ hs => ⟨hs, [], rfl, fun _ _ => rfl⟩

theorem causal_lift (x : Res α) : Causal (RM.lift x : RM Reader α) := fun _ hs => ⟨hs, [], rfl, fun _ _ => rfl⟩

theorem causal_bind {f : RM Reader α} {k : α → RM Reader β} (hf : Causal f) (hk : ∀ a, Causal (k a)) : Causal (f >>= k) := by
  intro r hs
  simp only [RM.bind_run]
  have h := hf r hs
  cases hx : f r with
  | mk x r1 =>
  rw [hx] at h
  obtain ⟨h1, t1, h2, h3⟩ := h
  cases x with
  | ok a =>
    simp only
    obtain ⟨h4, t2, h5, h6⟩ := hk a r1 h1
    refine ⟨h4, t1 ++ t2, by rw [List.append_assoc, ← h5]; exact h2, fun hn rest => ?_⟩
    have hn1 : r1.source.rounds ≠ [] := by rw [h5]; simp [hn]
    rw [List.append_assoc, h3 hn1 (t2 ++ rest)]
    exact h6 hn rest
  | err e => exact ⟨h1, t1, h2, fun hn rest => by rw [h3 hn rest]⟩
  | panic e => exact ⟨h1, t1, h2, fun hn rest => by rw [h3 hn rest]⟩
  | diverge => exact ⟨h1, t1, h2, fun hn rest => by rw [h3 hn rest]⟩

theorem causal_at {γ : Type} {g : Reader → γ} (hg : ∀ r rest, g (withFuture r rest) = g r) {f : γ → RM Reader α} (hf : ∀ x, Causal (f x)) :
    Causal (fun r => f (g r) r) := by
  intro r hs
  obtain ⟨h1, t, h2, h3⟩ := hf (g r) r hs
  refine ⟨h1, t, h2, fun hn rest => ?_⟩
  simp only [hg]
  exact h3 hn rest

theorem causal_location : Causal Reader.location := fun _ hs => ⟨hs, [], rfl, fun _ _ => rfl⟩

/-! ## Reading -/

theorem rounds_causal (n : Nat) (rs : List (Except Nat Str)) (loc : Location) :
    ∃ taken, rs = taken ++ (Source.readRounds n rs loc).2.rounds ∧
      ((Source.readRounds n rs loc).2.rounds ≠ [] → ∀ rest, Source.readRounds n (taken ++ rest) loc =
        ((Source.readRounds n rs loc).1, { (Source.readRounds n rs loc).2 with rounds := rest })) := by
  induction rs with
  | nil => exact ⟨[], rfl, fun h => absurd rfl h⟩
  | cons x rs ih =>
    cases x with
    | error e => exact ⟨[.error e], rfl, fun _ rest => rfl⟩
    | ok chars =>
      unfold Source.readRounds
      by_cases hc : chars.isEmpty = true
      · rw [if_pos hc]
        obtain ⟨t, h1, h2⟩ := ih
        refine ⟨.ok chars :: t, by rw [List.cons_append, ← h1], fun hn rest => ?_⟩
        rw [← h2 hn rest]
        simp only [List.cons_append]
        rw [if_pos hc]
      · rw [if_neg hc]
        refine ⟨[.ok chars], rfl, fun _ rest => ?_⟩
        simp only [List.cons_append, List.nil_append]
        rw [if_neg hc]

theorem source_causal (n : Nat) (s : Source) :
    ∃ taken, s.rounds = taken ++ (s.readChars n).2.rounds ∧
      ((s.readChars n).2.rounds ≠ [] → ∀ rest, ({ s with rounds := taken ++ rest } : Source).readChars n =
        ((s.readChars n).1, { (s.readChars n).2 with rounds := rest })) := by
  unfold Source.readChars
  by_cases hp : (!s.pending.isEmpty) = true
  · rw [if_pos hp]
    refine ⟨[], rfl, fun _ rest => ?_⟩
    simp only
    rw [if_pos hp]
    rfl
  · rw [if_neg hp]
    obtain ⟨t, h1, h2⟩ := rounds_causal n s.rounds s.location
    refine ⟨t, h1, fun hn rest => ?_⟩
    simp only
    rw [if_neg hp]
    exact h2 hn rest

theorem sound_readChars (n : Nat) {r : Reader} (hs : Sound r) : Sound (Reader.readChars n r).2 := by
  have h := readChars_facts n (Metered.start r) hs
  have e := h.reader
  have h' := h.sound
  rw [e] at h'
  exact h'

theorem causal_readChars (n : Nat) : Causal (Reader.readChars n) := by
  intro r hs
  refine ⟨sound_readChars n hs, ?_⟩
  have hrem : ∀ rest, (withFuture r rest).buffer.remains = r.buffer.remains := fun _ => rfl
  unfold Reader.readChars
  by_cases h : r.buffer.remains = true
  · rw [if_pos h]
    refine ⟨[], rfl, fun _ rest => ?_⟩
    rw [hrem, if_pos h]
    rfl
  · rw [if_neg h]
    obtain ⟨t, h1, h2⟩ := source_causal n r.source
    have e : ∀ rest, (withFuture r rest).source = { r.source with rounds := rest } := fun _ => rfl
    have e' : ∀ rest, (withFuture r rest).buffer = r.buffer := fun _ => rfl
    generalize hx : r.source.readChars n = x at h1 h2
    obtain ⟨x, s⟩ := x
    cases x with
    | ok cs =>
      simp only at h1 h2 ⊢
      by_cases hc : cs.isEmpty = true
      · rw [if_pos hc]
        refine ⟨t, h1, fun hn rest => ?_⟩
        rw [hrem, if_neg h, e, h2 hn rest]
        simp only
        rw [if_pos hc]
        rfl
      · rw [if_neg hc]
        refine ⟨t, ?_, fun hn rest => ?_⟩
        · generalize r.buffer.append cs = y
          obtain ⟨y, b⟩ := y
          cases y <;> exact h1
        · have hn' : s.rounds ≠ [] := by
            revert hn
            generalize r.buffer.append cs = y
            obtain ⟨y, b⟩ := y
            cases y <;> exact id
          rw [hrem, if_neg h, e, h2 hn' rest]
          simp only
          rw [if_neg hc, e']
          generalize r.buffer.append cs = y
          obtain ⟨y, b⟩ := y
          cases y <;> rfl
    | err er =>
      refine ⟨t, h1, fun hn rest => ?_⟩
      rw [hrem, if_neg h, e, h2 hn rest]
      rfl
    | panic er =>
      refine ⟨t, h1, fun hn rest => ?_⟩
      rw [hrem, if_neg h, e, h2 hn rest]
      rfl
    | diverge =>
      refine ⟨t, h1, fun hn rest => ?_⟩
      rw [hrem, if_neg h, e, h2 hn rest]
      rfl

theorem uses_readChars (n : Nat) : Uses (Reader.readChars n) List.length := by
  intro r hs cs hc
  have h := readChars_facts n (Metered.start r) hs
  have h1 := h.left
  rw [h.reader, h.answer] at h1
  change got (Reader.readChars n r).1 + left (Reader.readChars n r).2 ≤ left r at h1
  rw [hc] at h1
  change cs.length + _ ≤ _ at h1
  omega

theorem causal_read : Causal Reader.read := causal_bind (causal_readChars 1) fun _ => causal_pure _

theorem uses_read : Uses Reader.read (fun o => if o.isSome then 1 else 0) := by
  intro r hs o ho
  unfold Reader.read at ho ⊢
  simp only [RM.bind_run] at ho ⊢
  have h := uses_readChars 1 r hs
  generalize Reader.readChars 1 r = x at h ho
  obtain ⟨x, r1⟩ := x
  cases x with
  | ok cs =>
    have h1 := h cs rfl
    simp only at h1 ⊢
    have ho : cs.head? = o := by injection ho
    subst ho
    change left r1 + _ ≤ _
    cases cs with
    | nil => simpa using h1
    | cons c cs => simp only [List.head?_cons, Option.isSome_some, if_true, List.length_cons] at h1 ⊢; omega
  | err e => cases ho
  | panic e => cases ho
  | diverge => cases ho

/-- If there is nothing to read any more, nothing is to come. -/
theorem rounds_none (rs : List (Except Nat Str)) (loc : Location) : (Source.readRounds 1 rs loc).1 = .ok [] →
    (Source.readRounds 1 rs loc).2.rounds = [] := by
  induction rs with
  | nil => intro _; rfl
  | cons x rs ih =>
    cases x with
    | error e => intro h; cases h
    | ok chars =>
      unfold Source.readRounds
      by_cases hc : chars.isEmpty = true
      · rw [if_pos hc]; exact ih
      · rw [if_neg hc]
        intro h
        cases chars with
        | nil => simp at hc
        | cons c cs => simp at h

theorem readChars_none {r : Reader} (h : (Reader.readChars 1 r).1 = .ok []) : (Reader.readChars 1 r).2.source.rounds = [] := by
  unfold Reader.readChars at h ⊢
  by_cases hr : r.buffer.remains = true
  · rw [if_pos hr] at h ⊢
    exfalso
    simp only [UnreadBuffer.read, Res.ok.injEq] at h
    simp only [UnreadBuffer.remains, decide_eq_true_eq] at hr
    have := congrArg List.length h
    simp at this
    omega
  · rw [if_neg hr] at h ⊢
    have key : (r.source.readChars 1).1 = .ok [] → (r.source.readChars 1).2.rounds = [] := by
      unfold Source.readChars
      by_cases hp : (!r.source.pending.isEmpty) = true
      · rw [if_pos hp]
        intro h
        exfalso
        cases hq : r.source.pending with
        | nil => rw [hq] at hp; simp at hp
        | cons c cs => rw [hq] at h; simp at h
      · rw [if_neg hp]; exact rounds_none _ _
    generalize r.source.readChars 1 = x at h key
    obtain ⟨x, s⟩ := x
    cases x with
    | ok cs =>
      simp only at h key ⊢
      by_cases hc : cs.isEmpty = true
      · rw [if_pos hc]
        exact key (by rw [List.isEmpty_iff.mp hc])
      · rw [if_neg hc] at h
        exfalso
        generalize r.buffer.append cs = y at h
        obtain ⟨y, b⟩ := y
        cases y with
        | ok u => simp only [Res.ok.injEq] at h; rw [h] at hc; simp at hc
        | err e => cases h
        | panic e => cases h
        | diverge => cases h
    | err e => cases h
    | panic e => cases h
    | diverge => cases h

theorem read_none {r : Reader} (h : (Reader.read r).1 = .ok none) : (Reader.read r).2.source.rounds = [] := by
  unfold Reader.read at h ⊢
  simp only [RM.bind_run] at h ⊢
  have h1 := readChars_none (r := r)
  generalize Reader.readChars 1 r = x at h h1
  obtain ⟨x, r1⟩ := x
  cases x with
  | ok cs =>
    cases cs with
    | nil => exact h1 rfl
    | cons c cs => cases h
  | err e => cases h
  | panic e => cases h
  | diverge => cases h

/-- After a read that finds the end, nothing can change any more. -/
theorem foresee_read {k k' : Option Char → RM Reader β} (hsome : ∀ c, Foresee (L - 1) (L' - 1) (k (some c)) (k' (some c)))
    (hnone : Shrinks (k none)) : Foresee L L' (Reader.read >>= k) (Reader.read >>= k') := by
  intro r hs
  simp only [RM.bind_run]
  have h := causal_read r hs
  have hd1 := uses_read r hs
  have hend := read_none (r := r)
  cases hx : Reader.read r with
  | mk x r1 =>
  rw [hx] at h hd1 hend
  obtain ⟨h1, t1, h2, h3⟩ := h
  cases x with
  | ok o =>
    simp only
    cases o with
    | none =>
      obtain ⟨h4, t2, h5⟩ := hnone r1 h1
      have e : r1.source.rounds = [] := hend rfl
      rw [e] at h5
      have e' : (k none r1).2.source.rounds = [] := (List.append_eq_nil_iff.mp h5.symm).2
      refine ⟨h4, t1, by rw [e']; simp only at h2; rw [e] at h2; exact h2, fun hn => absurd e' hn⟩
    | some c =>
      obtain ⟨h4, t2, h5, h6⟩ := hsome c r1 h1
      refine ⟨h4, t1 ++ t2, by rw [List.append_assoc, ← h5]; exact h2, fun hn hl rest hl' => ?_⟩
      have hn1 : r1.source.rounds ≠ [] := by rw [h5]; simp [hn]
      have h7 := h3 hn1 (t2 ++ rest)
      rw [List.append_assoc] at hl' ⊢
      have hd2 := uses_read (withFuture r (t1 ++ (t2 ++ rest))) hs (some c) (by rw [h7])
      have hd3 := hd1 (some c) rfl
      rw [h7] at hd2 ⊢
      simp only [Option.isSome_some, if_true] at hd2 hd3 ⊢
      exact h6 hn (by omega) rest (by omega)
  | err e => exact ⟨h1, t1, h2, fun hn _ rest _ => by rw [h3 hn rest]⟩
  | panic e => exact ⟨h1, t1, h2, fun hn _ rest _ => by rw [h3 hn rest]⟩
  | diverge => exact ⟨h1, t1, h2, fun hn _ rest _ => by rw [h3 hn rest]⟩

/-! ## Marks -/

theorem causal_mark : Causal Reader.mark := by
  refine fun r hs => ⟨?_, [], rfl, fun _ _ => rfl⟩
  have h := (mark_facts (Metered.start r) hs).2
  have h' := h.2.1.sound
  rw [h.1] at h'
  exact h'

theorem causal_reset (m : Nat) : Causal (Reader.resetToMark m) := by
  refine fun r hs => ⟨?_, [], rfl, fun _ _ => rfl⟩
  have h := (reset_facts m (Metered.start r) hs).2
  have h' := h.2.1.sound
  rw [h.1] at h'
  exact h'

theorem causal_unmark (m : Nat) : Causal (Reader.unmark m) := by
  have e : ∀ r, Reader.unmark m r = ((match (r.buffer.removeMark m).1 with | .ok _ => .ok () | .err e => .err e | .panic p => .panic p | .diverge => .diverge),
      { r with buffer := (r.buffer.removeMark m).2 }) := by
    intro r
    unfold Reader.unmark
    generalize r.buffer.removeMark m = x
    obtain ⟨x, b⟩ := x
    cases x <;> rfl
  refine fun r hs => ⟨?_, [], by rw [e]; rfl, fun _ _ => by rw [e, e]; rfl⟩
  have h := (unmark_facts m (Metered.start r) hs).2
  have h' := h.2.sound
  rw [h.1] at h'
  exact h'

theorem uses_mark : Uses Reader.mark (fun _ => 0) := by
  intro r hs a h
  have hm := mark_facts (Metered.start r) hs
  have e1 := hm.2.1
  have e2 := hm.2.2.1.source
  have e3 := hm.2.2.1.buffer
  have e4 := (hm.2.2.2 a (hm.1.trans h)).2.1
  rw [e1] at e2 e3 e4
  have e2 : (Reader.mark r).2.source = r.source := e2
  have e3 : (Reader.mark r).2.buffer.buffer = r.buffer.buffer := e3
  have e4 : (Reader.mark r).2.buffer.next = r.buffer.next := e4
  unfold left
  rw [e2, e3, e4]
  exact Nat.le_refl _

theorem uses_unmark (m : Nat) : Uses (Reader.unmark m) (fun _ => 0) := by
  intro r _ a h
  unfold Reader.unmark UnreadBuffer.removeMark at h ⊢
  by_cases hd : m < r.buffer.head ∨ m > r.buffer.head + r.buffer.buffer.length
  · rw [if_pos hd] at h; cases h
  · rw [if_neg hd] at h ⊢
    cases hm : UnreadBuffer.findMark m r.buffer.stack with
    | none => rw [hm] at h; cases h
    | some x => obtain ⟨l, st⟩ := x; exact Nat.le_refl _

theorem causal_under {f : RM Reader α} (hf : Causal f) (g : α → β) :
    Causal (do let m ← Reader.mark; let x ← f; let _ ← Reader.resetToMark m; pure (g x) : RM Reader β) :=
  causal_bind causal_mark fun m => causal_bind hf fun _ => causal_bind (causal_reset m) fun _ => causal_pure _

theorem causal_isEof : Causal Reader.isEof := causal_under causal_read Option.isNone

theorem causal_prefixLoop (p : Str) : Causal (Reader.prefixLoop p) := by
  induction p with
  | nil => exact causal_pure _
  | cons c p ih =>
    unfold Reader.prefixLoop
    refine causal_bind causal_read fun ch => ?_
    by_cases h : ch ≠ some c
    · rw [if_pos h]; exact causal_pure _
    · rw [if_neg h]; exact ih

theorem causal_prefixMatches (p : Str) : Causal (Reader.prefixMatches p) := causal_under (causal_prefixLoop p) id

theorem causal_peekLoop (n : Nat) : Causal (Reader.peekLoop n) := by
  induction n with
  | zero => exact causal_pure _
  | succ n ih =>
    unfold Reader.peekLoop
    refine causal_bind causal_read fun ch => ?_
    cases ch with
    | none => exact causal_pure _
    | some ch => exact causal_bind ih fun _ => causal_pure _

theorem causal_peek (n : Nat) : Causal (Reader.peek n) := causal_under (causal_peekLoop n) id

theorem causal_skipLoop (fuel : Nat) : ∀ n, Causal (Reader.skipLoop fuel n) := by
  induction fuel with
  | zero =>
    intro n
    cases n with
    | zero => exact causal_pure _
    | succ n => exact causal_lift _
  | succ fuel ih =>
    intro n
    cases n with
    | zero => exact causal_pure _
    | succ n =>
      unfold Reader.skipLoop
      refine causal_bind (causal_readChars _) fun cs => ?_
      by_cases h : cs.isEmpty = true
      · rw [if_pos h]; exact causal_pure _
      · rw [if_neg h]; exact ih _

theorem causal_skip (n : Nat) : Causal (Reader.skip n) := causal_bind (causal_skipLoop n n) fun _ => causal_pure _

/-! ## Loops whose rounds the model counts -/

/-- A loop that is given as many rounds as characters may be left, and one. -/
theorem causal_sized {F : Nat → RM Reader α} (h : ∀ f f', Foresee f f' (F f) (F f')) : Causal (fun r => F (r.size + 1) r) := by
  intro r hs
  obtain ⟨h1, t, h2, _⟩ := h (r.size + 1) 0 r hs
  refine ⟨h1, t, h2, fun hn rest => ?_⟩
  obtain ⟨_, t', h4, h5⟩ := h (r.size + 1) ((withFuture r (t ++ rest)).size + 1) r hs
  have e : t' = t := List.append_cancel_right (h4.symm.trans h2)
  subst e
  exact h5 hn (Nat.lt_succ_of_le left_le) rest (Nat.lt_succ_of_le left_le)

theorem Foresee.bind_pure {f f' : RM Reader α} (h : Foresee L L' f f') (g : α → β) :
    Foresee L L' (f >>= fun a => pure (g a)) (f' >>= fun a => pure (g a)) := by
  intro r hs
  simp only [RM.bind_run]
  have h := h r hs
  cases hx : f r with
  | mk x r1 =>
  rw [hx] at h
  obtain ⟨h1, t, h2, h3⟩ := h
  cases x with
  | ok a => exact ⟨h1, t, h2, fun hn hl rest hl' => by rw [h3 hn hl rest hl']; rfl⟩
  | err e => exact ⟨h1, t, h2, fun hn hl rest hl' => by rw [h3 hn hl rest hl']⟩
  | panic e => exact ⟨h1, t, h2, fun hn hl rest hl' => by rw [h3 hn hl rest hl']⟩
  | diverge => exact ⟨h1, t, h2, fun hn hl rest hl' => by rw [h3 hn hl rest hl']⟩

theorem Foresee.mono {f f' : RM Reader α} {M M' : Nat} (h : Foresee L L' f f') (h1 : M ≤ L) (h2 : M' ≤ L') : Foresee M M' f f' := by
  intro r hs
  obtain ⟨a1, t, a2, a3⟩ := h r hs
  exact ⟨a1, t, a2, fun hn hl rest hl' => a3 hn (by omega) rest (by omega)⟩

theorem shrinks_readAll (fuel : Nat) : Shrinks (Reader.readAllLoop fuel) := by
  induction fuel with
  | zero => exact shrinks_lift _
  | succ fuel ih =>
    unfold Reader.readAllLoop
    refine shrinks_bind (Causal.shrinks (causal_readChars 1024)) fun cs => ?_
    by_cases h : cs.isEmpty = true
    · rw [if_pos h]; exact shrinks_pure _
    · rw [if_neg h]; exact shrinks_bind ih fun _ => shrinks_pure _

theorem foresee_readAll (f : Nat) : ∀ f', Foresee f f' (Reader.readAllLoop f) (Reader.readAllLoop f') := by
  induction f with
  | zero =>
    intro f' r hs
    exact ⟨hs, [], rfl, fun _ hl => absurd hl (Nat.not_lt_zero _)⟩
  | succ f ih =>
    intro f'
    cases f' with
    | zero => exact Shrinks.none (shrinks_readAll _) _
    | succ f' =>
      unfold Reader.readAllLoop
      refine foresee_bind (causal_readChars 1024) (uses_readChars 1024) fun cs => ?_
      cases cs with
      | nil => exact Causal.foresee (causal_pure _)
      | cons c cs =>
        simp only [List.isEmpty_cons, Bool.false_eq_true, if_false]
        exact ((ih f').mono (by simp only [List.length_cons]; omega) (by simp only [List.length_cons]; omega)).bind_pure _

theorem causal_readAll : Causal Reader.readAll := causal_sized (F := Reader.readAllLoop) foresee_readAll

theorem shrinks_capture (e : Location) (fuel : Nat) : Shrinks (captureLoop e fuel) := by
  induction fuel with
  | zero => exact shrinks_lift _
  | succ fuel ih =>
    unfold captureLoop
    refine shrinks_bind (Causal.shrinks causal_location) fun here => ?_
    by_cases hc : here.lines < e.lines ∨ here.columns < e.columns
    · rw [if_pos hc]
      refine shrinks_bind (Causal.shrinks causal_read) fun ch => ?_
      cases ch with
      | none => exact ih
      | some ch => exact shrinks_bind ih fun _ => shrinks_pure _
    · rw [if_neg hc]; exact shrinks_pure _

theorem uses_location : Uses Reader.location (fun _ => 0) := fun _ _ _ _ => Nat.le_refl _

theorem foresee_capture (e : Location) (f : Nat) : ∀ f', Foresee f f' (captureLoop e f) (captureLoop e f') := by
  induction f with
  | zero =>
    intro f' r hs
    exact ⟨hs, [], rfl, fun _ hl => absurd hl (Nat.not_lt_zero _)⟩
  | succ f ih =>
    intro f'
    cases f' with
    | zero => exact Shrinks.none (shrinks_capture e _) _
    | succ f' =>
      unfold captureLoop
      refine foresee_bind causal_location uses_location fun here => ?_
      by_cases hc : here.lines < e.lines ∨ here.columns < e.columns
      · rw [if_pos hc, if_pos hc]
        exact foresee_read (fun c => (ih f').bind_pure _) (shrinks_capture e f)
      · rw [if_neg hc, if_neg hc]; exact Causal.foresee (causal_pure _)

theorem causal_capture (e : Location) : Causal (fun r => captureLoop e (r.size + 1) r) := causal_sized (foresee_capture e)

theorem shrinks_chars (allowed : Char → Bool) (max : Option Nat) (fuel : Nat) : ∀ count, Shrinks (charsLoop allowed max fuel count) := by
  induction fuel with
  | zero => intro count; exact shrinks_lift _
  | succ fuel ih =>
    intro count
    unfold charsLoop
    by_cases hm : (max.map fun m => decide (count < m)).getD true = true
    · rw [if_pos hm]
      refine shrinks_bind (Causal.shrinks causal_mark) fun m => shrinks_bind (Causal.shrinks causal_read) fun ch => ?_
      cases ch with
      | none => exact shrinks_pure _
      | some ch =>
        simp only
        cases allowed ch with
        | true => exact shrinks_bind (Causal.shrinks (causal_unmark m)) fun _ => shrinks_bind (ih _) fun _ => shrinks_pure _
        | false => exact shrinks_bind (Causal.shrinks (causal_reset m)) fun _ => shrinks_pure _
    · rw [if_neg hm]; exact shrinks_pure _

theorem foresee_chars (allowed : Char → Bool) (max : Option Nat) (f : Nat) :
    ∀ f' count, Foresee f f' (charsLoop allowed max f count) (charsLoop allowed max f' count) := by
  induction f with
  | zero =>
    intro f' count r hs
    exact ⟨hs, [], rfl, fun _ hl => absurd hl (Nat.not_lt_zero _)⟩
  | succ f ih =>
    intro f' count
    cases f' with
    | zero => exact Shrinks.none (shrinks_chars allowed max _ _) _
    | succ f' =>
      unfold charsLoop
      by_cases hm : (max.map fun m => decide (count < m)).getD true = true
      · rw [if_pos hm, if_pos hm]
        refine foresee_bind causal_mark uses_mark fun m => foresee_read (fun c => ?_) (shrinks_pure _)
        simp only
        cases allowed c with
        | true => exact foresee_bind (causal_unmark m) (uses_unmark m) fun _ => (ih f' (count + 1)).bind_pure _
        | false => exact Causal.foresee (causal_bind (causal_reset m) fun _ => causal_pure _)
      · rw [if_neg hm, if_neg hm]; exact Causal.foresee (causal_pure _)

theorem causal_chars (allowed : Char → Bool) (max : Option Nat) : Causal (fun r => charsLoop allowed max (r.size + 1) 0 r) :=
  causal_sized (F := fun f => charsLoop allowed max f 0) fun f f' => foresee_chars allowed max f f' 0

end Ebnf.Future
