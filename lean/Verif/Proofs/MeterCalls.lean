import Verif.Proofs.Meter

set_option autoImplicit false

/-! # Lemmas: what calls and parses cost (C104) -/

namespace Ebnf.Dyn

variable {σ τ : Type} {R : σ → τ → Prop} {I : Required σ} {J : Required τ}

/-- `same_bind` for two given states. -/
theorem bind_at {α β : Type} {x : RM σ α} {y : RM τ α} {f : α → RM σ β} {g : α → RM τ β} {s : σ} {t : τ} (h1 : (x s).1 = (y t).1)
    (hf : ∀ a, (y t).1 = .ok a → (f a (x s).2).1 = (g a (y t).2).1 ∧ R (f a (x s).2).2 (g a (y t).2).2)
    (h2 : R (x s).2 (y t).2) : ((x >>= f) s).1 = ((y >>= g) t).1 ∧ R ((x >>= f) s).2 ((y >>= g) t).2 := by
  simp only [RM.bind_run]
  generalize x s = p at h1 h2 hf
  generalize y t = q at h1 h2 hf
  obtain ⟨a, s'⟩ := p
  obtain ⟨b, t'⟩ := q
  simp only at h1 h2 hf
  subst h1
  cases a with
  | ok a => exact hf a rfl
  | err e => exact ⟨rfl, h2⟩
  | panic e => exact ⟨rfl, h2⟩
  | diverge => exact ⟨rfl, h2⟩

theorem same_read (h : Same R (I.readChars 1) (J.readChars 1)) : Same R I.read J.read :=
  same_bind h fun _ => same_pure _

theorem same_isEof (hr : Same R I.read J.read) (hm : Same R I.mark J.mark) (ht : ∀ m, Same R (I.resetToMark m) (J.resetToMark m)) :
    Same R I.isEof J.isEof :=
  same_bind hm fun m => same_bind hr fun _ => same_bind (ht m) fun _ => same_pure _

theorem same_prefixLoop (hr : Same R I.read J.read) (p : Str) : Same R (I.prefixLoop p) (J.prefixLoop p) := by
  induction p with
  | nil => exact same_pure _
  | cons x p ih =>
    unfold Required.prefixLoop
    refine same_bind hr fun ch => ?_
    by_cases hc : ch ≠ some x
    · rw [if_pos hc, if_pos hc]; exact same_pure _
    · rw [if_neg hc, if_neg hc]; exact ih

theorem same_prefixMatches (hr : Same R I.read J.read) (hm : Same R I.mark J.mark) (ht : ∀ m, Same R (I.resetToMark m) (J.resetToMark m))
    (p : Str) : Same R (I.prefixMatches p) (J.prefixMatches p) :=
  same_bind hm fun m => same_bind (same_prefixLoop hr p) fun _ => same_bind (ht m) fun _ => same_pure _

theorem same_peekLoop (hr : Same R I.read J.read) (n : Nat) : Same R (I.peekLoop n) (J.peekLoop n) := by
  induction n with
  | zero => exact same_pure _
  | succ n ih =>
    unfold Required.peekLoop
    refine same_bind hr fun ch => ?_
    cases ch with
    | none => exact same_pure _
    | some ch => exact same_bind ih fun _ => same_pure _

theorem same_peek (hr : Same R I.read J.read) (hm : Same R I.mark J.mark) (ht : ∀ m, Same R (I.resetToMark m) (J.resetToMark m))
    (n : Nat) : Same R (I.peek n) (J.peek n) :=
  same_bind hm fun m => same_bind (same_peekLoop hr n) fun _ => same_bind (ht m) fun _ => same_pure _

theorem same_skipLoop (h : ∀ n, n ≠ 0 → Same R (I.readChars n) (J.readChars n)) (fuel : Nat) :
    ∀ n, Same R (I.skipLoop fuel n) (J.skipLoop fuel n) := by
  induction fuel with
  | zero => intro n; cases n with
    | zero => exact same_pure _
    | succ n => exact same_lift _
  | succ fuel ih =>
    intro n
    cases n with
    | zero => exact same_pure _
    | succ n =>
      unfold Required.skipLoop
      refine same_bind (h _ (by omega)) fun cs => ?_
      by_cases hc : cs.isEmpty = true
      · rw [if_pos hc, if_pos hc]; exact same_pure _
      · rw [if_neg hc, if_neg hc]; exact ih _

theorem same_skip (h : ∀ n, n ≠ 0 → Same R (I.readChars n) (J.readChars n)) (n : Nat) : Same R (I.skip n) (J.skip n) :=
  same_bind (same_skipLoop h n n) fun _ => same_pure _

theorem same_readAllLoop (h : ∀ n, n ≠ 0 → Same R (I.readChars n) (J.readChars n)) (fuel : Nat) :
    Same R (CharReader.readAllLoop I.readChars fuel) (CharReader.readAllLoop J.readChars fuel) := by
  induction fuel with
  | zero => exact same_lift _
  | succ fuel ih =>
    unfold CharReader.readAllLoop
    refine same_bind (h _ (by omega)) fun cs => ?_
    by_cases hc : cs.isEmpty = true
    · rw [if_pos hc, if_pos hc]; exact same_pure _
    · rw [if_neg hc, if_neg hc]; exact same_bind ih fun _ => same_pure _

theorem same_readAll (h : ∀ n, n ≠ 0 → Same R (I.readChars n) (J.readChars n)) (hz : ∀ s t, R s t → I.size s = J.size t) :
    Same R I.readAll J.readAll := by
  intro s t hr
  unfold Required.readAll
  rw [hz s t hr]
  exact same_readAllLoop h _ s t hr

open Ebnf.Spec

theorem same_answer {α : Type} {f : α → ReaderAns} {x : Res α × σ} {y : Res α × τ} (h : x.1 = y.1 ∧ R x.2 y.2) :
    (answerOf f x).1 = (answerOf f y).1 ∧ R (answerOf f x).2 (answerOf f y).2 := by
  obtain ⟨a, s⟩ := x
  obtain ⟨b, t⟩ := y
  obtain ⟨h1, h2⟩ := h
  simp only at h1 h2
  subst h1
  cases a <;> exact ⟨rfl, h2⟩

/-- One call, and then a history of calls. -/
def SameCall (R : σ → τ → Prop) (I : Methods σ) (J : Methods τ) (op : ReaderOp) : Prop :=
  ∀ s t, R s t → (call I op s).1 = (call J op t).1 ∧ R (call I op s).2 (call J op t).2

theorem same_callAll {I : Methods σ} {J : Methods τ} (ops : List ReaderOp) (h : ∀ op ∈ ops, SameCall R I J op) :
    ∀ s t, R s t → (callAll I ops s).1 = (callAll J ops t).1 ∧ R (callAll I ops s).2 (callAll J ops t).2 := by
  induction ops with
  | nil => intro s t hr; exact ⟨rfl, hr⟩
  | cons op ops ih =>
    intro s t hr
    obtain ⟨h1, h2⟩ := h op (by simp) s t hr
    obtain ⟨h3, h4⟩ := ih (fun o ho => h o (by simp [ho])) _ _ h2
    unfold callAll
    exact ⟨by simp only; rw [h1, h3], h4⟩

end Ebnf.Dyn

namespace Ebnf.Meter

open Ebnf Ebnf.Spec Ebnf.Dyn

/-- The reader is that one, and what has been paid and what is still to be paid are together as said. -/
def Paid (Q : Nat → Prop) (s : Metered) (t : Reader) : Prop :=
  s.reader = t ∧ Q (2 * s.moved + stepsTwice s.reader.source) ∧ Sound t

variable {Q : Nat → Prop}

theorem paid_read1 : Same (Paid Q) (Metered.readChars 1) (Reader.readChars 1) := by
  rintro s t ⟨rfl, hq, hs⟩
  have h := readChars_facts 1 s hs
  exact ⟨h.answer, h.reader, by rw [h.exactly rfl]; exact hq, by rw [← h.reader]; exact h.sound⟩

theorem paid_read (hQ : ∀ a b, a ≤ b → Q b → Q a) (n : Nat) (hn : n ≠ 0) : Same (Paid Q) (Metered.readChars n) (Reader.readChars n) := by
  rintro s t ⟨rfl, hq, hs⟩
  have h := readChars_facts n s hs
  exact ⟨h.answer, h.reader, hQ _ _ (h.atMost hn) hq, by rw [← h.reader]; exact h.sound⟩

theorem paid_of {α : Type} {extra : Nat} {s : Metered} {t : Reader} {x : Res α × Metered} {y : Res α × Reader} (hp : Paid Q s t) (h1 : x.1 = y.1)
    (h2 : x.2.reader = y.2) (h : MarkFacts extra s x) : x.1 = y.1 ∧ Paid Q x.2 y.2 := by
  obtain ⟨rfl, hq, hs⟩ := hp
  exact ⟨h1, h2, by rw [h.moved, h.source]; exact hq, by rw [← h2]; exact h.sound⟩

theorem paid_mark : Same (Paid Q) Metered.mark Reader.mark := by
  rintro s t hp
  obtain ⟨h1, h2, h3, _⟩ := mark_facts s (by have := hp.2.2; rw [← hp.1] at this; exact this)
  rw [hp.1] at h1 h2
  exact paid_of hp h1 h2 h3

theorem paid_reset (m : Nat) : Same (Paid Q) (Metered.resetToMark m) (Reader.resetToMark m) := by
  rintro s t hp
  obtain ⟨h1, h2, h3, _⟩ := reset_facts m s (by have := hp.2.2; rw [← hp.1] at this; exact this)
  rw [hp.1] at h1 h2
  exact paid_of hp h1 h2 h3

theorem paid_unmark (m : Nat) : Same (Paid Q) (Metered.unmark m) (Reader.unmark m) := by
  rintro s t hp
  obtain ⟨h1, h2, h3⟩ := unmark_facts m s (by have := hp.2.2; rw [← hp.1] at this; exact this)
  rw [hp.1] at h1 h2
  exact paid_of hp h1 h2 h3

theorem paid_char : Same (Paid Q) Metered.required.read Reader.required.read := same_read paid_read1

theorem paid_peek (n : Nat) : Same (Paid Q) (Metered.required.peek n) (Reader.required.peek n) :=
  same_peek paid_char paid_mark paid_reset n

theorem paid_isEof : Same (Paid Q) Metered.required.isEof Reader.required.isEof := same_isEof paid_char paid_mark paid_reset

theorem paid_prefix (p : Str) : Same (Paid Q) (Metered.required.prefixMatches p) (Reader.required.prefixMatches p) :=
  same_prefixMatches paid_char paid_mark paid_reset p

/-! ## What has been looked at is in the buffer -/

/-- As many characters are in the buffer, ahead. -/
def Ahead (k : Nat) (r : Reader) : Prop := k ≤ r.buffer.buffer.length - r.buffer.next

theorem skip_ahead (fuel : Nat) : ∀ k s t, Paid Q s t → Ahead k t →
    (Metered.required.skipLoop fuel k s).1 = (Reader.required.skipLoop fuel k t).1 ∧
    Paid Q (Metered.required.skipLoop fuel k s).2 (Reader.required.skipLoop fuel k t).2 := by
  induction fuel with
  | zero =>
    intro k s t hp _
    cases k with
    | zero => exact ⟨rfl, hp⟩
    | succ k => exact ⟨rfl, hp⟩
  | succ fuel ih =>
    intro k s t hp ha
    cases k with
    | zero => exact ⟨rfl, hp⟩
    | succ k =>
      obtain ⟨rfl, hq, hs⟩ := hp
      unfold Required.skipLoop
      have hf := readChars_facts (min (k + 1) 1024) s hs
      obtain ⟨h1, h2, h3⟩ := hf.ahead (k + 1) (by omega) (by omega) ha
      have e1 := hf.answer
      have e2 := hf.reader
      have hs' := hf.sound
      have hp' : Paid Q (Metered.readChars (min (k + 1) 1024) s).2 (Reader.readChars (min (k + 1) 1024) s.reader).2 :=
        ⟨e2, by rw [h1, h2]; exact hq, by rw [← e2]; exact hs'⟩
      refine bind_at e1 (fun cs hcs => ?_) hp'
      change (Reader.readChars (min (k + 1) 1024) s.reader).1 = .ok cs at hcs
      rw [← e1] at hcs
      obtain ⟨h4, h5⟩ := h3 cs hcs
      rw [e2] at h5
      by_cases hc : cs.isEmpty = true
      · rw [if_pos hc, if_pos hc]; exact ⟨rfl, hp'⟩
      · rw [if_neg hc, if_neg hc]; exact ih _ _ _ hp' h5

/-- The characters that were read since the place is marked are kept. -/
structure Since (t : Reader) (n : Nat) (t' : Reader) : Prop where
  sound : Sound t'
  head : t'.buffer.head = t.buffer.head
  stack : t'.buffer.stack = t.buffer.stack
  next : t'.buffer.next = t.buffer.next + n

theorem since_read {t : Reader} (hs : Sound t) (hm : t.buffer.stack ≠ []) {o : Option Char} (h : (Reader.required.read t).1 = .ok o) :
    Since t (if o.isSome then 1 else 0) (Reader.required.read t).2 := by
  have hf := readChars_facts 1 (Metered.start t) hs
  have e1 : (Metered.readChars 1 (Metered.start t)).1 = (Reader.readChars 1 t).1 := hf.answer
  have e2 : (Metered.readChars 1 (Metered.start t)).2.reader = (Reader.readChars 1 t).2 := hf.reader
  have hp : ∀ chars, (Reader.readChars 1 t).1 = .ok chars → (Reader.readChars 1 t).2.buffer.head = t.buffer.head ∧
      (Reader.readChars 1 t).2.buffer.next = t.buffer.next + chars.length := by
    intro chars hc
    have := hf.pinned hm chars (by rw [e1, hc])
    rw [e2] at this
    exact ⟨this.1, this.2.2⟩
  have hso : Sound (Reader.readChars 1 t).2 := by rw [← e2]; exact hf.sound
  have hst : (Reader.readChars 1 t).2.buffer.stack = t.buffer.stack := by rw [← e2]; exact hf.stack
  have hl : ∀ chars, (Reader.readChars 1 t).1 = .ok chars → chars.length ≤ 1 := fun chars hc => hf.length chars (by rw [e1, hc])
  clear hf e1 e2
  change (CharReader.read Reader.readChars t).1 = _ at h
  change Since t _ (CharReader.read Reader.readChars t).2
  unfold CharReader.read at h ⊢
  simp only [RM.bind_run] at h ⊢
  generalize Reader.readChars 1 t = q at *
  obtain ⟨a, t'⟩ := q
  cases a with
  | ok cs =>
    simp only [RM.pure_run, Res.ok.injEq] at h ⊢
    have hp := hp cs rfl
    have hl := hl cs rfl
    refine ⟨hso, hp.1, hst, ?_⟩
    rw [hp.2, ← h]
    cases cs with
    | nil => rfl
    | cons c cs =>
      simp only [List.length_cons] at hl ⊢
      simp only [List.head?_cons, Option.isSome_some, if_true]
      omega
  | err e => cases h
  | panic p => cases h
  | diverge => cases h

theorem since_trans {t t' t'' : Reader} {n m : Nat} (h : Since t n t') (h' : Since t' m t'') : Since t (n + m) t'' :=
  ⟨h'.sound, by rw [h'.head, h.head], by rw [h'.stack, h.stack], by rw [h'.next, h.next]; omega⟩

theorem bind_ok {σ α β : Type} {x : RM σ α} {f : α → RM σ β} {s : σ} {b : β} (h : ((x >>= f) s).1 = .ok b) :
    ∃ a, (x s).1 = .ok a ∧ (f a (x s).2).1 = .ok b ∧ ((x >>= f) s).2 = (f a (x s).2).2 := by
  simp only [RM.bind_run] at h ⊢
  generalize x s = q at h
  obtain ⟨a, s'⟩ := q
  cases a with
  | ok a => exact ⟨a, rfl, h, rfl⟩
  | err e => cases h
  | panic e => cases h
  | diverge => cases h

theorem since_prefix (p : Str) : ∀ {t : Reader}, Sound t → t.buffer.stack ≠ [] → (Reader.required.prefixLoop p t).1 = .ok true →
    Since t p.length (Reader.required.prefixLoop p t).2 := by
  induction p with
  | nil => intro t hs _ _; exact ⟨hs, rfl, rfl, rfl⟩
  | cons x p ih =>
    intro t hs hm h
    unfold Required.prefixLoop at h ⊢
    obtain ⟨o, h1, h2, h3⟩ := bind_ok h
    rw [h3]
    have hr := since_read hs hm h1
    by_cases ho : o ≠ some x
    · rw [if_pos ho] at h2; cases h2
    · rw [if_neg ho] at h2 ⊢
      simp only [ne_eq, Decidable.not_not] at ho
      subst ho
      have := since_trans hr (ih hr.sound (by rw [hr.stack]; exact hm) h2)
      rw [show (x :: p).length = 1 + p.length by simp only [List.length_cons]; omega]
      exact this

theorem since_peek (n : Nat) : ∀ {t : Reader} {cs : Str}, Sound t → t.buffer.stack ≠ [] → (Reader.required.peekLoop n t).1 = .ok cs →
    Since t cs.length (Reader.required.peekLoop n t).2 := by
  induction n with
  | zero =>
    intro t cs hs _ h
    change Res.ok [] = _ at h
    cases h
    exact ⟨hs, rfl, rfl, rfl⟩
  | succ n ih =>
    intro t cs hs hm h
    unfold Required.peekLoop at h ⊢
    obtain ⟨o, h1, h2, h3⟩ := bind_ok h
    rw [h3]
    have hr := since_read hs hm h1
    cases o with
    | none =>
      simp only at h2 ⊢
      cases h2
      exact hr
    | some ch =>
      simp only at h2 ⊢
      obtain ⟨more, h4, h5, h6⟩ := bind_ok h2
      rw [h6]
      cases h5
      have := since_trans hr (ih hr.sound (by rw [hr.stack]; exact hm) h4)
      rw [show (ch :: more).length = 1 + more.length by simp only [List.length_cons]; omega]
      exact this

/-- After looking ahead and going back, what was looked at is ahead in the buffer. -/
theorem look_ahead {α β : Type} {loop : RM Reader α} {f : α → β} {t : Reader} {b : β} (hs : Sound t) (len : α → Nat)
    (hl : ∀ t a, Sound t → t.buffer.stack ≠ [] → (loop t).1 = .ok a → f a = b → Since t (len a) (loop t).2)
    (h : ((do let m ← Reader.mark; let x ← loop; let _ ← Reader.resetToMark m; pure (f x) : RM Reader β) t).1 = .ok b) :
    ∃ a, b = f a ∧ Ahead (len a) ((do let m ← Reader.mark; let x ← loop; let _ ← Reader.resetToMark m; pure (f x) : RM Reader β) t).2 := by
  obtain ⟨m, h1, h2, h3⟩ := bind_ok h
  rw [h3]
  obtain ⟨a, h4, h5, h6⟩ := bind_ok h2
  rw [h6]
  obtain ⟨k, h7, h8, h9⟩ := bind_ok h5
  rw [h9]
  cases h8
  refine ⟨a, rfl, ?_⟩
  have hmk : m = t.buffer.head + t.buffer.next ∧ (Reader.mark t).2.buffer.next = t.buffer.next ∧ (Reader.mark t).2.buffer.stack ≠ [] ∧
      Sound (Reader.mark t).2 ∧ (Reader.mark t).2.buffer.head = t.buffer.head := by
    obtain ⟨m1, m2, m3, m4⟩ := mark_facts (Metered.start t) hs
    rw [m1] at m4
    obtain ⟨m5, m6, m7, _⟩ := m4 m h1
    have m8 := m3.sound
    have m9 := m3.head
    rw [m2] at m6 m7 m8 m9
    exact ⟨m5, m6, m7, m8, m9⟩
  obtain ⟨m5, m6, m7, m8, m9⟩ := hmk
  have hsi := hl _ a m8 m7 h4 rfl
  generalize (Reader.mark t).2 = t1 at *
  have hso := hsi.sound
  have hh := hsi.head
  have hn := hsi.next
  generalize (loop t1).2 = t2 at *
  have hrs : (Reader.resetToMark m t2).2.buffer.next = m - t2.buffer.head ∧ (Reader.resetToMark m t2).2.buffer.buffer = t2.buffer.buffer := by
    obtain ⟨r1, r2, r3, r4⟩ := reset_facts m (Metered.start t2) hso
    rw [r1] at r4
    have r5 := r4 k h7
    have r6 := r3.buffer
    rw [r2] at r5 r6
    exact ⟨r5, r6⟩
  unfold Sound at hso
  show len a ≤ (Reader.resetToMark m t2).2.buffer.buffer.length - (Reader.resetToMark m t2).2.buffer.next
  rw [hrs.1, hrs.2]
  omega

theorem ahead_prefix {p : Str} {t : Reader} (hs : Sound t) (h : (Reader.required.prefixMatches p t).1 = .ok true) :
    Ahead p.length (Reader.required.prefixMatches p t).2 := by
  obtain ⟨a, h1, h2⟩ := look_ahead (loop := Reader.required.prefixLoop p) (f := fun b => b) hs (fun _ => p.length)
    (fun t a hs hm ha hb => by subst hb; exact since_prefix p hs hm ha) h
  exact h2

theorem ahead_peek {n : Nat} {t : Reader} {cs : Str} (hs : Sound t) (h : (Reader.required.peek n t).1 = .ok cs) :
    Ahead cs.length (Reader.required.peek n t).2 := by
  obtain ⟨a, h1, h2⟩ := look_ahead (loop := Reader.required.peekLoop n) (f := fun b => b) hs (fun a => a.length)
    (fun t a hs hm ha _ => since_peek n hs hm ha) h
  subst h1
  exact h2

/-! ## Parsing -/

theorem paid_skip {k : Nat} {s : Metered} {t : Reader} (hp : Paid Q s t) (ha : Ahead k t) :
    (Metered.required.skip k s).1 = (Reader.required.skip k t).1 ∧ Paid Q (Metered.required.skip k s).2 (Reader.required.skip k t).2 := by
  obtain ⟨h1, h2⟩ := skip_ahead k k s t hp ha
  exact bind_at h1 (fun a _ => ⟨rfl, h2⟩) h2

theorem paid_location : Same (Paid Q) (Dyn.location Metered.required.methods) (Dyn.location Reader.required.methods) :=
  fun s t h => ⟨by obtain ⟨rfl, _⟩ := h; rfl, h⟩

theorem paid_terminal (p : Str) (l : Location) :
    Same (Paid Q) (matchSkip Metered.required.methods p l) (matchSkip Reader.required.methods p l) := by
  intro s t hp
  obtain ⟨h1, h2⟩ := paid_prefix p s t hp
  unfold matchSkip
  refine bind_at h1 (fun b hb => ?_) h2
  cases b with
  | false => exact ⟨rfl, h2⟩
  | true =>
    have ha := ahead_prefix hp.2.2 hb
    simp only [if_true]
    obtain ⟨h3, h4⟩ := paid_location _ _ h2
    refine bind_at h3 (fun here _ => ?_) h4
    obtain ⟨h5, h6⟩ := paid_skip h4 ha
    exact bind_at h5 (fun _ _ => ⟨rfl, h6⟩) h6

theorem paid_agree : Agree (Paid Q) Metered.required.methods Reader.required.methods where
  location s t h := by obtain ⟨rfl, _⟩ := h; rfl
  read := paid_char
  isEof := paid_isEof
  peek := paid_peek
  mark := paid_mark
  resetToMark := paid_reset
  unmark := paid_unmark
  size s t h := by obtain ⟨rfl, _⟩ := h; rfl
  debug s t h := by obtain ⟨rfl, _⟩ := h; rfl
  terminal := paid_terminal

theorem paid_regex (find : Str → Option (Nat × Nat)) (d : Location) :
    Same (Paid Q) (regexScan Metered.required.methods find d) (regexScan Reader.required.methods find d) := by
  intro s t hp
  unfold regexScan
  obtain ⟨h1, h2⟩ := paid_location s t hp
  refine bind_at h1 (fun location _ => ?_) h2
  have hp1 : Paid Q (Dyn.location Metered.required.methods s).2 (Dyn.location Reader.required.methods t).2 := h2
  obtain ⟨h3, h4⟩ := paid_peek 257 _ _ hp1
  refine bind_at h3 (fun text ht => ?_) h4
  have ha := ahead_peek hp1.2.2 ht
  dsimp only
  cases find text with
  | none => exact ⟨rfl, h4⟩
  | some x =>
    obtain ⟨at_, len⟩ := x
    cases at_ with
    | succ n => exact ⟨rfl, h4⟩
    | zero =>
      show ((if (text.take len).length > 256 then _ else _ : RM Metered Reaction) _).1 =
          ((if (text.take len).length > 256 then _ else _ : RM Reader Reaction) _).1 ∧
        Paid Q ((if (text.take len).length > 256 then _ else _ : RM Metered Reaction) _).2
          ((if (text.take len).length > 256 then _ else _ : RM Reader Reaction) _).2
      by_cases hl : (text.take len).length > 256
      · rw [if_pos hl, if_pos hl]
        obtain ⟨h5, h6⟩ := paid_location _ _ h4
        exact bind_at h5 (fun here _ => ⟨rfl, h6⟩) h6
      · rw [if_neg hl, if_neg hl]
        have ha' : Ahead (text.take len).length (Reader.required.peek 257 (Dyn.location Reader.required.methods t).2).2 :=
          Nat.le_trans (List.length_take_le' _ _) ha
        obtain ⟨h5, h6⟩ := paid_skip h4 ha'
        exact bind_at h5 (fun _ _ => ⟨rfl, h6⟩) h6

/-! ## One call -/

/-- The size of a reader is what its buffer holds and what its source has left. -/
theorem size_eq (r : Reader) : r.size = r.buffer.buffer.length + leftIn r.source := by
  unfold Reader.size leftIn
  rw [Nat.add_assoc]
  refine congrArg (fun n => r.buffer.buffer.length + (r.source.pending.length + n)) (congrArg List.sum ?_)
  refine congrArg (fun f => r.source.rounds.map f) (funext fun x => ?_)
  cases x with
  | ok t => rfl
  | error e => rfl

theorem bufferRead_length (b : UnreadBuffer) (n : Nat) : (b.read n).2.buffer.length ≤ b.buffer.length := by
  unfold UnreadBuffer.read UnreadBuffer.truncateIfStackEmpty
  dsimp only
  split
  · split
    · exact Nat.zero_le _
    · exact Nat.le_refl _
  · exact Nat.le_refl _

theorem append_length (b : UnreadBuffer) (cs : Str) : (b.append cs).2.buffer.length ≤ b.buffer.length + cs.length := by
  unfold UnreadBuffer.append
  split
  · split
    · exact Nat.le_add_right _ _
    · simp
  · split
    · exact Nat.le_add_right _ _
    · exact Nat.le_add_right _ _

theorem readChars_size (n : Nat) (r : Reader) : (Reader.readChars n r).2.size ≤ r.size := by
  rw [size_eq, size_eq]
  unfold Reader.readChars
  cases r.buffer.remains with
  | true =>
    have := bufferRead_length r.buffer n
    simp only [if_true]
    omega
  | false =>
    simp only [Bool.false_eq_true, if_false]
    have hl := source_left n r.source
    rw [source_same] at hl
    generalize Source.readChars n r.source = q at hl
    obtain ⟨x, t⟩ := q
    cases x with
    | ok cs =>
      simp only [got] at hl ⊢
      have ha := append_length r.buffer cs
      split
      · simp only; omega
      · generalize r.buffer.append cs = q at ha
        obtain ⟨x, b⟩ := q
        cases x <;> simp only at ha ⊢ <;> omega
    | err e => simp only [got] at hl ⊢; omega
    | panic e => simp only [got] at hl ⊢; omega
    | diverge => simp only [got] at hl ⊢; omega

/-- What calls of `read_chars` one after the other cost. -/
structure LoopFacts {α : Type} (c : Nat) (s : Metered) (out : Res α × Metered) : Prop where
  sound : Sound out.2.reader
  copied : out.2.copied ≤ s.copied + 2 * c
  marks : out.2.marks = s.marks
  stack : out.2.reader.buffer.stack = s.reader.buffer.stack
  size : out.2.reader.size ≤ s.reader.size
  kept : s.reader.buffer.stack ≠ [] → ∀ a, out.1 = .ok a → out.2.reader.buffer.head = s.reader.buffer.head ∧
    s.reader.buffer.buffer.length ≤ out.2.reader.buffer.buffer.length

theorem loop_pure {α : Type} {s : Metered} (hs : Sound s.reader) (a : Res α) (c : Nat) : LoopFacts c s (a, s) :=
  ⟨hs, Nat.le_add_right _ _, rfl, rfl, Nat.le_refl _, fun _ _ _ => ⟨rfl, Nat.le_refl _⟩⟩

theorem loop_bind {α β : Type} {x : RM Metered α} {f : α → RM Metered β} {s : Metered} {c : Nat} (n : Res α → Nat)
    (h : LoopFacts (n (x s).1) s (x s)) (hn : n (x s).1 ≤ c)
    (hf : ∀ a, (x s).1 = .ok a → LoopFacts (c - n (x s).1) (x s).2 (f a (x s).2)) : LoopFacts c s ((x >>= f) s) := by
  simp only [RM.bind_run]
  generalize x s = q at h hn hf
  obtain ⟨a, s'⟩ := q
  obtain ⟨h1, h2, h3, h4, h5, h6⟩ := h
  simp only at h1 h2 h3 h4 h5 h6 hn hf
  cases a with
  | ok a =>
    obtain ⟨g1, g2, g3, g4, g5, g6⟩ := hf a rfl
    refine ⟨g1, by simp only; omega, by simp only; omega, by simp only; rw [g4, h4], Nat.le_trans g5 h5, fun hs b hb => ?_⟩
    obtain ⟨k1, k2⟩ := h6 hs a rfl
    obtain ⟨k3, k4⟩ := g6 (by rw [h4]; exact hs) b hb
    exact ⟨k3.trans k1, Nat.le_trans k2 k4⟩
  | err e => exact ⟨h1, by simp only; omega, h3, h4, h5, nofun⟩
  | panic p => exact ⟨h1, by simp only; omega, h3, h4, h5, nofun⟩
  | diverge => exact ⟨h1, by simp only; omega, h3, h4, h5, nofun⟩

theorem loop_readChars (n : Nat) {s : Metered} (hs : Sound s.reader) :
    LoopFacts (got (Metered.readChars n s).1) s (Metered.readChars n s) ∧ got (Metered.readChars n s).1 ≤ n := by
  have h := readChars_facts n s hs
  refine ⟨⟨h.sound, h.copied, h.marks, h.stack, by rw [h.reader]; exact readChars_size n s.reader, fun hs a ha =>
    ⟨(h.pinned hs a ha).1, (h.pinned hs a ha).2.1⟩⟩, ?_⟩
  cases hx : (Metered.readChars n s).1 with
  | ok cs => exact h.length cs hx
  | err e => exact Nat.zero_le _
  | panic p => exact Nat.zero_le _
  | diverge => exact Nat.zero_le _

theorem loop_weaken {α : Type} {c d : Nat} {s : Metered} {out : Res α × Metered} (h : LoopFacts c s out) (hd : c ≤ d) : LoopFacts d s out :=
  ⟨h.sound, by have := h.copied; omega, h.marks, h.stack, h.size, h.kept⟩

theorem loop_read {s : Metered} (hs : Sound s.reader) : LoopFacts 1 s (Metered.required.read s) := by
  obtain ⟨h1, h2⟩ := loop_readChars 1 hs
  exact loop_bind got h1 h2 fun cs _ => loop_pure h1.sound _ _

theorem loop_peek (n : Nat) : ∀ {s : Metered}, Sound s.reader → LoopFacts n s (Metered.required.peekLoop n s) := by
  induction n with
  | zero => intro s hs; exact loop_pure hs _ _
  | succ n ih =>
    intro s hs
    unfold Required.peekLoop
    refine loop_bind (fun _ => 1) (loop_read hs) (by omega) fun o _ => ?_
    have hs' := (loop_read hs).sound
    cases o with
    | none => exact loop_pure hs' _ _
    | some ch =>
      refine loop_bind (fun _ => n) (ih hs') (by omega) fun cs _ => loop_pure (ih hs').sound _ _

theorem loop_prefix (p : Str) : ∀ {s : Metered}, Sound s.reader → LoopFacts p.length s (Metered.required.prefixLoop p s) := by
  induction p with
  | nil => intro s hs; exact loop_pure hs _ _
  | cons x p ih =>
    intro s hs
    unfold Required.prefixLoop
    refine loop_bind (fun _ => 1) (loop_read hs) (by simp) fun o _ => ?_
    have hs' := (loop_read hs).sound
    by_cases ho : o ≠ some x
    · rw [if_pos ho]; exact loop_pure hs' _ _
    · rw [if_neg ho]; exact loop_weaken (ih hs') (by simp)

theorem loop_skip (fuel : Nat) : ∀ (k : Nat) {s : Metered}, Sound s.reader → LoopFacts k s (Metered.required.skipLoop fuel k s) := by
  induction fuel with
  | zero =>
    intro k s hs
    cases k with
    | zero => exact loop_pure hs _ _
    | succ k => exact loop_pure hs _ _
  | succ fuel ih =>
    intro k s hs
    cases k with
    | zero => exact loop_pure hs _ _
    | succ k =>
      unfold Required.skipLoop
      obtain ⟨h1, h2⟩ := loop_readChars (min (k + 1) 1024) hs
      refine loop_bind got h1 (Nat.le_trans h2 (Nat.min_le_left _ _)) fun cs hcs => ?_
      by_cases hc : cs.isEmpty = true
      · rw [if_pos hc]; exact loop_pure h1.sound _ _
      · rw [if_neg hc]
        change LoopFacts (k + 1 - got (Metered.readChars (min (k + 1) 1024) s).1) _ _
        change (Metered.readChars (min (k + 1) 1024) s).1 = .ok cs at hcs
        rw [hcs]
        exact ih _ h1.sound

theorem loop_all (fuel : Nat) : ∀ {s : Metered}, Sound s.reader →
    LoopFacts (left s.reader) s (CharReader.readAllLoop Metered.readChars fuel s) := by
  induction fuel with
  | zero => intro s hs; exact loop_pure hs _ _
  | succ fuel ih =>
    intro s hs
    unfold CharReader.readAllLoop
    obtain ⟨h1, h2⟩ := loop_readChars 1024 hs
    have hl := (readChars_facts 1024 s hs).left
    refine loop_bind got h1 (by omega) fun cs hcs => ?_
    by_cases hc : cs.isEmpty = true
    · rw [if_pos hc]; exact loop_pure h1.sound _ _
    · rw [if_neg hc]
      refine loop_weaken ?_ (show left (Metered.readChars 1024 s).2.reader ≤ _ by omega)
      exact loop_bind (fun _ => left (Metered.readChars 1024 s).2.reader) (ih h1.sound) (Nat.le_refl _) fun _ _ =>
        loop_pure (ih h1.sound).sound _ _

theorem left_le {r : Reader} : left r ≤ r.size := by
  rw [size_eq]
  unfold left
  omega

/-- What one call costs. -/
structure CallFacts {α : Type} (c : Nat) (s : Metered) (out : Res α × Metered) : Prop where
  sound : Sound out.2.reader
  copied : out.2.copied ≤ s.copied + 2 * c
  marks : out.2.marks ≤ s.marks + 2 * s.reader.buffer.stack.length + 3
  paid : ∀ a, out.1 = .ok a → out.2.marks + out.2.reader.buffer.stack.length ≤ s.marks + s.reader.buffer.stack.length + 2

theorem call_loop {α : Type} {c : Nat} {s : Metered} {out : Res α × Metered} (h : LoopFacts c s out) : CallFacts c s out :=
  ⟨h.sound, h.copied, by rw [h.marks]; omega, fun _ _ => by rw [h.marks, h.stack]; omega⟩

theorem call_mark {α : Type} {extra c : Nat} {s : Metered} {out : Res α × Metered} (h : MarkFacts extra s out) (he : extra ≤ 2) : CallFacts c s out :=
  ⟨h.sound, by rw [h.copied]; omega, by have := h.marks; omega, fun a ha => by have := h.paid a ha; omega⟩

theorem call_look {α β : Type} {loop : RM Metered α} {f : α → β} {c : Nat} {s : Metered} (hs : Sound s.reader)
    (hl : ∀ s, Sound s.reader → LoopFacts c s (loop s)) :
    CallFacts c s ((do let m ← Metered.mark; let x ← loop; let _ ← Metered.resetToMark m; pure (f x) : RM Metered β) s) := by
  obtain ⟨_, _, hm, hmo⟩ := mark_facts s hs
  simp only [RM.bind_run]
  generalize Metered.mark s = q at hm hmo
  obtain ⟨m, s1⟩ := q
  obtain ⟨m1, m2, m3, m4, m5, m6, m7, m8, m9⟩ := hm
  simp only at m1 m2 m3 m4 m5 m6 m7 m8 m9 hmo
  cases m with
  | ok m =>
    obtain ⟨_, _, _, m10⟩ := hmo m rfl
    have m8 := m8 m rfl
    have h1 := hl s1 m1
    simp only
    generalize loop s1 = q at h1
    obtain ⟨a, s2⟩ := q
    obtain ⟨l1, l2, l3, l4, _, _⟩ := h1
    simp only at l1 l2 l3 l4
    rw [← l4] at m8 m10
    cases a with
    | ok a =>
      obtain ⟨_, _, hr, _⟩ := reset_facts m s2 l1
      simp only
      generalize Metered.resetToMark m s2 = q at hr
      obtain ⟨k, s3⟩ := q
      obtain ⟨r1, r2, r3, r4, r5, r6, r7, r8, r9⟩ := hr
      simp only at r1 r2 r3 r4 r5 r6 r7 r8 r9
      cases k with
      | ok k =>
        have := r8 k rfl
        exact ⟨r1, by simp only [RM.pure_run]; omega, by simp only [RM.pure_run]; omega, fun _ _ => by simp only [RM.pure_run]; omega⟩
      | err e => exact ⟨r1, by simp only; omega, by simp only; omega, nofun⟩
      | panic e => exact ⟨r1, by simp only; omega, by simp only; omega, nofun⟩
      | diverge => exact ⟨r1, by simp only; omega, by simp only; omega, nofun⟩
    | err e => exact ⟨l1, by simp only; omega, by simp only; omega, nofun⟩
    | panic e => exact ⟨l1, by simp only; omega, by simp only; omega, nofun⟩
    | diverge => exact ⟨l1, by simp only; omega, by simp only; omega, nofun⟩
  | err e => exact ⟨m1, by simp only; omega, by simp only; omega, nofun⟩
  | panic e => exact ⟨m1, by simp only; omega, by simp only; omega, nofun⟩
  | diverge => exact ⟨m1, by simp only; omega, by simp only; omega, nofun⟩

theorem answer_facts {α : Type} {f : α → ReaderAns} {c : Nat} {s : Metered} {x : Res α × Metered} (h : CallFacts c s x) :
    Sound (answerOf f x).2.reader ∧ (answerOf f x).2.copied ≤ s.copied + 2 * c ∧
    (answerOf f x).2.marks ≤ s.marks + 2 * s.reader.buffer.stack.length + 3 ∧
    (NoError (answerOf f x).1 → (answerOf f x).2.marks + (answerOf f x).2.reader.buffer.stack.length ≤
      s.marks + s.reader.buffer.stack.length + 2) := by
  obtain ⟨a, s'⟩ := x
  obtain ⟨h1, h2, h3, h4⟩ := h
  cases a with
  | ok a => exact ⟨h1, h2, h3, fun _ => h4 a rfl⟩
  | err e => exact ⟨h1, h2, h3, False.elim⟩
  | panic e => exact ⟨h1, h2, h3, False.elim⟩
  | diverge => exact ⟨h1, h2, h3, False.elim⟩

theorem call_facts (op : ReaderOp) (s : Metered) (hs : Sound s.reader) :
    Sound (call Metered.required.methods op s).2.reader ∧ (call Metered.required.methods op s).2.copied ≤ s.copied + 2 * asks s.reader op ∧
    (call Metered.required.methods op s).2.marks ≤ s.marks + 2 * s.reader.buffer.stack.length + 3 ∧
    (NoError (call Metered.required.methods op s).1 →
      (call Metered.required.methods op s).2.marks + (call Metered.required.methods op s).2.reader.buffer.stack.length ≤
        s.marks + s.reader.buffer.stack.length + 2) := by
  cases op with
  | read => exact answer_facts (call_loop (loop_read hs))
  | readChars n =>
    obtain ⟨h1, h2⟩ := loop_readChars n hs
    exact answer_facts (call_loop (loop_weaken h1 h2))
  | readAll => exact answer_facts (call_loop (loop_weaken (loop_all _ hs) left_le))
  | peek n => exact answer_facts (call_look (loop := Metered.required.peekLoop n) (f := fun b => b) hs fun s hs => loop_peek n hs)
  | prefixMatches p => exact answer_facts (call_look (loop := Metered.required.prefixLoop p) (f := fun b => b) hs fun s hs => loop_prefix p hs)
  | isEof => exact answer_facts (call_look (loop := Metered.required.read) (f := fun ch => ch.isNone) hs fun s hs => loop_read hs)
  | skip n =>
    refine answer_facts (call_loop ?_)
    exact loop_bind (fun _ => n) (loop_skip n n hs) (Nat.le_refl _) fun _ _ => loop_pure (loop_skip n n hs).sound _ _
  | mark => exact answer_facts (call_mark (mark_facts s hs).2.2.1 (Nat.le_refl _))
  | resetToMark m => exact answer_facts (call_mark (reset_facts m s hs).2.2.1 (by omega))
  | unmark m => exact answer_facts (call_mark (unmark_facts m s hs).2.2 (by omega))
  | location => exact ⟨hs, Nat.le_add_right _ _, by simp only [call]; omega, fun _ => by simp only [call]; omega⟩

end Ebnf.Meter
