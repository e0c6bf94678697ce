import Verif.Spec.AnyReader
import Verif.Proofs.Growing
import Verif.Proofs.PureSims

set_option autoImplicit false

/-! # Readers of any make (lemmas for C98, C99) -/

namespace Ebnf

open Spec

variable {σ : Type}

section Inversion

variable {α : Type} {f : α → ReaderAns} {x : Res α × σ} {a : ReaderAns} {s : σ}

theorem answerOf_inv (h : answerOf f x = (a, s)) (he : ∀ e, a ≠ .error e) (hc : a ≠ .crash) : ∃ y, x = (.ok y, s) ∧ f y = a := by
  obtain ⟨r, s0⟩ := x
  cases r with
  | ok y =>
    simp only [answerOf, Prod.mk.injEq] at h
    exact ⟨y, by rw [h.2], h.1⟩
  | err e => simp only [answerOf, Prod.mk.injEq] at h; exact absurd h.1.symm (he e)
  | panic p => simp only [answerOf, Prod.mk.injEq] at h; exact absurd h.1.symm hc
  | diverge => simp only [answerOf, Prod.mk.injEq] at h; exact absurd h.1.symm hc

end Inversion

theorem readChars_step {c c' : Cursor} {n : Nat} {a : ReaderAns} (h : AnyStep c (.readChars n) a c') :
    ∃ cs, a = .chars cs ∧ c' = c.advance cs.length ∧ cs <+: c.rest ∧ cs.length ≤ n ∧ (cs = [] → n = 0 ∨ c.rest = []) := by
  cases h with
  | step h => cases h with
    | readChars _ _ h1 h2 h3 => exact ⟨_, rfl, rfl, h1, h2, h3⟩

theorem mark_step {c c' : Cursor} {a : ReaderAns} (h : AnyStep c .mark a c') :
    ∃ m, a = .num m ∧ c' = { c with marks := (m, c.pos) :: c.marks } ∧ ∀ m' p, (m', p) ∈ c.marks → m' = m → p = c.pos := by
  cases h with
  | step h => cases h with
    | mark m h => exact ⟨m, rfl, rfl, fun m' p h1 h2 => (h m' p h1).1 h2⟩
  | mark m h => exact ⟨m, rfl, rfl, h⟩

theorem newest_unique {newer newer' : List (Nat × Nat)} {m p p' : Nat} {older older' : List (Nat × Nat)}
    (h : newer ++ (m, p) :: older = newer' ++ (m, p') :: older') (h1 : ∀ x ∈ newer, x.1 ≠ m) (h2 : ∀ x ∈ newer', x.1 ≠ m) :
    p = p' ∧ older = older' := by
  induction newer generalizing newer' with
  | nil =>
    cases newer' with
    | nil => simp at h; exact h
    | cons y ys =>
      simp only [List.nil_append, List.cons_append, List.cons.injEq] at h
      exact absurd (by rw [← h.1]) (h2 y (by simp))
  | cons x xs ih =>
    cases newer' with
    | nil =>
      simp only [List.nil_append, List.cons_append, List.cons.injEq] at h
      exact absurd (by rw [h.1]) (h1 x (by simp))
    | cons y ys =>
      simp only [List.cons_append, List.cons.injEq] at h
      exact ih h.2 (fun z hz => h1 z (by simp [hz])) (fun z hz => h2 z (by simp [hz]))

theorem reset_step {c c' : Cursor} {a : ReaderAns} {m p : Nat} {newer older : List (Nat × Nat)}
    (hm : c.marks = newer ++ (m, p) :: older) (hn : ∀ x ∈ newer, x.1 ≠ m) (h : AnyStep c (.resetToMark m) a c') :
    a = .num (c.pos - p) ∧ c' = { c with pos := p, marks := older } := by
  cases h with
  | step h =>
    cases h with
    | reset _ newer' p' older' h1 h2 =>
      rw [hm] at h1
      obtain ⟨e1, e2⟩ := newest_unique h1 hn h2
      rw [e1, e2]
      exact ⟨rfl, rfl⟩
    | resetInvalid _ h1 => exact absurd rfl (h1 (m, p) (by rw [hm]; simp))

theorem unmark_step {c c' : Cursor} {a : ReaderAns} {m p : Nat} {newer older : List (Nat × Nat)}
    (hm : c.marks = newer ++ (m, p) :: older) (hn : ∀ x ∈ newer, x.1 ≠ m) (h : AnyStep c (.unmark m) a c') :
    a = .unit ∧ c' = { c with marks := older } := by
  cases h with
  | step h =>
    cases h with
    | unmark _ newer' p' older' h1 h2 =>
      rw [hm] at h1
      obtain ⟨_, e2⟩ := newest_unique h1 hn h2
      rw [e2]
      exact ⟨rfl, rfl⟩
    | unmarkInvalid _ h1 => exact absurd rfl (h1 (m, p) (by rw [hm]; simp))

/-! ## The required methods -/

section Required

variable {which : ReaderOp → Prop} {dbg : Bool} {I : Methods σ} {At : σ → Cursor → Prop} {s : σ} {c : Cursor}

theorem readChars_of (h : LikeCursorFor which dbg I At) {n : Nat} (hw : which (.readChars n)) (hn : 0 < n) (hs : At s c) :
    ∃ cs s', I.readChars n s = (.ok cs, s') ∧ At s' (c.advance cs.length) ∧ cs <+: c.rest ∧ cs.length ≤ n ∧
      (cs = [] → c.rest = []) := by
  obtain ⟨a, s', c', h1, h2, h3⟩ := h.steps (.readChars n) s c hw (by intro h; cases h; omega) hs
  obtain ⟨cs, rfl, rfl, h5, h6, h7⟩ := readChars_step h2
  obtain ⟨y, h8, h9⟩ := answerOf_inv (f := .chars) h1 (by simp) (by simp)
  cases h9
  exact ⟨cs, s', h8, h3, h5, h6, fun h0 => (h7 h0).resolve_left (by omega)⟩

theorem mark_of (h : LikeCursorFor which dbg I At) (hw : which .mark) (hs : At s c) :
    ∃ m s', I.mark s = (.ok m, s') ∧ At s' ⟨c.start, c.text, c.pos, (m, c.pos) :: c.marks⟩ ∧
      ∀ m' p, (m', p) ∈ c.marks → m' = m → p = c.pos := by
  obtain ⟨a, s', c', h1, h2, h3⟩ := h.steps .mark s c hw (by simp) hs
  obtain ⟨m, rfl, rfl, h5⟩ := mark_step h2
  obtain ⟨y, h8, h9⟩ := answerOf_inv (f := .num) h1 (by simp) (by simp)
  cases h9
  exact ⟨m, s', h8, h3, h5⟩

theorem reset_of (h : LikeCursorFor which dbg I At) {m p : Nat} {newer older : List (Nat × Nat)} (hw : which (.resetToMark m))
    (hm : c.marks = newer ++ (m, p) :: older) (hn : ∀ x ∈ newer, x.1 ≠ m) (hs : At s c) :
    ∃ s', I.resetToMark m s = (.ok (c.pos - p), s') ∧ At s' ⟨c.start, c.text, p, older⟩ := by
  obtain ⟨a, s', c', h1, h2, h3⟩ := h.steps (.resetToMark m) s c hw (by simp) hs
  obtain ⟨rfl, rfl⟩ := reset_step hm hn h2
  obtain ⟨y, h8, h9⟩ := answerOf_inv (f := .num) h1 (by simp) (by simp)
  cases h9
  exact ⟨s', h8, h3⟩

theorem unmark_of (h : LikeCursorFor which dbg I At) {m p : Nat} {newer older : List (Nat × Nat)} (hw : which (.unmark m))
    (hm : c.marks = newer ++ (m, p) :: older) (hn : ∀ x ∈ newer, x.1 ≠ m) (hs : At s c) :
    ∃ s', I.unmark m s = (.ok (), s') ∧ At s' ⟨c.start, c.text, c.pos, older⟩ := by
  obtain ⟨a, s', c', h1, h2, h3⟩ := h.steps (.unmark m) s c hw (by simp) hs
  obtain ⟨rfl, rfl⟩ := unmark_step hm hn h2
  obtain ⟨y, h8, h9⟩ := answerOf_inv (f := fun _ : Unit => .unit) h1 (by simp) (by simp)
  exact ⟨s', h8, h3⟩

theorem location_of (h : LikeCursorFor which dbg I At) (hw : which .location) (hs : At s c) : I.location s = c.location := by
  obtain ⟨a, s', c', h1, h2, h3⟩ := h.steps .location s c hw (by simp) hs
  cases h2 with
  | step h2 => cases h2; simp only [call, Prod.mk.injEq, ReaderAns.location.injEq] at h1; exact h1.1

end Required

/-! ## The provided methods -/

section Provided

variable {dbg : Bool} {I : Required σ} {At : σ → Cursor → Prop}

theorem read_provided (h : LikeCursorFor IsRequired dbg I.methods At) {s : σ} {c : Cursor} (hs : At s c) :
    ∃ s', I.read s = (.ok c.rest.head?, s') ∧ At s' (c.advance (min 1 c.rest.length)) := by
  obtain ⟨cs, s', h1, h2, h3, h4, h5⟩ := readChars_of h (n := 1) trivial (by omega) hs
  have h1 : I.readChars 1 s = (.ok cs, s') := h1
  refine ⟨s', ?_, ?_⟩
  · simp only [Required.read, CharReader.read, RM.bind_run, h1, RM.pure_run]
    cases cs with
    | nil => rw [h5 rfl]
    | cons x xs =>
      obtain ⟨t, ht⟩ := h3
      rw [← ht]; rfl
  · cases cs with
    | nil => rw [h5 rfl]; simpa using h2
    | cons x xs =>
      obtain ⟨t, ht⟩ := h3
      simp only [List.length_cons] at h4 h2
      have hx : xs.length = 0 := by omega
      rw [hx] at h2
      rw [← ht]
      simp only [List.cons_append, List.length_cons]
      rw [Nat.min_eq_left (by omega)]
      exact h2

/-- Mark, look, reset. -/
theorem look_provided {α β : Type} (h : LikeCursorFor IsRequired dbg I.methods At) {f : RM σ α} (g : α → β) {v : Cursor → α}
    (hf : ∀ s c, At s c → ∃ s' n, f s = (.ok (v c), s') ∧ At s' (c.advance n))
    (hv : ∀ c ms, v { c with marks := ms } = v c) {s : σ} {c : Cursor} (hs : At s c) :
    ∃ s', (do let m ← I.mark; let x ← f; let _ ← I.resetToMark m; pure (g x) : RM σ β) s = (.ok (g (v c)), s') ∧ At s' c := by
  obtain ⟨m, s1, h1, h2, _⟩ := mark_of h trivial hs
  obtain ⟨s2, n, h3, h4⟩ := hf s1 _ h2
  obtain ⟨s3, h5, h6⟩ := reset_of h (m := m) (p := c.pos) (newer := []) (older := c.marks) trivial rfl (by simp) h4
  have h1 : I.mark s = (.ok m, s1) := h1
  have h5 : I.resetToMark m s2 = (.ok _, s3) := h5
  refine ⟨s3, ?_, h6⟩
  simp only [RM.bind_run, h1, h3, h5, RM.pure_run]
  rw [show v ⟨c.start, c.text, c.pos, (m, c.pos) :: c.marks⟩ = v c from hv c _]

theorem isEof_provided (h : LikeCursorFor IsRequired dbg I.methods At) {s : σ} {c : Cursor} (hs : At s c) :
    ∃ s', I.isEof s = (.ok (decide (c.rest = [])), s') ∧ At s' c := by
  obtain ⟨s', h1, h2⟩ := look_provided h (f := I.read) (fun ch : Option Char => ch.isNone) (v := fun c => c.rest.head?)
    (fun s c hs => by obtain ⟨s', h1, h2⟩ := read_provided h hs; exact ⟨s', _, h1, h2⟩) (fun c ms => rfl) hs
  refine ⟨s', ?_, h2⟩
  rw [Required.isEof]
  refine h1.trans ?_
  cases c.rest <;> rfl

theorem prefixLoop_provided (h : LikeCursorFor IsRequired dbg I.methods At) (p : Str) : ∀ (s : σ) (c : Cursor), At s c →
    ∃ s' n, I.prefixLoop p s = (.ok (decide (p <+: c.rest)), s') ∧ At s' (c.advance n) := by
  induction p with
  | nil => intro s c hs; exact ⟨s, 0, by simp [Required.prefixLoop], hs⟩
  | cons x p ih =>
    intro s c hs
    obtain ⟨s1, h1, h2⟩ := read_provided h hs
    simp only [Required.prefixLoop, RM.bind_run, h1]
    cases hr : c.rest with
    | nil => exact ⟨s1, 0, by simp, by rw [hr] at h2; simpa using h2⟩
    | cons y ys =>
      rw [hr, List.length_cons, Nat.min_eq_left (by omega)] at h2
      by_cases hxy : y = x
      · subst hxy
        obtain ⟨s2, n, h3, h4⟩ := ih s1 _ h2
        rw [rest_cons hr] at h3
        refine ⟨s2, 1 + n, ?_, ?_⟩
        · rw [if_neg (by simp), h3]
          simp [List.cons_prefix_cons]
        · have : (c.advance 1).advance n = c.advance (1 + n) := by simp [Cursor.advance, Nat.add_assoc]
          rwa [this] at h4
      · refine ⟨s1, 1, ?_, h2⟩
        rw [if_pos (by simpa using hxy)]
        simp only [RM.pure_run]
        rw [decide_eq_false]
        intro hp
        exact hxy (List.cons_prefix_cons.1 hp).1.symm

theorem prefixMatches_provided (h : LikeCursorFor IsRequired dbg I.methods At) (p : Str) {s : σ} {c : Cursor} (hs : At s c) :
    ∃ s', I.prefixMatches p s = (.ok (decide (p <+: c.rest)), s') ∧ At s' c :=
  look_provided h (f := I.prefixLoop p) (fun b : Bool => b) (v := fun c => decide (p <+: c.rest))
    (prefixLoop_provided h p) (fun c ms => rfl) hs

theorem peekLoop_provided (h : LikeCursorFor IsRequired dbg I.methods At) (n : Nat) : ∀ (s : σ) (c : Cursor), At s c →
    ∃ s' k, I.peekLoop n s = (.ok (c.rest.take n), s') ∧ At s' (c.advance k) := by
  induction n with
  | zero => intro s c hs; exact ⟨s, 0, by simp [Required.peekLoop], hs⟩
  | succ n ih =>
    intro s c hs
    obtain ⟨s1, h1, h2⟩ := read_provided h hs
    simp only [Required.peekLoop, RM.bind_run, h1]
    cases hr : c.rest with
    | nil => exact ⟨s1, 0, by simp, by rw [hr] at h2; simpa using h2⟩
    | cons y ys =>
      rw [hr, List.length_cons, Nat.min_eq_left (by omega)] at h2
      obtain ⟨s2, k, h3, h4⟩ := ih s1 _ h2
      rw [rest_cons hr] at h3
      refine ⟨s2, 1 + k, ?_, ?_⟩
      · simp only [List.head?_cons, RM.bind_run, h3, RM.pure_run, List.take_succ_cons]
      · have : (c.advance 1).advance k = c.advance (1 + k) := by simp [Cursor.advance, Nat.add_assoc]
        rwa [this] at h4

theorem peek_provided (h : LikeCursorFor IsRequired dbg I.methods At) (n : Nat) {s : σ} {c : Cursor} (hs : At s c) :
    ∃ s', I.peek n s = (.ok (c.rest.take n), s') ∧ At s' c :=
  look_provided h (f := I.peekLoop n) (fun b : Str => b) (v := fun c => c.rest.take n) (peekLoop_provided h n) (fun c ms => rfl) hs

theorem skipLoop_provided (h : LikeCursorFor IsRequired dbg I.methods At) (fuel : Nat) : ∀ (n : Nat) (s : σ) (c : Cursor), At s c →
    n ≤ fuel → ∃ s', I.skipLoop fuel n s = (.ok (n - min n c.rest.length), s') ∧ At s' (c.advance (min n c.rest.length)) := by
  induction fuel with
  | zero =>
    intro n s c hs hn
    obtain rfl : n = 0 := by omega
    exact ⟨s, by simp [Required.skipLoop], by simpa using hs⟩
  | succ fuel ih =>
    intro n s c hs hn
    cases n with
    | zero => exact ⟨s, by simp [Required.skipLoop], by simpa using hs⟩
    | succ n =>
      obtain ⟨cs, s1, h1, h2, h3, h4, h5⟩ := readChars_of h (n := min (n + 1) 1024) trivial (by omega) hs
      have h1 : I.readChars (min (n + 1) 1024) s = (.ok cs, s1) := h1
      simp only [Required.skipLoop, RM.bind_run, h1]
      cases cs with
      | nil =>
        rw [h5 rfl]
        exact ⟨s1, by simp, by simpa using h2⟩
      | cons x xs =>
        simp only [List.isEmpty_cons, Bool.false_eq_true, if_false]
        have hl := h3.length_le
        have hp : 0 < (x :: xs).length := by simp
        generalize x :: xs = cs at hl h4 h2 hp
        obtain ⟨s2, h6, h7⟩ := ih (n + 1 - cs.length) s1 _ h2 (by omega)
        have hr : (c.advance cs.length).rest.length = c.rest.length - cs.length := by rw [rest_advance, List.length_drop]
        rw [hr] at h6 h7
        refine ⟨s2, ?_, ?_⟩
        · rw [h6]
          congr 2
          omega
        · have : (c.advance cs.length).advance (min (n + 1 - cs.length) (c.rest.length - cs.length)) =
              c.advance (min (n + 1) c.rest.length) := by
            simp only [Cursor.advance]
            congr 1
            omega
          rwa [this] at h7

theorem skip_provided (h : LikeCursorFor IsRequired dbg I.methods At) (n : Nat) {s : σ} {c : Cursor} (hs : At s c) :
    ∃ s', I.skip n s = (.ok (min n c.rest.length), s') ∧ At s' (c.advance (min n c.rest.length)) := by
  obtain ⟨s', h1, h2⟩ := skipLoop_provided h n n s c hs (Nat.le_refl _)
  refine ⟨s', ?_, h2⟩
  simp only [Required.skip, RM.bind_run, h1, RM.pure_run]
  congr 2
  omega

theorem readAllLoop_provided (h : LikeCursorFor IsRequired dbg I.methods At) (fuel : Nat) : ∀ (s : σ) (c : Cursor), At s c →
    c.rest.length < fuel →
    ∃ s', CharReader.readAllLoop I.readChars fuel s = (.ok c.rest, s') ∧ At s' (c.advance c.rest.length) := by
  induction fuel with
  | zero => intro s c _ hf; omega
  | succ fuel ih =>
    intro s c hs hf
    obtain ⟨cs, s1, h1, h2, h3, h4, h5⟩ := readChars_of h (n := 1024) trivial (by omega) hs
    have h1 : I.readChars 1024 s = (.ok cs, s1) := h1
    simp only [CharReader.readAllLoop, RM.bind_run, h1]
    cases cs with
    | nil =>
      rw [h5 rfl]
      exact ⟨s1, by simp, by simpa using h2⟩
    | cons x xs =>
      simp only [List.isEmpty_cons, Bool.false_eq_true, if_false]
      obtain ⟨t, ht⟩ := h3
      have hp : 0 < (x :: xs).length := by simp
      generalize x :: xs = cs at ht h4 h2 hp
      have hr : (c.advance cs.length).rest = t := by rw [rest_advance, ← ht]; simp
      have hl := congrArg List.length ht
      rw [List.length_append] at hl
      obtain ⟨s2, h6, h7⟩ := ih s1 _ h2 (by rw [hr]; omega)
      rw [hr] at h6 h7
      refine ⟨s2, by simp only [RM.bind_run, h6, RM.pure_run, ← ht], ?_⟩
      have : (c.advance cs.length).advance t.length = c.advance c.rest.length := by
        simp only [Cursor.advance]; congr 1; omega
      rwa [this] at h7

/-- If the required methods do what the cursor does, so do the provided ones. -/
theorem provided_like (h : LikeCursorFor IsRequired dbg I.methods At) : LikeCursor dbg I.methods At := by
  refine ⟨fun op s c _ hne hs => ?_, h.size, h.debug, h.marks⟩
  cases op with
  | read =>
    obtain ⟨s', h1, h2⟩ := read_provided h hs
    exact ⟨_, s', _, by simp only [call, Required.methods, h1, answerOf], .step (.read c), h2⟩
  | readChars n => exact h.steps (.readChars n) s c trivial hne hs
  | readAll =>
    have := h.size s c hs
    obtain ⟨s', h1, h2⟩ := readAllLoop_provided h (I.size s + 1) s c hs (by have : c.rest.length ≤ I.size s := this; omega)
    exact ⟨_, s', _, by simp only [call, Required.methods, Required.readAll, h1, answerOf], .step (.readAll c), h2⟩
  | peek n =>
    obtain ⟨s', h1, h2⟩ := peek_provided h n hs
    exact ⟨_, s', _, by simp only [call, Required.methods, h1, answerOf], .step (.peek c n), h2⟩
  | prefixMatches p =>
    obtain ⟨s', h1, h2⟩ := prefixMatches_provided h p hs
    exact ⟨_, s', _, by simp only [call, Required.methods, h1, answerOf], .step (.prefixMatches c p), h2⟩
  | isEof =>
    obtain ⟨s', h1, h2⟩ := isEof_provided h hs
    exact ⟨_, s', _, by simp only [call, Required.methods, h1, answerOf], .step (.isEof c), h2⟩
  | skip n =>
    obtain ⟨s', h1, h2⟩ := skip_provided h n hs
    exact ⟨_, s', _, by simp only [call, Required.methods, h1, answerOf], .step (.skip c n), h2⟩
  | mark => exact h.steps .mark s c trivial hne hs
  | resetToMark m => exact h.steps (.resetToMark m) s c trivial hne hs
  | unmark m => exact h.steps (.unmark m) s c trivial hne hs
  | location => exact h.steps .location s c trivial hne hs

end Provided

/-! ## `MarkableReader` over any `CharReader` -/

theorem swap_source {src src' : Source} {b : UnreadBuffer} {c : Cursor} {text : Str} (h : RepIdle ⟨src, b⟩ c)
    (h1 : Delivers src text) (h2 : Delivers src' text) : RepIdle ⟨src', b⟩ c := by
  obtain ⟨text0, h3, h4, h5⟩ := h.src
  obtain rfl := delivers_unique h1 h3
  refine ⟨⟨⟨text, h2, h4, h5⟩, h.pos_le, h.next_le, h.loc, h.stack, h.sorted⟩, fun hd => ?_⟩
  rcases h.idle hd with h6 | h6 | h6 | h6
  · exact .inl h6
  · exact .inr (.inl h6)
  · exact .inr (.inr (.inl h6))
  · obtain rfl := delivers_unique h1 h6
    exact .inr (.inr (.inr h2))

/-- The reader stands at the cursor: it does with a library source for the same text. -/
def AnyAt (Tells : σ → List Heard → Prop) (r : AnyReader σ) (c : Cursor) : Prop :=
  r.buffer.dbg = false ∧ ∃ src text, Delivers src text ∧ RepIdle ⟨src, r.buffer⟩ c ∧ Tells r.source (text.map .char)

theorem any_readChars {source : Nat → RM σ Str} {Tells : σ → List Heard → Prop} (ht : TellsBy source Tells) {r : AnyReader σ}
    {c : Cursor} (h : AnyAt Tells r c) {n : Nat} (hn : 0 < n) :
    ∃ cs r', AnyReader.readChars source n r = (.ok cs, r') ∧ AnyAt Tells r' (c.advance cs.length) ∧ cs <+: c.rest ∧
      cs.length ≤ n ∧ (cs = [] → n = 0 ∨ c.rest = []) := by
  obtain ⟨hd, src, text, h1, h2, h3⟩ := h
  by_cases hrem : r.buffer.remains = true
  · obtain ⟨cs, r', h4, h5, h6, h7, h8, h9⟩ := readChars_rep h2 n
    simp only [Reader.readChars, hrem, if_true, Prod.mk.injEq, Res.ok.injEq] at h4
    obtain ⟨rfl, rfl⟩ := h4
    refine ⟨_, ⟨r.source, (r.buffer.read n).2⟩, by simp only [AnyReader.readChars, hrem, if_true], ⟨h6.trans hd, src, text, h1, h5, h3⟩, h7, h8, h9⟩
  · rcases ht n r.source _ hn h3 with ⟨s', l', e1, e2, e3⟩ | ⟨x, xs, s', l', e1, e2, e3, e4⟩ | ⟨e, s', l', e1, e2, e3⟩
    · have hnil : text = [] ∧ l' = [] := by
        rcases e3 with e3 | ⟨e3, e4⟩
        · cases text <;> simp at e3
        · exact ⟨by simpa using e3, e4⟩
      obtain ⟨rfl, rfl⟩ := hnil
      have h2' := swap_source (src' := ⟨[], [], Location.new []⟩) h2 h1 ⟨[], rfl, rfl⟩
      obtain ⟨cs, r', h4, h5, h6, h7, h8, h9⟩ := readChars_rep h2' n
      simp only [Reader.readChars, hrem, Source.readChars, Source.readRounds, List.isEmpty_nil, Bool.not_true, Bool.false_eq_true,
        if_false, if_true, Prod.mk.injEq, Res.ok.injEq] at h4
      obtain ⟨rfl, rfl⟩ := h4
      refine ⟨[], ⟨s', r.buffer⟩, ?_, ⟨hd, _, [], ⟨[], rfl, rfl⟩, h5, e2⟩, h7, h8, h9⟩
      simp only [AnyReader.readChars, hrem, e1, List.isEmpty_nil, Bool.false_eq_true, if_false, if_true]
    · obtain ⟨text', rfl, rfl⟩ : ∃ text' : Str, l' = text'.map .char ∧ text = (x :: xs) ++ text' := by
        generalize x :: xs = cs at e4
        obtain ⟨a, b, rfl, h5, h6⟩ := List.map_eq_append_iff.1 e4
        have inj : ∀ a b : Str, a.map Heard.char = b.map .char → a = b := by
          intro a
          induction a with
          | nil => intro b hb; cases b with
            | nil => rfl
            | cons => simp at hb
          | cons y ys ih => intro b hb; cases b with
            | nil => simp at hb
            | cons z zs => simp at hb; rw [hb.1, ih zs (by simpa using hb.2)]
        rw [inj _ _ h5]
        exact ⟨b, h6.symm, rfl⟩
      have h2' := swap_source (src' := ⟨x :: xs, [.ok text'], Location.new []⟩) h2 h1 ⟨[text'], rfl, by simp⟩
      obtain ⟨cs, r', h4, h5, h6, h7, h8, h9⟩ := readChars_rep h2' n
      have etake : (x :: xs).take n = x :: xs := List.take_of_length_le e3
      have edrop : (x :: xs).drop n = [] := List.drop_eq_nil_of_le e3
      simp only [Reader.readChars, hrem, Source.readChars, List.isEmpty_cons, Bool.not_false, Bool.false_eq_true,
        if_false, if_true, etake, edrop] at h4
      simp only [AnyReader.readChars, hrem, e1, List.isEmpty_cons, Bool.false_eq_true, if_false]
      generalize r.buffer.append (x :: xs) = y at h4
      obtain ⟨y, b'⟩ := y
      cases y with
      | ok u =>
        simp only [Prod.mk.injEq, Res.ok.injEq] at h4
        obtain ⟨rfl, rfl⟩ := h4
        exact ⟨x :: xs, ⟨s', b'⟩, rfl, ⟨h6.trans hd, _, text', ⟨[text'], rfl, by simp⟩, h5, e2⟩, h7, h8, h9⟩
      | err e => simp at h4
      | panic p => simp at h4
      | diverge => simp at h4
    · cases text <;> simp at e3

/-- Operations on the buffer only. -/
theorem any_like {source : Nat → RM σ Str} {left : σ → Nat} {Tells : σ → List Heard → Prop} (ht : TellsBy source Tells)
    (hl : ∀ s l, Tells s l → l.length ≤ left s) :
    LikeCursorFor IsRequired false (AnyReader.required source left).methods (AnyAt Tells) := by
  refine ⟨fun op r c hw hne h => ?_, fun r c h => ?_, fun r c h => h.1, fun r c h => ?_⟩
  · cases op with
    | readChars n =>
      obtain ⟨cs, r', h1, h2, h3, h4, h5⟩ := any_readChars ht h (n := n) (by
        cases n with
        | zero => exact absurd rfl hne
        | succ n => omega)
      exact ⟨.chars cs, r', _, by simp only [call, Required.methods, AnyReader.required, h1, answerOf], .step (.readChars c n cs h3 h4 h5), h2⟩
    | mark =>
      obtain ⟨hd, src, text, h1, h2, h3⟩ := h
      obtain ⟨m, r', h4, h5, h6, h7⟩ := mark_rep h2
      simp only [Reader.mark, Prod.mk.injEq] at h4
      obtain ⟨h4, rfl⟩ := h4
      exact ⟨.num m, ⟨r.source, r.buffer.mark.2⟩, _, by simp only [call, Required.methods, AnyReader.required, AnyReader.mark, h4, answerOf],
        .step (.mark c m h7), h6.trans hd, src, text, h1, h5, h3⟩
    | resetToMark m =>
      obtain ⟨hd, src, text, h1, h2, h3⟩ := h
      rcases newest_or_missing c.marks m with ⟨newer, p, older, h4, h5⟩ | h4
      · obtain ⟨r', h6, h7, h8, _⟩ := resetToMark_rep h2 h4 h5
        simp only [Reader.resetToMark, Prod.mk.injEq] at h6
        obtain ⟨h6, rfl⟩ := h6
        exact ⟨_, ⟨r.source, (r.buffer.revert m).2⟩, _, by
          simp only [call, Required.methods, AnyReader.required, AnyReader.resetToMark, h6, answerOf],
          .step (.reset c m newer p older h4 h5), h8.trans hd, src, text, h1, h7, h3⟩
      · have h6 := removeMark_missing h2 h4
        simp only at h6
        exact ⟨_, r, c, by simp only [call, Required.methods, AnyReader.required, AnyReader.resetToMark, UnreadBuffer.revert, h6, answerOf],
          .step (.resetInvalid c m h4), hd, src, text, h1, h2, h3⟩
    | unmark m =>
      obtain ⟨hd, src, text, h1, h2, h3⟩ := h
      rcases newest_or_missing c.marks m with ⟨newer, p, older, h4, h5⟩ | h4
      · obtain ⟨r', h6, h7, h8⟩ := unmark_rep h2 h4 h5 (by intro hx; rw [hd] at hx; simp at hx)
        have h9 := removeMark_found h2 h4 h5
        simp only at h9
        simp only [Reader.unmark, h9, Prod.mk.injEq] at h6
        obtain ⟨_, rfl⟩ := h6
        exact ⟨.unit, ⟨r.source, _⟩, _, by
          simp only [call, Required.methods, AnyReader.required, AnyReader.unmark, h9, answerOf],
          .step (.unmark c m newer p older h4 h5), h8.trans hd, src, text, h1, h7, h3⟩
      · have h6 := removeMark_missing h2 h4
        simp only at h6
        exact ⟨_, r, c, by simp only [call, Required.methods, AnyReader.required, AnyReader.unmark, h6, answerOf],
          .step (.unmarkInvalid c m h4), hd, src, text, h1, h2, h3⟩
    | location =>
      obtain ⟨hd, src, text, h1, h2, h3⟩ := h
      refine ⟨_, r, c, ?_, .step (.location c), hd, src, text, h1, h2, h3⟩
      have := h2.loc
      simp only at this
      simp only [call, Required.methods, AnyReader.required, this]
    | read => exact hw.elim
    | readAll => exact hw.elim
    | peek n => exact hw.elim
    | prefixMatches p => exact hw.elim
    | isEof => exact hw.elim
    | skip n => exact hw.elim
  · obtain ⟨hd, src, text, h1, h2, h3⟩ := h
    obtain ⟨text0, h4, h5, _⟩ := h2.src
    obtain rfl := delivers_unique h1 h4
    have := hl _ _ h3
    simp only [List.length_map] at this
    simp only [Required.methods, AnyReader.required]
    rw [h5, List.length_append, List.length_drop]
    simp only
    omega
  · obtain ⟨hd, src, text, h1, h2, h3⟩ := h
    exact fun m p p' => mark_position h2.toRep

theorem any_new {Tells : σ → List Heard → Prop} {s : σ} {text : Str} (h : Tells s (text.map .char)) (location : Location) :
    AnyAt Tells (AnyReader.withLocation location s false) ⟨location, text, 0, []⟩ :=
  ⟨rfl, .buffered text, text, ⟨[], rfl, by simp [Source.buffered]⟩,
    new_rep (location := location) (s := .buffered text) ⟨[], rfl, by simp [Source.buffered]⟩ false, h⟩

/-! ## Sequences of calls -/

theorem callAll_steps {dbg : Bool} {I : Methods σ} {At : σ → Cursor → Prop} (h : LikeCursor dbg I At) (ops : List ReaderOp)
    (ho : .readChars 0 ∉ ops) : ∀ s c, At s c → ∃ c', AnySteps c ops (callAll I ops s).1 c' ∧ At (callAll I ops s).2 c' := by
  induction ops with
  | nil => intro s c hs; exact ⟨c, .nil c, hs⟩
  | cons op ops ih =>
    intro s c hs
    obtain ⟨a, s', c', h1, h2, h3⟩ := h.steps op s c trivial (by rintro rfl; simp at ho) hs
    obtain ⟨c'', h4, h5⟩ := ih (by simp at ho; exact ho.2) s' c' h3
    simp only [callAll, h1]
    exact ⟨c'', .cons h2 h4, h5⟩

end Ebnf
