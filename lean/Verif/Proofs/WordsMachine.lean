import Verif.Proofs.Words
import Verif.Proofs.Dyn

set_option autoImplicit false

/-! # 64-bit integers: the provided methods, the scanners and the machine (lemmas for C101) -/

namespace Ebnf.Word

open Spec

variable {α β : Type}

abbrev Marks := List (Nat × Location)

/-- These marks are on the reader, below newer ones. -/
def Has (A : Marks) (r : Reader) : Prop := A <:+ r.buffer.stack

theorem Has.older {A B : Marks} {r : Reader} (h : Has (B ++ A) r) : Has A r := List.IsSuffix.trans (List.suffix_append _ _) h

theorem Has.tail {A : Marks} {x : Nat × Location} {r : Reader} (h : Has (x :: A) r) : Has A r := List.IsSuffix.trans (List.suffix_cons _ _) h

theorem Has.nil {r : Reader} : Has [] r := List.nil_suffix

/-- On small readers with `P` the two do the same, and leave a small reader: with `Q` after a value, with `E` otherwise. -/
def Tri (P : Reader → Prop) (Q : α → Reader → Prop) (E : Reader → Prop) (f g : RM Reader α) : Prop :=
  ∀ r, Small r → P r → f r = g r ∧ Small (g r).2 ∧ (match (g r).1 with | .ok a => Q a (g r).2 | _ => E (g r).2)

theorem Tri.bind {P : Reader → Prop} {Q : α → Reader → Prop} {R : β → Reader → Prop} {E : Reader → Prop} {f g : RM Reader α}
    {f' g' : α → RM Reader β} (h : Tri P Q E f g) (h' : ∀ a, Tri (Q a) R E (f' a) (g' a)) : Tri P R E (f >>= f') (g >>= g') := by
  intro r hr hp
  obtain ⟨h1, h2, h3⟩ := h r hr hp
  rw [RM.bind_run, RM.bind_run, h1]
  generalize g r = y at h2 h3
  obtain ⟨x, r'⟩ := y
  cases x with
  | ok a => exact h' a r' h2 h3
  | err e => exact ⟨rfl, h2, h3⟩
  | panic p => exact ⟨rfl, h2, h3⟩
  | diverge => exact ⟨rfl, h2, h3⟩

theorem Tri.conseq {P P' : Reader → Prop} {Q Q' : α → Reader → Prop} {E E' : Reader → Prop} {f g : RM Reader α} (h : Tri P Q E f g)
    (hp : ∀ r, P' r → P r) (hq : ∀ a r, Q a r → Q' a r) (he : ∀ r, E r → E' r) : Tri P' Q' E' f g := by
  intro r hr hp'
  obtain ⟨h1, h2, h3⟩ := h r hr (hp r hp')
  refine ⟨h1, h2, ?_⟩
  generalize g r = y at h3
  obtain ⟨x, r'⟩ := y
  cases x with
  | ok a => exact hq a r' h3
  | err e => exact he r' h3
  | panic p => exact he r' h3
  | diverge => exact he r' h3

theorem Tri.pure {P : Reader → Prop} {Q : α → Reader → Prop} {E : Reader → Prop} (a : α) (h : ∀ r, P r → Q a r) :
    Tri P Q E (Pure.pure a) (Pure.pure a) := fun r hr hp => ⟨rfl, hr, h r hp⟩

theorem Tri.lift {P : Reader → Prop} {Q : α → Reader → Prop} {E : Reader → Prop} (x : Res α) (h : ∀ a r, x = .ok a → P r → Q a r)
    (he : ∀ r, P r → E r) : Tri P Q E (RM.lift x) (RM.lift x) := by
  intro r hr hp
  refine ⟨rfl, hr, ?_⟩
  cases x with
  | ok a => exact h a r rfl hp
  | err e => exact he r hp
  | panic p => exact he r hp
  | diverge => exact he r hp

theorem Tri.lift_eq {P : Reader → Prop} {x y : Res α} (hxy : x = y) {Q : Reader → Prop} (h : ∀ r, P r → Q r) :
    Tri P (fun _ => Q) Q (RM.lift x) (RM.lift y) := hxy ▸ Tri.lift x (fun _ r _ hp => h r hp) (fun r hp => h r hp)

theorem Tri.get {P : Reader → Prop} {E : Reader → Prop} : Tri P (fun _ => P) E RM.get RM.get := fun _ hr hp => ⟨rfl, hr, hp⟩

theorem Tri.given {φ : Prop} {P : Reader → Prop} {Q : α → Reader → Prop} {E : Reader → Prop} {f g : RM Reader α}
    (h : φ → Tri P Q E f g) : Tri (fun r => P r ∧ φ) Q E f g := fun r hr hp => h hp.2 r hr hp.1

/-- The two do the same, and keep the marks that are there. -/
def Keeps (f g : RM Reader α) : Prop := ∀ A, Tri (Has A) (fun _ => Has A) (Has A) f g

theorem Keeps.bind {f g : RM Reader α} {f' g' : α → RM Reader β} (h : Keeps f g) (h' : ∀ a, Keeps (f' a) (g' a)) :
    Keeps (f >>= f') (g >>= g') := fun A => (h A).bind (fun a => h' a A)

theorem Keeps.pure (a : α) : Keeps (Pure.pure a) (Pure.pure a) := fun _ => Tri.pure a (fun _ h => h)

theorem Keeps.lift (x : Res α) : Keeps (RM.lift x) (RM.lift x) := fun _ => Tri.lift x (fun _ _ _ h => h) (fun _ h => h)

theorem Keeps.get : Keeps RM.get RM.get := fun _ => Tri.get

theorem Keeps.ite {c : Prop} [Decidable c] {f g f' g' : RM Reader α} (h : c → Keeps f g) (h' : ¬ c → Keeps f' g') :
    Keeps (if c then f else f') (if c then g else g') := by
  by_cases hc : c
  · rw [if_pos hc, if_pos hc]; exact h hc
  · rw [if_neg hc, if_neg hc]; exact h' hc

/-- The same, with marks that may be given up at the end. -/
def Frees (A B : Marks) (f g : RM Reader α) : Prop := Tri (Has (A ++ B)) (fun _ => Has B) (Has B) f g

theorem Keeps.frees {f g : RM Reader α} (h : Keeps f g) (A B : Marks) : Frees A B f g :=
  (h (A ++ B)).conseq (fun _ h => h) (fun _ _ h => h.older) (fun _ h => h.older)

theorem Keeps.bindFrees {f g : RM Reader α} {f' g' : α → RM Reader β} {A B : Marks} (h : Keeps f g) (h' : ∀ a, Frees A B (f' a) (g' a)) :
    Frees A B (f >>= f') (g >>= g') := Tri.bind ((h (A ++ B)).conseq (fun _ h => h) (fun _ _ h => h) (fun _ h => h.older)) h'

theorem Frees.bind {f g : RM Reader α} {f' g' : α → RM Reader β} {A B : Marks} (h : Frees A B f g) (h' : ∀ a, Keeps (f' a) (g' a)) :
    Frees A B (f >>= f') (g >>= g') := Tri.bind h (fun a => h' a B)

theorem Frees.ite {c : Prop} [Decidable c] {A B : Marks} {f g f' g' : RM Reader α} (h : c → Frees A B f g) (h' : ¬ c → Frees A B f' g') :
    Frees A B (if c then f else f') (if c then g else g') := by
  by_cases hc : c
  · rw [if_pos hc, if_pos hc]; exact h hc
  · rw [if_neg hc, if_neg hc]; exact h' hc

/-- What holds in all cases. -/
theorem Tri.all {P : Reader → Prop} {Q : Reader → Prop} {f g : RM Reader α} (h1 : ∀ r, Small r → P r → f r = g r)
    (h2 : ∀ r, Small r → P r → Small (g r).2) (h3 : ∀ r, Small r → P r → Q (g r).2) : Tri P (fun _ => Q) Q f g := by
  intro r hr hp
  refine ⟨h1 r hr hp, h2 r hr hp, ?_⟩
  have := h3 r hr hp
  split <;> exact this

/-! ## The methods -/

abbrev I : Methods Reader := Reader.required.methods
abbrev J : Methods Reader := reader.methods

theorem keeps_readChars (n : Nat) : Keeps (J.readChars n) (I.readChars n) := fun A =>
  Tri.all (fun _ hr _ => (readChars_small hr n).1) (fun _ hr _ => (readChars_small hr n).2)
    (fun r hr hA => by
      show A <:+ (Reader.readChars n r).2.buffer.stack
      rw [(readChars_takes hr n).1]; exact hA)

theorem keeps_location : Keeps (Dyn.location J) (Dyn.location I) := fun _ _ hr hA => ⟨rfl, hr, hA⟩

/-- Setting a mark. -/
theorem mark_then {f g : Nat → RM Reader α} {R : Reader → Prop} {A : Marks} {r : Reader} (hr : Small r) (hA : Has A r) (hR : R (Reader.mark r).2)
    (h : ∀ A m, Tri (fun r' => Has ((m, r.buffer.location) :: A) r' ∧ R r') (fun _ => Has A) (Has A) (f m) (g m)) :
    (J.mark >>= f) r = (I.mark >>= g) r ∧ Small ((I.mark >>= g) r).2 ∧
      (match ((I.mark >>= g) r).1 with | .ok _ => Has A ((I.mark >>= g) r).2 | _ => Has A ((I.mark >>= g) r).2) := by
  obtain ⟨h1, h2⟩ := mark_small hr
  obtain ⟨h3, h4, _⟩ := mark_pushes r hr
  rw [RM.bind_run, RM.bind_run]
  have e1 : J.mark r = Reader.mark r := h1
  have e2 : I.mark r = Reader.mark r := rfl
  rw [e1, e2]
  generalize Reader.mark r = y at h2 h3 h4 hR
  obtain ⟨x, r'⟩ := y
  simp only at h3 h4 hR
  subst h3
  obtain ⟨top, ht⟩ := hA
  have older : ∀ r', Has r.buffer.stack r' → Has A r' := fun r' h => Has.older (B := top) (ht ▸ h)
  exact ((h r.buffer.stack _).conseq (Q' := fun _ => Has A) (E' := Has A) (fun _ h => h) (fun _ => older) older) r' h2
      ⟨(by show _ <:+ r'.buffer.stack; rw [h4]; exact List.suffix_refl _), hR⟩

theorem mark_frees {f g : Nat → RM Reader α} (h : ∀ A m l, Frees [(m, l)] A (f m) (g m)) : Keeps (J.mark >>= f) (I.mark >>= g) :=
  fun _ _ hr hA => mark_then (R := fun _ => True) hr hA trivial
    (fun A m => (h A m _).conseq (fun _ h => h.1) (fun _ _ h => h) (fun _ h => h))

theorem location_mark {f g : Location → Nat → RM Reader α} (h : ∀ A m l, Frees [(m, l)] A (f l m) (g l m)) :
    Keeps (Dyn.location J >>= fun l => J.mark >>= f l) (Dyn.location I >>= fun l => I.mark >>= g l) :=
  fun _ r hr hA => mark_then (f := f r.buffer.location) (g := g r.buffer.location) (R := fun _ => True) hr hA trivial
    (fun A m => (h A m _).conseq (fun _ h => h.1) (fun _ _ h => h) (fun _ h => h))

theorem mark_room {f g : Nat → RM Reader α} {begin : Location} (h : ∀ A m l,
    Tri (fun r => Has ((m, l) :: A) r ∧ Fits begin (avail r)) (fun _ => Has A) (Has A) (f m) (g m)) (A : Marks) :
    Tri (fun r => Has A r ∧ Fits begin (avail r)) (fun _ => Has A) (Has A) (J.mark >>= f) (I.mark >>= g) :=
  fun r hr hA => mark_then (R := fun r => Fits begin (avail r)) hr hA.1 (by rw [(mark_pushes r hr).2.2]; exact hA.2)
    (fun A m => h A m _)

theorem reset_frees (A : Marks) (m : Nat) (l : Location) : Frees [(m, l)] A (J.resetToMark m) (I.resetToMark m) :=
  Tri.all (fun _ hr _ => (reset_small hr m).1) (fun _ hr _ => (reset_small hr m).2) (fun _ hr hA => (reset_pops hr hA).1)

theorem unmark_frees (A : Marks) (m : Nat) (l : Location) : Frees [(m, l)] A (J.unmark m) (I.unmark m) :=
  Tri.all (fun _ hr _ => (unmark_small hr m).1) (fun _ hr _ => (unmark_small hr m).2) (fun _ _ hA => unmark_pops hA)

theorem keeps_read : Keeps J.read I.read := (keeps_readChars 1).bind (fun cs => Keeps.pure cs.head?)

theorem keeps_readAllLoop (fuel : Nat) : Keeps (CharReader.readAllLoop reader.readChars fuel) (CharReader.readAllLoop Reader.required.readChars fuel) := by
  induction fuel with
  | zero => exact Keeps.lift _
  | succ fuel ih =>
    rw [CharReader.readAllLoop, CharReader.readAllLoop]
    exact (keeps_readChars 1024).bind (fun cs => Keeps.ite (fun _ => Keeps.pure _) (fun _ => ih.bind (fun _ => Keeps.pure _)))

theorem keeps_readAll : Keeps J.readAll I.readAll := fun A r hr hA => keeps_readAllLoop (r.size + 1) A r hr hA

theorem keeps_isEof : Keeps J.isEof I.isEof :=
  mark_frees (fun A m l => keeps_read.bindFrees (fun _ => (reset_frees A m l).bind (fun _ => Keeps.pure _)))

theorem keeps_prefixLoop (p : Str) : Keeps (reader.prefixLoop p) (Reader.required.prefixLoop p) := by
  induction p with
  | nil => exact Keeps.pure _
  | cons x p ih =>
    rw [Required.prefixLoop, Required.prefixLoop]
    exact keeps_read.bind (fun _ => Keeps.ite (fun _ => Keeps.pure _) (fun _ => ih))

theorem keeps_prefixMatches (p : Str) : Keeps (J.prefixMatches p) (I.prefixMatches p) :=
  mark_frees (fun A m l => (keeps_prefixLoop p).bindFrees (fun _ => (reset_frees A m l).bind (fun _ => Keeps.pure _)))

theorem keeps_peekLoop (n : Nat) : Keeps (reader.peekLoop n) (Reader.required.peekLoop n) := by
  induction n with
  | zero => exact Keeps.pure _
  | succ n ih =>
    rw [Required.peekLoop, Required.peekLoop]
    refine keeps_read.bind (fun ch => ?_)
    cases ch with
    | none => exact Keeps.pure _
    | some ch => exact ih.bind (fun _ => Keeps.pure _)

theorem keeps_peek (n : Nat) : Keeps (J.peek n) (I.peek n) :=
  mark_frees (fun A m l => (keeps_peekLoop n).bindFrees (fun _ => (reset_frees A m l).bind (fun _ => Keeps.pure _)))

theorem keeps_skipLoop (fuel : Nat) : ∀ n, Keeps (reader.skipLoop fuel n) (Reader.required.skipLoop fuel n) := by
  induction fuel with
  | zero => intro n; cases n with
    | zero => exact Keeps.pure _
    | succ n => exact Keeps.lift _
  | succ fuel ih =>
    intro n
    cases n with
    | zero => exact Keeps.pure _
    | succ n =>
      rw [Required.skipLoop, Required.skipLoop]
      exact (keeps_readChars _).bind (fun cs => Keeps.ite (fun _ => Keeps.pure _) (fun _ => ih _))

theorem keeps_skip (n : Nat) : Keeps (J.skip n) (I.skip n) := (keeps_skipLoop n n).bind (fun _ => Keeps.pure _)

/-! ## Histories -/

theorem call_small (op : ReaderOp) {r : Reader} (hr : Small r) : call J op r = call I op r ∧ Small (call I op r).2 := by
  have key : ∀ {α : Type} {f g : RM Reader α} (k : α → ReaderAns), f r = g r → Small (g r).2 →
      answerOf k (f r) = answerOf k (g r) ∧ Small (answerOf k (g r)).2 := by
    intro α f g k h1 h2
    rw [h1]
    refine ⟨rfl, ?_⟩
    generalize g r = y at h2
    obtain ⟨x, r'⟩ := y
    cases x <;> exact h2
  have keep : ∀ {α : Type} {f g : RM Reader α} (k : α → ReaderAns), Keeps f g →
      answerOf k (f r) = answerOf k (g r) ∧ Small (answerOf k (g r)).2 := fun k h =>
    key k (h [] r hr Has.nil).1 (h [] r hr Has.nil).2.1
  cases op with
  | read => exact keep _ keeps_read
  | readChars n => exact keep _ (keeps_readChars n)
  | readAll => exact keep _ keeps_readAll
  | peek n => exact keep _ (keeps_peek n)
  | prefixMatches p => exact keep _ (keeps_prefixMatches p)
  | isEof => exact keep _ keeps_isEof
  | skip n => exact keep _ (keeps_skip n)
  | mark => exact key _ (mark_small hr).1 (mark_small hr).2
  | resetToMark m => exact key _ (reset_small hr m).1 (reset_small hr m).2
  | unmark m => exact key _ (unmark_small hr m).1 (unmark_small hr m).2
  | location => exact ⟨rfl, hr⟩

theorem callAll_small (ops : List ReaderOp) : ∀ {r : Reader}, Small r → callAll J ops r = callAll I ops r := by
  induction ops with
  | nil => intro r _; rfl
  | cons op ops ih =>
    intro r hr
    obtain ⟨h1, h2⟩ := call_small op hr
    simp only [callAll]
    rw [h1, ih h2]

/-! ## The machine -/

theorem keeps_streamPrefix : Keeps (Dyn.streamPrefix J) (Dyn.streamPrefix I) :=
  keeps_isEof.bind (fun b => Keeps.ite (fun _ => Keeps.pure _) (fun _ => (keeps_peek 9).bind (fun _ => Keeps.pure _)))

theorem keeps_errExpected (g : Graph) (current : Option Nat) : Keeps (Dyn.errExpected J g current) (Dyn.errExpected I g current) := by
  intro A r hr hA
  obtain ⟨h1, h2, h3⟩ := keeps_streamPrefix A r hr hA
  unfold Dyn.errExpected
  rw [h1]
  generalize Dyn.streamPrefix I r = y at h2 h3
  obtain ⟨x, r'⟩ := y
  cases x <;> exact ⟨rfl, h2, h3⟩

abbrev RunM := RM Reader (Prospect × List Event)

theorem keeps_repetition {body body' : RunM} (h : Keeps body body') (min max fuel : Nat) :
    ∀ i temp, Keeps (Dyn.repetitionLoop J body min max fuel i temp) (Dyn.repetitionLoop I body' min max fuel i temp) := by
  induction fuel with
  | zero => intro i temp; exact Keeps.lift _
  | succ fuel ih =>
    intro i temp
    rw [Dyn.repetitionLoop, Dyn.repetitionLoop]
    refine Keeps.ite (fun _ => keeps_location.bind (fun here => mark_frees (fun A m l => h.bindFrees (fun a => ?_)))) (fun _ => Keeps.pure _)
    obtain ⟨p, evs⟩ := a
    cases p with
    | notThisWay e =>
      exact Frees.ite (fun _ => (Keeps.pure _).frees _ _) (fun _ => (reset_frees A m l).bind (fun _ => Keeps.pure _))
    | proceed =>
      exact (keeps_location.bind (fun _ => Keeps.ite (fun _ => Keeps.lift _) (fun _ => ih _ _))).frees _ _

theorem keeps_or {run run' : Nat → RunM} (h : ∀ a, Keeps (run a) (run' a)) (subs : List Nat) :
    ∀ errors, Keeps (Dyn.orLoop J run subs errors) (Dyn.orLoop I run' subs errors) := by
  induction subs with
  | nil => intro errors; exact Keeps.pure _
  | cons sub subs ih =>
    intro errors
    rw [Dyn.orLoop, Dyn.orLoop]
    refine mark_frees (fun A m l => (h sub).bindFrees (fun a => ?_))
    obtain ⟨p, evs⟩ := a
    cases p with
    | proceed => exact (Keeps.pure _).frees _ _
    | notThisWay e => exact (reset_frees A m l).bind (fun _ => ih _)

theorem keeps_terminal (g : Graph) (addr : Nat) (instr : Instruction) (s : Str) :
    Keeps (Dyn.scanTerminal J g addr instr s) (Dyn.scanTerminal I g addr instr s) :=
  (keeps_prefixMatches s).bind (fun b => Keeps.ite
    (fun _ => keeps_location.bind (fun _ => (keeps_skip _).bind (fun _ => Keeps.pure _)))
    (fun _ => (keeps_errExpected g _).bind (fun _ => Keeps.pure _)))

theorem keeps_special (g : Graph) (addr : Nat) (instr : Instruction) {scan scan' : Location → RM Reader Reaction}
    (hs : ∀ d, Keeps (scan d) (scan' d)) {run run' : Nat → RunM} (h : ∀ a, Keeps (run a) (run' a)) :
    Keeps (Dyn.scanSpecial J g addr instr scan run) (Dyn.scanSpecial I g addr instr scan' run') := by
  refine mark_frees (fun A m l => (hs _).bindFrees (fun a => ?_))
  cases a with
  | «match» evts => exact (unmark_frees A m l).bind (fun _ => Keeps.pure _)
  | forward name =>
    simp only
    cases g.indexOfLabel name with
    | some next => exact (unmark_frees A m l).bind (fun _ => (h next).bind (fun _ => Keeps.pure _))
    | none => exact (reset_frees A m l).bind (fun _ => keeps_location.bind (fun _ => Keeps.lift _))
  | unmatch => exact (reset_frees A m l).bind (fun _ => (keeps_errExpected g _).bind (fun _ => Keeps.pure _))

/-! ### Exceptions -/

/-- There is room for `l` and the characters ahead. -/
def Room (l : Location) (r : Reader) : Prop := Fits l (avail r)

theorem read_room (A : Marks) (l : Location) (k : Nat) :
    Tri (fun r => Has A r ∧ Fits l (k + avail r)) (fun ch r => Has A r ∧ Fits l (k + ch.toList.length + avail r)) (Has A) J.read I.read := by
  intro r hr ⟨hA, hk⟩
  obtain ⟨h1, h2, h3⟩ := keeps_read A r hr hA
  refine ⟨h1, h2, ?_⟩
  have ht := readChars_takes hr 1
  have e : I.read r = (Reader.readChars 1 >>= fun cs => Pure.pure cs.head?) r := rfl
  rw [e, RM.bind_run] at h3 ⊢
  generalize Reader.readChars 1 r = y at ht h3
  obtain ⟨x, r'⟩ := y
  cases x with
  | ok cs =>
    refine ⟨h3, hk.mono ?_⟩
    have := ht.2.2 cs rfl
    have h4 : cs.head?.toList.length ≤ cs.length := by cases cs <;> simp
    show k + cs.head?.toList.length + avail r' ≤ k + avail r
    simp only at this
    omega
  | err e => exact h3
  | panic p => exact h3
  | diverge => exact h3

theorem capture_room (A : Marks) (l endLoc : Location) (fuel : Nat) : ∀ k,
    Tri (fun r => Has A r ∧ Fits l (k + avail r)) (fun buffer r => Has A r ∧ Fits l (k + buffer.length)) (Has A)
      (Dyn.captureLoop J endLoc fuel) (Dyn.captureLoop I endLoc fuel) := by
  induction fuel with
  | zero => intro k; exact Tri.lift _ (fun _ _ h => by cases h) (fun _ h => h.1)
  | succ fuel ih =>
    intro k
    rw [Dyn.captureLoop, Dyn.captureLoop]
    refine Tri.bind (Q := fun _ r => Has A r ∧ Fits l (k + avail r)) (fun r hr h => ⟨rfl, hr, h⟩) (fun here => ?_)
    by_cases hc : here.lines < endLoc.lines ∨ here.columns < endLoc.columns
    · rw [if_pos hc, if_pos hc]
      refine Tri.bind (read_room A l k) (fun ch => ?_)
      cases ch with
      | none => exact (ih k).conseq (fun _ h => h) (fun _ _ h => h) (fun _ h => h)
      | some ch =>
        refine Tri.bind (ih (k + 1)) (fun more => Tri.pure _ (fun r h => ⟨h.1, h.2.mono ?_⟩))
        simp only [List.length_cons]; omega
    · rw [if_neg hc, if_neg hc]
      exact Tri.pure _ (fun r h => ⟨h.1, h.2.mono (by simp)⟩)

theorem buffered_small {l : Location} {buffer : Str} (h : Fits l buffer.length) (dbg : Bool) :
    Small (Reader.withLocation l (.buffered buffer) dbg) := by
  have e : leftIn (Source.buffered buffer) = buffer.length := by simp [leftIn, Source.buffered]
  refine new_small (by rw [e]; exact h) ?_
  rw [e]
  have := h.2.2
  exact ⟨this, this, this⟩

theorem keeps_exception (g : Graph) (addr : Nat) {runF runF' : RunM} {runX runX' : Run} (hf : Keeps runF runF') (hx : Keeps runX runX') :
    Keeps (scanException g addr runF runX) (Dyn.scanException I g addr runF' runX') := by
  refine location_mark (fun S m begin => hf.bindFrees (fun a => ?_))
  obtain ⟨p, temp⟩ := a
  cases p with
  | notThisWay e => exact (reset_frees S m begin).bind (fun _ => Keeps.pure _)
  | proceed =>
    refine keeps_location.bindFrees (fun endLoc => ?_)
    -- back at the mark
    refine Tri.bind (Q := fun _ r => Has S r ∧ Fits begin (avail r)) ?_ (fun _ => mark_room (fun S m l => ?_) S)
    · intro r hr hA
      refine ⟨(reset_small hr m).1, (reset_small hr m).2, ?_⟩
      have h5 := reset_pops hr hA
      have e : I.resetToMark m r = Reader.resetToMark m r := rfl
      rw [e]
      generalize Reader.resetToMark m r = y at h5
      obtain ⟨x, r'⟩ := y
      cases x with
      | ok k => exact ⟨h5.1, h5.2 k rfl⟩
      | err e => exact h5.1
      | panic p => exact h5.1
      | diverge => exact h5.1
    -- at the second mark
    refine Tri.bind Tri.get (fun now => ?_)
    refine Tri.bind ((capture_room ((m, l) :: S) begin endLoc _ 0).conseq (fun _ h => ⟨h.1, h.2.mono (by omega)⟩) (fun _ _ h => h) (fun _ h => h.tail))
      (fun buffer => ?_)
    rw [Nat.zero_add]
    refine Tri.given (fun hb => ?_)
    refine keeps_location.bindFrees (A := [(m, l)]) (fun here => ?_)
    refine Frees.ite (fun _ => (Keeps.lift _).frees _ _) (fun _ => ?_)
    have hsm := buffered_small hb now.buffer.dbg
    refine Keeps.bindFrees (fun A => ?_) (fun excluded => Frees.ite
      (fun _ => (reset_frees S m l).bind (fun _ => (keeps_errExpected g _).bind (fun _ => Keeps.pure _))) (fun _ => (Keeps.pure _).frees _ _))
    have hin := ((hx.bind (f' := fun a => match a.1 with
        | .proceed => J.isEof
        | .notThisWay _ => pure false) (g' := fun a => match a.1 with
        | .proceed => I.isEof
        | .notThisWay _ => pure false) (fun a => by
      obtain ⟨p, evs⟩ := a
      cases p with
      | proceed => exact keeps_isEof
      | notThisWay e => exact Keeps.pure _)) [] _ hsm Has.nil).1
    exact Tri.lift_eq (congrArg Prod.fst hin) (fun _ h => h)

/-! ### All instructions -/

theorem keeps_step {scan : SpecialScanner → Location → RM Reader Reaction} {g : Graph} {addr : Nat} {instr : Instruction}
    (hs : ∀ scanner, instr.step = .scan (.special scanner) → ∀ d, Keeps (scan scanner d) (scanner.scan d))
    {run run' : Nat → RunM} (h : ∀ a, Keeps (run a) (run' a)) (fuel : Nat) :
    Keeps (execStep scan g run fuel addr instr) (Dyn.execStep I SpecialScanner.scan g run' run' fuel addr instr) := by
  unfold execStep Dyn.execStep
  cases hst : instr.step with
  | repetition min max sub => exact keeps_repetition (h sub) _ _ _ _ _
  | or subs =>
    refine (keeps_or h subs []).bind (fun a => ?_)
    cases a with
    | ok evs => exact Keeps.pure _
    | error errors =>
      simp only
      cases errors.reverse with
      | nil => exact Keeps.lift _
      | cons last others =>
        exact keeps_location.bind (fun _ => Keeps.ite (fun _ => (keeps_errExpected g _).bind (fun _ => Keeps.pure _)) (fun _ => Keeps.pure _))
  | «alias» name =>
    simp only
    cases g.indexOfLabel name with
    | none => exact Keeps.lift _
    | some address =>
      simp only
      cases g.canonicalName name with
      | none => exact Keeps.lift _
      | some label =>
        refine keeps_location.bind (fun _ => (h address).bind (fun a => ?_))
        obtain ⟨p, evs⟩ := a
        cases p with
        | notThisWay e => exact Keeps.pure _
        | proceed => exact keeps_location.bind (fun _ => Keeps.pure _)
  | scan s =>
    cases s with
    | terminal t => exact keeps_terminal _ _ _ _
    | special scanner => exact keeps_special _ _ _ (hs scanner hst) h
    | empty => exact Keeps.pure _
    | exception factor exception => exact keeps_exception _ _ (h factor) (h exception)

/-- On 64-bit readers the scanners in the graph do what they do on others. -/
def ScannersKeep (scan : SpecialScanner → Location → RM Reader Reaction) (g : Graph) : Prop :=
  ∀ addr instr scanner, g.instruction addr = some instr → instr.step = .scan (.special scanner) → ∀ d, Keeps (scan scanner d) (scanner.scan d)

theorem keeps_run {scan : SpecialScanner → Location → RM Reader Reaction} {g : Graph} (hg : ScannersKeep scan g)
    (hsame : ∀ fuel next, Dyn.runFrom I SpecialScanner.scan g fuel next = Ebnf.runFrom g fuel next) (fuel : Nat) :
    ∀ next, Keeps (runFrom scan g fuel next) (Dyn.runFrom I SpecialScanner.scan g fuel next) := by
  induction fuel with
  | zero => intro next; exact Keeps.lift _
  | succ fuel ih =>
    intro next
    cases next with
    | none => exact Keeps.pure _
    | some addr =>
      rw [runFrom, Dyn.runFrom]
      cases hi : g.instruction addr with
      | none => exact Keeps.lift _
      | some instr =>
        simp only [← hsame fuel]
        refine (keeps_step (fun scanner h => hg addr instr scanner hi h) (fun a => ih (some a)) fuel).bind (fun a => ?_)
        obtain ⟨p, evs⟩ := a
        cases p with
        | notThisWay e => exact Keeps.pure _
        | proceed => exact (ih _).bind (fun _ => Keeps.pure _)

theorem keeps_parse {scan : SpecialScanner → Location → RM Reader Reaction} {m : Machine} (hg : ScannersKeep scan m.graph)
    (hsame : ∀ fuel next, Dyn.runFrom I SpecialScanner.scan m.graph fuel next = Ebnf.runFrom m.graph fuel next) (fuel : Nat) :
    Keeps (parse scan m fuel) (Dyn.parse I SpecialScanner.scan m fuel) := by
  refine (keeps_run hg hsame fuel _).bind (fun a => ?_)
  obtain ⟨p, evs⟩ := a
  cases p with
  | notThisWay e => exact Keeps.lift _
  | proceed =>
    exact keeps_isEof.bind (fun _ => Keeps.ite (fun _ => Keeps.get.bind (fun _ => Keeps.ite (fun _ => Keeps.lift _) (fun _ => Keeps.pure _)))
      (fun _ => (keeps_errExpected _ _).bind (fun _ => Keeps.lift _)))

/-! ### The scanners of the library -/

theorem keeps_default (d : Location) : Keeps (Dyn.defaultScan d : RM Reader Reaction) (Dyn.defaultScan d) := Keeps.pure _

theorem keeps_charsLoop (allowed : Char → Bool) (max : Option Nat) (fuel : Nat) :
    ∀ count, Keeps (Dyn.charsLoop J allowed max fuel count) (Ebnf.charsLoop allowed max fuel count) := by
  induction fuel with
  | zero => intro count; exact Keeps.lift _
  | succ fuel ih =>
    intro count
    rw [Dyn.charsLoop, Ebnf.charsLoop]
    refine Keeps.ite (fun _ => mark_frees (fun A m l => keeps_read.bindFrees (fun ch => ?_))) (fun _ => Keeps.pure _)
    cases ch with
    | none => exact (Keeps.pure _).frees _ _
    | some ch =>
      exact Frees.ite (fun _ => (reset_frees A m l).bind (fun _ => Keeps.pure _))
        (fun _ => (unmark_frees A m l).bind (fun _ => (ih _).bind (fun _ => Keeps.pure _)))

theorem keeps_chars (allowed : Char → Bool) (min max : Option Nat) (d : Location) :
    Keeps (Dyn.charsScan J allowed min max d) ((charsScanner allowed min max).scan d) := by
  refine mark_frees (fun A m l => keeps_location.bindFrees (fun _ => Keeps.get.bindFrees (fun now =>
    (keeps_charsLoop allowed max (now.size + 1) 0).bindFrees (fun buffer => ?_))))
  exact Frees.ite (fun _ => (reset_frees A m l).bind (fun _ => Keeps.pure _)) (fun _ => (Keeps.pure _).frees _ _)

theorem keeps_regex (source : Str) (find : Str → Option (Nat × Nat)) (hpeek : I.peek = Reader.peek) (hskip : I.skip = Reader.skip) (d : Location) :
    Keeps (Dyn.regexScan J find d) ((regexScanner source find).scan d) := by
  unfold Dyn.regexScan regexScanner
  simp only
  refine keeps_location.bind (fun _ => ?_)
  rw [← hpeek, ← hskip]
  refine (keeps_peek 257).bind (fun text => ?_)
  cases find text with
  | none => exact Keeps.pure _
  | some x =>
    obtain ⟨a, len⟩ := x
    cases a with
    | succ a => exact Keeps.pure _
    | zero =>
      exact Keeps.ite (fun _ => keeps_location.bind (fun _ => Keeps.lift _)) (fun _ => (keeps_skip _).bind (fun _ => Keeps.pure _))

end Ebnf.Word
