import Verif.Proofs.Builds
import Verif.Spec.Faults

set_option autoImplicit false

/-! # Readers over sources that fail now and then -/

namespace Ebnf

open Spec

variable {dbg : Bool} {α β : Type}

/-- The codes of the failures to come. -/
def faultsIn : List (Except Nat Str) → List Nat
  | [] => []
  | .error code :: rounds => code :: faultsIn rounds
  | .ok _ :: rounds => faultsIn rounds

/-- The codes of the failures to come. -/
abbrev faultsOf (r : Reader) : List Nat := faultsIn r.source.rounds

/-- The method reports the next failure of the source at the place reached, or meets none and does what it does over a
source that does not fail. -/
def Passes (f : RM Reader α) : Prop :=
  ∀ r, (∃ below code, (f r).1 = .err ⟨(f r).2.buffer.location, .wrapped below code⟩ ∧ faultsOf r = code :: faultsOf (f r).2) ∨
    (f (steady r) = ((f r).1, steady (f r).2) ∧ faultsOf (f r).2 = faultsOf r)

theorem Passes.spec {f : RM Reader α} (h : Passes f) : PassesFaults f := by
  intro r
  rcases h r with ⟨below, code, h1, _⟩ | ⟨h1, _⟩
  · exact .inl ⟨_, h1, below, code, rfl⟩
  · exact .inr h1

theorem passes_pure (a : α) : Passes (pure a : RM Reader α) := fun _ => .inr ⟨rfl, rfl⟩

theorem passes_lift (x : Res α) : Passes (RM.lift x : RM Reader α) := fun _ => .inr ⟨rfl, rfl⟩

theorem passes_bind {f : RM Reader α} {k : α → RM Reader β} (hf : Passes f) (hk : ∀ a, Passes (k a)) : Passes (f >>= k) := by
  intro r
  simp only [RM.bind_run]
  rcases hf r with ⟨below, code, h1, h2⟩ | ⟨h, h2⟩
  · left
    generalize f r = x at h1 h2
    obtain ⟨x, r1⟩ := x
    simp only at h1; subst h1
    exact ⟨below, code, rfl, h2⟩
  · rw [h]
    generalize f r = x at h2
    obtain ⟨x, r1⟩ := x
    simp only at h2
    cases x with
    | ok a =>
      have := hk a r1
      rw [h2] at this
      exact this
    | err e => exact .inr ⟨rfl, h2⟩
    | panic p => exact .inr ⟨rfl, h2⟩
    | diverge => exact .inr ⟨rfl, h2⟩

/-- What depends on the reader, but not on the failures of its source. -/
theorem passes_at {γ : Type} {g : Reader → γ} (hg : ∀ r, g (steady r) = g r) {f : γ → RM Reader α}
    (hf : ∀ x, Passes (f x)) : Passes (fun r => f (g r) r) := by
  intro r
  simp only [hg]
  exact hf (g r) r

theorem passes_location : Passes Reader.location := fun _ => .inr ⟨rfl, rfl⟩

/-- The next fault of some rounds is reported, or the rounds deliver what they deliver without faults. -/
theorem rounds_faults (n : Nat) (rounds : List (Except Nat Str)) (loc : Location) :
    (∃ code more, Source.readRounds n rounds loc = (.fail loc (.streamError code), ⟨[], more, loc⟩) ∧
      steadyRounds more = steadyRounds rounds ∧ faultsIn rounds = code :: faultsIn more) ∨
    (Source.readRounds n (steadyRounds rounds) loc =
        ((Source.readRounds n rounds loc).1,
          { (Source.readRounds n rounds loc).2 with rounds := steadyRounds (Source.readRounds n rounds loc).2.rounds }) ∧
      (∃ cs, (Source.readRounds n rounds loc).1 = .ok cs) ∧
      faultsIn (Source.readRounds n rounds loc).2.rounds = faultsIn rounds) := by
  induction rounds with
  | nil => exact .inr ⟨rfl, ⟨[], rfl⟩, rfl⟩
  | cons x rounds ih =>
    cases x with
    | error code => exact .inl ⟨code, rounds, rfl, rfl, rfl⟩
    | ok cs =>
      cases cs with
      | nil => exact ih
      | cons ch cs => exact .inr ⟨rfl, ⟨_, rfl⟩, rfl⟩

/-- A failing `read_chars` changes nothing but the failures to come. -/
theorem readChars_fault (n : Nat) (r : Reader) :
    (∃ below code r', Reader.readChars n r = (.fail r.buffer.location (.wrapped below code), r') ∧ steady r' = steady r ∧
      faultsOf r = code :: faultsOf r') ∨
    (Reader.readChars n (steady r) = ((Reader.readChars n r).1, steady (Reader.readChars n r).2) ∧
      faultsOf (Reader.readChars n r).2 = faultsOf r) := by
  obtain ⟨⟨pending, rounds, loc⟩, b⟩ := r
  have hs : ∀ s b, steady ⟨s, b⟩ = ⟨⟨s.pending, steadyRounds s.rounds, s.location⟩, b⟩ := fun _ _ => rfl
  rw [hs]
  unfold Reader.readChars
  simp only [faultsOf]
  by_cases h : b.remains = true
  · right
    simp only [if_pos h]
    exact ⟨rfl, trivial⟩
  · simp only [if_neg h]
    unfold Source.readChars
    by_cases hp : (!pending.isEmpty) = true
    · right
      simp only [if_pos hp]
      by_cases hc : (pending.take n).isEmpty = true
      · simp only [if_pos hc]; exact ⟨rfl, trivial⟩
      · simp only [if_neg hc]
        generalize b.append (pending.take n) = y
        obtain ⟨y, b'⟩ := y
        cases y <;> exact ⟨rfl, rfl⟩
    · simp only [if_neg hp]
      have hp' : pending = [] := by cases pending <;> simp_all
      subst hp'
      rcases rounds_faults n rounds loc with ⟨code, more, h1, h2, h3⟩ | ⟨h1, ⟨cs, h2⟩, h3⟩
      · left
        rw [h1]
        exact ⟨loc, code, ⟨⟨[], more, loc⟩, b⟩, rfl, by rw [hs]; simp only [h2], h3⟩
      · right
        rw [h1]
        generalize Source.readRounds n rounds loc = x at h2 h3
        obtain ⟨x, s⟩ := x
        simp only at h2 h3
        subst h2
        simp only
        by_cases hc : cs.isEmpty = true
        · simp only [if_pos hc]; exact ⟨rfl, h3⟩
        · simp only [if_neg hc]
          generalize b.append cs = y
          obtain ⟨y, b'⟩ := y
          cases y <;> exact ⟨rfl, h3⟩

theorem passes_readChars (n : Nat) : Passes (Reader.readChars n) := by
  intro r
  rcases readChars_fault n r with ⟨below, code, r', h1, h2, h3⟩ | h
  · left
    refine ⟨below, code, ?_, ?_⟩
    · have hl : r'.buffer.location = r.buffer.location := by
        have := congrArg (fun x => x.buffer.location) h2
        exact this
      rw [h1, hl]; rfl
    · rw [h1]; exact h3
  · exact .inr h

theorem passes_mark : Passes Reader.mark := fun _ => .inr ⟨rfl, rfl⟩

theorem passes_reset (m : Nat) : Passes (Reader.resetToMark m) := fun _ => .inr ⟨rfl, rfl⟩

theorem passes_unmark (m : Nat) : Passes (Reader.unmark m) := by
  intro r
  right
  simp only [Reader.unmark, steady]
  generalize r.buffer.removeMark m = x
  obtain ⟨x, b⟩ := x
  cases x <;> exact ⟨rfl, rfl⟩

theorem passes_read : Passes Reader.read := passes_bind (passes_readChars 1) fun _ => passes_pure _

theorem passes_under {f : RM Reader α} (hf : Passes f) (g : α → β) :
    Passes (do let m ← Reader.mark; let x ← f; let _ ← Reader.resetToMark m; pure (g x) : RM Reader β) :=
  passes_bind passes_mark fun m => passes_bind hf fun _ => passes_bind (passes_reset m) fun _ => passes_pure _

theorem passes_isEof : Passes Reader.isEof := passes_under passes_read Option.isNone

theorem passes_prefixLoop (p : Str) : Passes (Reader.prefixLoop p) := by
  induction p with
  | nil => exact passes_pure _
  | cons x p ih =>
    refine passes_bind passes_read fun ch => ?_
    by_cases h : ch ≠ some x
    · simp only [if_pos h]; exact passes_pure _
    · simp only [if_neg h]; exact ih

theorem passes_prefixMatches (p : Str) : Passes (Reader.prefixMatches p) := passes_under (passes_prefixLoop p) id

theorem passes_peekLoop (n : Nat) : Passes (Reader.peekLoop n) := by
  induction n with
  | zero => exact passes_pure _
  | succ n ih =>
    refine passes_bind passes_read fun ch => ?_
    cases ch with
    | none => exact passes_pure _
    | some ch => exact passes_bind ih fun _ => passes_pure _

theorem passes_peek (n : Nat) : Passes (Reader.peek n) := passes_under (passes_peekLoop n) id

theorem passes_skipLoop (fuel : Nat) : ∀ n, Passes (Reader.skipLoop fuel n) := by
  induction fuel with
  | zero =>
    intro n
    cases n with
    | zero => exact passes_pure _
    | succ n => exact passes_lift _
  | succ fuel ih =>
    intro n
    cases n with
    | zero => exact passes_pure _
    | succ n =>
      refine passes_bind (passes_readChars _) fun cs => ?_
      by_cases h : cs.isEmpty = true
      · simp only [if_pos h]; exact passes_pure _
      · simp only [if_neg h]; exact ih _

theorem passes_skip (n : Nat) : Passes (Reader.skip n) := passes_bind (passes_skipLoop n n) fun _ => passes_pure _

theorem passes_readAllLoop (fuel : Nat) : Passes (Reader.readAllLoop fuel) := by
  induction fuel with
  | zero => exact passes_lift _
  | succ fuel ih =>
    refine passes_bind (passes_readChars _) fun cs => ?_
    by_cases h : cs.isEmpty = true
    · simp only [if_pos h]; exact passes_pure _
    · simp only [if_neg h]; exact passes_bind ih fun _ => passes_pure _

theorem steady_size (r : Reader) : (steady r).size = r.size := by
  obtain ⟨⟨pending, rounds, loc⟩, b⟩ := r
  show (⟨⟨pending, steadyRounds rounds, loc⟩, b⟩ : Reader).size = (⟨⟨pending, rounds, loc⟩, b⟩ : Reader).size
  induction rounds with
  | nil => rfl
  | cons x rounds ih =>
    simp only [Reader.size] at ih ⊢
    cases x with
    | error code => simp only [steadyRounds, List.map_cons, List.sum_cons]; omega
    | ok cs => cases cs <;> simp only [steadyRounds, List.map_cons, List.sum_cons, List.length_nil] <;> omega

theorem passes_readAll : Passes Reader.readAll :=
  passes_at (g := fun r => r.size + 1) (fun r => by rw [steady_size]) passes_readAllLoop

end Ebnf
