import Verif.Spec.Events
import Verif.Model.Machine

set_option autoImplicit false

/-! # Nesting of events -/

namespace Ebnf

open Spec

theorem balanced_append {es es' : List Event} (h : Balanced es) (h' : Balanced es') : Balanced (es ++ es') := by
  induction h with
  | nil => exact h'
  | token _ ih => exact .token ih
  | @pair d l n inner l' es h1 _ _ ih2 =>
    have := Balanced.pair (definition := d) (location := l) (label := n) (location' := l') h1 ih2
    simpa using this

theorem ev_balanced {q : Quirks} {G : Language} (hs : ScannersBalanced G) {task : Task} {here : Location} {rest : Str} {o : Outcome}
    (h : Ev q G task here rest o) : (∀ evs n, o = .ok evs n → Balanced evs) ∧ (∀ e evs n, o = .fail e evs n → Balanced evs) := by
  induction h with
  | optional _ ih => exact ih
  | repeated _ ih => exact ih
  | grouped _ ih => exact ih
  | terminal => simp only [Outcome.ok.injEq, reduceCtorEq, false_implies, implies_true, and_true]; rintro _ _ ⟨rfl, _⟩; exact .token .nil
  | reference _ _ _ ih =>
    simp only [Outcome.ok.injEq, reduceCtorEq, false_implies, implies_true, and_true]; rintro _ _ ⟨rfl, _⟩
    exact .pair (ih.1 _ _ rfl) .nil
  | special h => simp only [Outcome.ok.injEq, reduceCtorEq, false_implies, implies_true, and_true]; rintro _ _ ⟨rfl, _⟩; exact hs _ _ _ _ _ _ _ h
  | forward _ _ _ ih => simp only [Outcome.ok.injEq, reduceCtorEq, false_implies, implies_true, and_true]; rintro _ _ ⟨rfl, _⟩; exact ih.1 _ _ rfl
  | forwardIgnored _ _ _ _ ih => simp only [Outcome.ok.injEq, reduceCtorEq, false_implies, implies_true, and_true]; rintro _ _ ⟨rfl, _⟩; exact ih.2 _ _ _ rfl
  | referenceStop _ _ _ _ ih => exact ih
  | forwardStop _ _ _ _ ih => exact ih
  | once _ ih => exact ih
  | counted _ _ ih => exact ih
  | plain _ ih => exact ih
  | exceptStop _ _ ih => exact ih
  | notExcluded _ _ _ ih => exact ih
  | notExcludedFail _ _ ih => exact ih
  | excludedStop _ _ _ _ ih => exact ih
  | @next t d here rest evs n o _ _ _ ih1 ih2 =>
    cases o with
    | ok evs' m =>
      simp only [Outcome.after, Outcome.ok.injEq, reduceCtorEq, false_implies, implies_true, and_true]; rintro _ _ ⟨rfl, _⟩
      exact balanced_append (ih1.1 _ _ rfl) (ih2.1 _ _ rfl)
    | fail e evs' m =>
      simp only [Outcome.after, Outcome.fail.injEq, reduceCtorEq, false_implies, implies_true, true_and]; rintro _ _ _ ⟨_, rfl, _⟩
      exact balanced_append (ih1.1 _ _ rfl) (ih2.2 _ _ _ rfl)
    | _ => simp [Outcome.after]
  | dropped _ _ _ ih => exact ih
  | nextFail _ _ ih => exact ih
  | single _ ih => exact ih
  | choice _ _ ih => exact ih
  | first _ _ ih => exact ih
  | other _ _ _ _ ih => exact ih
  | @round body min max guarded i here rest evs n o _ _ _ _ ih1 ih2 =>
    cases o with
    | ok evs' m =>
      simp only [Outcome.afterRound, Outcome.ok.injEq, reduceCtorEq, false_implies, implies_true, and_true]; rintro _ _ ⟨rfl, _⟩
      exact balanced_append (ih1.1 _ _ rfl) (ih2.1 _ _ rfl)
    | fail e evs' m =>
      simp only [Outcome.afterRound, Outcome.fail.injEq, reduceCtorEq, false_implies, implies_true, true_and]; rintro _ _ _ ⟨_, rfl, _⟩
      exact ih2.2 _ _ _ rfl
    | _ => simp [Outcome.afterRound]
  | lastRound _ _ _ ih =>
    simp only [Outcome.ok.injEq, reduceCtorEq, false_implies, implies_true, and_true]; rintro _ _ ⟨rfl, _⟩
    split
    · exact ih.2 _ _ _ rfl
    · exact .nil
  | roundStop _ _ _ ih => exact ih
  | _ =>
    refine ⟨fun evs n he => ?_, fun e evs n he => ?_⟩ <;>
      first
      | (simp only [Outcome.ok.injEq, reduceCtorEq] at he; done)
      | (simp only [reduceCtorEq] at he; done)
      | (simp only [Outcome.ok.injEq] at he; rw [← he.1]; exact .nil)
      | (simp only [Outcome.fail.injEq] at he; rw [← he.2.1]; exact .nil)

/-- Walk over events with a stack of open begins. -/
def walk : List (Location × Str) → List Event → Option (List (Location × Str))
  | st, [] => some st
  | st, .token _ _ _ :: es => walk st es
  | st, .begin d _ n :: es => walk ((d, n) :: st) es
  | [], .end _ _ _ :: _ => none
  | x :: st, .end d _ n :: es => if x = (d, n) then walk st es else none

/-- The assertion in `remove_empty_begin_end_pair` holds on well nested events. -/
theorem balanced_removal {es : List Event} (h : Balanced es) :
    ∀ t, pairsAgree t = true → pairsAgree (es ++ t) = true := by
  induction h with
  | nil => exact fun t h => h
  | token _ ih => intro t ht; simp only [List.cons_append, pairsAgree]; exact ih t ht
  | @pair d l n inner l' es h1 _ ih1 ih2 =>
    intro t ht
    have h2 := ih2 t ht
    have h3 : pairsAgree (.end d l' n :: (es ++ t)) = true := by simp only [pairsAgree]; exact h2
    have h4 := ih1 _ h3
    cases h1 with
    | nil => simpa [pairsAgree] using h2
    | token _ => simpa [pairsAgree] using h4
    | pair _ _ => simpa [pairsAgree] using h4

theorem balanced_agree {es : List Event} (h : Balanced es) : labelsAgree es = true := by
  cases h with
  | nil => rfl
  | token h => simpa [labelsAgree] using balanced_removal h [] rfl
  | @pair d l n inner l' es h1 h2 =>
    have h3 := balanced_removal h2 [] rfl
    have h4 := balanced_removal h1 (.end d l' n :: es) (by simpa [pairsAgree] using h3)
    simpa [labelsAgree] using h4

end Ebnf
