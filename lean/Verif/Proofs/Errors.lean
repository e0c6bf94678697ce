import Verif.Spec.Errors
import Verif.Proofs.Running

set_option autoImplicit false

/-! # Errors and panics of a parse -/

namespace Ebnf

open Spec

theorem placeIn_here (here : Location) (rest : Str) : PlaceIn here rest here :=
  ⟨[], rest, rfl, (lineColumn_nil here).symm⟩

theorem placeIn_drop {here : Location} {rest : Str} {n : Nat} {p : Location}
    (h : PlaceIn (lineColumn here (rest.take n)) (rest.drop n) p) : PlaceIn here rest p := by
  obtain ⟨pre, post, h1, rfl⟩ := h
  refine ⟨rest.take n ++ pre, post, ?_, by rw [lineColumn_append]⟩
  rw [List.append_assoc, ← h1, List.take_append_drop]

theorem placeIn_take {here : Location} {rest : Str} {n : Nat} {p : Location} (h : PlaceIn here (rest.take n) p) :
    PlaceIn here rest p := by
  obtain ⟨pre, post, h1, rfl⟩ := h
  exact ⟨pre, post ++ rest.drop n, by rw [← List.append_assoc, ← h1, List.take_append_drop], rfl⟩

/-- The error of an outcome. -/
def errorOf : Outcome → Option Error
  | .fail e _ _ => some e
  | .abort e => some e
  | _ => none

theorem errorOf_after (evs : List Event) (n : Nat) (o : Outcome) : errorOf (o.after evs n) = errorOf o := by cases o <;> rfl
theorem errorOf_afterRound (evs : List Event) (n : Nat) (o : Outcome) : errorOf (o.afterRound evs n) = errorOf o := by cases o <;> rfl

/-- The error points into the text and has a reason. -/
def GoodError (G : Language) (here : Location) (rest : Str) (o : Outcome) : Prop :=
  ∀ e, errorOf o = some e → (ScannersPoint G → PlaceIn here rest e.location) ∧ Reason G e

theorem ev_good {q : Quirks} {G : Language} {task : Task} {here : Location} {rest : Str} {o : Outcome}
    (h : Ev q G task here rest o) : GoodError G here rest o := by
  have exp : ∀ here rest name evs n, GoodError G here rest (.fail (expectedAt name here rest) evs n) := by
    intro here rest name evs n e he
    simp only [errorOf, Option.some.injEq] at he
    subst he
    exact ⟨fun _ => placeIn_here _ _, .expected ..⟩
  have swap : ∀ {here rest e evs n evs' n'}, GoodError G here rest (.fail e evs n) → GoodError G here rest (.fail e evs' n') :=
    fun h => h
  induction h with
  | terminalFail => exact exp _ _ _ _ _
  | optional _ ih => exact ih
  | repeated _ ih => exact ih
  | grouped _ ih => exact ih
  | referenceFail _ _ _ ih => exact swap ih
  | referenceStop _ _ _ _ ih => exact ih
  | specialFail => exact exp _ _ _ _ _
  | specialError h =>
    intro e he
    simp only [errorOf, Option.some.injEq] at he
    subst he
    exact ⟨fun hs => hs _ _ _ _ _ _ h, .scanner h⟩
  | forwardFail _ _ _ _ ih =>
    intro e he
    obtain ⟨h1, h2⟩ := ih e he
    exact ⟨fun hs => placeIn_drop (h1 hs), h2⟩
  | forwardStop _ _ _ _ ih =>
    intro e he
    obtain ⟨h1, h2⟩ := ih e he
    exact ⟨fun hs => placeIn_drop (h1 hs), h2⟩
  | forwardUndefined hf h =>
    intro e he
    simp only [errorOf, Option.some.injEq] at he
    subst he
    exact ⟨fun _ => placeIn_here _ _, .forward hf h⟩
  | once _ ih => exact ih
  | counted _ _ ih => exact ih
  | plain _ ih => exact ih
  | exceptFail _ ih => exact swap ih
  | exceptStop _ _ ih => exact ih
  | excluded => exact exp _ _ _ _ _
  | excludedStop _ _ _ _ ih =>
    intro e he
    obtain ⟨h1, h2⟩ := ih e he
    exact ⟨fun hs => placeIn_take (h1 hs), h2⟩
  | next _ _ _ _ ih =>
    intro e he
    rw [errorOf_after] at he
    obtain ⟨h1, h2⟩ := ih e he
    exact ⟨fun hs => placeIn_drop (h1 hs), h2⟩
  | nextFail _ _ ih => exact ih
  | single _ ih => exact ih
  | choice _ _ ih => exact ih
  | choiceFail _ ih =>
    split
    · exact exp _ _ _ _ _
    · exact swap ih
  | first _ _ ih => exact ih
  | last _ ih => exact swap ih
  | other _ _ _ _ ih => exact ih
  | otherFail _ _ ih1 ih2 =>
    intro e he
    simp only [errorOf, laterError, Option.some.injEq] at he
    split at he
    · exact ih1 e (by rw [← he]; rfl)
    · exact ih2 e (by rw [← he]; rfl)
  | round _ _ _ _ _ ih =>
    intro e he
    rw [errorOf_afterRound] at he
    obtain ⟨h1, h2⟩ := ih e he
    exact ⟨fun hs => placeIn_drop (h1 hs), h2⟩
  | livelock =>
    intro e he
    simp only [errorOf, Option.some.injEq] at he
    subst he
    exact ⟨fun _ => placeIn_here _ _, .livelock _⟩
  | tooFew _ _ _ ih => exact swap ih
  | roundStop _ _ _ ih => exact ih
  | _ => intro e he; simp [errorOf] at he

theorem parses_good {q : Quirks} {G : Language} {start : SyntaxRule} {here : Location} {text : Str} {e : Error}
    (h : Parses q G start here text (.err e)) : (ScannersPoint G → PlaceIn here text e.location) ∧ Reason G e := by
  generalize hx : Res.err e = x at h
  cases h with
  | accepted => cases hx
  | @leftover evs n _ _ =>
    cases hx
    exact ⟨fun _ => ⟨text.take n, text.drop n, (List.take_append_drop ..).symm, rfl⟩, .expected ..⟩
  | rejected h => cases hx; exact ev_good h _ rfl
  | aborted h => cases hx; exact ev_good h _ rfl
  | crashed => cases hx

/-! ## Panics -/

mutual
theorem everyPrimary_of {P : Primary → Prop} : ∀ p : Primary, (∀ x ∈ primariesIn p, P x) → EveryPrimary { primary := P } p
  | .optional l d, h => by
    simp only [primariesIn, List.mem_cons, forall_eq_or_imp] at h
    exact ⟨h.1, everyList_of d h.2⟩
  | .repeated l d, h => by
    simp only [primariesIn, List.mem_cons, forall_eq_or_imp] at h
    exact ⟨h.1, everyList_of d h.2⟩
  | .grouped l d, h => by
    simp only [primariesIn, List.mem_cons, forall_eq_or_imp] at h
    exact ⟨h.1, everyList_of d h.2⟩
  | .metaIdentifier _ _, h => by simpa [primariesIn, EveryPrimary] using h
  | .terminalString _ _, h => by simpa [primariesIn, EveryPrimary] using h
  | .specialSequence _ _, h => by simpa [primariesIn, EveryPrimary] using h
  | .empty _, h => by simpa [primariesIn, EveryPrimary] using h
theorem everyFactor_of {P : Primary → Prop} : ∀ f : Factor, (∀ x ∈ primariesOfFactor f, P x) → EveryFactor { primary := P } f
  | .mk _ p, h => ⟨trivial, everyPrimary_of p h⟩
theorem everyTerm_of {P : Primary → Prop} : ∀ t : Term, (∀ x ∈ primariesOfTerm t, P x) → EveryTerm { primary := P } t
  | .plain f, h => everyFactor_of f h
  | .except f x, h => by
    simp only [primariesOfTerm, List.mem_append] at h
    exact ⟨everyFactor_of f fun y hy => h y (.inl hy), everyFactor_of x fun y hy => h y (.inr hy)⟩
theorem everySingle_of {P : Primary → Prop} : ∀ d : SingleDefinition, (∀ x ∈ primariesOfSingle d, P x) →
    EverySingle { primary := P } d
  | .nil, _ => trivial
  | .cons t d, h => by
    simp only [primariesOfSingle, List.mem_append] at h
    exact ⟨trivial, everyTerm_of t fun y hy => h y (.inl hy), everySingle_of d fun y hy => h y (.inr hy)⟩
theorem everyList_of {P : Primary → Prop} : ∀ l : DefinitionList, (∀ x ∈ primariesOfList l, P x) → EveryList { primary := P } l
  | .nil, _ => trivial
  | .cons d l, h => by
    simp only [primariesOfList, List.mem_append] at h
    exact ⟨everySingle_of d fun y hy => h y (.inl hy), everyList_of l fun y hy => h y (.inr hy)⟩
end

/-- All references are defined. -/
def definedRefs (G : Language) : Local := { primary := fun p => ∀ l n, p = .metaIdentifier l n → Defines G.rules n }

theorem everywhere_defined {G : Language} (h : AllDefined G.rules) : Everywhere (definedRefs G) G :=
  fun r hr => everyList_of _ fun _ hx l n hp => h r hr l n (hp ▸ hx)

theorem ev_no_panic {q : Quirks} {G : Language} (hG : Everywhere (definedRefs G) G) {task : Task} {here : Location} {rest : Str}
    {o : Outcome} (h : Ev q G task here rest o) : EveryTask (definedRefs G) task → ∀ p, o ≠ .panic p := by
  have fwd : ∀ {name task}, ForwardTarget G name task → EveryTask (definedRefs G) task := by
    intro name task h
    cases h with
    | rule h1 _ => exact hG _ h1
    | marked h1 _ =>
      intro l n hp
      cases hp
      exact ⟨_, h1, .refl _⟩
  induction h with
  | optional _ ih =>
    intro hk
    simp only [EveryTask, EveryPrimary] at hk
    exact ih ⟨hk.2, .inl ⟨_, rfl⟩⟩
  | repeated _ ih =>
    intro hk
    simp only [EveryTask, EveryPrimary] at hk
    exact ih ⟨hk.2, .inl ⟨_, rfl⟩⟩
  | grouped _ ih =>
    intro hk
    simp only [EveryTask, EveryPrimary] at hk
    exact ih hk.2
  | referenceStop h1 _ _ _ ih => intro _; exact ih (hG _ h1)
  | referenceUndefined h =>
    intro hk
    obtain ⟨r, h1, h2⟩ := hk _ _ rfl
    exact absurd h2 (h r h1)
  | forwardStop _ ht _ _ ih => intro _; exact ih (fwd ht)
  | once _ ih => intro hk; exact ih hk.2
  | counted _ _ ih => intro hk; exact ih ⟨hk.2, .inr ⟨_, rfl⟩⟩
  | plain _ ih => intro hk; exact ih hk
  | exceptStop _ _ ih => intro hk; exact ih hk.1
  | excludedStop _ _ _ _ ih => intro hk; exact ih hk.2
  | @next t d here rest evs n o _ _ _ _ ih =>
    intro hk p hc
    have := ih hk.2.2
    cases o with
    | panic p' => exact this p' rfl
    | _ => simp [Outcome.after] at hc
  | nextFail _ _ ih => intro hk; exact ih hk.2.1
  | single _ ih => intro hk; exact ih hk.1
  | choice _ _ ih => intro hk; exact ih hk
  | first _ _ ih => intro hk; exact ih hk.1
  | other _ _ _ _ ih => intro hk; exact ih hk.2
  | @round body min max guarded i here rest evs n o _ _ _ _ _ ih =>
    intro hk p hc
    have := ih hk
    cases o with
    | panic p' => exact this p' rfl
    | _ => simp [Outcome.afterRound] at hc
  | roundStop _ _ _ ih => intro hk; exact ih hk.1
  | _ => intro _ _ hc; simp at hc

/-- The only panic is the one of an undefined reference. -/
theorem ev_panic {q : Quirks} {G : Language} {task : Task} {here : Location} {rest : Str} {o : Outcome}
    (h : Ev q G task here rest o) : ∀ p, o = .panic p → p = .missing := by
  induction h with
  | optional _ ih => exact ih
  | repeated _ ih => exact ih
  | grouped _ ih => exact ih
  | referenceStop _ _ _ _ ih => exact ih
  | referenceUndefined => intro p hp; cases hp; rfl
  | forwardStop _ _ _ _ ih => exact ih
  | once _ ih => exact ih
  | counted _ _ ih => exact ih
  | plain _ ih => exact ih
  | exceptStop _ _ ih => exact ih
  | excludedStop _ _ _ _ ih => exact ih
  | @next t d here rest evs n o _ _ _ _ ih =>
    intro p hc
    cases o with
    | panic p' => simp only [Outcome.after, Outcome.panic.injEq] at hc; exact ih p (by rw [hc])
    | _ => simp [Outcome.after] at hc
  | nextFail _ _ ih => exact ih
  | single _ ih => exact ih
  | choice _ _ ih => exact ih
  | first _ _ ih => exact ih
  | other _ _ _ _ ih => exact ih
  | @round body min max guarded i here rest evs n o _ _ _ _ _ ih =>
    intro p hc
    cases o with
    | panic p' => simp only [Outcome.afterRound, Outcome.panic.injEq] at hc; exact ih p (by rw [hc])
    | _ => simp [Outcome.afterRound] at hc
  | roundStop _ _ _ ih => exact ih
  | _ => intro _ hc; simp at hc

end Ebnf
