import Verif.Proofs.Compile

set_option autoImplicit false

/-! # In a compiled grammar, `next` leads back -/

namespace Ebnf

open Spec

/-- Every instruction continues with an earlier one, if at all. -/
def Descends (steps : List Instruction) : Prop :=
  ∀ (i : Nat) (x : Instruction) (j : Nat), steps[i]? = some x → x.next = some j → j < i

/-- An address of the instructions, if any. -/
def Inside (steps : List Instruction) (next : Option Nat) : Prop := ∀ j, next = some j → j < steps.length

/-- The instructions registered, and the address of the first one. -/
def Registered (steps : List Instruction) (x : Nat × List Instruction) : Prop :=
  Descends x.2 ∧ x.1 < x.2.length ∧ steps.length ≤ x.2.length

theorem inside_none (steps : List Instruction) : Inside steps none := fun _ h => by cases h

theorem inside_mono {steps steps' : List Instruction} {next : Option Nat} (h : Inside steps next) (hl : steps.length ≤ steps'.length) :
    Inside steps' next := fun j hj => Nat.lt_of_lt_of_le (h j hj) hl

theorem descends_push {steps : List Instruction} {x : Instruction} (h : Descends steps) (hx : Inside steps x.next) :
    Descends (steps ++ [x]) := by
  intro i y j hi hj
  rw [List.getElem?_append] at hi
  by_cases hlt : i < steps.length
  · rw [if_pos hlt] at hi; exact h i y j hi hj
  · rw [if_neg hlt] at hi
    obtain ⟨hk, rfl⟩ : i - steps.length = 0 ∧ y = x := by
      cases hk : i - steps.length with
      | zero => rw [hk] at hi; simp at hi; exact ⟨rfl, hi.symm⟩
      | succ k => rw [hk] at hi; simp at hi
    have := hx j hj
    omega

theorem registered_push {steps steps' : List Instruction} {x : Instruction} (h : Descends steps') (hx : Inside steps' x.next)
    (hl : steps.length ≤ steps'.length) : Registered steps (steps'.length, steps' ++ [x]) :=
  ⟨descends_push h hx, by simp, by simp; omega⟩

mutual
theorem registerPrimary_descends (config : Config) : (p : Primary) → ∀ steps next x, Descends steps → Inside steps next →
    registerPrimary config steps next p = .ok x → Registered steps x
  | .optional loc l, steps, next, x, hd, hn, h => by
    rw [registerPrimary, Res.bind_eq_ok] at h
    obtain ⟨⟨sub, steps'⟩, h1, h2⟩ := h
    obtain ⟨a1, a2, a3⟩ := registerDefinitionList_descends config l steps none _ hd (inside_none _) h1
    injection h2 with h2; subst h2
    exact registered_push a1 (inside_mono hn a3) a3
  | .repeated loc l, steps, next, x, hd, hn, h => by
    rw [registerPrimary, Res.bind_eq_ok] at h
    obtain ⟨⟨sub, steps'⟩, h1, h2⟩ := h
    obtain ⟨a1, a2, a3⟩ := registerDefinitionList_descends config l steps none _ hd (inside_none _) h1
    injection h2 with h2; subst h2
    exact registered_push a1 (inside_mono hn a3) a3
  | .grouped loc l, steps, next, x, hd, hn, h => by
    rw [registerPrimary] at h
    exact registerDefinitionList_descends config l steps none _ hd (inside_none _) h
  | .metaIdentifier loc name, steps, next, x, hd, hn, h => by
    rw [registerPrimary] at h; injection h with h; subst h
    exact registered_push hd hn (Nat.le_refl _)
  | .terminalString loc s, steps, next, x, hd, hn, h => by
    rw [registerPrimary] at h; injection h with h; subst h
    exact registered_push hd hn (Nat.le_refl _)
  | .specialSequence loc s, steps, next, x, hd, hn, h => by
    rw [registerPrimary] at h; injection h with h; subst h
    exact registered_push hd hn (Nat.le_refl _)
  | .empty loc, steps, next, x, hd, hn, h => by
    rw [registerPrimary] at h; injection h with h; subst h
    exact registered_push hd hn (Nat.le_refl _)
theorem registerFactor_descends (config : Config) : (f : Factor) → ∀ steps next x, Descends steps → Inside steps next →
    registerFactor config steps next f = .ok x → Registered steps x
  | .mk n p, steps, next, x, hd, hn, h => by
    rw [registerFactor] at h
    by_cases h1 : n = 1
    · rw [if_pos h1] at h
      exact registerPrimary_descends config p steps next x hd hn h
    · rw [if_neg h1, Res.bind_eq_ok] at h
      obtain ⟨⟨sub, steps'⟩, h1, h2⟩ := h
      obtain ⟨a1, a2, a3⟩ := registerPrimary_descends config p steps none _ hd (inside_none _) h1
      injection h2 with h2; subst h2
      exact registered_push a1 (inside_mono hn a3) a3
theorem registerTerm_descends (config : Config) : (t : Term) → ∀ steps next x, Descends steps → Inside steps next →
    registerTerm config steps next t = .ok x → Registered steps x
  | .plain f, steps, next, x, hd, hn, h => by
    rw [registerTerm] at h
    exact registerFactor_descends config f steps next x hd hn h
  | .except f e, steps, next, x, hd, hn, h => by
    rw [registerTerm, Res.bind_eq_ok] at h
    obtain ⟨⟨i, steps'⟩, h1, h2⟩ := h
    obtain ⟨a1, a2, a3⟩ := registerFactor_descends config f steps none _ hd (inside_none _) h1
    rw [Res.bind_eq_ok] at h2
    obtain ⟨⟨j, steps''⟩, h2, h3⟩ := h2
    obtain ⟨b1, b2, b3⟩ := registerFactor_descends config e steps' none _ a1 (inside_none _) h2
    injection h3 with h3; subst h3
    have hle : steps.length ≤ steps''.length := Nat.le_trans a3 b3
    exact registered_push b1 (inside_mono hn hle) hle
theorem registerTerms_descends (config : Config) : (d : SingleDefinition) → ∀ steps next x, Descends steps → Inside steps next →
    registerTerms config steps next d = .ok x → Descends x.2 ∧ Inside x.2 x.1 ∧ steps.length ≤ x.2.length
  | .nil, steps, next, x, hd, hn, h => by
    rw [registerTerms] at h; injection h with h; subst h
    exact ⟨hd, hn, Nat.le_refl _⟩
  | .cons t d, steps, next, x, hd, hn, h => by
    rw [registerTerms, Res.bind_eq_ok] at h
    obtain ⟨⟨i, steps'⟩, h1, h2⟩ := h
    obtain ⟨a1, a2, a3⟩ := registerTerms_descends config d steps next _ hd hn h1
    rw [Res.bind_eq_ok] at h2
    obtain ⟨⟨j, steps''⟩, h2, h3⟩ := h2
    obtain ⟨b1, b2, b3⟩ := registerTerm_descends config t steps' i _ a1 a2 h2
    injection h3 with h3; subst h3
    exact ⟨b1, fun k hk => by injection hk with hk; subst hk; exact b2, Nat.le_trans a3 b3⟩
theorem registerDefinitions_descends (config : Config) : (l : DefinitionList) → ∀ steps next x, Descends steps → Inside steps next →
    registerDefinitions config steps next l = .ok x → Descends x.2 ∧ steps.length ≤ x.2.length
  | .nil, steps, next, x, hd, hn, h => by
    rw [registerDefinitions] at h; injection h with h; subst h
    exact ⟨hd, Nat.le_refl _⟩
  | .cons d l, steps, next, x, hd, hn, h => by
    rw [registerDefinitions] at h
    by_cases h0 : d = .nil
    · rw [if_pos h0] at h; cases h
    · rw [if_neg h0, Res.bind_eq_ok] at h
      obtain ⟨⟨i, steps'⟩, h1, h2⟩ := h
      obtain ⟨a1, a2, a3⟩ := registerTerms_descends config d steps next _ hd hn h1
      cases i with
      | none => cases h2
      | some i =>
        simp only at h2
        cases hi : steps'[i]? with
        | none => rw [hi] at h2; cases h2
        | some instr =>
          rw [hi] at h2
          simp only at h2
          rw [Res.bind_eq_ok] at h2
          obtain ⟨⟨more, steps''⟩, h2, h3⟩ := h2
          obtain ⟨b1, b3⟩ := registerDefinitions_descends config l steps' next _ a1 (inside_mono hn a3) h2
          injection h3 with h3; subst h3
          exact ⟨b1, Nat.le_trans a3 b3⟩
theorem registerDefinitionList_descends (config : Config) : (l : DefinitionList) → ∀ steps next x, Descends steps → Inside steps next →
    registerDefinitionList config steps next l = .ok x → Registered steps x
  | .nil, steps, next, x, hd, hn, h => by
    rw [registerDefinitionList] at h
    cases hl : steps.getLast? with
    | none => rw [hl] at h; cases h
    | some last =>
      rw [hl] at h
      injection h with h; subst h
      exact registered_push hd hn (Nat.le_refl _)
  | .cons d .nil, steps, next, x, hd, hn, h => by
    rw [registerDefinitionList] at h
    by_cases h0 : d = .nil
    · rw [if_pos h0] at h; cases h
    · rw [if_neg h0, Res.bind_eq_ok] at h
      obtain ⟨⟨i, steps'⟩, h1, h2⟩ := h
      obtain ⟨a1, a2, a3⟩ := registerTerms_descends config d steps next _ hd hn h1
      cases i with
      | none => cases h2
      | some i =>
        injection h2 with h2; subst h2
        exact ⟨a1, a2 i rfl, a3⟩
  | .cons d (.cons d' l), steps, next, x, hd, hn, h => by
    rw [registerDefinitionList] at h
    by_cases h0 : d = .nil
    · rw [if_pos h0] at h; cases h
    · rw [if_neg h0, Res.bind_eq_ok] at h
      obtain ⟨⟨i, steps'⟩, h1, h2⟩ := h
      obtain ⟨a1, a2, a3⟩ := registerTerms_descends config d steps next _ hd hn h1
      cases i with
      | none => cases h2
      | some i =>
        simp only at h2
        cases hi : steps'[i]? with
        | none => rw [hi] at h2; cases h2
        | some instr =>
          rw [hi] at h2
          simp only at h2
          rw [Res.bind_eq_ok] at h2
          obtain ⟨⟨more, steps''⟩, h2, h3⟩ := h2
          obtain ⟨b1, b3⟩ := registerDefinitions_descends config (.cons d' l) steps' next _ a1 (inside_mono hn a3) h2
          simp only at h3
          have hle : steps.length ≤ steps''.length := Nat.le_trans a3 b3
          cases hl : steps''.getLast? with
          | none => rw [hl] at h3; cases h3
          | some last =>
            rw [hl] at h3
            injection h3 with h3; subst h3
            exact registered_push b1 (inside_mono hn hle) hle
end

theorem compileLoop_descends {s : Syntax} {config : Config} : ∀ (rules : List SyntaxRule) (g g' : Graph), Descends g.instructions →
    Graph.compileLoop s config rules g = .ok g' → Descends g'.instructions
  | [], g, g', hd, h => by
    rw [Graph.compileLoop] at h; injection h with h; subst h; exact hd
  | r :: rs, g, g', hd, h => by
    rw [Graph.compileLoop] at h
    cases hn : s.canonicalName r.metaIdentifier with
    | none => rw [hn] at h; cases h
    | some name =>
      rw [hn] at h
      simp only at h
      rw [Res.bind_eq_ok] at h
      obtain ⟨⟨i, steps⟩, h1, h2⟩ := h
      obtain ⟨a1, a2, a3⟩ := registerDefinitionList_descends config _ _ none _ hd (inside_none _) h1
      exact compileLoop_descends rs _ g' (descends_push a1 (inside_none _)) h2

/-- In a compiled grammar every instruction continues with an earlier one, if at all. -/
theorem compile_descends {s : Syntax} {config : Config} {g : Graph} (h : Graph.compile s config = .ok g) : Descends g.instructions :=
  compileLoop_descends _ ⟨[], [], []⟩ g (fun i x j hi => by simp at hi) h

end Ebnf
