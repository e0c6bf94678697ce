import Verif.Proofs.Compile
import Verif.Spec.Errors

set_option autoImplicit false

/-! # Lemmas: where the instructions of a grammar come from -/

namespace Ebnf

open Spec

variable {config : Config} {G : Language}

/-- What an instruction looks at stands in the grammar. -/
def Comes (config : Config) (G : Language) (x : Instruction) : Prop :=
  match x.step with
  | .scan (.terminal s) => ∃ loc, Occurs G (.primary (.terminalString loc s))
  | .scan (.special scanner) => ∃ loc s, Occurs G (.primary (.specialSequence loc s)) ∧ scanner = config loc s
  | .scan (.exception _ _) => ∃ f e, Occurs G (.term (.except f e))
  | .alias name => (∃ loc, Occurs G (.primary (.metaIdentifier loc name))) ∨ ∃ r ∈ G.rules, name = r.metaIdentifier
  | .or subs => subs ≠ [] ∨ Occurs G (.list .nil)
  | _ => True

/-- All of them. -/
def AllCome (config : Config) (G : Language) (steps : List Instruction) : Prop := ∀ x ∈ steps, Comes config G x

theorem come_push {steps : List Instruction} {x : Instruction} (h : AllCome config G steps) (hx : Comes config G x) : AllCome config G (steps ++ [x]) := by
  intro y hy
  rcases List.mem_append.mp hy with hy | hy
  · exact h y hy
  · rw [List.mem_singleton.mp hy]; exact hx

mutual
theorem primary_comes : (p : Primary) → ∀ steps next x, Occurs G (.primary p) → AllCome config G steps →
    registerPrimary config steps next p = .ok x → AllCome config G x.2
  | .optional loc l, steps, next, x, ho, hd, h => by
    rw [registerPrimary, Res.bind_eq_ok] at h
    obtain ⟨⟨sub, steps'⟩, h1, h2⟩ := h
    have a1 := list_comes l steps none _ (.optional ho) hd h1
    injection h2 with h2; subst h2
    exact come_push a1 trivial
  | .repeated loc l, steps, next, x, ho, hd, h => by
    rw [registerPrimary, Res.bind_eq_ok] at h
    obtain ⟨⟨sub, steps'⟩, h1, h2⟩ := h
    have a1 := list_comes l steps none _ (.repeated ho) hd h1
    injection h2 with h2; subst h2
    exact come_push a1 trivial
  | .grouped loc l, steps, next, x, ho, hd, h => by
    rw [registerPrimary] at h
    exact list_comes l steps none _ (.grouped ho) hd h
  | .metaIdentifier loc name, steps, next, x, ho, hd, h => by
    rw [registerPrimary] at h; injection h with h; subst h
    exact come_push hd (.inl ⟨loc, ho⟩)
  | .terminalString loc s, steps, next, x, ho, hd, h => by
    rw [registerPrimary] at h; injection h with h; subst h
    exact come_push hd ⟨loc, ho⟩
  | .specialSequence loc s, steps, next, x, ho, hd, h => by
    rw [registerPrimary] at h; injection h with h; subst h
    exact come_push hd ⟨loc, s, ho, rfl⟩
  | .empty loc, steps, next, x, ho, hd, h => by
    rw [registerPrimary] at h; injection h with h; subst h
    exact come_push hd trivial
theorem factor_comes : (f : Factor) → ∀ steps next x, Occurs G (.factor f) → AllCome config G steps →
    registerFactor config steps next f = .ok x → AllCome config G x.2
  | .mk n p, steps, next, x, ho, hd, h => by
    rw [registerFactor] at h
    by_cases h1 : n = 1
    · rw [if_pos h1] at h
      exact primary_comes p steps next x (.primary ho) hd h
    · rw [if_neg h1, Res.bind_eq_ok] at h
      obtain ⟨⟨sub, steps'⟩, h1, h2⟩ := h
      have a1 := primary_comes p steps none _ (.primary ho) hd h1
      injection h2 with h2; subst h2
      exact come_push a1 trivial
theorem term_comes : (t : Term) → ∀ steps next x, Occurs G (.term t) → AllCome config G steps →
    registerTerm config steps next t = .ok x → AllCome config G x.2
  | .plain f, steps, next, x, ho, hd, h => by
    rw [registerTerm] at h
    exact factor_comes f steps next x (.plain ho) hd h
  | .except f e, steps, next, x, ho, hd, h => by
    rw [registerTerm, Res.bind_eq_ok] at h
    obtain ⟨⟨i, steps'⟩, h1, h2⟩ := h
    have a1 := factor_comes f steps none _ (.base ho) hd h1
    rw [Res.bind_eq_ok] at h2
    obtain ⟨⟨j, steps''⟩, h2, h3⟩ := h2
    have b1 := factor_comes e steps' none _ (.exception ho) a1 h2
    injection h3 with h3; subst h3
    exact come_push b1 ⟨f, e, ho⟩
theorem terms_come : (d : SingleDefinition) → ∀ steps next x, Occurs G (.sequence d) → AllCome config G steps →
    registerTerms config steps next d = .ok x → AllCome config G x.2
  | .nil, steps, next, x, ho, hd, h => by
    rw [registerTerms] at h; injection h with h; subst h
    exact hd
  | .cons t d, steps, next, x, ho, hd, h => by
    rw [registerTerms, Res.bind_eq_ok] at h
    obtain ⟨⟨i, steps'⟩, h1, h2⟩ := h
    have a1 := terms_come d steps next _ (.later ho) hd h1
    rw [Res.bind_eq_ok] at h2
    obtain ⟨⟨j, steps''⟩, h2, h3⟩ := h2
    have b1 := term_comes t steps' i _ (.first ho) a1 h2
    injection h3 with h3; subst h3
    exact b1
theorem definitions_come : (l : DefinitionList) → ∀ steps next x, (∀ d ∈ l.toList, Occurs G (.sequence d)) → AllCome config G steps →
    registerDefinitions config steps next l = .ok x → AllCome config G x.2
  | .nil, steps, next, x, ho, hd, h => by
    rw [registerDefinitions] at h; injection h with h; subst h
    exact hd
  | .cons d l, steps, next, x, ho, hd, h => by
    rw [registerDefinitions] at h
    by_cases h0 : d = .nil
    · rw [if_pos h0] at h; cases h
    · rw [if_neg h0, Res.bind_eq_ok] at h
      obtain ⟨⟨i, steps'⟩, h1, h2⟩ := h
      have a1 := terms_come d steps next _ (ho d (by simp [DefinitionList.toList])) hd h1
      cases i with
      | none => cases h2
      | some i =>
        simp only at h2
        cases hi : steps'[i]? with
        | none => rw [hi] at h2; cases h2
        | some instr =>
          rw [hi] at h2
          simp only at h2
          rw [Res.bind_eq_ok] at h2
          obtain ⟨⟨more, steps''⟩, h2, h3⟩ := h2
          have b1 := definitions_come l steps' next _ (fun d hd => ho d (by simp [DefinitionList.toList, hd])) a1 h2
          injection h3 with h3; subst h3
          exact b1
theorem list_comes : (l : DefinitionList) → ∀ steps next x, Occurs G (.list l) → AllCome config G steps →
    registerDefinitionList config steps next l = .ok x → AllCome config G x.2
  | .nil, steps, next, x, ho, hd, h => by
    rw [registerDefinitionList] at h
    cases hl : steps.getLast? with
    | none => rw [hl] at h; cases h
    | some last =>
      rw [hl] at h
      injection h with h; subst h
      exact come_push hd (.inr ho)
  | .cons d .nil, steps, next, x, ho, hd, h => by
    rw [registerDefinitionList] at h
    by_cases h0 : d = .nil
    · rw [if_pos h0] at h; cases h
    · rw [if_neg h0, Res.bind_eq_ok] at h
      obtain ⟨⟨i, steps'⟩, h1, h2⟩ := h
      have a1 := terms_come d steps next _ (.definition ho (by simp [DefinitionList.toList])) hd h1
      cases i with
      | none => cases h2
      | some i =>
        injection h2 with h2; subst h2
        exact a1
  | .cons d (.cons d' l), steps, next, x, ho, hd, h => by
    rw [registerDefinitionList] at h
    by_cases h0 : d = .nil
    · rw [if_pos h0] at h; cases h
    · rw [if_neg h0, Res.bind_eq_ok] at h
      obtain ⟨⟨i, steps'⟩, h1, h2⟩ := h
      have a1 := terms_come d steps next _ (.definition ho (by simp [DefinitionList.toList])) hd h1
      cases i with
      | none => cases h2
      | some i =>
        simp only at h2
        cases hi : steps'[i]? with
        | none => rw [hi] at h2; cases h2
        | some instr =>
          rw [hi] at h2
          simp only at h2
          rw [Res.bind_eq_ok] at h2
          obtain ⟨⟨more, steps''⟩, h2, h3⟩ := h2
          have b1 := definitions_come (.cons d' l) steps' next _ (fun d hd => .definition ho (by
            simp only [DefinitionList.toList, List.mem_cons] at hd ⊢; exact Or.inr hd)) a1 h2
          simp only at h3
          cases hl : steps''.getLast? with
          | none => rw [hl] at h3; cases h3
          | some last =>
            rw [hl] at h3
            injection h3 with h3; subst h3
            exact come_push b1 (.inl (by simp))
end

theorem compileLoop_comes {s : Syntax} : ∀ (rules : List SyntaxRule) (g g' : Graph), (∀ r ∈ rules, r ∈ G.rules) →
    (∀ r ∈ rules, ∀ name, s.canonicalName r.metaIdentifier = some name → ∃ r' ∈ G.rules, name = r'.metaIdentifier) → AllCome config G g.instructions →
    Graph.compileLoop s config rules g = .ok g' → AllCome config G g'.instructions
  | [], g, g', _, _, hd, h => by
    rw [Graph.compileLoop] at h; injection h with h; subst h; exact hd
  | r :: rs, g, g', hr, hc, hd, h => by
    rw [Graph.compileLoop] at h
    cases hn : s.canonicalName r.metaIdentifier with
    | none => rw [hn] at h; cases h
    | some name =>
      rw [hn] at h
      simp only at h
      rw [Res.bind_eq_ok] at h
      obtain ⟨⟨i, steps⟩, h1, h2⟩ := h
      have a1 := list_comes _ _ none _ (.rule (hr r (by simp))) hd h1
      exact compileLoop_comes rs _ g' (fun r' h' => hr r' (by simp [h'])) (fun r' h' => hc r' (by simp [h']))
        (come_push (x := ⟨none, name, r.location, .alias name⟩) a1 (.inr (hc r (by simp) name hn))) h2

theorem compile_comes {s : Syntax} {g : Graph} (hs : Syntax.new G.rules = .ok s) (h : Graph.compile s config = .ok g) : AllCome config G g.instructions := by
  rw [Graph.compile, (new_ok hs).1] at h
  refine compileLoop_comes _ ⟨[], [], []⟩ g (fun _ h => h) (fun r h name hn => ?_) (by simp [AllCome]) h
  rcases getSyntaxRule_cases hs r.metaIdentifier with ⟨r', a1, a2, a3, a4, a5⟩ | ⟨a1, _⟩
  · rw [hn] at a4; injection a4 with a4
    exact ⟨r', a1, a4⟩
  · exact absurd ⟨r, h, .refl _⟩ a1

end Ebnf
