import Verif.Model.Machine
import Verif.Spec.Semantics
import Verif.Proofs.Syntax

set_option autoImplicit false
set_option linter.unusedSectionVars false

/-! # The code of a syntax tree -/

namespace Ebnf

open Spec

mutual
/-- The instructions `steps` contain the code of the primary, starting at `i` and continuing at `next`. -/
def CodePrimary (config : Config) (G : Language) (steps : List Instruction) (i : Nat) (next : Option Nat) : Primary → Prop
  | .optional loc l => ∃ sub, CodeList config G steps sub l ∧
      steps[i]? = some ⟨next, (Primary.optional loc l).display, loc, .repetition 0 1 sub⟩
  | .repeated loc l => ∃ sub, CodeList config G steps sub l ∧
      steps[i]? = some ⟨next, (Primary.repeated loc l).display, loc, .repetition 0 u32Max sub⟩
  | .grouped _ l => CodeList config G steps i l
  | .metaIdentifier loc name => steps[i]? = some ⟨next, name, loc, .alias name⟩
  | .terminalString loc s => steps[i]? = some ⟨next, debugStr s, loc, .scan (.terminal s)⟩
  | .specialSequence loc s => steps[i]? = some ⟨next, (config loc s).symbol, loc, .scan (.special (config loc s))⟩
  | .empty loc => steps[i]? = some ⟨next, "EMPTY".toList, loc, .scan .empty⟩
/-- The code of a factor. -/
def CodeFactor (config : Config) (G : Language) (steps : List Instruction) (i : Nat) (next : Option Nat) : Factor → Prop
  | .mk n p => if n = 1 then CodePrimary config G steps i next p
    else ∃ sub, CodePrimary config G steps sub none p ∧
      steps[i]? = some ⟨next, (Factor.mk n p).display, p.location, .repetition n n sub⟩
/-- The code of a term. -/
def CodeTerm (config : Config) (G : Language) (steps : List Instruction) (i : Nat) (next : Option Nat) : Term → Prop
  | .plain f => CodeFactor config G steps i next f
  | .except f e => ∃ a b, CodeFactor config G steps a none f ∧ CodeFactor config G steps b none e ∧
      steps[i]? = some ⟨next, (Term.except f e).display, f.primary.location, .scan (.exception a b)⟩
/-- The code of a sequence of terms, from an optional address to its end. -/
def CodeTerms (config : Config) (G : Language) (steps : List Instruction) (start : Option Nat) : SingleDefinition → Prop
  | .nil => start = none
  | .cons t d => ∃ i next, start = some i ∧ CodeTerm config G steps i next t ∧ CodeTerms config G steps next d
/-- The code of alternatives. -/
def CodeSubs (config : Config) (G : Language) (steps : List Instruction) (subs : List Nat) : DefinitionList → Prop
  | .nil => subs = []
  | .cons d l => ∃ a more, subs = a :: more ∧ d ≠ .nil ∧ CodeTerms config G steps (some a) d ∧
      CodeSubs config G steps more l
/-- The code of a definition list. -/
def CodeList (config : Config) (G : Language) (steps : List Instruction) (i : Nat) : DefinitionList → Prop
  | .nil => False
  | .cons d .nil => d ≠ .nil ∧ CodeTerms config G steps (some i) d
  | .cons d (.cons d' l) => ∃ a more loc, d ≠ .nil ∧ CodeTerms config G steps (some a) d ∧
      CodeSubs config G steps more (.cons d' l) ∧
      steps[i]? = some ⟨none, nameOfList G (.cons d (.cons d' l)), loc, .or (a :: more)⟩
end

theorem getElem?_prefix {α : Type} {s s' : List α} (h : s <+: s') {i : Nat} {x : α} (hx : s[i]? = some x) : s'[i]? = some x := by
  obtain ⟨t, rfl⟩ := h
  rw [List.getElem?_append_left]
  · exact hx
  · exact (List.getElem?_eq_some_iff.mp hx).1

section Mono
variable {config : Config} {G : Language} {s s' : List Instruction} (h : s <+: s')
include h

mutual
theorem codePrimary_mono {i : Nat} {next : Option Nat} : ∀ p, CodePrimary config G s i next p → CodePrimary config G s' i next p
  | .optional loc l => by
    simp only [CodePrimary]
    rintro ⟨sub, h1, h2⟩
    exact ⟨sub, codeList_mono l h1, getElem?_prefix h h2⟩
  | .repeated loc l => by
    simp only [CodePrimary]
    rintro ⟨sub, h1, h2⟩
    exact ⟨sub, codeList_mono l h1, getElem?_prefix h h2⟩
  | .grouped loc l => by
    simp only [CodePrimary]
    exact codeList_mono l
  | .metaIdentifier loc n => by simp only [CodePrimary]; exact getElem?_prefix h
  | .terminalString loc n => by simp only [CodePrimary]; exact getElem?_prefix h
  | .specialSequence loc n => by simp only [CodePrimary]; exact getElem?_prefix h
  | .empty loc => by simp only [CodePrimary]; exact getElem?_prefix h
theorem codeFactor_mono {i : Nat} {next : Option Nat} : ∀ f, CodeFactor config G s i next f → CodeFactor config G s' i next f
  | .mk n p => by
    simp only [CodeFactor]
    split
    · exact codePrimary_mono p
    · rintro ⟨sub, h1, h2⟩
      exact ⟨sub, codePrimary_mono p h1, getElem?_prefix h h2⟩
theorem codeTerm_mono {i : Nat} {next : Option Nat} : ∀ t, CodeTerm config G s i next t → CodeTerm config G s' i next t
  | .plain f => by simp only [CodeTerm]; exact codeFactor_mono f
  | .except f e => by
    simp only [CodeTerm]
    rintro ⟨a, b, h1, h2, h3⟩
    exact ⟨a, b, codeFactor_mono f h1, codeFactor_mono e h2, getElem?_prefix h h3⟩
theorem codeTerms_mono {start : Option Nat} : ∀ d, CodeTerms config G s start d → CodeTerms config G s' start d
  | .nil => by simp [CodeTerms]
  | .cons t d => by
    simp only [CodeTerms]
    rintro ⟨i, next, h1, h2, h3⟩
    exact ⟨i, next, h1, codeTerm_mono t h2, codeTerms_mono d h3⟩
theorem codeSubs_mono {subs : List Nat} : ∀ l, CodeSubs config G s subs l → CodeSubs config G s' subs l
  | .nil => by simp [CodeSubs]
  | .cons d l => by
    simp only [CodeSubs]
    rintro ⟨a, more, h1, h2, h3, h4⟩
    exact ⟨a, more, h1, h2, codeTerms_mono d h3, codeSubs_mono l h4⟩
theorem codeList_mono {i : Nat} : ∀ l, CodeList config G s i l → CodeList config G s' i l
  | .nil => by simp [CodeList]
  | .cons d .nil => by
    simp only [CodeList]
    exact fun ⟨h1, h2⟩ => ⟨h1, codeTerms_mono d h2⟩
  | .cons d (.cons d' l) => by
    simp only [CodeList]
    rintro ⟨a, more, loc, h1, h2, h3, h4⟩
    exact ⟨a, more, loc, h1, codeTerms_mono d h2, codeSubs_mono (.cons d' l) h3, getElem?_prefix h h4⟩
end

end Mono

/-! ## The symbol of the first instruction -/

section Symbol
variable {config : Config} {G : Language} (hn : ∀ l s, (config l s).symbol = G.specialName l s) {s : List Instruction}
include hn

mutual
theorem symbol_primary {i : Nat} {next : Option Nat} : ∀ p, CodePrimary config G s i next p →
    ∃ x, s[i]? = some x ∧ x.symbol = nameOfPrimary G p
  | .optional loc l => by
    simp only [CodePrimary]
    rintro ⟨sub, h1, h2⟩
    exact ⟨_, h2, rfl⟩
  | .repeated loc l => by
    simp only [CodePrimary]
    rintro ⟨sub, h1, h2⟩
    exact ⟨_, h2, rfl⟩
  | .grouped loc l => by
    simp only [CodePrimary, nameOfPrimary]
    exact symbol_list l
  | .metaIdentifier loc n => fun h => ⟨_, h, rfl⟩
  | .terminalString loc n => fun h => ⟨_, h, rfl⟩
  | .specialSequence loc n => fun h => ⟨_, h, hn loc n⟩
  | .empty loc => fun h => ⟨_, h, rfl⟩
theorem symbol_factor {i : Nat} {next : Option Nat} : ∀ f, CodeFactor config G s i next f →
    ∃ x, s[i]? = some x ∧ x.symbol = nameOfFactor G f
  | .mk n p => by
    simp only [CodeFactor, nameOfFactor]
    split
    · exact symbol_primary p
    · rintro ⟨sub, h1, h2⟩
      exact ⟨_, h2, rfl⟩
theorem symbol_term {i : Nat} {next : Option Nat} : ∀ t, CodeTerm config G s i next t →
    ∃ x, s[i]? = some x ∧ x.symbol = nameOfTerm G t
  | .plain f => by simp only [CodeTerm, nameOfTerm]; exact symbol_factor f
  | .except f e => by
    simp only [CodeTerm, nameOfTerm]
    rintro ⟨a, b, h1, h2, h3⟩
    exact ⟨_, h3, rfl⟩
theorem symbol_single {i : Nat} : ∀ d, d ≠ .nil → CodeTerms config G s (some i) d →
    ∃ x, s[i]? = some x ∧ x.symbol = nameOfSingle G d
  | .nil => fun h => absurd rfl h
  | .cons t d => by
    intro _
    simp only [CodeTerms, nameOfSingle]
    rintro ⟨j, next, h1, h2, _⟩
    injection h1 with h1; subst h1
    exact symbol_term t h2
theorem symbol_list {i : Nat} : ∀ l, CodeList config G s i l → ∃ x, s[i]? = some x ∧ x.symbol = nameOfList G l
  | .nil => by simp [CodeList]
  | .cons d .nil => by
    simp only [CodeList, nameOfList]
    exact fun ⟨h1, h2⟩ => symbol_single d h1 h2
  | .cons d (.cons d' l) => by
    simp only [CodeList]
    rintro ⟨a, more, loc, h1, h2, h3, h4⟩
    exact ⟨_, h4, rfl⟩
end

end Symbol

/-! ## The compiler makes the code -/

/-- Every address in the instruction is below `n`, its scanner is one of the configuration. -/
def ClosedInstr (config : Config) (n : Nat) (x : Instruction) : Prop :=
  (∀ a, x.next = some a → a < n) ∧
  match x.step with
  | .repetition _ _ sub => sub < n
  | .or subs => ∀ a ∈ subs, a < n
  | .scan (.exception a b) => a < n ∧ b < n
  | .scan (.special sc) => ∃ l t, sc = config l t
  | _ => True

/-- Every address in the instructions is the address of an instruction. -/
def ClosedSteps (config : Config) (s : List Instruction) : Prop := ∀ x ∈ s, ClosedInstr config s.length x

theorem ClosedInstr.mono {config : Config} {n m : Nat} {x : Instruction} (h : ClosedInstr config n x) (hm : n ≤ m) : ClosedInstr config m x := by
  obtain ⟨h1, h2⟩ := h
  refine ⟨fun a ha => Nat.lt_of_lt_of_le (h1 a ha) hm, ?_⟩
  revert h2
  cases x.step with
  | repetition a b c => exact fun h => Nat.lt_of_lt_of_le h hm
  | or subs => exact fun h a ha => Nat.lt_of_lt_of_le (h a ha) hm
  | scan sc =>
    cases sc with
    | exception a b => exact fun h => ⟨Nat.lt_of_lt_of_le h.1 hm, Nat.lt_of_lt_of_le h.2 hm⟩
    | _ => exact id
  | alias n => exact id

theorem closed_snoc {config : Config} {s : List Instruction} {x : Instruction} (h : ClosedSteps config s) (hx : ClosedInstr config (s.length + 1) x) :
    ClosedSteps config (s ++ [x]) := by
  intro y hy
  simp only [List.length_append, List.length_singleton]
  rcases List.mem_append.mp hy with hy | hy
  · exact (h y hy).mono (by omega)
  · simp only [List.mem_singleton] at hy; subst hy; exact hx

theorem get_snoc {α : Type} (s : List α) (x : α) : (s ++ [x])[s.length]? = some x := by simp

/-- What compiling gives: an address and more instructions. -/
structure Emitted (config : Config) (s s' : List Instruction) (i : Nat) : Prop where
  grows : s <+: s'
  lt : i < s'.length
  closed : ClosedSteps config s'

theorem Emitted.trans {config : Config} {s s' s'' : List Instruction} {i j : Nat} (h : Emitted config s s' i) (h' : Emitted config s' s'' j) :
    Emitted config s s'' j := ⟨h.grows.trans h'.grows, h'.lt, h'.closed⟩

theorem emit_one {config : Config} {s : List Instruction} {x : Instruction} (h : ClosedSteps config s) (hx : ClosedInstr config (s.length + 1) x) :
    Emitted config s (s ++ [x]) s.length :=
  ⟨List.prefix_append _ _, by simp, closed_snoc h hx⟩

/-- An optional address is in range. -/
def NextIn (s : List Instruction) (next : Option Nat) : Prop := ∀ a, next = some a → a < s.length

theorem NextIn.mono {s s' : List Instruction} {next : Option Nat} (h : NextIn s next) (hs : s <+: s') : NextIn s' next :=
  fun a ha => Nat.lt_of_lt_of_le (h a ha) hs.length_le

section Register
variable {config : Config} {G : Language} (hn : ∀ l s, (config l s).symbol = G.specialName l s)
include hn

mutual
theorem register_primary : ∀ (p : Primary) (s : List Instruction) (next : Option Nat), PrimaryShape p → ClosedSteps config s →
    NextIn s next → ∃ i s', registerPrimary config s next p = .ok (i, s') ∧ Emitted config s s' i ∧ CodePrimary config G s' i next p
  | .optional loc l, s, next => by
    intro hp hc hx
    simp only [PrimaryShape] at hp
    obtain ⟨sub, s1, h1, h2, h3⟩ := register_list l s hp.1 hp.2 hc
    have he := emit_one (x := ⟨next, (Primary.optional loc l).display, loc, .repetition 0 1 sub⟩) h2.closed
      ⟨fun a ha => Nat.lt_succ_of_lt ((hx.mono h2.grows) a ha), Nat.lt_succ_of_lt h2.lt⟩
    refine ⟨_, _, ?_, h2.trans he, ?_⟩
    · simp only [registerPrimary, h1, Res.bind_ok]
    · exact ⟨sub, codeList_mono he.grows l h3, get_snoc _ _⟩
  | .repeated loc l, s, next => by
    intro hp hc hx
    simp only [PrimaryShape] at hp
    obtain ⟨sub, s1, h1, h2, h3⟩ := register_list l s hp.1 hp.2 hc
    have he := emit_one (x := ⟨next, (Primary.repeated loc l).display, loc, .repetition 0 u32Max sub⟩) h2.closed
      ⟨fun a ha => Nat.lt_succ_of_lt ((hx.mono h2.grows) a ha), Nat.lt_succ_of_lt h2.lt⟩
    refine ⟨_, _, ?_, h2.trans he, ?_⟩
    · simp only [registerPrimary, h1, Res.bind_ok]
    · exact ⟨sub, codeList_mono he.grows l h3, get_snoc _ _⟩
  | .grouped loc l, s, next => by
    intro hp hc hx
    simp only [PrimaryShape] at hp
    obtain ⟨sub, s1, h1, h2, h3⟩ := register_list l s hp.1 hp.2 hc
    exact ⟨sub, s1, by simp only [registerPrimary, h1], h2, h3⟩
  | .metaIdentifier loc n, s, next => fun _ hc hx =>
    ⟨_, _, rfl, emit_one hc ⟨fun a ha => Nat.lt_succ_of_lt (hx a ha), trivial⟩, get_snoc _ _⟩
  | .terminalString loc n, s, next => fun _ hc hx =>
    ⟨_, _, rfl, emit_one hc ⟨fun a ha => Nat.lt_succ_of_lt (hx a ha), trivial⟩, get_snoc _ _⟩
  | .specialSequence loc n, s, next => fun _ hc hx =>
    ⟨_, _, rfl, emit_one hc ⟨fun a ha => Nat.lt_succ_of_lt (hx a ha), loc, n, rfl⟩, get_snoc _ _⟩
  | .empty loc, s, next => fun _ hc hx =>
    ⟨_, _, rfl, emit_one hc ⟨fun a ha => Nat.lt_succ_of_lt (hx a ha), trivial⟩, get_snoc _ _⟩
theorem register_factor : ∀ (f : Factor) (s : List Instruction) (next : Option Nat), FactorShape f → ClosedSteps config s →
    NextIn s next → ∃ i s', registerFactor config s next f = .ok (i, s') ∧ Emitted config s s' i ∧ CodeFactor config G s' i next f
  | .mk n p, s, next => by
    intro hp hc hx
    simp only [FactorShape] at hp
    simp only [registerFactor, CodeFactor]
    by_cases h1 : n = 1
    · simp only [if_pos h1]
      exact register_primary p s next hp.2 hc hx
    · simp only [if_neg h1]
      obtain ⟨sub, s1, h1, h2, h3⟩ := register_primary p s none hp.2 hc (by simp [NextIn])
      have he := emit_one (x := ⟨next, (Factor.mk n p).display, p.location, .repetition n n sub⟩) h2.closed
        ⟨fun a ha => Nat.lt_succ_of_lt ((hx.mono h2.grows) a ha), Nat.lt_succ_of_lt h2.lt⟩
      refine ⟨_, _, ?_, h2.trans he, ?_⟩
      · simp only [h1, Res.bind_ok]
      · exact ⟨sub, codePrimary_mono he.grows p h3, get_snoc _ _⟩
theorem register_term : ∀ (t : Term) (s : List Instruction) (next : Option Nat), TermShape t → ClosedSteps config s →
    NextIn s next → ∃ i s', registerTerm config s next t = .ok (i, s') ∧ Emitted config s s' i ∧ CodeTerm config G s' i next t
  | .plain f, s, next => by
    simp only [TermShape, registerTerm, CodeTerm]
    exact register_factor f s next
  | .except f e, s, next => by
    intro hp hc hx
    simp only [TermShape] at hp
    obtain ⟨a, s1, h1, h2, h3⟩ := register_factor f s none hp.1 hc (by simp [NextIn])
    obtain ⟨b, s2, h4, h5, h6⟩ := register_factor e s1 none hp.2 h2.closed (by simp [NextIn])
    have he := emit_one (x := ⟨next, (Term.except f e).display, f.primary.location, .scan (.exception a b)⟩) h5.closed
      ⟨fun a ha => Nat.lt_succ_of_lt ((hx.mono (h2.grows.trans h5.grows)) a ha),
        Nat.lt_succ_of_lt (Nat.lt_of_lt_of_le h2.lt h5.grows.length_le), Nat.lt_succ_of_lt h5.lt⟩
    refine ⟨_, _, ?_, (h2.trans h5).trans he, ?_⟩
    · simp only [registerTerm, h1, h4, Res.bind_ok]
    · exact ⟨a, b, codeFactor_mono (h5.grows.trans he.grows) f h3, codeFactor_mono he.grows e h6, get_snoc _ _⟩
theorem register_terms : ∀ (d : SingleDefinition) (s : List Instruction), SingleShape d → ClosedSteps config s →
    ∃ start s', registerTerms config s none d = .ok (start, s') ∧ s <+: s' ∧ ClosedSteps config s' ∧ NextIn s' start ∧
      CodeTerms config G s' start d ∧ (d ≠ .nil → start ≠ none)
  | .nil, s => fun _ hc => ⟨none, s, rfl, List.prefix_rfl, hc, by simp [NextIn], rfl, fun h => absurd rfl h⟩
  | .cons t d, s => by
    intro hp hc
    simp only [SingleShape] at hp
    obtain ⟨st, s1, h1, h2, h3, h4, h5, _⟩ := register_terms d s hp.2 hc
    obtain ⟨i, s2, h6, h7, h8⟩ := register_term t s1 st hp.1 h3 h4
    refine ⟨some i, s2, ?_, h2.trans h7.grows, h7.closed, ?_, ?_, by simp⟩
    · simp only [registerTerms, h1, h6, Res.bind_ok]
    · intro a ha; injection ha with ha; subst ha; exact h7.lt
    · exact ⟨i, st, rfl, h8, codeTerms_mono h7.grows d h5⟩
theorem register_definitions : ∀ (l : DefinitionList) (s : List Instruction), ListShape l → ClosedSteps config s →
    ∃ all s', registerDefinitions config s none l = .ok (all, s') ∧ s <+: s' ∧ ClosedSteps config s' ∧
      (∀ a ∈ all.map (·.1), a < s'.length) ∧ CodeSubs config G s' (all.map (·.1)) l ∧ all.map (·.2) = namesOfList G l
  | .nil, s => fun _ hc => ⟨[], s, rfl, List.prefix_rfl, hc, by simp, rfl, rfl⟩
  | .cons d l, s => by
    intro hp hc
    simp only [ListShape] at hp
    obtain ⟨st, s1, h1, h2, h3, h4, h5, h6⟩ := register_terms d s hp.2.1 hc
    cases st with
    | none => exact absurd rfl (h6 hp.1)
    | some a =>
      obtain ⟨x, h7, h8⟩ := symbol_single hn d hp.1 h5
      obtain ⟨all, s2, h9, h10, h11, h12, h13, h14⟩ := register_definitions l s1 hp.2.2 h3
      refine ⟨(a, x.symbol) :: all, s2, ?_, h2.trans h10, h11, ?_, ?_, ?_⟩
      · simp only [registerDefinitions, if_neg hp.1, h1, Res.bind_ok, h7, h9]
      · intro b hb
        rcases List.mem_cons.mp hb with rfl | hb
        · exact Nat.lt_of_lt_of_le (h4 _ rfl) h10.length_le
        · exact h12 b hb
      · exact ⟨a, _, rfl, hp.1, codeTerms_mono h10 d h5, h13⟩
      · simp only [List.map_cons, h14, h8, namesOfList]
theorem register_list : ∀ (l : DefinitionList) (s : List Instruction), l ≠ .nil → ListShape l → ClosedSteps config s →
    ∃ i s', registerDefinitionList config s none l = .ok (i, s') ∧ Emitted config s s' i ∧ CodeList config G s' i l
  | .nil, s => fun h => absurd rfl h
  | .cons d .nil, s => by
    intro _ hp hc
    simp only [ListShape] at hp
    obtain ⟨st, s1, h1, h2, h3, h4, h5, h6⟩ := register_terms d s hp.2.1 hc
    cases st with
    | none => exact absurd rfl (h6 hp.1)
    | some a =>
      refine ⟨a, s1, ?_, ⟨h2, h4 _ rfl, h3⟩, hp.1, h5⟩
      simp only [registerDefinitionList, if_neg hp.1, h1, Res.bind_ok]
  | .cons d (.cons d' l), s => by
    intro _ hp hc
    have hp2 : ListShape (.cons d' l) := by simp only [ListShape] at hp ⊢; exact hp.2.2
    simp only [ListShape] at hp
    obtain ⟨st, s1, h1, h2, h3, h4, h5, h6⟩ := register_terms d s hp.2.1 hc
    cases st with
    | none => exact absurd rfl (h6 hp.1)
    | some a =>
      obtain ⟨x, h7, h8⟩ := symbol_single hn d hp.1 h5
      obtain ⟨all, s2, h9, h10, h11, h12, h13, h14⟩ := register_definitions (.cons d' l) s1 hp2 h3
      have hlt : a < s2.length := Nat.lt_of_lt_of_le (h4 _ rfl) h10.length_le
      cases hl : s2.getLast? with
      | none => rw [List.getLast?_eq_none_iff] at hl; subst hl; simp at hlt
      | some last =>
        have he := emit_one (x := ⟨none, nameOfList G (.cons d (.cons d' l)), last.definition, .or (a :: all.map (·.1))⟩)
          h11 ⟨by simp, by
            intro b hb
            rcases List.mem_cons.mp hb with rfl | hb
            · exact Nat.lt_succ_of_lt hlt
            · exact Nat.lt_succ_of_lt (h12 b hb)⟩
        refine ⟨_, _, ?_, ⟨h2.trans (h10.trans he.grows), he.lt, he.closed⟩, a, all.map (·.1), last.definition, hp.1,
          codeTerms_mono (h10.trans he.grows) d h5, codeSubs_mono he.grows _ h13, get_snoc _ _⟩
        simp only [registerDefinitionList, if_neg hp.1, h1, Res.bind_ok, h7, h9, hl, List.map_cons, h14, h8]
        simp only [namesOfList, nameOfList]
end

end Register

end Ebnf
