import Verif.Spec.Measure
import Verif.Proofs.Syntax
import Verif.Proofs.Compile
import Verif.Proofs.Display
import Verif.Proofs.GrammarText

set_option autoImplicit false

/-! # The size of the compiled machine -/

namespace Ebnf.Measure

open Ebnf Ebnf.Spec

/-- `n` instructions are added, with symbols bounded by the length `b` of what is displayed. -/
def Added (config : Config) (new : List Instruction) (n b : Nat) : Prop :=
  new.length = n ∧ (ShortSymbols config → ∀ y ∈ new, y.symbol.length ≤ 9 * b + 5)

/-- … and the address of one of them. -/
def Adds (config : Config) (steps : List Instruction) (x : Nat × List Instruction) (n b : Nat) : Prop :=
  ∃ new, x.2 = steps ++ new ∧ Added config new n b ∧ ∃ y ∈ new, x.2[x.1]? = some y

theorem added_append {config : Config} {a c : List Instruction} {n m b b' d : Nat} (h : Added config a n b) (h' : Added config c m b')
    (hb : b ≤ d) (hb' : b' ≤ d) : Added config (a ++ c) (n + m) d := by
  refine ⟨by rw [List.length_append, h.1, h'.1], fun hs y hy => ?_⟩
  rcases List.mem_append.mp hy with hy | hy
  · have := h.2 hs y hy; omega
  · have := h'.2 hs y hy; omega

theorem added_mono {config : Config} {a : List Instruction} {n b d : Nat} (h : Added config a n b) (hb : b ≤ d) : Added config a n d :=
  ⟨h.1, fun hs y hy => by have := h.2 hs y hy; omega⟩

theorem added_one {config : Config} {y : Instruction} {b : Nat} (h : ShortSymbols config → y.symbol.length ≤ 9 * b + 5) : Added config [y] 1 b :=
  ⟨rfl, fun hs z hz => by rw [List.mem_singleton] at hz; subst hz; exact h hs⟩

theorem adds_push {config : Config} {steps new : List Instruction} {y : Instruction} {n b d : Nat} (h : Added config new n b) (hb : b ≤ d)
    (hy : ShortSymbols config → y.symbol.length ≤ 9 * d + 5) :
    Adds config steps ((steps ++ new).length, steps ++ new ++ [y]) (n + 1) d :=
  ⟨new ++ [y], by simp, added_append h (added_one hy) hb (Nat.le_refl _), y, by simp, by simp⟩

theorem adds_leaf {config : Config} {steps : List Instruction} {y : Instruction} {d : Nat}
    (hy : ShortSymbols config → y.symbol.length ≤ 9 * d + 5) : Adds config steps (steps.length, steps ++ [y]) 1 d :=
  ⟨[y], rfl, added_one hy, y, by simp, by simp⟩

theorem escaped_length : ∀ (s : Str), (s.flatMap (fun c => if c = '"' ∨ c = '\\' then ['\\', c] else [c])).length ≤ 2 * s.length
  | [] => by simp
  | c :: s => by
    have := escaped_length s
    rw [List.flatMap_cons, List.length_append]
    by_cases h : c = '"' ∨ c = '\\'
    · rw [if_pos h]; simp only [List.length_cons, List.length_nil]; omega
    · rw [if_neg h]; simp only [List.length_cons, List.length_nil]; omega

/-- The characters of a definition list as displayed, each definition with a separator. -/
def dlen : DefinitionList → Nat
  | .nil => 0
  | .cons d l => d.display.length + 1 + dlen l

theorem dlen_eq : (l : DefinitionList) → l ≠ .nil → dlen l = l.display.length + 1
  | .nil, h => absurd rfl h
  | .cons d .nil, _ => by simp [dlen, DefinitionList.display]
  | .cons d (.cons d' l), _ => by
    have := dlen_eq (.cons d' l) (by simp)
    rw [dlen, this, DefinitionList.display]
    simp only [List.length_append, List.length_cons]; omega

/-- The characters of some words. -/
def total : List Str → Nat
  | [] => 0
  | w :: ws => w.length + total ws

theorem joinComma_length : (ws : List Str) → ws ≠ [] → (joinComma ws).length + 2 = total ws + 2 * ws.length
  | [], h => absurd rfl h
  | [w], _ => by simp [joinComma, total]
  | w :: w' :: ws, _ => by
    have := joinComma_length (w' :: ws) (by simp)
    rw [joinComma]
    · simp only [List.length_append, List.length_cons, total] at *
      have : (", ".toList).length = 2 := by decide
      omega
    · simp

theorem total_split : (ws : List Str) → ws ≠ [] → total ws.dropLast + (ws.getLastD []).length = total ws
  | [], h => absurd rfl h
  | [w], _ => by simp [total]
  | w :: w' :: ws, _ => by
    have := total_split (w' :: ws) (by simp)
    simp only [List.dropLast_cons_cons, total] at *
    rw [show (w :: w' :: ws).getLastD [] = (w' :: ws).getLastD [] from by simp [List.getLastD_cons]]
    omega

theorem parallel_length (ws : List Str) (h : 2 ≤ ws.length) (b : Nat) (hb : total ws + 4 * ws.length ≤ 9 * b) :
    (parallelNotation ws).length + 4 ≤ 9 * b := by
  match ws, h, hb with
  | [a, c], _, hb =>
    have : (" or ".toList).length = 4 := by decide
    simp only [parallelNotation, List.length_append, total, List.length_cons, List.length_nil] at *
    omega
  | a :: c :: d :: ws, _, hb =>
    have h1 := total_split (a :: c :: d :: ws) (by simp)
    have h2 := joinComma_length (a :: c :: d :: ws).dropLast (by simp)
    have h3 : ((a :: c :: d :: ws).dropLast).length = ws.length + 2 := by simp
    have : (", or ".toList).length = 5 := by decide
    have h4 : (parallelNotation (a :: c :: d :: ws)).length =
        (joinComma (a :: c :: d :: ws).dropLast).length + 5 + ((a :: c :: d :: ws).getLastD []).length := by
      rw [parallelNotation]
      · simp only [List.length_append, this]
      all_goals simp
    rw [h4]
    have h5 : (a :: c :: d :: ws).length = ws.length + 3 := by simp
    omega

theorem single_tail (t : Term) (d : SingleDefinition) : t.display.length ≤ (SingleDefinition.cons t d).display.length ∧
    d.display.length ≤ (SingleDefinition.cons t d).display.length := by
  cases d with
  | nil => simp [SingleDefinition.display]
  | cons t' d => rw [SingleDefinition.display]; simp only [List.length_append, List.length_cons]; omega

mutual
theorem primary_adds (config : Config) : (p : Primary) → ∀ steps next x,
    registerPrimary config steps next p = .ok x → Adds config steps x (constructsOfPrimary p) p.display.length
  | .optional loc l, steps, next, x, h => by
    rw [registerPrimary, Res.bind_eq_ok] at h
    obtain ⟨⟨sub, steps'⟩, h1, h2⟩ := h
    obtain ⟨new, rfl, h3, _⟩ := list_adds config l steps none _ h1
    injection h2 with h2; subst h2
    rw [constructsOfPrimary]
    exact adds_push h3 (by simp [Primary.display]; omega) (fun _ => by simp; omega)
  | .repeated loc l, steps, next, x, h => by
    rw [registerPrimary, Res.bind_eq_ok] at h
    obtain ⟨⟨sub, steps'⟩, h1, h2⟩ := h
    obtain ⟨new, rfl, h3, _⟩ := list_adds config l steps none _ h1
    injection h2 with h2; subst h2
    rw [constructsOfPrimary]
    exact adds_push h3 (by simp [Primary.display]; omega) (fun _ => by simp; omega)
  | .grouped loc l, steps, next, x, h => by
    rw [registerPrimary] at h
    obtain ⟨new, h2, h3, h4⟩ := list_adds config l steps none _ h
    rw [constructsOfPrimary]
    exact ⟨new, h2, added_mono h3 (by simp [Primary.display]; omega), h4⟩
  | .metaIdentifier loc name, steps, next, x, h => by
    rw [registerPrimary] at h; injection h with h; subst h
    exact adds_leaf fun _ => by simp [Primary.display]; omega
  | .terminalString loc s, steps, next, x, h => by
    rw [registerPrimary] at h; injection h with h; subst h
    refine adds_leaf fun _ => ?_
    have := escaped_length s
    simp only [debugStr, Primary.display, List.length_append, List.length_cons, List.length_nil] at *
    omega
  | .specialSequence loc s, steps, next, x, h => by
    rw [registerPrimary] at h; injection h with h; subst h
    refine adds_leaf fun hs => ?_
    have := hs loc s
    simp only [Primary.display, List.length_append, List.length_cons, List.length_nil] at *
    omega
  | .empty loc, steps, next, x, h => by
    rw [registerPrimary] at h; injection h with h; subst h
    exact adds_leaf fun _ => by simp [Primary.display]
theorem factor_adds (config : Config) : (f : Factor) → ∀ steps next x,
    registerFactor config steps next f = .ok x → Adds config steps x (constructsOfFactor f) f.display.length
  | .mk n p, steps, next, x, h => by
    rw [registerFactor] at h
    rw [constructsOfFactor]
    have hd : p.display.length ≤ (Factor.mk n p).display.length := by
      rw [Factor.display]; simp only [List.length_append]; omega
    by_cases h1 : n = 1
    · rw [if_pos h1] at h
      rw [if_pos h1]
      obtain ⟨new, h2, h3, h4⟩ := primary_adds config p steps next x h
      exact ⟨new, h2, added_mono h3 hd, h4⟩
    · rw [if_neg h1, Res.bind_eq_ok] at h
      rw [if_neg h1]
      obtain ⟨⟨sub, steps'⟩, h1, h2⟩ := h
      obtain ⟨new, rfl, h3, _⟩ := primary_adds config p steps none _ h1
      injection h2 with h2; subst h2
      exact adds_push h3 hd (fun _ => by simp only; omega)
theorem term_adds (config : Config) : (t : Term) → ∀ steps next x,
    registerTerm config steps next t = .ok x → Adds config steps x (constructsOfTerm t) t.display.length
  | .plain f, steps, next, x, h => by
    rw [registerTerm] at h
    rw [constructsOfTerm, Term.display]
    exact factor_adds config f steps next x h
  | .except f e, steps, next, x, h => by
    rw [registerTerm, Res.bind_eq_ok] at h
    obtain ⟨⟨i, steps'⟩, h1, h2⟩ := h
    obtain ⟨new, rfl, h3, _⟩ := factor_adds config f steps none _ h1
    rw [Res.bind_eq_ok] at h2
    obtain ⟨⟨j, steps''⟩, h2, h4⟩ := h2
    obtain ⟨new', rfl, h5, _⟩ := factor_adds config e _ none _ h2
    injection h4 with h4; subst h4
    rw [constructsOfTerm]
    have hd : f.display.length ≤ (Term.except f e).display.length ∧ e.display.length ≤ (Term.except f e).display.length := by
      rw [Term.display]; simp only [List.length_append, List.length_cons]; omega
    rw [List.append_assoc steps]
    exact adds_push (added_append h3 h5 hd.1 hd.2) (Nat.le_refl _) (fun _ => by simp only; omega)
theorem terms_adds (config : Config) : (d : SingleDefinition) → ∀ steps next x,
    registerTerms config steps next d = .ok x → ∃ new, x.2 = steps ++ new ∧ Added config new (constructsOfSingle d) d.display.length ∧
      (d ≠ .nil → ∃ i, x.1 = some i ∧ ∃ y ∈ new, x.2[i]? = some y)
  | .nil, steps, next, x, h => by
    rw [registerTerms] at h; injection h with h; subst h
    exact ⟨[], by simp, ⟨rfl, by simp⟩, fun h => absurd rfl h⟩
  | .cons t d, steps, next, x, h => by
    rw [registerTerms, Res.bind_eq_ok] at h
    obtain ⟨⟨i, steps'⟩, h1, h2⟩ := h
    obtain ⟨new, rfl, h3, _⟩ := terms_adds config d steps next _ h1
    rw [Res.bind_eq_ok] at h2
    obtain ⟨⟨j, steps''⟩, h2, h4⟩ := h2
    obtain ⟨new', rfl, h5, y, h6, h7⟩ := term_adds config t _ i _ h2
    injection h4 with h4; subst h4
    have hd := single_tail t d
    rw [constructsOfSingle, Nat.add_comm]
    exact ⟨new ++ new', by simp, added_append h3 h5 hd.2 hd.1, fun _ => ⟨j, rfl, y, List.mem_append_right _ h6, h7⟩⟩
theorem definitions_adds (config : Config) : (l : DefinitionList) → ∀ steps next x,
    registerDefinitions config steps next l = .ok x → ∃ new, x.2 = steps ++ new ∧ Added config new (constructsOfAll l) l.display.length ∧
      (l = .nil → x.1 = []) ∧ (l ≠ .nil → x.1 ≠ []) ∧
      (ShortSymbols config → total (x.1.map (·.2)) + 4 * x.1.length ≤ 9 * dlen l)
  | .nil, steps, next, x, h => by
    rw [registerDefinitions] at h; injection h with h; subst h
    exact ⟨[], by simp, ⟨rfl, by simp⟩, fun _ => rfl, fun h => absurd rfl h, fun _ => by simp [total]⟩
  | .cons d l, steps, next, x, h => by
    rw [registerDefinitions] at h
    by_cases h0 : d = .nil
    · rw [if_pos h0] at h; cases h
    · rw [if_neg h0, Res.bind_eq_ok] at h
      obtain ⟨⟨i, steps'⟩, h1, h2⟩ := h
      obtain ⟨new, rfl, h3, h4⟩ := terms_adds config d steps next _ h1
      obtain ⟨i, rfl, y, hy, hi⟩ := h4 h0
      simp only at h2 hi
      rw [hi] at h2
      simp only at h2
      rw [Res.bind_eq_ok] at h2
      obtain ⟨⟨more, steps''⟩, h2, h5⟩ := h2
      obtain ⟨new', rfl, h6, h7, h8, h9⟩ := definitions_adds config l _ next _ h2
      injection h5 with h5; subst h5
      have e1 := dlen_eq (.cons d l) (by simp)
      have e2 : l.display.length ≤ dlen l := by
        cases l with
        | nil => simp [DefinitionList.display]
        | cons d' l' => rw [dlen_eq _ (by simp)]; omega
      rw [dlen] at e1
      refine ⟨new ++ new', by simp, ?_, by simp, by simp, fun hs => ?_⟩
      · rw [constructsOfAll]
        exact added_append h3 h6 (by omega) (by omega)
      · have := h3.2 hs y hy
        have := h9 hs
        rw [dlen]
        simp only [List.map_cons, total, List.length_cons] at *
        omega
theorem list_adds (config : Config) : (l : DefinitionList) → ∀ steps next x,
    registerDefinitionList config steps next l = .ok x → Adds config steps x (constructsOf l) l.display.length
  | .nil, steps, next, x, h => by
    rw [registerDefinitionList] at h
    cases hl : steps.getLast? with
    | none => rw [hl] at h; cases h
    | some last =>
      rw [hl] at h
      injection h with h; subst h
      exact adds_leaf fun _ => by simp [parallelNotation]
  | .cons d .nil, steps, next, x, h => by
    rw [registerDefinitionList] at h
    by_cases h0 : d = .nil
    · rw [if_pos h0] at h; cases h
    · rw [if_neg h0, Res.bind_eq_ok] at h
      obtain ⟨⟨i, steps'⟩, h1, h2⟩ := h
      obtain ⟨new, rfl, h3, h4⟩ := terms_adds config d steps next _ h1
      obtain ⟨i, rfl, y, hy, hi⟩ := h4 h0
      injection h2 with h2; subst h2
      rw [constructsOf, DefinitionList.display]
      exact ⟨new, rfl, h3, y, hy, hi⟩
  | .cons d (.cons d' l), steps, next, x, h => by
    rw [registerDefinitionList] at h
    by_cases h0 : d = .nil
    · rw [if_pos h0] at h; cases h
    · rw [if_neg h0, Res.bind_eq_ok] at h
      obtain ⟨⟨i, steps'⟩, h1, h2⟩ := h
      obtain ⟨new, rfl, h3, h4⟩ := terms_adds config d steps next _ h1
      obtain ⟨i, rfl, y, hy, hi⟩ := h4 h0
      simp only at h2 hi
      rw [hi] at h2
      simp only at h2
      rw [Res.bind_eq_ok] at h2
      obtain ⟨⟨more, steps''⟩, h2, h5⟩ := h2
      obtain ⟨new', rfl, h6, _, h8, h9⟩ := definitions_adds config (.cons d' l) _ next _ h2
      simp only at h5
      cases hl : (steps ++ new ++ new').getLast? with
      | none => rw [hl] at h5; cases h5
      | some last =>
        rw [hl] at h5
        injection h5 with h5; subst h5
        have e1 := dlen_eq (.cons d (.cons d' l)) (by simp)
        have e2 := dlen_eq (.cons d' l) (by simp)
        rw [dlen, e2] at e1
        rw [constructsOf, List.append_assoc steps]
        refine adds_push (added_append h3 h6 (by omega) (by omega)) (Nat.le_refl _) fun hs => ?_
        have h10 := h3.2 hs y hy
        have h11 := h9 hs
        have h12 : 1 ≤ more.length := by
          have := h8 (by simp)
          cases more with
          | nil => exact absurd rfl this
          | cons _ _ => simp
        have := parallel_length (((i, y.symbol) :: more).map (·.2)) (by simp; omega) ((DefinitionList.cons d (.cons d' l)).display.length + 1) (by
          simp only [List.map_cons, total, List.length_cons, List.length_map] at *
          omega)
        simp only at this ⊢
        omega
end

/-- The number of characters of some rules as displayed. -/
def shown (rs : List SyntaxRule) : Nat := (rs.flatMap SyntaxRule.display).length

theorem rule_shown (r : SyntaxRule) : r.display.length = r.metaIdentifier.length + r.definitionList.display.length + 2 := by
  simp [SyntaxRule.display]; omega

theorem compileLoop_adds {s : Syntax} {config : Config} (hc : ∀ r name, s.canonicalName r = some name → ∃ r' ∈ s.syntaxRules, r'.metaIdentifier = name) :
    ∀ (rules : List SyntaxRule) (g g' : Graph),
    Graph.compileLoop s config rules g = .ok g' → ∃ new, g'.instructions = g.instructions ++ new ∧ new.length = constructsOfRules rules ∧
      (ShortSymbols config → ∀ y ∈ new, ∃ r, (r ∈ rules ∨ r ∈ s.syntaxRules) ∧ y.symbol.length + 13 ≤ 9 * r.display.length)
  | [], g, g', h => by
    rw [Graph.compileLoop] at h; injection h with h; subst h
    exact ⟨[], by simp, rfl, by simp⟩
  | r :: rs, g, g', h => by
    rw [Graph.compileLoop] at h
    cases hn : s.canonicalName r.metaIdentifier with
    | none => rw [hn] at h; cases h
    | some name =>
      rw [hn] at h
      simp only at h
      rw [Res.bind_eq_ok] at h
      obtain ⟨⟨i, steps⟩, h1, h2⟩ := h
      obtain ⟨new, rfl, h3, _⟩ := list_adds config _ _ none _ h1
      obtain ⟨new', h4, h5, h6⟩ := compileLoop_adds hc rs _ g' h2
      refine ⟨new ++ [_] ++ new', by rw [h4]; simp only [List.append_assoc]; rfl, ?_, fun hs y hy => ?_⟩
      · rw [List.length_append, List.length_append, h3.1, h5, constructsOfRules]; simp
      · rcases List.mem_append.mp hy with hy | hy
        · rcases List.mem_append.mp hy with hy | hy
          · refine ⟨r, .inl (by simp), ?_⟩
            have := h3.2 hs y hy
            rw [rule_shown]
            omega
          · rw [List.mem_singleton] at hy
            obtain ⟨r', h7, h8⟩ := hc _ _ hn
            refine ⟨r', .inr h7, ?_⟩
            subst hy
            rw [rule_shown, h8]
            simp only
            omega
        · obtain ⟨r', h7, h8⟩ := h6 hs y hy
          refine ⟨r', ?_, h8⟩
          rcases h7 with h7 | h7
          · exact .inl (by simp [h7])
          · exact .inr h7

theorem mem_shown {r : SyntaxRule} : ∀ {rs : List SyntaxRule}, r ∈ rs → r.display.length ≤ shown rs
  | a :: rs, h => by
    unfold shown
    rw [List.flatMap_cons, List.length_append]
    rcases List.mem_cons.mp h with rfl | h
    · omega
    · have := mem_shown h
      unfold shown at this
      omega

/-- A compiled grammar has one instruction for each construct; their symbols are not much longer than what is displayed. -/
theorem compile_measure {rules : List SyntaxRule} {s : Syntax} {config : Config} {g : Graph} (hs : Syntax.new rules = .ok s)
    (h : Graph.compile s config = .ok g) : g.instructions.length = constructsOfRules rules ∧
      (ShortSymbols config → ∀ y ∈ g.instructions, y.symbol.length + 13 ≤ 9 * shown rules) := by
  have hr := (new_ok hs).1
  unfold Graph.compile at h
  obtain ⟨new, h1, h2, h3⟩ := compileLoop_adds (fun q name hq => by
    rcases getSyntaxRule_cases hs q with ⟨r, h1, _, _, h4, _⟩ | ⟨_, _, h4⟩
    · rw [hq] at h4; injection h4 with h4
      exact ⟨r, by rw [hr]; exact h1, h4.symm⟩
    · rw [hq] at h4; cases h4) _ _ _ h
  rw [hr] at h2 h3
  simp only [List.nil_append] at h1
  subst h1
  refine ⟨h2, fun hc y hy => ?_⟩
  obtain ⟨r, h4, h5⟩ := h3 hc y hy
  have := mem_shown (r := r) (rs := rules) (h4.elim id id)
  omega

/-! ## Constructs and displayed characters -/

mutual
theorem primary_few : (p : Primary) → constructsOfPrimary p ≤ 2 * p.display.length + 1
  | .optional _ l => by have := list_few l; simp only [constructsOfPrimary, Primary.display, List.length_append, List.length_cons]; omega
  | .repeated _ l => by have := list_few l; simp only [constructsOfPrimary, Primary.display, List.length_append, List.length_cons]; omega
  | .grouped _ l => by have := list_few l; simp only [constructsOfPrimary, Primary.display, List.length_append, List.length_cons]; omega
  | .metaIdentifier _ _ => by simp only [constructsOfPrimary]; omega
  | .terminalString _ _ => by simp only [constructsOfPrimary]; omega
  | .specialSequence _ _ => by simp only [constructsOfPrimary]; omega
  | .empty _ => by simp only [constructsOfPrimary]; omega
theorem factor_few : (f : Factor) → constructsOfFactor f ≤ 2 * f.display.length + 1
  | .mk n p => by
    have := primary_few p
    rw [constructsOfFactor, Factor.display]
    by_cases h : n = 1
    · rw [if_pos h, if_neg (by simp [h])]; simp only [List.nil_append]; omega
    · rw [if_neg h, if_pos h]; simp only [List.length_append, List.length_singleton]; omega
theorem term_few : (t : Term) → constructsOfTerm t ≤ 2 * t.display.length + 1
  | .plain f => by have := factor_few f; rw [constructsOfTerm, Term.display]; omega
  | .except f e => by
    have := factor_few f
    have := factor_few e
    rw [constructsOfTerm, Term.display]
    simp only [List.length_append, List.length_cons]; omega
theorem single_few : (d : SingleDefinition) → constructsOfSingle d ≤ 2 * d.display.length + 1
  | .nil => by simp [constructsOfSingle]
  | .cons t .nil => by have := term_few t; simp only [constructsOfSingle, SingleDefinition.display]; omega
  | .cons t (.cons t' d) => by
    have := term_few t
    have := single_few (.cons t' d)
    rw [constructsOfSingle, SingleDefinition.display]
    simp only [List.length_append, List.length_cons]; omega
theorem all_few : (l : DefinitionList) → l ≠ .nil → constructsOfAll l + 1 ≤ 2 * dlen l
  | .nil, h => absurd rfl h
  | .cons d .nil, _ => by
    have := single_few d
    simp only [constructsOfAll, dlen]
    omega
  | .cons d (.cons d' l), _ => by
    have := single_few d
    have := all_few (.cons d' l) (by simp)
    rw [constructsOfAll, dlen]
    omega
theorem list_few : (l : DefinitionList) → constructsOf l ≤ 2 * l.display.length + 1
  | .nil => by simp [constructsOf]
  | .cons d .nil => by have := single_few d; simp only [constructsOf, DefinitionList.display]; omega
  | .cons d (.cons d' l) => by
    have := single_few d
    have h1 := all_few (.cons d' l) (by simp)
    have h2 := dlen_eq (.cons d' l) (by simp)
    have h3 : (DefinitionList.cons d (.cons d' l)).display.length = d.display.length + (1 + (DefinitionList.cons d' l).display.length) := by
      rw [DefinitionList.display]; simp only [List.length_append, List.length_cons]; omega
    rw [constructsOf, h3]
    omega
end

theorem rules_few : (rs : List SyntaxRule) → constructsOfRules rs + 2 * rs.length ≤ 2 * shown rs
  | [] => by simp [constructsOfRules]
  | r :: rs => by
    have h1 := list_few r.definitionList
    have h2 := rules_few rs
    have h3 := rule_shown r
    unfold shown at *
    rw [constructsOfRules, List.flatMap_cons, List.length_append]
    simp only [List.length_cons]
    omega

/-! ## What is displayed is not longer than what was read -/

/-- A token takes at least so many characters. -/
def width : Token → Nat
  | .metaIdentifier _ s => s.length
  | .terminalString _ s _ => s.length + 2
  | .specialSequence _ s => s.length + 2
  | .integer _ s => s.length
  | .eof _ => 0
  | _ => 1

def widths : List Token → Nat
  | [] => 0
  | t :: ts => width t + widths ts

theorem widths_append : ∀ (a b : List Token), widths (a ++ b) = widths a + widths b
  | [], b => by simp [widths]
  | t :: a, b => by simp only [List.cons_append, widths, widths_append a b]; omega

theorem spelled_width {t : Token} {s : Str} (h : Spelled t s) : width t ≤ s.length := by
  cases h with
  | startOption _ _ h | endOption _ _ h | startRepeat _ _ h | endRepeat _ _ h =>
    simp only [List.mem_cons, List.not_mem_nil, or_false] at h
    rcases h with rfl | rfl <;> simp [width]
  | terminalString _ s q => simp [width]; 
  | specialSequence _ s => simp [width]
  | _ => simp [width]

theorem lexes_widths {start : Location} {text : Str} {ts : List Token} (h : Lexes start text ts) : widths ts ≤ text.length := by
  induction h with
  | nil => simp [widths]
  | cons h1 _ _ _ ih => have := spelled_width h1; simp only [widths, List.length_append]; omega

theorem name_short {ts : List Token} {l : Location} {n : Str} (h : Name ts l n) : n.length ≤ widths ts := by
  induction h with
  | word => simp [widths, width]
  | adjacent _ _ _ ih => simp only [widths_append, List.length_append, widths, width]; omega
  | gap gs l' s _ h1 h2 ih =>
    cases gs with
    | nil => exact absurd rfl h1
    | cons t gs =>
      have h3 : width t = 1 := by
        have := h2 t (by simp)
        cases t <;> first | rfl | exact absurd this (by simp [IsGapToken])
      have h4 : width (.metaIdentifier l' s) = s.length := rfl
      simp only [widths_append, List.length_append, List.length_cons, widths, h3, h4]; omega

theorem decimal_lt (d : Str) (h : ∀ c ∈ d, IsDigit c) : decimal d < 10 ^ d.length := by
  have step : ∀ (d : Str) (a k : Nat), (∀ c ∈ d, IsDigit c) → a < 10 ^ k →
      d.foldl (fun a c => a * 10 + (c.toNat - '0'.toNat)) a < 10 ^ (k + d.length) := by
    intro d
    induction d with
    | nil => intro a k _ ha; simpa using ha
    | cons c d ih =>
      intro a k hd ha
      rw [List.foldl_cons, List.length_cons, show k + (d.length + 1) = (k + 1) + d.length by omega]
      refine ih _ _ (fun x hx => hd x (by simp [hx])) ?_
      have hc : c.toNat ≤ '9'.toNat := (hd c (by simp)).2
      have h9 : '9'.toNat = 57 := by decide
      have h0 : '0'.toNat = 48 := by decide
      rw [Nat.pow_succ]
      omega
  simpa [decimal] using step d 0 0 h (by simp)

theorem blanks_zero (g : List Token) : 0 ≤ widths g := Nat.zero_le _

mutual
theorem primary_short : {ts : List Token} → {p : Primary} → PrimaryG ts p → p.display.length ≤ widths ts
  | _, _, .optional _ _ h => by
    have := list_short h
    simp only [Primary.display, widths_append, widths, width, List.length_append, List.length_cons, List.length_nil]; omega
  | _, _, .repeated _ _ h => by
    have := list_short h
    simp only [Primary.display, widths_append, widths, width, List.length_append, List.length_cons, List.length_nil]; omega
  | _, _, .grouped _ _ h => by
    have := list_short h
    simp only [Primary.display, widths_append, widths, width, List.length_append, List.length_cons, List.length_nil]; omega
  | _, _, .metaIdentifier _ h => by
    have := name_short h
    simp only [Primary.display, widths_append]; omega
  | _, _, .terminalString _ => by
    simp only [Primary.display, widths_append, widths, width, List.length_append, List.length_cons, List.length_nil]; omega
  | _, _, .specialSequence _ => by
    simp only [Primary.display, widths_append, widths, width, List.length_append, List.length_cons, List.length_nil]; omega
  | _, _, .empty _ _ => by simp [Primary.display]
theorem factor_short : {ts : List Token} → {f : Factor} → FactorG ts f → f.display.length ≤ widths ts
  | _, _, .one h => by
    have := primary_short h
    simpa [Factor.display] using this
  | _, _, .times (d := d) _ _ hd hne _ h => by
    have h1 := primary_short h
    have h2 : (Nat.toDigits 10 (decimal d)).length ≤ d.length :=
      (Nat.length_toDigits_le_iff (by omega) (List.length_pos_iff.mpr hne)).mpr (decimal_lt d hd)
    rw [Factor.display]
    simp only [widths_append, widths, width, List.length_append]
    by_cases hr : decimal d = 1
    · rw [if_neg (by simp [hr])]; simp only [List.length_nil]; omega
    · rw [if_pos hr]; simp only [List.length_append, List.length_singleton]; omega
theorem term_short : {ts : List Token} → {t : Term} → TermG ts t → t.display.length ≤ widths ts
  | _, _, .plain h => by have := factor_short h; rw [Term.display]; exact this
  | _, _, .except h _ h' => by
    have := factor_short h
    have := factor_short h'
    simp only [Term.display, widths_append, widths, width, List.length_append, List.length_cons]; omega
theorem single_short : {ts : List Token} → {d : SingleDefinition} → SingleG ts d → d.display.length ≤ widths ts
  | _, _, .one h => by have := term_short h; rw [SingleDefinition.display]; exact this
  | _, _, .more (d := d) h _ h' => by
    have := term_short h
    have := single_short h'
    cases d with
    | nil => simp only [SingleDefinition.display, widths_append]; omega
    | cons t d =>
      simp only [SingleDefinition.display, widths_append, widths, width, List.length_append, List.length_cons] at *; omega
theorem list_short : {ts : List Token} → {l : DefinitionList} → ListG ts l → l.display.length ≤ widths ts
  | _, _, .one h => by have := single_short h; rw [DefinitionList.display]; exact this
  | _, _, .more (list := l) h _ h' => by
    have := single_short h
    have := list_short h'
    cases l with
    | nil => simp only [DefinitionList.display, widths_append]; omega
    | cons t d =>
      simp only [DefinitionList.display, widths_append, widths, width, List.length_append, List.length_cons] at *; omega
end

/-- The number of terminators that are the end of the text. -/
def ends : List Token → Nat
  | [] => 0
  | .eof _ :: ts => ends ts + 1
  | _ :: ts => ends ts

theorem ends_append : ∀ (a b : List Token), ends (a ++ b) = ends a + ends b
  | [], b => by simp [ends]
  | t :: a, b => by
    rw [List.cons_append]
    cases t <;> simp only [ends, ends_append a b]
    omega

theorem terminator_width {t : Token} (h : IsTerminator t) : 1 ≤ width t + ends [t] := by
  cases t with
  | terminatorSymbol _ _ => simp [width]
  | eof _ => simp [ends]
  | _ => exact absurd h (by simp [IsTerminator])

theorem ends_tail (t : Token) (ts : List Token) : ends ts ≤ ends (t :: ts) := by cases t <;> simp [ends]

theorem rules_short {ts : List Token} {rs : List SyntaxRule} (h : RulesG ts rs) : shown rs ≤ widths ts + ends ts := by
  induction h with
  | nil => simp [shown]
  | rule hr _ ih =>
    cases hr with
    | @rule g ts g' l ts' g'' t loc name list _ hn _ hl _ ht =>
      have h1 := name_short hn
      have h2 := list_short hl
      have h3 := terminator_width ht
      have h4 := ends_tail (.definingSymbol l) (ts' ++ g'' ++ [t])
      unfold shown at *
      rw [List.flatMap_cons, List.length_append, rule_shown]
      simp only [widths_append, ends_append, widths] at *
      have h5 : width (.definingSymbol l) = 1 := rfl
      omega
  | @blank g t us rs _ _ _ ih =>
    have := ends_tail t us
    rw [widths_append, ends_append]
    unfold shown at *
    simp only [widths]
    omega

theorem lexes_ends {start : Location} {text : Str} {ts : List Token} (h : Lexes start text ts) : ends ts = 0 := by
  induction h with
  | nil => rfl
  | cons h1 _ _ _ ih => cases h1 <;> exact ih

/-- What was read is displayed with at most one character more. -/
theorem parseStr_short {name text : Str} {rules : List SyntaxRule} (h : parseStr name text = .ok rules) : shown rules ≤ text.length + 1 := by
  obtain ⟨ts, h1, h2⟩ := parseStr_sound h
  have h3 := rules_short h2
  have h4 := lexes_widths h1
  have h5 := lexes_ends h1
  rw [widths_append, ends_append] at h3
  simp only [widths, width, ends] at h3
  omega

/-- The characters of all symbols. -/
theorem symbolText_length {b : Nat} : ∀ (l : List Instruction), (∀ y ∈ l, y.symbol.length ≤ b) → (symbolText l).length ≤ l.length * b
  | [], _ => by simp [symbolText]
  | y :: l, h => by
    have h1 := symbolText_length l (fun z hz => h z (by simp [hz]))
    have h2 := h y (by simp)
    unfold symbolText at *
    rw [List.flatMap_cons, List.length_append, List.length_cons, Nat.add_mul]
    omega

end Ebnf.Measure
