import Verif.Proofs.Measure
import Verif.Props.Compile
import Verif.Props.Display

set_option autoImplicit false

/-! # C106: printing and compiling do not blow a grammar up -/

namespace Ebnf.Props

open Ebnf Ebnf.Spec

/-- C106: a compiled grammar has exactly one instruction for each construct: terminal strings, names, special sequences, empty primaries, pairs of
brackets and braces, counts, exceptions, choices and rules. -/
theorem c106_instructions (config : Config) {rules : List SyntaxRule} {s : Syntax} {g : Graph} (hs : Syntax.new rules = .ok s)
    (hg : Graph.compile s config = .ok g) : g.instructions.length = constructsOfRules rules := (Measure.compile_measure hs hg).1

/-- C106: printing rules that were read from a text gives at most one character more than the text has (the `;` that may be missing at the end). -/
theorem c106_printed (name text : Str) (rules : List SyntaxRule) (h : parseStr name text = .ok rules) :
    (rules.flatMap SyntaxRule.display).length ≤ text.length + 1 := Measure.parseStr_short h

/-- C106: the compiled grammar has at most two instructions for each character of the text. -/
theorem c106_size (config : Config) (name text : Str) {rules : List SyntaxRule} (h : parseStr name text = .ok rules) {s : Syntax} {g : Graph}
    (hs : Syntax.new rules = .ok s) (hg : Graph.compile s config = .ok g) : g.instructions.length ≤ 2 * text.length := by
  have h1 := c106_instructions config hs hg
  have h2 := Measure.rules_few rules
  have h3 : Measure.shown rules ≤ text.length + 1 := c106_printed name text rules h
  cases rules with
  | nil => rw [h1]; simp [constructsOfRules]
  | cons r rs => simp only [List.length_cons] at h2; omega

/-- C106: and none of its symbols, which error messages show, is longer than nine times the text; so it takes at most quadratic memory. -/
theorem c106_symbols (config : Config) (hc : ShortSymbols config) (name text : Str) {rules : List SyntaxRule} (h : parseStr name text = .ok rules)
    {s : Syntax} {g : Graph} (hs : Syntax.new rules = .ok s) (hg : Graph.compile s config = .ok g) :
    (∀ x ∈ g.instructions, x.symbol.length ≤ 9 * text.length) ∧ (symbolText g.instructions).length ≤ 18 * text.length * text.length := by
  have h2 := (Measure.compile_measure hs hg).2 hc
  have h3 : Measure.shown rules ≤ text.length + 1 := c106_printed name text rules h
  have h4 : ∀ x ∈ g.instructions, x.symbol.length ≤ 9 * text.length := fun x hx => by have := h2 x hx; omega
  refine ⟨h4, Nat.le_trans (Measure.symbolText_length _ h4) ?_⟩
  rw [← Nat.mul_assoc]
  exact Nat.mul_le_mul_right _ (by have := c106_size config name text h hs hg; omega)

/-- C106: the default configuration is one with such short symbols. -/
theorem c106_default : ShortSymbols .default := fun _ s => by
  show ('?' :: s ++ ['?']).length ≤ _
  simp

/-! ## Quadratic memory is reached -/

/-- The definition `{{…'x'…}}` with `n` pairs of braces. -/
private def braces : Nat → DefinitionList
  | 0 => .cons (.cons (.plain (.mk 1 (.terminalString ⟨[], 1, 1⟩ ['x']))) .nil) .nil
  | n + 1 => .cons (.cons (.plain (.mk 1 (.repeated ⟨[], 1, 1⟩ (braces n)))) .nil) .nil

private theorem braces_shape (n : Nat) : braces n ≠ .nil ∧ ListShape (braces n) ∧ PrintableList (braces n) ∧
    ¬ EndsRepeatedEmpty (braces n) := by
  induction n with
  | zero =>
    refine ⟨by simp [braces], ?_, ?_, ?_⟩
    · simp only [braces, ListShape, SingleShape, TermShape, FactorShape, PrimaryShape]
      refine ⟨by simp, ⟨⟨by decide, by simp, ?_, by simp⟩, trivial⟩, trivial⟩
      intro c hc
      simp only [List.mem_singleton] at hc
      subst hc
      unfold IsPrintable
      decide
    · simp [braces, PrintableList, PrintableSingle, PrintableTerm, PrintableFactor, PrintablePrimary]
    · simp [braces, EndsRepeatedEmpty, EndsRepeatedEmptySingle, EndsRepeatedEmptyTerm, RepeatedEmpty]
  | succ n ih =>
    obtain ⟨h1, h2, h3, h4⟩ := ih
    refine ⟨by simp [braces], ?_, ?_, ?_⟩
    · simp only [braces, ListShape, SingleShape, TermShape, FactorShape, PrimaryShape]
      exact ⟨by simp, ⟨⟨by decide, h1, h2⟩, trivial⟩, trivial⟩
    · simp [braces, PrintableList, PrintableSingle, PrintableTerm, PrintableFactor, PrintablePrimary, h3, h4]
    · simp [braces, EndsRepeatedEmpty, EndsRepeatedEmptySingle, EndsRepeatedEmptyTerm, RepeatedEmpty]

private theorem braces_display (n : Nat) : (braces n).display =
    List.replicate n '{' ++ ['\'', 'x', '\''] ++ List.replicate n '}' := by
  induction n with
  | zero => decide
  | succ n ih =>
    simp only [braces, DefinitionList.display, SingleDefinition.display, Term.display, Factor.display, Primary.display, ih]
    simp [List.replicate_succ, ← List.replicate_succ']

/-- `l` is that definition, with any locations. -/
private inductive Braces : Nat → DefinitionList → Prop
  | zero (loc) : Braces 0 (.cons (.cons (.plain (.mk 1 (.terminalString loc ['x']))) .nil) .nil)
  | succ (loc) {n l} : Braces n l → Braces (n + 1) (.cons (.cons (.plain (.mk 1 (.repeated loc l))) .nil) .nil)

private theorem one_of_map (f e : Location → Location) (q : Primary) (l : DefinitionList)
    (h : mapList f e l = .cons (.cons (.plain (.mk 1 q)) .nil) .nil) :
    ∃ p, l = .cons (.cons (.plain (.mk 1 p)) .nil) .nil ∧ mapPrimary f e p = q := by
  cases l with
  | nil => simp [mapList] at h
  | cons d l =>
    simp only [mapList, DefinitionList.cons.injEq] at h
    obtain ⟨h, h9⟩ := h
    cases l with
    | cons => simp [mapList] at h9
    | nil =>
      cases d with
      | nil => simp [mapSingle] at h
      | cons t d =>
        simp only [mapSingle, SingleDefinition.cons.injEq] at h
        obtain ⟨h, h10⟩ := h
        cases d with
        | cons => simp [mapSingle] at h10
        | nil =>
          cases t with
          | except => simp [mapTerm] at h
          | plain x =>
            obtain ⟨k, p⟩ := x
            simp only [mapTerm, mapFactor, Term.plain.injEq, Factor.mk.injEq] at h
            obtain ⟨rfl, h⟩ := h
            exact ⟨p, rfl, h⟩

private theorem braces_of_map (f e : Location → Location) : ∀ (n : Nat) (l : DefinitionList), mapList f e l = mapList f e (braces n) → Braces n l := by
  intro n
  induction n with
  | zero =>
    intro l h
    obtain ⟨p, rfl, hp⟩ := one_of_map f e _ l h
    cases p <;> simp only [mapPrimary, reduceCtorEq] at hp
    injection hp with _ hp
    subst hp
    exact .zero _
  | succ n ih =>
    intro l h
    obtain ⟨p, rfl, hp⟩ := one_of_map f e _ l h
    cases p <;> simp only [mapPrimary, reduceCtorEq] at hp
    injection hp with _ hp
    exact .succ _ (ih _ hp)

private theorem braces_length {n : Nat} {l : DefinitionList} (h : Braces n l) : l.display.length = 2 * n + 3 := by
  induction h with
  | zero loc => rfl
  | succ loc h ih =>
    simp only [DefinitionList.display, SingleDefinition.display, Term.display, Factor.display, Primary.display]
    simp [ih]; omega

private theorem braces_compile (config : Config) {n : Nat} {l : DefinitionList} (h : Braces n l) : ∀ steps, ∃ i new,
    registerDefinitionList config steps none l = .ok (i, steps ++ new) ∧ n * n ≤ (symbolText new).length := by
  induction h with
  | zero loc => exact fun steps => ⟨steps.length, [_], rfl, by simp⟩
  | @succ loc n l h ih =>
    intro steps
    obtain ⟨i, new, h1, h2⟩ := ih steps
    refine ⟨(steps ++ new).length, new ++ [⟨none, (Primary.repeated loc l).display, loc, .repetition 0 u32Max i⟩], ?_, ?_⟩
    · simp [registerDefinitionList, registerTerms, registerTerm, registerFactor, registerPrimary, h1, Res.bind_ok]
    · have h3 := braces_length h
      have h4 : (n + 1) * (n + 1) = n * n + 2 * n + 1 := by simp only [Nat.add_mul, Nat.mul_add]; omega
      unfold symbolText at *
      rw [h4, List.flatMap_append, List.length_append]
      simp only [List.flatMap_cons, List.flatMap_nil, List.append_nil, Primary.display, List.length_append, List.length_cons, List.length_nil, h3]
      omega

/-- C106: the memory is quadratic for some grammars: the symbols of the compiled `a={{…'x'…}};` with `n` pairs of braces, a text of `2n + 6`
characters, have at least `n * n` characters. -/
theorem c106_quadratic (name : Str) (n : Nat) : ∃ rule s,
    parseStr name ("a=".toList ++ List.replicate n '{' ++ "'x'".toList ++ List.replicate n '}' ++ ";".toList) = .ok [rule] ∧
    Syntax.new [rule] = .ok s ∧ ∀ config, ∃ g, Graph.compile s config = .ok g ∧ n * n ≤ (symbolText g.instructions).length := by
  obtain ⟨h1, h2, h3, _⟩ := braces_shape n
  obtain ⟨rule, h6, h7⟩ := c13_round_trip_tree_partial name ⟨⟨[], 1, 1⟩, ['a'], braces n⟩
    ⟨⟨[['a']], by simp, rfl, by simp [IsLetter]; exact ⟨'a', [], by simp, by decide, by simp⟩⟩, h1, h2⟩ h3
  have ht : SyntaxRule.display ⟨⟨[], 1, 1⟩, ['a'], braces n⟩ =
      "a=".toList ++ List.replicate n '{' ++ "'x'".toList ++ List.replicate n '}' ++ ";".toList := by
    simp [SyntaxRule.display, braces_display]
  rw [ht] at h6
  have hn : rule.metaIdentifier = ['a'] := congrArg SyntaxRule.metaIdentifier h7
  have hb : Braces n rule.definitionList := braces_of_map _ _ n _ (congrArg SyntaxRule.definitionList h7)
  obtain ⟨loc, name', list⟩ := rule
  simp only at hn hb
  subst hn
  have hs : Syntax.new [⟨loc, ['a'], list⟩] = .ok ⟨[(['a'], ['a'])], [(['a'], 0)], [⟨loc, ['a'], list⟩]⟩ := by
    have hk : normalizedMetaIdentifier ['a'] = ['a'] := by decide +kernel
    have hk' : keyedMetaIdentifier ['a'] = ['a'] := by decide +kernel
    cases hb <;>
      simp [Syntax.new, newSyntaxLoop, hk, hk', Map.get?, Map.insert, allDefined, isDefined, isDefinedTerms, Factor.primary, isDef]
  refine ⟨_, _, h6, hs, fun config => ?_⟩
  obtain ⟨i, new, h8, h9⟩ := braces_compile config hb []
  obtain ⟨g, hg⟩ : ∃ g, Graph.compile ⟨[(['a'], ['a'])], [(['a'], 0)], [⟨loc, ['a'], list⟩]⟩ config = .ok g := by
    obtain ⟨g, hg, _⟩ := c51_lexed_compiles config name _ h6 hs
    exact ⟨g, hg⟩
  refine ⟨g, hg, ?_⟩
  have hc : Syntax.canonicalName ⟨[(['a'], ['a'])], [(['a'], 0)], [⟨loc, ['a'], list⟩]⟩ ['a'] = some ['a'] := by
    have hk' : keyedMetaIdentifier ['a'] = ['a'] := by decide +kernel
    simp [Syntax.canonicalName, hk', Map.get?]
  simp only [Graph.compile, Graph.compileLoop, hc, h8, Res.bind_ok, Res.ok.injEq] at hg
  subst hg
  unfold symbolText at *
  simp only [List.nil_append, List.flatMap_append, List.length_append]
  omega

/-! ## Examples -/

/-- Printing a text that is written tightly reproduces it; without its last `;` it gains one character. -/
example : ∃ rules, parseStr [] "a=2*[b]-'x'|;b=?y?".toList = .ok rules ∧
    rules.flatMap SyntaxRule.display = "a=2*[b]-'x'|;b=?y?;".toList ∧ constructsOfRules rules = 10 :=
  ⟨_, rfl, by decide +kernel, by decide +kernel⟩

/-- A text with more than one instruction per character. -/
example : ∃ rules, parseStr [] "a=-,-,-,-,-,-,-,-".toList = .ok rules ∧ 17 < constructsOfRules rules :=
  ⟨_, rfl, by decide +kernel⟩

end Ebnf.Props
