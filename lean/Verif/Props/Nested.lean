import Verif.Proofs.NestedExact
import Verif.Props.Display
import Verif.Props.Compile

set_option autoImplicit false

/-! # C80: the call stack that reading, printing and compiling a grammar need -/

namespace Ebnf.Props

open Ebnf Ebnf.Spec

/-- C80: a text whose rules can be read is read if the stack has room for the brackets as deep as they are nested; otherwise the stack is
exhausted. -/
theorem c80_read (name text : Str) (rules : List SyntaxRule) (h : parseStr name text = .ok rules) (room : Nat) :
    Nested.parseStr room name text = fits (depthOfRules rules) room (.ok rules) :=
  Nested.parseStr_exact room h

/-- C80: every text, also one that cannot be read, has a threshold, not above its length: with less stack it is exhausted, with more the result is
the one of an unbounded stack. -/
theorem c80_threshold (name text : Str) :
    ∃ needed, needed ≤ text.length + 1 ∧ ∀ room, Nested.parseStr room name text = fits needed room (parseStr name text) := by
  have h0 := Nested.parseStr_enough (room := text.length + 1) (name := name) (s := text) (Nat.le_refl _)
  have find : ∀ k, Nested.parseStr k name text = parseStr name text →
      ∃ n, n ≤ k ∧ Nested.parseStr n name text = parseStr name text ∧ ∀ j, j < n → Nested.parseStr j name text ≠ parseStr name text := by
    intro k
    induction k using Nat.strongRecOn with
    | _ k ih =>
      intro hk
      by_cases hex : ∃ j, j < k ∧ Nested.parseStr j name text = parseStr name text
      · obtain ⟨j, h1, h2⟩ := hex
        obtain ⟨n, h3, h4⟩ := ih j h1 h2
        exact ⟨n, by omega, h4⟩
      · exact ⟨k, Nat.le_refl _, hk, fun j hj h => hex ⟨j, hj, h⟩⟩
  obtain ⟨n, h1, h2, h3⟩ := find _ h0
  refine ⟨n, h1, fun room => ?_⟩
  by_cases hr : n ≤ room
  · rw [Nested.fits_pos hr]
    rcases Nested.parseStr_either room name text with h | h
    · obtain ⟨j, rfl⟩ : ∃ j, room = n + j := ⟨room - n, by omega⟩
      rcases Nested.parseStr_more n j name text with h4 | h4
      · rw [h, ← h2, h4]
      · rw [← h4, h2]
    · exact h
  · rw [Nested.fits_neg hr]
    rcases Nested.parseStr_either room name text with h | h
    · exact h
    · exact absurd h (h3 room (by omega))

/-- C80: printing a syntax needs the same. -/
theorem c80_print (s : Syntax) (room : Nat) :
    Nested.displaySyntax room s = fits (depthOfRules s.syntaxRules) room (.ok s.display) :=
  Nested.displayRules_exact room s.syntaxRules

/-- C80: compiling a syntax whose rules were read needs the same. -/
theorem c80_compile (config : Config) (name text : Str) {rules : List SyntaxRule} (h : parseStr name text = .ok rules) {s : Syntax}
    (hs : Syntax.new rules = .ok s) : s.syntaxRules = rules ∧
      ∃ g, Graph.compile s config = .ok g ∧ ∀ room, Nested.compile room s config = fits (depthOfRules rules) room (.ok g) := by
  obtain ⟨g, hg, _⟩ := c51_lexed_compiles config name text h hs
  have hr : s.syntaxRules = rules := by
    unfold Syntax.new at hs
    obtain ⟨x, _, hs⟩ := Res.bind_eq_ok.mp hs
    obtain ⟨n, r⟩ := x
    obtain ⟨_, _, hs⟩ := Res.bind_eq_ok.mp hs
    simp at hs
    rw [← hs]
  refine ⟨hr, g, hg, fun room => ?_⟩
  rw [← hr]
  exact Nested.compileLoop_ex room s config s.syntaxRules _ g hg

/-! ## Deeply nested grammars exhaust every stack -/

/-- The definition `((…'x'…))` with `n` pairs of parentheses. -/
private def nestedGroups : Nat → DefinitionList
  | 0 => .cons (.cons (.plain (.mk 1 (.terminalString ⟨[], 1, 1⟩ ['x']))) .nil) .nil
  | n + 1 => .cons (.cons (.plain (.mk 1 (.grouped ⟨[], 1, 1⟩ (nestedGroups n)))) .nil) .nil

private theorem nestedGroups_shape (n : Nat) : nestedGroups n ≠ .nil ∧ ListShape (nestedGroups n) ∧ PrintableList (nestedGroups n) ∧
    ¬ EndsRepeatedEmpty (nestedGroups n) ∧ depthOf (nestedGroups n) = n := by
  induction n with
  | zero =>
    refine ⟨by simp [nestedGroups], ?_, ?_, ?_, ?_⟩
    · simp only [nestedGroups, ListShape, SingleShape, TermShape, FactorShape, PrimaryShape]
      refine ⟨by simp, ⟨⟨by decide, by simp, ?_, by simp⟩, trivial⟩, trivial⟩
      intro c hc
      simp only [List.mem_singleton] at hc
      subst hc
      unfold IsPrintable
      decide
    · simp [nestedGroups, PrintableList, PrintableSingle, PrintableTerm, PrintableFactor, PrintablePrimary]
    · simp [nestedGroups, EndsRepeatedEmpty, EndsRepeatedEmptySingle, EndsRepeatedEmptyTerm, RepeatedEmpty]
    · simp [nestedGroups, depthOf, depthOfSingle, depthOfTerm, depthOfFactor, depthOfPrimary]
  | succ n ih =>
    obtain ⟨h1, h2, h3, h4, h5⟩ := ih
    refine ⟨by simp [nestedGroups], ?_, ?_, ?_, ?_⟩
    · simp only [nestedGroups, ListShape, SingleShape, TermShape, FactorShape, PrimaryShape]
      exact ⟨by simp, ⟨⟨by decide, h1, h2⟩, trivial⟩, trivial⟩
    · simp [nestedGroups, PrintableList, PrintableSingle, PrintableTerm, PrintableFactor, PrintablePrimary, h3, h4]
    · simp [nestedGroups, EndsRepeatedEmpty, EndsRepeatedEmptySingle, EndsRepeatedEmptyTerm, RepeatedEmpty]
    · simp [nestedGroups, depthOf, depthOfSingle, depthOfTerm, depthOfFactor, depthOfPrimary, h5]

private theorem nestedGroups_display (n : Nat) : (nestedGroups n).display =
    List.replicate n '(' ++ ['\'', 'x', '\''] ++ List.replicate n ')' := by
  induction n with
  | zero => decide
  | succ n ih =>
    simp only [nestedGroups, DefinitionList.display, SingleDefinition.display, Term.display, Factor.display, Primary.display, ih]
    simp [List.replicate_succ, ← List.replicate_succ']

mutual
private theorem depth_mapPrimary (f e : Location → Location) : (p : Primary) → depthOfPrimary (mapPrimary f e p) = depthOfPrimary p
  | .optional _ l => by simp [mapPrimary, depthOfPrimary, depth_mapList f e l]
  | .repeated _ l => by simp [mapPrimary, depthOfPrimary, depth_mapList f e l]
  | .grouped _ l => by simp [mapPrimary, depthOfPrimary, depth_mapList f e l]
  | .metaIdentifier _ _ => rfl
  | .terminalString _ _ => rfl
  | .specialSequence _ _ => rfl
  | .empty _ => rfl
private theorem depth_mapFactor (f e : Location → Location) : (p : Factor) → depthOfFactor (mapFactor f e p) = depthOfFactor p
  | .mk _ p => by simp [mapFactor, depthOfFactor, depth_mapPrimary f e p]
private theorem depth_mapTerm (f e : Location → Location) : (p : Term) → depthOfTerm (mapTerm f e p) = depthOfTerm p
  | .plain x => by simp [mapTerm, depthOfTerm, depth_mapFactor f e x]
  | .except x y => by simp [mapTerm, depthOfTerm, depth_mapFactor f e x, depth_mapFactor f e y]
private theorem depth_mapSingle (f e : Location → Location) : (p : SingleDefinition) → depthOfSingle (mapSingle f e p) = depthOfSingle p
  | .nil => rfl
  | .cons t d => by simp [mapSingle, depthOfSingle, depth_mapTerm f e t, depth_mapSingle f e d]
private theorem depth_mapList (f e : Location → Location) : (p : DefinitionList) → depthOf (mapList f e p) = depthOf p
  | .nil => rfl
  | .cons d l => by simp [mapList, depthOf, depth_mapSingle f e d, depth_mapList f e l]
end

/-- C80: for every stack there is a grammar that exhausts it: `a=((…'x'…));` with `n` pairs of parentheses is valid, and with room for fewer than
`n` brackets it can neither be read, nor, once read, be printed or compiled. -/
theorem c80_deep_grammar (name : Str) (n : Nat) : ∃ rule s,
    parseStr name ("a=".toList ++ List.replicate n '(' ++ "'x'".toList ++ List.replicate n ')' ++ ";".toList) = .ok [rule] ∧
    Syntax.new [rule] = .ok s ∧ ∀ room, room < n →
      Nested.parseStr room name ("a=".toList ++ List.replicate n '(' ++ "'x'".toList ++ List.replicate n ')' ++ ";".toList) =
        .panic .stackOverflow ∧
      Nested.displaySyntax room s = .panic .stackOverflow ∧ ∀ config, Nested.compile room s config = .panic .stackOverflow := by
  obtain ⟨h1, h2, h3, _, h5⟩ := nestedGroups_shape n
  obtain ⟨rule, h6, h7⟩ := c13_round_trip_tree_partial name ⟨⟨[], 1, 1⟩, ['a'], nestedGroups n⟩
    ⟨⟨[['a']], by simp, rfl, by simp [IsLetter]; exact ⟨'a', [], by simp, by decide, by simp⟩⟩, h1, h2⟩ h3
  have ht : SyntaxRule.display ⟨⟨[], 1, 1⟩, ['a'], nestedGroups n⟩ =
      "a=".toList ++ List.replicate n '(' ++ "'x'".toList ++ List.replicate n ')' ++ ";".toList := by
    simp [SyntaxRule.display, nestedGroups_display]
  rw [ht] at h6
  have hd : depthOfRules [rule] = n := by
    have h8 := congrArg (fun r : SyntaxRule => depthOf r.definitionList) h7
    simp only [forgetLocations, mapRule, depth_mapList] at h8
    simp [depthOfRules, h8, h5]
  have hn : rule.metaIdentifier = ['a'] := congrArg SyntaxRule.metaIdentifier h7
  have hl : ∃ loc, rule.definitionList = .cons (.cons (.plain (.mk 1 loc)) .nil) .nil ∧ ∀ l s, loc ≠ .metaIdentifier l s := by
    have h8 : mapList _ _ rule.definitionList = mapList _ _ (nestedGroups n) := congrArg SyntaxRule.definitionList h7
    revert h8
    generalize rule.definitionList = l
    intro h8
    cases n <;> simp only [nestedGroups, mapList, mapSingle, mapTerm, mapFactor, mapPrimary] at h8
    all_goals
      cases l with
      | nil => simp [mapList] at h8
      | cons d l =>
        simp only [mapList, DefinitionList.cons.injEq] at h8
        obtain ⟨h8, h9⟩ := h8
        cases l with
        | cons => simp [mapList] at h9
        | nil =>
          cases d with
          | nil => simp [mapSingle] at h8
          | cons t d =>
            simp only [mapSingle, SingleDefinition.cons.injEq] at h8
            obtain ⟨h8, h10⟩ := h8
            cases d with
            | cons => simp [mapSingle] at h10
            | nil =>
              cases t with
              | except => simp [mapTerm] at h8
              | plain f =>
                obtain ⟨k, p⟩ := f
                simp only [mapTerm, mapFactor, Term.plain.injEq, Factor.mk.injEq] at h8
                obtain ⟨rfl, h8⟩ := h8
                refine ⟨p, rfl, ?_⟩
                rintro l s rfl
                simp [mapPrimary] at h8
  obtain ⟨p, hp, hp'⟩ := hl
  have hs : ∃ s, Syntax.new [rule] = .ok s := by
    have hk : normalizedMetaIdentifier rule.metaIdentifier = rule.metaIdentifier := by rw [hn]; decide +kernel
    have hdef : ∀ d, isDef d p = .ok () := by
      intro d
      cases p with
      | metaIdentifier l s => exact absurd rfl (hp' l s)
      | _ => rfl
    refine ⟨⟨[(['a'], ['a'])], [(['a'], 0)], [rule]⟩, ?_⟩
    simp [Syntax.new, newSyntaxLoop, hk, Map.get?, Map.insert, allDefined, hp, isDefined, isDefinedTerms, Factor.primary, hdef]
    rw [hn]
    decide +kernel
  obtain ⟨s, hs⟩ := hs
  refine ⟨rule, s, h6, hs, fun room hr => ?_⟩
  refine ⟨?_, ?_, ?_⟩
  · rw [c80_read _ _ _ h6, hd, Nested.fits_neg (by omega)]
  · rw [c80_print, (c80_compile .default _ _ h6 hs).1, hd, Nested.fits_neg (by omega)]
  · intro config
    obtain ⟨_, g, _, hg⟩ := c80_compile config _ _ h6 hs
    rw [hg, hd, Nested.fits_neg (by omega)]

/-- A grammar with brackets nested twice: room for one bracket is not enough, room for two is. -/
example : (∃ rules, parseStr [] "a=[b,{'x'}],('y');b=;".toList = .ok rules ∧ depthOfRules rules = 2) ∧
    Nested.parseStr 1 [] "a=[b,{'x'}],('y');b=;".toList = .panic .stackOverflow ∧
    (∃ rules, Nested.parseStr 2 [] "a=[b,{'x'}],('y');b=;".toList = .ok rules) := by
  have h : (match parseStr [] "a=[b,{'x'}],('y');b=;".toList with
    | .ok rules => decide (depthOfRules rules = 2) | _ => false) = true := by decide +kernel
  cases hx : parseStr [] "a=[b,{'x'}],('y');b=;".toList with
  | ok rules =>
    rw [hx] at h
    simp only [decide_eq_true_eq] at h
    refine ⟨⟨rules, rfl, h⟩, ?_, rules, ?_⟩
    · rw [c80_read _ _ _ hx, Nested.fits_neg (by omega)]
    · rw [c80_read _ _ _ hx, Nested.fits_pos (by omega)]
  | err e => rw [hx] at h; cases h
  | panic e => rw [hx] at h; cases h
  | diverge => rw [hx] at h; cases h

/-- A text that cannot be read: the unclosed bracket is found after the stack would have been exhausted by the one around it. -/
example : (∃ e, parseStr [] "a=(['x');".toList = .err e) ∧ Nested.parseStr 0 [] "a=(['x');".toList = .panic .stackOverflow ∧
    (∃ e, Nested.parseStr 1 [] "a=(['x');".toList = .err e) :=
  ⟨⟨⟨⟨[], 1, 4⟩, .bracketNotClosed .startOption ['[']⟩, by decide +kernel⟩, by decide +kernel,
    ⟨⟨⟨[], 1, 4⟩, .bracketNotClosed .startOption ['[']⟩, by decide +kernel⟩⟩

end Ebnf.Props
