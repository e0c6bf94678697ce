import Verif.Proofs.StepsBound
import Verif.Spec.Steps
import Verif.Props.Stack

set_option autoImplicit false

/-! # C82: how many instructions a parse executes -/

namespace Ebnf.Props

open Ebnf Ebnf.Spec

variable {dbg : Bool}

private theorem steps_pure {G : Language} {start : SyntaxRule} {m : Machine} (hp : ParserFor dbg G start m) {r : Reader} {here : Location}
    {text : Str} (hi : InputAt dbg r here text) (fuel : Nat) :
    m.steps fuel r = csteps (semOf dbg) m.graph fuel (some m.entry) here text := by
  obtain ⟨config, L, hb, _⟩ := parser_linked hp
  obtain ⟨c, hs, rfl, rfl⟩ := input_stands hi
  exact counts_steps hb fuel (some m.entry) r c hs

/-- C82: a parse that returns executes a certain number of instructions. -/
theorem c82_executes {G : Language} {start : SyntaxRule} {m : Machine} (hp : ParserFor dbg G start m) {r : Reader} {here : Location}
    {text : Str} (hi : InputAt dbg r here text) {x : Res (List Event)} (h : Returns m r x) : ∃ n, Executes m r n := by
  obtain ⟨hx, f0, h⟩ := h
  refine ⟨m.steps f0 r, f0, fun fuel hf => ?_⟩
  rw [steps_pure hp hi, steps_pure hp hi]
  refine csteps_longer hf ?_
  obtain ⟨config, L, hb, _⟩ := parser_linked hp
  obtain ⟨c, hs, rfl, rfl⟩ := input_stands hi
  intro hn
  have := h f0 (Nat.le_refl _)
  rw [parse_pure hb f0 hs, conclude_prun, hn] at this
  exact hx this.symm

/-- C82: a parse that does not return executes ever more instructions. -/
theorem c82_forever {G : Language} {start : SyntaxRule} {m : Machine} (hp : ParserFor dbg G start m) {r : Reader} {here : Location}
    {text : Str} (hi : InputAt dbg r here text) (h : Loops m r) : ExecutesForever m r := by
  refine fun n => ⟨n, fun fuel hf => Nat.le_trans hf ?_⟩
  rw [steps_pure hp hi]
  apply csteps_forever
  obtain ⟨config, L, hb, _⟩ := parser_linked hp
  obtain ⟨c, hs, rfl, rfl⟩ := input_stands hi
  have := h fuel
  rw [parse_pure hb fuel hs, conclude_prun] at this
  cases ho : prun (semOf dbg) m.graph fuel (some m.entry) c.location c.rest with
  | none => rfl
  | some o => rw [ho] at this; exact absurd this (conclude_ne o)

/-- What a bounded stack tells about the number of instructions. -/
private theorem executes_within {G : Language} {start : SyntaxRule} {m : Machine} (hp : ParserFor dbg G start m) {r : Reader}
    {here : Location} {text : Str} (hi : InputAt dbg r here text) {frames : Nat} {x : Res (List Event)} (hx : x ≠ .panic .stackOverflow)
    (h1 : Returns m r x) (h2 : ReturnsWithin frames m r x) : ∃ n, Executes m r n ∧
      n ≤ ((m.graph.instructions.length + 1) * (fans m.graph.instructions + text.length + 3)) ^ frames := by
  obtain ⟨n, f0, h3⟩ := c82_executes hp hi h1
  refine ⟨n, ⟨f0, h3⟩, ?_⟩
  obtain ⟨config, L, hb, _⟩ := parser_linked hp
  obtain ⟨⟨s, config', g, query, _, _, hg, _, hm⟩, _, _⟩ := hp
  have hm : m.graph = g := by
    unfold Machine.new at hm
    cases ha : g.indexOfLabel ('$' :: query) with
    | none => rw [ha] at hm; simp at hm
    | some a =>
      rw [ha] at hm
      simp only at hm
      cases hn : g.canonicalName query with
      | none => rw [hn] at hm; simp at hm
      | some n => rw [hn] at hm; simp at hm; subst hm; rfl
  have hd : Descends m.graph.instructions := hm ▸ compile_descends hg
  obtain ⟨c, hs, rfl, rfl⟩ := input_stands hi
  obtain ⟨_, f1, h2⟩ := h2
  have h4 := h2 (max f0 f1) (by omega)
  rw [parse_deep hb frames _ hs] at h4
  have h5 : pcall (semOf dbg) m.graph frames (max f0 f1) m.entry c.location c.rest ≠ some overflow := by
    intro h
    rw [h] at h4
    exact hx h4.symm
  rw [← h3 (max f0 f1) (by omega), show m.steps (max f0 f1) r = _ from counts_steps hb _ (some m.entry) r c hs, ← ccall_plain h5]
  exact Nat.le_trans (call_bound hb hd c.rest.length frames _ _ _ _ (Nat.le_refl _)) (callBound_le _ _ _ _)

private theorem bounded_calls (rules : List SyntaxRule) : ∃ N, 1 ≤ N ∧ ∀ rule ∈ rules, callsOfList rule.definitionList ≤ N := by
  induction rules with
  | nil => exact ⟨1, Nat.le_refl _, fun _ h => by cases h⟩
  | cons rule rules ih =>
    obtain ⟨N, h1, h2⟩ := ih
    refine ⟨N + callsOfList rule.definitionList, by omega, fun r hr => ?_⟩
    rcases List.mem_cons.mp hr with rfl | hr
    · omega
    · have := h2 r hr; omega

private theorem base_le (I A n B : Nat) (h : (I + 1) * (A + 3) ≤ B) : (I + 1) * (A + n + 3) ≤ B * (n + 1) := by
  have h1 : A + n + 3 ≤ (A + 3) * (n + 1) := by
    rw [Nat.mul_succ]
    have : n ≤ (A + 3) * n := Nat.le_mul_of_pos_left n (by omega)
    omega
  refine Nat.le_trans (Nat.mul_le_mul_left _ h1) ?_
  rw [← Nat.mul_assoc]
  exact Nat.mul_le_mul_right _ h

/-- C82: without left recursion, the number of instructions is bounded: for a text of `n` characters, by `(B (n + 1)) ^ (B (n + 1))`, where `B`
depends on the grammar alone. -/
theorem c82_bound {G : Language} {start : SyntaxRule} {m : Machine} (hp : ParserFor dbg G start m) (hG : ¬ LeftRecursive G) :
    ∃ B, ∀ (r : Reader) (here : Location) (text : Str), InputAt dbg r here text →
      ∃ n, Executes m r n ∧ n ≤ (B * (text.length + 1)) ^ (B * (text.length + 1)) := by
  obtain ⟨N, hN1, hN⟩ := bounded_calls G.rules
  refine ⟨(m.graph.instructions.length + 1) * (fans m.graph.instructions + 3) + ((G.rules.length + 1) * N + 2), fun r here text hi => ?_⟩
  obtain ⟨x, h1, h2, h3⟩ := c77_linear hp hG hN1 hN hi (Nat.le_refl _)
  obtain ⟨n, h4, h5⟩ := executes_within hp hi h1 h2 h3
  refine ⟨n, h4, Nat.le_trans h5 ?_⟩
  generalize hB : (m.graph.instructions.length + 1) * (fans m.graph.instructions + 3) + ((G.rules.length + 1) * N + 2) = B
  have hbase := base_le m.graph.instructions.length (fans m.graph.instructions) text.length B (by omega)
  have hexp : (text.length * (G.rules.length + 1) + G.rules.length) * N + 2 ≤ B * (text.length + 1) := by
    have e1 : (text.length * (G.rules.length + 1) + G.rules.length) * N ≤ ((G.rules.length + 1) * N) * (text.length + 1) := by
      have : text.length * (G.rules.length + 1) + G.rules.length ≤ (G.rules.length + 1) * (text.length + 1) := by
        rw [Nat.mul_comm text.length, Nat.mul_add, Nat.mul_one]; omega
      refine Nat.le_trans (Nat.mul_le_mul_right N this) ?_
      rw [Nat.mul_right_comm]
      exact Nat.le_refl _
    have e2 : ((G.rules.length + 1) * N + 2) * (text.length + 1) ≤ B * (text.length + 1) := Nat.mul_le_mul_right _ (by omega)
    rw [Nat.add_mul] at e2
    omega
  refine Nat.le_trans (Nat.pow_le_pow_left hbase _) (Nat.pow_le_pow_right ?_ hexp)
  exact Nat.mul_pos (by omega) (by omega)

/-- C82: without recursion, it is bounded by a polynomial: `(B (n + 1)) ^ B`. -/
theorem c82_polynomial {G : Language} {start : SyntaxRule} {m : Machine} (hp : ParserFor dbg G start m) (hG : ¬ Recursive G) :
    ∃ B, ∀ (r : Reader) (here : Location) (text : Str), InputAt dbg r here text →
      ∃ n, Executes m r n ∧ n ≤ (B * (text.length + 1)) ^ B := by
  obtain ⟨N, hN1, hN⟩ := bounded_calls G.rules
  refine ⟨(m.graph.instructions.length + 1) * (fans m.graph.instructions + 3) + (G.rules.length * N + 2), fun r here text hi => ?_⟩
  obtain ⟨x, h1, h2, h3⟩ := c77_not_recursive hp hG hN hi (Nat.le_refl _)
  obtain ⟨n, h4, h5⟩ := executes_within hp hi h1 h2 h3
  refine ⟨n, h4, Nat.le_trans h5 ?_⟩
  generalize hB : (m.graph.instructions.length + 1) * (fans m.graph.instructions + 3) + (G.rules.length * N + 2) = B
  have hbase := base_le m.graph.instructions.length (fans m.graph.instructions) text.length B (by omega)
  refine Nat.le_trans (Nat.pow_le_pow_left hbase _) (Nat.pow_le_pow_right ?_ (by omega))
  exact Nat.mul_pos (by omega) (by omega)

/-! ## Recursive grammars can take exponential time -/

private def seqOf (c : Char) (col : Nat) : SingleDefinition :=
  .cons (.plain (.mk 1 (.terminalString ⟨[], 1, col⟩ ['a']))) (.cons (.plain (.mk 1 (.metaIdentifier ⟨[], 1, col + 4⟩ ['A'])))
    (.cons (.plain (.mk 1 (.terminalString ⟨[], 1, col + 6⟩ [c]))) .nil))

/-- The rule `A='a',A,'b'|'a',A,'c'|'d';`. -/
def slowRule : SyntaxRule :=
  ⟨⟨[], 1, 1⟩, ['A'], .cons (seqOf 'b' 3) (.cons (seqOf 'c' 13) (.cons (.cons (.plain (.mk 1 (.terminalString ⟨[], 1, 23⟩ ['d']))) .nil) .nil))⟩

/-- `n` times `a`, `d`, and `n` times `c`. -/
private def word (n : Nat) : Str := List.replicate n 'a' ++ 'd' :: List.replicate n 'c'

private theorem word_succ (n : Nat) (tail : Str) : word (n + 1) ++ tail = 'a' :: (word n ++ 'c' :: tail) := by
  simp only [word, List.replicate_succ, List.cons_append, List.append_assoc]
  congr 3
  rw [← List.cons_append, ← List.replicate_succ, List.replicate_succ', List.append_assoc]
  rfl

private theorem word_length (n : Nat) : (word n).length = 2 * n + 1 := by simp [word]; omega

private abbrev slow : Language := plainLanguage [slowRule]

/-- The first alternative fails, after `a` and `A`. -/
private theorem first_fails {n : Nat} {here : Location} {tail : Str} {evs : List Event}
    (h : Ev asBuilt slow (.list slowRule.definitionList) (lineColumn here ['a']) (word n ++ 'c' :: tail) (.ok evs (2 * n + 1))) :
    ∃ e evs' k, Ev asBuilt slow (.sequence (seqOf 'b' 3)) here ('a' :: (word n ++ 'c' :: tail)) (.fail e evs' k) := by
  have hb := word_length n
  have hd : List.drop (2 * n + 1) (word n ++ 'c' :: tail) = 'c' :: tail := by
    rw [← hb, List.drop_left]
  refine ⟨_, _, _, Ev.next (o := .fail _ _ _) (by simp [IsBareGroup]) (.plain (.once (.terminal (by simp))))
    (Ev.next (o := .fail _ _ _) (by simp [IsBareGroup]) (.plain (.once (.reference (r := slowRule) (by simp [plainLanguage]) (.refl _) h)))
      (.nextFail (.plain (.once (.terminalFail ?_))) (fun h => h)))⟩
  rw [show List.drop (2 * n + 1) (List.drop (['a'] : Str).length ('a' :: (word n ++ 'c' :: tail))) = 'c' :: tail from hd]
  simp [List.prefix_cons_iff]

private theorem slow_ev (n : Nat) : ∀ here tail, ∃ evs, Ev asBuilt slow (.list slowRule.definitionList) here
    (word n ++ tail) (.ok evs (2 * n + 1)) := by
  induction n with
  | zero =>
    intro here tail
    have no : ∀ c col, Ev asBuilt slow (.sequence (seqOf c col)) here (word 0 ++ tail)
        (.fail (expectedAt (debugStr ['a']) here (word 0 ++ tail)) [] 0) := by
      intro c col
      refine .nextFail (.plain (.once (.terminalFail ?_))) (fun h => h)
      simp [word, List.prefix_cons_iff]
    refine ⟨_, .choice (.other (no 'b' 3) (.other (no 'c' 13) (.first (o := .ok _ _) (.next (o := .ok [] 0) (by simp [IsBareGroup])
      (.plain (.once (.terminal ?_))) .done) (by simp)) (by simp)) (by simp)) (by simp)⟩
    simp [word]
  | succ n ih =>
    intro here tail
    rw [word_succ]
    obtain ⟨evs, h⟩ := ih (lineColumn here ['a']) ('c' :: tail)
    have hb := word_length n
    obtain ⟨e, evs', k, hf⟩ := first_fails h
    have e : 2 * (n + 1) + 1 = 1 + (2 * n + 1 + (1 + 0)) := by omega
    rw [e]
    refine ⟨_, .choice (.other hf (.first (o := .ok _ _) (Ev.next (o := .ok _ _) (by simp [IsBareGroup]) (.plain (.once (.terminal (by simp))))
      (Ev.next (o := .ok _ _) (by simp [IsBareGroup]) (.plain (.once (.reference (r := slowRule) (by simp [plainLanguage]) (.refl _) h)))
        (Ev.next (o := .ok [] 0) (by simp [IsBareGroup]) (.plain (.once (.terminal (by simp [← hb])))) .done))) (by simp)) (by simp)) (by simp)⟩

private theorem slow_steps {config : Config} {g : Graph} {sem : SpecialScanner → Recognizer} (L : Linked config slow sem g) (n : Nat) :
    ∀ i, CodeList config slow g.instructions i slowRule.definitionList → ∀ here tail, ∃ f0, ∀ f, f0 ≤ f →
      2 ^ n ≤ csteps sem g f (some i) here (word n ++ tail) := by
  induction n with
  | zero =>
    rintro i ⟨a, more, loc, _, _, _, hor⟩ here tail
    refine ⟨1, fun f hf => ?_⟩
    obtain ⟨f, rfl⟩ : ∃ j, f = j + 1 := ⟨f - 1, by omega⟩
    rw [csteps, show g.instruction i = _ from hor]
    simp only
    omega
  | succ n ih =>
    rintro i ⟨a, more, loc, _, hc1, ⟨b, more', rfl, _, hc2, _⟩, hor⟩ here tail
    rw [word_succ]
    obtain ⟨ai, h6, h7, h8⟩ := alias_defined L (r := slowRule) (name := ['A']) (by simp [plainLanguage]) (.refl _)
    obtain ⟨evs, hev⟩ := slow_ev n (lineColumn here ['a']) ('c' :: tail)
    obtain ⟨e, evs', k, hfail⟩ := first_fails hev
    obtain ⟨f1, hfail⟩ := (complete L hfail : Reaches config slow sem g (.sequence _) _ _ _) (some a) hc1
    obtain ⟨f2, hsteps⟩ := ih ai h8 (lineColumn here ['a']) ('c' :: tail)
    have half : ∀ c col s, CodeTerms config slow g.instructions (some s) (seqOf c col) → ∀ f, f2 ≤ f →
        2 ^ n ≤ csteps sem g (f + 2) (some s) here ('a' :: (word n ++ 'c' :: tail)) := by
      rintro c col s ⟨i1, n1, h1, h2, i2, n2, rfl, h3, _⟩ f hf
      injection h1 with h1
      subst h1
      have h2 : g.instruction s = some ⟨some i2, debugStr ['a'], ⟨[], 1, col⟩, .scan (.terminal ['a'])⟩ := by
        simpa [CodeTerm, CodeFactor, CodePrimary, Graph.instruction] using h2
      have h3 : g.instruction i2 = some ⟨n2, ['A'], ⟨[], 1, col + 4⟩, .alias ['A']⟩ := by
        simpa [CodeTerm, CodeFactor, CodePrimary, Graph.instruction] using h3
      rw [csteps, h2]
      simp only [cExec, pexec]
      rw [if_pos (by simp)]
      simp only [List.length_singleton, List.take_succ_cons, List.take_zero, List.drop_succ_cons, List.drop_zero]
      rw [csteps, h3]
      have h7' : g.canonicalName ['A'] = some slowRule.metaIdentifier := h7
      simp only [cExec, h6, h7']
      have := hsteps f hf
      omega
    refine ⟨max f1 (f2 + 2) + 1, fun f hf => ?_⟩
    obtain ⟨f, rfl⟩ : ∃ j, f = j + 3 := ⟨f - 3, by omega⟩
    have s1 := half 'b' 3 a hc1 f (by omega)
    have s2 := half 'c' 13 b hc2 f (by omega)
    rw [csteps, show g.instruction i = _ from hor]
    simp only [cExec]
    rw [cOr_cons, hfail (f + 2) (by omega)]
    simp only
    rw [cOr_cons]
    rw [Nat.pow_succ]
    omega

/-- C82: a recursive grammar can take exponential time: with `A='a',A,'b'|'a',A,'c'|'d';`, for every `n` there is a text of `2 n + 1`
characters that is accepted, after at least `2 ^ n` instructions. -/
theorem c82_exponential : ∃ m, ParserFor false (plainLanguage [slowRule]) slowRule m ∧ ¬ LeftRecursive (plainLanguage [slowRule]) ∧
    ∀ n, ∃ r out k, InputAt false r (Location.new []) (List.replicate n 'a' ++ 'd' :: List.replicate n 'c') ∧ Returns m r (.ok out) ∧
      Executes m r k ∧ 2 ^ n ≤ k := by
  obtain ⟨m, h1, _⟩ := samplePlainOf "A='a',A,'b'|'a',A,'c'|'d';" slowRule [] (by decide +kernel) (by decide +kernel)
  refine ⟨m, h1, not_leftRecursive (fun _ => 0) ?_, fun n => ?_⟩
  · rintro r r' ⟨h1, h2⟩
    simp [plainLanguage] at h1
    subst h1
    simp [slowRule, seqOf, begins_list, begins_cons, begins_nil, begins_plain, begins_factor, begins_reference,
      begins_terminal, DefinitionList.toList, empty_plain, empty_factor, empty_terminal, IsBareGroup, plainLanguage] at h2
  · have hi : InputAt false (Reader.withLocation (Location.new []) (.buffered (word n)) false) (Location.new []) (word n) :=
      input_new ⟨[], rfl, by simp [Source.buffered]⟩
    obtain ⟨evs, hev⟩ := slow_ev n (Location.new []) []
    rw [List.append_nil, ← word_length n] at hev
    have hret := (returns_ok_iff h1 hi _).mpr ⟨evs, hev, (trimmed_iff _ _).mpr rfl⟩
    obtain ⟨k, f0, hk⟩ := c82_executes h1 hi hret
    refine ⟨_, _, k, hi, hret, ⟨f0, hk⟩, ?_⟩
    obtain ⟨config, L, hb, hz, _, hc⟩ := parser_linked h1
    obtain ⟨ai, h6, h7, h8⟩ := alias_defined L (r := slowRule) (name := ['A']) (by simp [plainLanguage]) (.refl _)
    obtain ⟨f1, hs⟩ := slow_steps L n ai h8 (Location.new []) []
    rw [List.append_nil] at hs
    rw [← hk (max f0 f1 + 1) (by omega), steps_pure h1 hi, csteps, show m.graph.instruction m.entry = _ from hc]
    have h6' : m.graph.indexOfLabel slowRule.metaIdentifier = some ai := h6
    have h7' : m.graph.canonicalName slowRule.metaIdentifier = some slowRule.metaIdentifier := h7
    simp only [cExec, h6', h7']
    have := hs (max f0 f1) (by omega)
    omega

-- C82: the hypotheses of `c82_polynomial` are met: `A=B,'x';` and `B={'b'};` are not recursive, and there is a parser for them.
example : ∃ m, ParserFor false (plainLanguage [flatA, flatB]) flatA m ∧ ¬ Recursive (plainLanguage [flatA, flatB]) := by
  obtain ⟨m, h1, _⟩ := samplePlainOf "A=B,'x';B={'b'};" flatA [flatB] (by decide +kernel) (by decide +kernel)
  exact ⟨m, h1, flat_not_recursive⟩

end Ebnf.Props
