import Verif.Proofs.Used

set_option autoImplicit false

/-! # C72: neither the order of the rules nor rules that are not used matter -/

namespace Ebnf.Props

open Ebnf Ebnf.Spec

variable {dbg : Bool}

/-- C72: if another grammar has all rules of the first one that matter for the start rule, and does not define names these rules use but
leave undefined, the two parsers return the same for every input: the same events, the same errors, the same panics. -/
theorem c72_unused {rules rules' : List SyntaxRule} {special : Location → Str → Recognizer} {specialName : Location → Str → Str}
    {start : SyntaxRule} {m m' : Machine} (hm : ParserFor dbg ⟨rules, special, specialName⟩ start m)
    (hm' : ParserFor dbg ⟨rules', special, specialName⟩ start m')
    (hu : ∀ r, Used ⟨rules, special, specialName⟩ start r → r ∈ rules')
    (hd : StaysUndefined ⟨rules, special, specialName⟩ start rules') {r : Reader} {here : Location} {text : Str}
    (hi : InputAt dbg r here text) (x : Res (List Event)) : Returns m r x ↔ Returns m' r x := by
  have A := agree_used (parser_oneMeaning hm) (parser_oneMeaning hm') hu hd
  have hk : (onTheWay ⟨rules, special, specialName⟩ start).primary (.metaIdentifier start.location start.metaIdentifier) :=
    .inr ⟨start, hm.start, .start, rfl⟩
  rw [returns_iff hm hi, returns_iff hm' hi]
  exact ⟨parses_agree A hk, parses_agree A.symm hk⟩

/-- C72: the order of the rules does not matter. -/
theorem c72_order {rules rules' : List SyntaxRule} {special : Location → Str → Recognizer} {specialName : Location → Str → Str}
    {start : SyntaxRule} {m m' : Machine} (hm : ParserFor dbg ⟨rules, special, specialName⟩ start m)
    (hm' : ParserFor dbg ⟨rules', special, specialName⟩ start m') (same : ∀ r, r ∈ rules ↔ r ∈ rules') {r : Reader} {here : Location}
    {text : Str} (hi : InputAt dbg r here text) (x : Res (List Event)) : Returns m r x ↔ Returns m' r x := by
  refine c72_unused hm hm' (fun r h => ?_) ⟨fun r _ loc name _ h => ?_, fun r _ loc s _ here rest name n _ h => ?_⟩ hi x
  · refine (same r).mp ?_
    cases h with
    | start => exact hm.start
    | reference _ _ h _ => exact h
    | forward _ _ _ h _ => exact h
  · obtain ⟨r', h1, h2⟩ := h
    exact ⟨r', (same _).mpr h1, h2⟩
  · obtain ⟨r', h1, h2⟩ := h
    exact ⟨r', (same _).mpr h1, h2⟩

/-- C72: adding rules to a grammar whose references are all defined, and whose scanners just match or not, changes nothing. -/
theorem c72_added {rules more : List SyntaxRule} {special : Location → Str → Recognizer} {specialName : Location → Str → Str}
    {start : SyntaxRule} {m m' : Machine} (hm : ParserFor dbg ⟨rules, special, specialName⟩ start m)
    (hm' : ParserFor dbg ⟨rules ++ more, special, specialName⟩ start m') (hd : AllDefined rules)
    (hf : ∀ l s d here rest name n, special l s d here rest ≠ .forward name n) {r : Reader} {here : Location}
    {text : Str} (hi : InputAt dbg r here text) (x : Res (List Event)) : Returns m r x ↔ Returns m' r x := by
  have used : ∀ r, Used ⟨rules, special, specialName⟩ start r → r ∈ rules := by
    intro r h
    cases h with
    | start => exact hm.start
    | reference _ _ h _ => exact h
    | forward _ _ _ h _ => exact h
  exact c72_unused hm hm' (fun r h => List.mem_append_left _ (used r h))
    ⟨fun r h loc name hp _ => hd r (used r h) loc name hp, fun r _ loc s _ here rest name n h => absurd h (hf _ _ _ _ _ _ _)⟩ hi x

/-- `A = 'b', {C};` -/
private def ruleA : SyntaxRule :=
  ⟨⟨[], 1, 1⟩, ['A'], .cons (.cons (.plain (.mk 1 (.terminalString ⟨[], 1, 3⟩ ['b']))) (.cons (.plain (.mk 1
    (.repeated ⟨[], 1, 7⟩ (.cons (.cons (.plain (.mk 1 (.metaIdentifier ⟨[], 1, 8⟩ ['C']))) .nil) .nil)))) .nil)) .nil⟩

/-- `C = 'c' | 'd';` -/
private def ruleC : SyntaxRule :=
  ⟨⟨[], 1, 11⟩, ['C'], .cons (.cons (.plain (.mk 1 (.terminalString ⟨[], 1, 13⟩ ['c']))) .nil)
    (.cons (.cons (.plain (.mk 1 (.terminalString ⟨[], 1, 17⟩ ['d']))) .nil) .nil)⟩

/-- `D = A, C;` -/
private def ruleD : SyntaxRule :=
  ⟨⟨[], 1, 21⟩, ['D'], .cons (.cons (.plain (.mk 1 (.metaIdentifier ⟨[], 1, 23⟩ ['A'])))
    (.cons (.plain (.mk 1 (.metaIdentifier ⟨[], 1, 25⟩ ['C']))) .nil)) .nil⟩

/-- The rules make a syntax. -/
private def isOk (rules : List SyntaxRule) : Bool :=
  match Syntax.new rules with
  | .ok _ => true
  | _ => false

private theorem parser_of {rules : List SyntaxRule} (h : isOk rules = true) (hs : ∀ r ∈ rules, r ∈ [ruleA, ruleC, ruleD])
    (hm : ruleA ∈ rules) : ∃ m, ParserFor false (plainLanguage rules) ruleA m := by
  have shape : ∀ r ∈ [ruleA, ruleC, ruleD], RuleShape r := fun r hr =>
    (Props.c12_shape [] "A='b',{C};C='c'|'d';D=A,C;".toList [ruleA, ruleC, ruleD] (by decide +kernel) r hr).1
  cases h1 : Syntax.new rules with
  | ok s =>
    obtain ⟨_, m, _, _, h2⟩ := machine_new (G := plainLanguage rules) h1 (plain_realizes _) (fun r hr => shape r (hs r hr)) hm
    exact ⟨m, h2⟩
  | _ => rw [isOk, h1] at h; cases h

/-- Parsers for the rules in two orders, and for fewer rules. -/
example : ∃ m m' m'', ParserFor false (plainLanguage [ruleA, ruleC, ruleD]) ruleA m ∧
    ParserFor false (plainLanguage [ruleD, ruleC, ruleA]) ruleA m' ∧ ParserFor false (plainLanguage [ruleA, ruleC]) ruleA m'' ∧
    (∀ r, r ∈ [ruleA, ruleC, ruleD] ↔ r ∈ [ruleD, ruleC, ruleA]) ∧ AllDefined [ruleA, ruleC] ∧
    ∀ l s d here rest name n, (plainLanguage [ruleA, ruleC]).special l s d here rest ≠ .forward name n := by
  obtain ⟨m, h1⟩ := parser_of (rules := [ruleA, ruleC, ruleD]) (by decide +kernel) (by simp) (by simp)
  obtain ⟨m', h2⟩ := parser_of (rules := [ruleD, ruleC, ruleA]) (by decide +kernel) (by simp) (by simp)
  obtain ⟨m'', h3⟩ := parser_of (rules := [ruleA, ruleC]) (by decide +kernel) (by simp) (by simp)
  refine ⟨m, m', m'', h1, h2, h3, by simp; intro r; grind, ?_, ?_⟩
  · intro r hr l n hp
    simp only [List.mem_cons, List.not_mem_nil, or_false] at hr
    rcases hr with rfl | rfl
    · simp [ruleA, primariesOfList, primariesOfSingle, primariesOfTerm, primariesOfFactor, primariesIn] at hp
      exact ⟨ruleC, by simp, by rw [hp.2]; exact .refl _⟩
    · simp [ruleC, primariesOfList, primariesOfSingle, primariesOfTerm, primariesOfFactor, primariesIn] at hp
  · intro l s d here rest name n
    simp [plainLanguage, defaultRecognizer]

end Ebnf.Props
