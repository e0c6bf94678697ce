import Verif.Proofs.StackMore
import Verif.Props.Errors
import Verif.Props.Recursion

set_option autoImplicit false

/-! # C77: the call stack -/

namespace Ebnf.Props

open Ebnf Ebnf.Spec

variable {dbg : Bool}

private theorem nothing_fits (G : Language) : Suffices G (fun _ _ _ => False) := by
  constructor <;> first | (intros; contradiction) | (intros; assumption)

private theorem returns_no_overflow {G : Language} {start : SyntaxRule} {m : Machine} (hp : ParserFor dbg G start m) {r : Reader}
    {here : Location} {text : Str} (hi : InputAt dbg r here text) {x : Res (List Event)} (h : Returns m r x) :
    x ≠ .panic .stackOverflow := by
  rintro rfl
  obtain ⟨_, n, h⟩ := h
  have := (c45_only_missing hp hi n _ (h n (Nat.le_refl _))).1
  simp at this

/-- C77: however small the stack, `parse` ends: it exhausts the stack, or it returns what it returns with all the stack it wants (which is
never an exhausted stack). -/
theorem c77_either {G : Language} {start : SyntaxRule} {m : Machine} (hp : ParserFor dbg G start m) {r : Reader} {here : Location}
    {text : Str} (hi : InputAt dbg r here text) (frames : Nat) : ReturnsWithin frames m r (.panic .stackOverflow) ∨
      ∃ x, x ≠ .panic .stackOverflow ∧ Returns m r x ∧ ReturnsWithin frames m r x := by
  rcases deep_ends hp (nothing_fits G) hi frames with h | ⟨x, h1, h2⟩
  · exact .inl h.1
  · exact .inr ⟨x, returns_no_overflow hp hi h1, h1, h2⟩

/-- C77: a parse that returns needs a certain stack: with less the stack is exhausted, with more nothing changes. -/
theorem c77_threshold {G : Language} {start : SyntaxRule} {m : Machine} (hp : ParserFor dbg G start m) {r : Reader} {here : Location}
    {text : Str} (hi : InputAt dbg r here text) {x : Res (List Event)} (h : Returns m r x) :
    ∃ needed, ∀ frames, ReturnsWithin frames m r (if needed ≤ frames then x else .panic .stackOverflow) := by
  have hx := returns_no_overflow hp hi h
  obtain ⟨enough, h1⟩ := deep_large hp hi h
  have least : ∃ needed, ReturnsWithin needed m r x ∧ ∀ k, k < needed → ¬ ReturnsWithin k m r x := by
    clear h
    induction enough using Nat.strongRecOn with
    | ind n ih =>
      by_cases hs : ∃ k, k < n ∧ ReturnsWithin k m r x
      · obtain ⟨k, h2, h3⟩ := hs
        exact ih k h2 h3
      · exact ⟨n, h1, fun k hk h => hs ⟨k, hk, h⟩⟩
  obtain ⟨needed, h2, h3⟩ := least
  refine ⟨needed, fun frames => ?_⟩
  by_cases hf : needed ≤ frames
  · rw [if_pos hf]; exact deep_more hp hi hf h2 hx
  · rw [if_neg hf]
    rcases c77_either hp hi frames with h4 | ⟨y, _, h4, h5⟩
    · exact h4
    · have : y = x := by
        obtain ⟨_, a, h⟩ := h
        obtain ⟨_, b, h4⟩ := h4
        rw [← h (max a b) (by omega), h4 (max a b) (by omega)]
      exact absurd (this ▸ h5) (h3 frames (by omega))

/-- C77: a parse that would run forever (C43: left recursion) exhausts every stack. -/
theorem c77_left_recursion {G : Language} {start : SyntaxRule} {m : Machine} (hp : ParserFor dbg G start m) {r : Reader} {here : Location}
    {text : Str} (hi : InputAt dbg r here text) (h : Loops m r) (frames : Nat) : ReturnsWithin frames m r (.panic .stackOverflow) := by
  rcases c77_either hp hi frames with h1 | ⟨x, _, ⟨h1, n, h2⟩, _⟩
  · exact h1
  · exact absurd ((h n).symm.trans (h2 n (Nat.le_refl _))).symm h1

/-- C77: without left recursion, the stack that is needed is bounded by a linear function of the length of the text: `N` calls, where `N` bounds the
calls nested inside one rule, for every rule and every character. -/
theorem c77_linear {G : Language} {start : SyntaxRule} {m : Machine} (hp : ParserFor dbg G start m) (hG : ¬ LeftRecursive G) {N : Nat}
    (h1 : 1 ≤ N) (hN : ∀ rule ∈ G.rules, callsOfList rule.definitionList ≤ N) {r : Reader} {here : Location}
    {text : Str} (hi : InputAt dbg r here text) {frames : Nat}
    (hf : (text.length * (G.rules.length + 1) + G.rules.length) * N + 2 ≤ frames) :
    ∃ x, x ≠ .panic .stackOverflow ∧ Returns m r x ∧ ReturnsWithin frames m r x := by
  rcases deep_ends hp (fitsText_suffices h1 hN (parser_bounded hp) (parser_oneMeaning hp) hG) hi frames with h | ⟨x, h2, h3⟩
  · refine absurd ⟨frames - 1, by omega, h1, [], leads_nil, ?_⟩ h.2
    have h4 := unvisited_le G []
    have h5 : (text.length * (G.rules.length + 1) + unvisited G []) * N ≤ (text.length * (G.rules.length + 1) + G.rules.length) * N :=
      Nat.mul_le_mul_right N (by omega)
    simp only [callsOfTask, callsOfPrimary]
    omega
  · exact ⟨x, returns_no_overflow hp hi h2, h2, h3⟩

/-- C77: without recursion, the stack that is needed does not depend on the text. -/
theorem c77_not_recursive {G : Language} {start : SyntaxRule} {m : Machine} (hp : ParserFor dbg G start m) (hG : ¬ Recursive G) {N : Nat}
    (hN : ∀ rule ∈ G.rules, callsOfList rule.definitionList ≤ N) {r : Reader} {here : Location}
    {text : Str} (hi : InputAt dbg r here text) {frames : Nat} (hf : G.rules.length * N + 2 ≤ frames) :
    ∃ x, x ≠ .panic .stackOverflow ∧ Returns m r x ∧ ReturnsWithin frames m r x := by
  rcases deep_ends hp (fitsAny_suffices hN (parser_oneMeaning hp) hG) hi frames with h | ⟨x, h2, h3⟩
  · refine absurd ⟨frames - 1, by omega, [], (fun v hv => by cases hv), ?_⟩ h.2
    have h5 : unvisited G [] * N ≤ G.rules.length * N := Nat.mul_le_mul_right N (unvisited_le G [])
    simp only [callsOfTask, callsOfPrimary]
    omega
  · exact ⟨x, returns_no_overflow hp hi h2, h2, h3⟩

/-! ## Deeply nested texts exhaust every stack -/

/-- The rule `A='(',A,')'|'x';`. -/
def bracketRule : SyntaxRule :=
  ⟨⟨[], 1, 1⟩, ['A'], .cons (.cons (.plain (.mk 1 (.terminalString ⟨[], 1, 3⟩ ['(']))) (.cons (.plain (.mk 1
    (.metaIdentifier ⟨[], 1, 7⟩ ['A']))) (.cons (.plain (.mk 1 (.terminalString ⟨[], 1, 9⟩ [')']))) .nil)))
    (.cons (.cons (.plain (.mk 1 (.terminalString ⟨[], 1, 13⟩ ['x']))) .nil) .nil)⟩

/-- `n` opening brackets, `x`, and `n` closing brackets. -/
private def brackets (n : Nat) : Str := List.replicate n '(' ++ 'x' :: List.replicate n ')'

private theorem brackets_succ (n : Nat) (tail : Str) : brackets (n + 1) ++ tail = '(' :: (brackets n ++ ')' :: tail) := by
  simp only [brackets, List.replicate_succ, List.cons_append, List.append_assoc]
  congr 3
  rw [← List.cons_append, ← List.replicate_succ, List.replicate_succ', List.append_assoc]
  rfl

private theorem brackets_length (n : Nat) : (brackets n).length = 2 * n + 1 := by simp [brackets]; omega

private theorem nested_ev (n : Nat) : ∀ here tail, ∃ evs, Ev asBuilt (plainLanguage [bracketRule]) (.list bracketRule.definitionList) here
    (brackets n ++ tail) (.ok evs (2 * n + 1)) := by
  induction n with
  | zero =>
    intro here tail
    refine ⟨_, .choice (.other (e := expectedAt (debugStr ['(']) here ('x' :: tail)) (evs := []) (n := 0) (.nextFail (.plain (.once (.terminalFail ?_))) (fun h => h)) (.first (o := .ok _ _) (.next (o := .ok [] 0) (by simp [IsBareGroup])
      (.plain (.once (.terminal ?_))) .done) (by simp)) (by simp)) (by simp)⟩
    · simp [brackets, List.prefix_cons_iff]
    · simp [brackets]
  | succ n ih =>
    intro here tail
    rw [brackets_succ]
    obtain ⟨evs, h⟩ := ih (lineColumn here ['(']) (')' :: tail)
    have hb := brackets_length n
    have key := Ev.choice (q := asBuilt) (G := plainLanguage [bracketRule]) (d' := .cons (.plain (.mk 1 (.terminalString ⟨[], 1, 13⟩ ['x']))) .nil)
      (l := .nil) (Ev.first (Ev.next (t := .plain (.mk 1 (.terminalString ⟨[], 1, 3⟩ ['(']))) (here := here)
        (rest := '(' :: (brackets n ++ ')' :: tail)) (by simp [IsBareGroup]) (.plain (.once (.terminal (by simp))))
      (Ev.next (t := .plain (.mk 1 (.metaIdentifier ⟨[], 1, 7⟩ ['A']))) (by simp [IsBareGroup])
        (.plain (.once (.reference (r := bracketRule) (by simp [plainLanguage]) (.refl _) h)))
        (Ev.next (t := .plain (.mk 1 (.terminalString ⟨[], 1, 9⟩ [')']))) (by simp [IsBareGroup])
          (.plain (.once (.terminal (by simp [← hb])))) .done))) (by simp [Outcome.after])) (by simp [Outcome.after])
    have e : 2 * (n + 1) + 1 = 1 + (2 * n + 1 + (1 + 0)) := by omega
    rw [e]
    exact ⟨_, key⟩

private theorem nested_overflow {config : Config} {g : Graph} {sem : SpecialScanner → Recognizer}
    (L : Linked config (plainLanguage [bracketRule]) sem g) (k : Nat) : ∀ room, room < 2 * k → ∀ i, CodeList config (plainLanguage [bracketRule])
      g.instructions i bracketRule.definitionList → ∀ here tail, ∃ f0, ∀ f, f0 ≤ f →
      prunDeep sem g room f (some i) here (List.replicate k '(' ++ tail) = some overflow := by
  induction k with
  | zero => intro room h; omega
  | succ k ih =>
    rintro room hr i ⟨a, more, loc, _, ⟨i1, n1, h1, h2, i2, n2, rfl, h3, i3, n3, rfl, h4, h5⟩, hsubs, hor⟩ here tail
    injection h1 with h1
    subst h1
    obtain ⟨b, more', rfl, _⟩ := hsubs
    obtain ⟨ai, h6, h7, h8⟩ := alias_defined L (r := bracketRule) (name := ['A']) (by simp [plainLanguage]) (.refl _)
    have h2 : g.instructions[a]? = some ⟨some i2, debugStr ['('], ⟨[], 1, 3⟩, .scan (.terminal ['('])⟩ := by
      simpa [CodeTerm, CodeFactor, CodePrimary] using h2
    have h3 : g.instructions[i2]? = some ⟨some i3, ['A'], ⟨[], 1, 7⟩, .alias ['A']⟩ := by
      simpa [CodeTerm, CodeFactor, CodePrimary] using h3
    rw [List.replicate_succ, List.cons_append]
    -- the choice
    have choice : ∀ f, pcall sem g room f a here ('(' :: (List.replicate k '(' ++ tail)) = some overflow →
        prunDeep sem g room (f + 1) (some i) here ('(' :: (List.replicate k '(' ++ tail)) = some overflow := by
      intro f h
      rw [prunDeep_succ hor]
      simp only [pexec, por, h, Option.bind_some]
      rfl
    cases room with
    | zero =>
      refine ⟨1, fun f hf => ?_⟩
      obtain ⟨f, rfl⟩ : ∃ j, f = j + 1 := ⟨f - 1, by omega⟩
      exact choice f rfl
    | succ room =>
      -- the bracket, then the reference
      have bracket : ∀ f, pcall sem g room f ai (lineColumn here ['(']) (List.replicate k '(' ++ tail) = some overflow →
          prunDeep sem g room (f + 2) (some a) here ('(' :: (List.replicate k '(' ++ tail)) = some overflow := by
        intro f h
        rw [prunDeep_succ h2]
        simp only [pexec]
        rw [if_pos (by simp)]
        simp only [Option.bind_some, continDeep, Bool.false_eq_true, if_false, List.length_singleton, List.take_succ_cons, List.take_zero,
          List.drop_succ_cons, List.drop_zero]
        rw [prunDeep_succ h3]
        simp only [pexec, h6, h7, h, Option.bind_some]
        rfl
      cases room with
      | zero =>
        refine ⟨3, fun f hf => ?_⟩
        obtain ⟨f, rfl⟩ : ∃ j, f = j + 3 := ⟨f - 3, by omega⟩
        exact choice _ (bracket f rfl)
      | succ room =>
        obtain ⟨f0, h⟩ := ih room (by omega) ai h8 (lineColumn here ['(']) tail
        refine ⟨f0 + 3, fun f hf => ?_⟩
        obtain ⟨f, rfl⟩ : ∃ j, f = j + 3 := ⟨f - 3, by omega⟩
        exact choice _ (bracket f (h f (by omega)))

/-- C77: a recursive grammar needs a stack that grows with the text: with `A='(',A,')'|'x';`, for every stack there is a text that is
accepted, and exhausts the stack (two calls for every bracket). -/
theorem c77_deep_text : ∃ m, ParserFor false (plainLanguage [bracketRule]) bracketRule m ∧ ∀ n, ∃ r out,
    InputAt false r (Location.new []) (List.replicate n '(' ++ 'x' :: List.replicate n ')') ∧ Returns m r (.ok out) ∧
    ∀ frames, frames ≤ 2 * n + 1 → ReturnsWithin frames m r (.panic .stackOverflow) := by
  obtain ⟨m, h1, _⟩ := samplePlainOf "A='(',A,')'|'x';" bracketRule [] (by decide +kernel) (by decide +kernel)
  refine ⟨m, h1, fun n => ?_⟩
  have hi : InputAt false (Reader.withLocation (Location.new []) (.buffered (brackets n)) false) (Location.new []) (brackets n) :=
    input_new ⟨[], rfl, by simp [Source.buffered]⟩
  obtain ⟨evs, hev⟩ := nested_ev n (Location.new []) []
  rw [List.append_nil, ← brackets_length n] at hev
  refine ⟨_, _, hi, (returns_ok_iff h1 hi _).mpr ⟨evs, hev, (trimmed_iff _ _).mpr rfl⟩, ?_⟩
  · intro frames hf
    obtain ⟨config, L, hb, hz, _, hc⟩ := parser_linked h1
    obtain ⟨c, hs, e1, e2⟩ := input_stands hi
    obtain ⟨ai, h6, h7, h8⟩ := alias_defined L (r := bracketRule) (name := ['A']) (by simp [plainLanguage]) (.refl _)
    refine ⟨by simp, ?_⟩
    have key : ∃ f0, ∀ f, f0 ≤ f → pcall (semOf false) m.graph frames f m.entry (Location.new []) (brackets n) = some overflow := by
      have alias : ∀ room f, pcall (semOf false) m.graph room f ai (Location.new []) (brackets n) = some overflow →
          prunDeep (semOf false) m.graph room (f + 1) (some m.entry) (Location.new []) (brackets n) = some overflow := by
        intro room f h
        rw [prunDeep_succ hc]
        have h6' : m.graph.indexOfLabel bracketRule.metaIdentifier = some ai := h6
        have h7' : m.graph.canonicalName bracketRule.metaIdentifier = some bracketRule.metaIdentifier := h7
        simp only [pexec, h6', h7', h, Option.bind_some]
        rfl
      cases frames with
      | zero => exact ⟨0, fun f _ => rfl⟩
      | succ frames =>
        cases frames with
        | zero =>
          refine ⟨1, fun f hf => ?_⟩
          obtain ⟨f, rfl⟩ : ∃ j, f = j + 1 := ⟨f - 1, by omega⟩
          exact alias 0 f rfl
        | succ frames =>
          obtain ⟨f0, h⟩ := nested_overflow L n frames (by omega) ai h8 (Location.new []) ('x' :: List.replicate n ')')
          refine ⟨f0 + 1, fun f hf => ?_⟩
          obtain ⟨f, rfl⟩ : ∃ j, f = j + 1 := ⟨f - 1, by omega⟩
          exact alias _ f (h f (by omega))
    obtain ⟨f0, key⟩ := key
    exact ⟨f0, fun f hf => by rw [parse_deep hb frames f hs, ← e1, ← e2, key f hf]; rfl⟩

/-- The rules `A=B,'x';` and `B={'b'};`. -/
def flatA : SyntaxRule :=
  ⟨⟨[], 1, 1⟩, ['A'], .cons (.cons (.plain (.mk 1 (.metaIdentifier ⟨[], 1, 3⟩ ['B']))) (.cons (.plain (.mk 1
    (.terminalString ⟨[], 1, 5⟩ ['x']))) .nil)) .nil⟩
/-- … -/
def flatB : SyntaxRule :=
  ⟨⟨[], 1, 9⟩, ['B'], .cons (.cons (.plain (.mk 1 (.repeated ⟨[], 1, 11⟩ (.cons (.cons (.plain (.mk 1
    (.terminalString ⟨[], 1, 12⟩ ['b']))) .nil) .nil)))) .nil) .nil⟩

-- C77: the hypotheses of `c77_linear` are met: with `A='(',A,')'|'x';` two calls are nested in a rule.
example : ∃ m, ParserFor false (plainLanguage [bracketRule]) bracketRule m ∧ ¬ LeftRecursive (plainLanguage [bracketRule]) ∧
    (∀ rule ∈ (plainLanguage [bracketRule]).rules, callsOfList rule.definitionList ≤ 2) ∧
    InputAt false (readerOn "((x))") (Location.new []) "((x))".toList := by
  obtain ⟨m, h1, _⟩ := samplePlainOf "A='(',A,')'|'x';" bracketRule [] (by decide +kernel) (by decide +kernel)
  refine ⟨m, h1, not_leftRecursive (fun _ => 0) ?_, ?_, input_readerOn _⟩
  · rintro r r' ⟨h1, h2⟩
    simp [plainLanguage] at h1
    subst h1
    simp [bracketRule, begins_list, begins_cons, begins_nil, begins_plain, begins_factor, begins_reference,
      begins_terminal, DefinitionList.toList, empty_plain, empty_factor, empty_terminal, IsBareGroup, plainLanguage] at h2
  · simp [plainLanguage, bracketRule, callsOfList, callsOfSingle, callsOfAlternatives, callsOfTerm, callsOfFactor, callsOfPrimary]

theorem flat_not_recursive : ¬ Recursive (plainLanguage [flatA, flatB]) := by
  have key : ∀ r r', RefersToRule (plainLanguage [flatA, flatB]) r r' → r = flatA ∧ r' = flatB := by
    rintro r r' ⟨h1, h2, h3⟩
    simp [plainLanguage] at h1 h2
    rcases h1 with rfl | rfl
    · refine ⟨rfl, h2.resolve_left ?_⟩
      rintro rfl
      rcases h3 with ⟨_, _, h3, h4⟩ | ⟨_, _, _, _, _, _, h3, _⟩
      · simp [flatA, primariesOfList, primariesOfSingle, primariesOfTerm, primariesOfFactor, primariesIn] at h3
        rw [h3.2] at h4
        exact absurd (keyed_differs h4) (by decide)
      · simp [flatA, primariesOfList, primariesOfSingle, primariesOfTerm, primariesOfFactor, primariesIn] at h3
    · rcases h3 with ⟨_, _, h3, _⟩ | ⟨_, _, _, _, _, _, h3, _⟩ <;>
        simp [flatB, primariesOfList, primariesOfSingle, primariesOfTerm, primariesOfFactor, primariesIn] at h3
  rintro ⟨r, _, h⟩
  have first : ∀ a b, Relation.TransGen (RefersToRule (plainLanguage [flatA, flatB])) a b → a = flatA ∧ b = flatB := by
    intro a b h
    induction h with
    | single h => exact key _ _ h
    | tail _ h ih => exact ⟨ih.1, (key _ _ h).2⟩
  obtain ⟨rfl, h2⟩ := first _ _ h
  exact absurd (congrArg SyntaxRule.metaIdentifier h2) (by decide)

-- C77: the hypotheses of `c77_not_recursive` are met: with `A=B,'x';B={'b'};` four calls suffice for every text.
example : ∃ m, ParserFor false (plainLanguage [flatA, flatB]) flatA m ∧ ¬ Recursive (plainLanguage [flatA, flatB]) ∧
    (∀ rule ∈ (plainLanguage [flatA, flatB]).rules, callsOfList rule.definitionList ≤ 1) ∧
    InputAt false (readerOn "bbbx") (Location.new []) "bbbx".toList := by
  obtain ⟨m, h1, _⟩ := samplePlainOf "A=B,'x';B={'b'};" flatA [flatB] (by decide +kernel) (by decide +kernel)
  refine ⟨m, h1, flat_not_recursive, ?_, input_readerOn _⟩
  · simp [plainLanguage, flatA, flatB, callsOfList, callsOfSingle, callsOfTerm, callsOfFactor, callsOfPrimary]

end Ebnf.Props
