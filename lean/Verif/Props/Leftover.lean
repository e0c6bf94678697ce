import Verif.Proofs.LeftoverCases

set_option autoImplicit false

/-! # C90: what a parse leaves behind in the reader -/

namespace Ebnf.Props

open Ebnf Ebnf.Spec

variable {dbg : Bool}

/-- C90: a parse leaves a bounded number of marks: if no special sequence leaves more than `k`, at most `k + 3` for each instruction that it
executes.  This holds for every reader, also over sources that fail, and whether the parse accepts, rejects, panics or is cut off. -/
theorem c90_bound {config : Config} {m : Machine} (hp : ParserOf config m) {k : Nat} (hk : ∀ l t, LeavesAtMost k (config l t)) (fuel : Nat)
    (r : Reader) : liveMarks (m.parse fuel r).2 ≤ liveMarks r + (k + 3) * m.steps fuel r :=
  adds_parse (leaves_compiled hp hk) fuel r

/-- C90: what the scanners that come with the library leave: the default one nothing, one for a set of characters at most two marks, one for a
regular expression at most one. -/
theorem c90_scanners (content source : Str) (predicator : Char → Bool) (min max : Option Nat) (find : Str → Option (Nat × Nat)) :
    LeavesAtMost 0 (defaultScanner content) ∧ LeavesAtMost 2 (charsScanner predicator min max) ∧ LeavesAtMost 1 (regexScanner source find) :=
  ⟨leaves_default content, leaves_chars predicator min max, leaves_regex source find⟩

/-- C90: the marks that there were before a parse that returns are valid after it. -/
theorem c90_kept {G : Language} {start : SyntaxRule} {m : Machine} (hm : ParserFor dbg G start m) {r : Reader} {here : Location} {text : Str}
    (hi : InputAt dbg r here text) {fuel : Nat} (hn : ¬ (Reply.parse (m.parse fuel r).1).IsStop) {k n : Nat} (h : GoesBack r k n) :
    ∃ n', GoesBack (m.parse fuel r).2 k n' := by
  obtain ⟨c, hs, rfl, rfl⟩ := input_stands hi
  obtain ⟨_, _, hb, _⟩ := parser_linked hm
  obtain ⟨pos, more, h3, _⟩ := parse_leaves hb fuel hs hn
  obtain ⟨p, hp⟩ := (goes_back_iff hs k).mp ⟨n, h⟩
  exact (goes_back_iff h3 k).mpr ⟨p, by simp [hp]⟩

/-- C90, for grammars without choice, repetition, exception and special sequence: after a parse one can go back to the marks that there were
before, and to no others.  Missing: the same for all grammars; `c90_grows` shows that it does not hold. -/
theorem c90_straight_partial {config : Config} {rules : List SyntaxRule} {s : Syntax} {g : Graph} {query : Str} {m : Machine}
    (hr : ∀ r ∈ rules, StraightList r.definitionList) (hs : Syntax.new rules = .ok s) (hg : Graph.compile s config = .ok g)
    (hm : Machine.new g query = .ok (some m)) : KeepsMarks dbg m := by
  intro r here text fuel hi _ k
  obtain ⟨c, hc, rfl, rfl⟩ := input_stands hi
  have hx : ∀ x ∈ m.graph.instructions, StraightInstr x := by
    rw [machine_graph hm]
    refine straight_loop _ _ _ ?_ (by simp) hg
    rw [(new_ok hs).1]; exact hr
  obtain ⟨c', h1, h2⟩ := keeps_parse hx fuel r c hc
  rw [goes_back_iff hc, goes_back_iff h1, h2]

/-! ## A grammar with a repetition leaves a mark for every round -/

/-- The rule `a={'x'};`. -/
def manyRule : SyntaxRule :=
  ⟨⟨[], 1, 1⟩, ['a'], .cons (.cons (.plain (.mk 1 (.repeated ⟨[], 1, 3⟩
    (.cons (.cons (.plain (.mk 1 (.terminalString ⟨[], 1, 4⟩ ['x']))) .nil) .nil)))) .nil) .nil⟩

private def manyCode : List Instruction :=
  [⟨none, ['"', 'x', '"'], ⟨[], 1, 4⟩, .scan (.terminal ['x'])⟩, ⟨none, ['{', '\'', 'x', '\'', '}'], ⟨[], 1, 3⟩, .repetition 0 u32Max 0⟩,
    ⟨none, ['a'], ⟨[], 1, 1⟩, .alias ['a']⟩]

private def manyGraph : Graph := ⟨manyCode, [(['$', 'a'], 2), (['a'], 1)], [(['a'], ['a'])]⟩

/-- The parser for it. -/
private def manyParser : Machine := ⟨manyGraph, ['a'], 2⟩

private def manySyntax : Syntax := ⟨[(['a'], ['a'])], [(['a'], 0)], [manyRule]⟩

private theorem many_syntax : Syntax.new [manyRule] = .ok manySyntax := by decide +kernel

private theorem many_display : (Primary.repeated ⟨[], 1, 3⟩
    (.cons (.cons (.plain (.mk 1 (.terminalString ⟨[], 1, 4⟩ ['x']))) .nil) .nil)).display = ['{', '\'', 'x', '\'', '}'] := by decide +kernel

private theorem many_keyed : keyedMetaIdentifier ['a'] = ['a'] := by decide +kernel

private theorem many_graph : Graph.compile manySyntax .default = .ok manyGraph := by
  simp [Graph.compile, Graph.compileLoop, manySyntax, manyRule, registerDefinitionList, registerTerms, registerTerm, registerFactor,
    registerPrimary, manyGraph, manyCode, Syntax.canonicalName, Map.get?, many_keyed, many_display, Map.insert, debugStr]

private theorem many_parser : ParserOf .default manyParser := by
  refine ⟨[manyRule], manySyntax, manyGraph, ['a'], ?_, many_syntax, many_graph, ?_⟩
  have h : parseStr [] "a={'x'};".toList = .ok [manyRule] := by decide +kernel
  · exact fun r hr => (c12_shape [] _ _ h r hr).1
  · have h1 : keyedMetaIdentifier ['$', 'a'] = ['$', 'a'] := by decide +kernel
    simp [Machine.new, Graph.indexOfLabel, Graph.canonicalName, h1, many_keyed, manyGraph, Map.get?, manyParser]

/-- A mark at every place before. -/
private def Everywhere (c : Cursor) : Prop := ∀ p, p < c.pos → ∃ m, (m, p) ∈ c.marks

private theorem many_round {fuel : Nat} {r : Reader} {c : Cursor} (h : Stands dbg r c) :
    (∀ t, c.rest = 'x' :: t → ∃ e r', runFrom manyGraph (fuel + 2) (some 0) r = (.ok (.proceed, [.token ⟨[], 1, 4⟩ e ['x']]), r') ∧
      Stands dbg r' (c.advance 1)) ∧
    (c.rest = [] → ∃ e r', runFrom manyGraph (fuel + 2) (some 0) r = (.ok (.notThisWay e, []), r') ∧ Stands dbg r' c) := by
  obtain ⟨r1, h1, h2, h3⟩ := prefixMatches_at h ['x']
  have hi : manyGraph.instruction 0 = some ⟨none, ['"', 'x', '"'], ⟨[], 1, 4⟩, .scan (.terminal ['x'])⟩ := rfl
  constructor
  · intro t ht
    have hp : ['x'] <+: c.rest := by rw [ht]; exact ⟨t, rfl⟩
    obtain ⟨r2, h4, h5⟩ := skip_at h2 (h3 hp)
    refine ⟨c.location, r2, ?_, by simpa [ht, Nat.min_eq_left] using h5⟩
    simp only [List.length_singleton] at h4
    simp only [runFrom, hi, execStep, scanTerminal, RM.bind_run, h1, decide_eq_true hp, if_true, location_at h2, List.length_singleton, h4,
      RM.pure_run, List.append_nil]
  · intro ht
    have hp : ¬ ['x'] <+: c.rest := by rw [ht]; simp
    obtain ⟨r2, h4, h5⟩ := errExpected_at (g := manyGraph) (current := some 0) h2
    refine ⟨expectedAt (symbolAt manyGraph (some 0)) c.location c.rest, r2, ?_, h5⟩
    rw [runFrom, hi]
    simp only [execStep, scanTerminal, RM.bind_run, h1, decide_eq_false hp, Bool.false_eq_true, if_false, h4, RM.pure_run]

private theorem many_loop (n : Nat) (hn : n < u32Max) (start : Location) : ∀ j i f fuel temp r marks, i + j = n →
    Stands dbg r ⟨start, List.replicate n 'x', i, marks⟩ → Everywhere ⟨start, List.replicate n 'x', i, marks⟩ → j < f →
    (∀ e ∈ temp, ∃ a b c, e = Event.token a b c) →
    ∃ out r' marks', repetitionLoop (runFrom manyGraph (fuel + 2) (some 0)) 0 u32Max f i temp r = (.ok (.proceed, out), r') ∧
      Stands dbg r' ⟨start, List.replicate n 'x', n, marks'⟩ ∧ Everywhere ⟨start, List.replicate n 'x', n, marks'⟩ ∧
      (∀ e ∈ out, ∃ a b c, e = Event.token a b c) := by
  intro j
  induction j with
  | zero =>
    intro i f fuel temp r marks hi h he hf ht
    obtain ⟨f, rfl⟩ : ∃ k, f = k + 1 := ⟨f - 1, by omega⟩
    obtain rfl : i = n := by omega
    obtain ⟨m, r1, h1, h2⟩ := mark_at h
    obtain ⟨e, r2, h3, h4⟩ := (many_round (fuel := fuel) h2).2 (by simp [Cursor.rest])
    obtain ⟨k, r3, own, h5, h6⟩ := reset_back (own := []) h4
    refine ⟨temp, r3, own ++ marks, ?_, h6, fun p hp => ?_, ht⟩
    · rw [repetitionLoop, if_pos hn]
      simp only [RM.bind_run, location_at h, h1, h3, Nat.not_lt_zero, if_false, h5, RM.pure_run, List.append_nil]
    · obtain ⟨m, hm⟩ := he p hp
      exact ⟨m, List.mem_append.mpr (.inr hm)⟩
  | succ j ih =>
    intro i f fuel temp r marks hi h he hf ht
    obtain ⟨f, rfl⟩ : ∃ k, f = k + 1 := ⟨f - 1, by omega⟩
    obtain ⟨m, r1, h1, h2⟩ := mark_at h
    have hr : (⟨start, List.replicate n 'x', i, marks⟩ : Cursor).rest = 'x' :: List.replicate (n - i - 1) 'x' := by
      simp only [Cursor.rest, List.drop_replicate]
      obtain ⟨k, hk⟩ : ∃ k, n - i = k + 1 := ⟨n - i - 1, by omega⟩
      rw [hk]; rfl
    obtain ⟨e, r2, h3, h4⟩ := (many_round (fuel := fuel) h2).1 _ hr
    have hl : (⟨start, List.replicate n 'x', i + 1, (m, i) :: marks⟩ : Cursor).location ≠ (⟨start, List.replicate n 'x', i, marks⟩ : Cursor).location := by
      have : ('\n' ∈ List.replicate i 'x' ↔ False) := by simp
      have h' : ('\n' ∈ List.replicate (i + 1) 'x' ↔ False) := by simp
      simp only [Cursor.location, lineColumn, List.take_replicate, Nat.min_eq_left (show i ≤ n by omega),
        Nat.min_eq_left (show i + 1 ≤ n by omega), this, h', if_false, List.length_replicate, ne_eq, Location.mk.injEq]
      omega
    obtain ⟨out, r', marks', h5, h6⟩ := ih (i + 1) f fuel (temp ++ [.token ⟨[], 1, 4⟩ e ['x']]) r2 ((m, i) :: marks) (by omega) h4
      (fun p hp => by
        rcases Nat.lt_or_ge p i with hp' | hp'
        · obtain ⟨k, hk⟩ := he p hp'
          exact ⟨k, List.mem_cons_of_mem _ hk⟩
        · simp only at hp
          exact ⟨m, by rw [show p = i by omega]; simp⟩) (by omega)
      (by
        intro e' he'
        rcases List.mem_append.mp he' with h | h
        · exact ht e' h
        · simp only [List.mem_singleton] at h; exact ⟨_, _, _, h⟩)
    refine ⟨out, r', marks', ?_, h6⟩
    rw [repetitionLoop, if_pos (show i < u32Max by omega)]
    simp only [RM.bind_run, location_at h, h1, h3]
    rw [location_at h4]
    simp only
    rw [if_neg (fun hc => hl hc.2)]
    exact h5

private theorem tokens_agree (es : List Event) (h : ∀ e ∈ es, ∃ a b c, e = Event.token a b c) (a b : Location) (l : Str) :
    pairsAgree (es ++ [.end a b l]) = true := by
  induction es with
  | nil => rfl
  | cons e es ih =>
    obtain ⟨x, y, z, rfl⟩ := h e (by simp)
    simp only [List.cons_append, pairsAgree]
    exact ih fun e he => h e (by simp [he])

private theorem many_parse {n : Nat} (hn : n < u32Max) {r : Reader} {start : Location} (h : Stands dbg r ⟨start, List.replicate n 'x', 0, []⟩)
    {fuel : Nat} (hf : n + 10 ≤ fuel) : ∃ out r' marks, manyParser.parse fuel r = (.ok out, r') ∧
      Stands dbg r' ⟨start, List.replicate n 'x', n, marks⟩ ∧ Everywhere ⟨start, List.replicate n 'x', n, marks⟩ := by
  obtain ⟨fuel, rfl⟩ : ∃ k, fuel = k + 4 := ⟨fuel - 4, by omega⟩
  have hi1 : manyGraph.instruction 1 = some ⟨none, ['{', '\'', 'x', '\'', '}'], ⟨[], 1, 3⟩, .repetition 0 u32Max 0⟩ := rfl
  have hi2 : manyGraph.instruction 2 = some ⟨none, ['a'], ⟨[], 1, 1⟩, .alias ['a']⟩ := rfl
  have hl : manyGraph.indexOfLabel ['a'] = some 1 := by
    rw [Graph.indexOfLabel, many_keyed]; rfl
  have hc : manyGraph.canonicalName ['a'] = some ['a'] := by
    rw [Graph.canonicalName, many_keyed]; rfl
  obtain ⟨out, r1, marks, h1, h2, h3, h4⟩ := many_loop n hn start n 0 (fuel + 2) fuel [] r [] (by omega) h (fun p hp => by simp at hp)
    (by omega) (by simp)
  obtain ⟨r2, h5, h6⟩ := isEof_at h2
  have hrun : runFrom manyGraph (fuel + 4) (some 2) r = (.ok (.proceed,
      .begin ⟨[], 1, 1⟩ (⟨start, List.replicate n 'x', 0, []⟩ : Cursor).location ['a'] :: out ++
        [.end ⟨[], 1, 1⟩ (⟨start, List.replicate n 'x', n, marks⟩ : Cursor).location ['a']]), r1) := by
    have hsub : runFrom manyGraph (fuel + 3) (some 1) r = (.ok (.proceed, out), r1) := by
      rw [runFrom, hi1]
      simp only [execStep, RM.bind_run, h1]
      simp only [runFrom, RM.pure_run, List.append_nil]
    rw [runFrom, hi2]
    simp only [execStep, hl, hc, RM.bind_run, location_at h, hsub, location_at h2]
    simp only [runFrom, RM.bind_run, RM.pure_run, List.append_nil]
  refine ⟨removeEmpty (.begin ⟨[], 1, 1⟩ (⟨start, List.replicate n 'x', 0, []⟩ : Cursor).location ['a'] :: out ++
    [.end ⟨[], 1, 1⟩ (⟨start, List.replicate n 'x', n, marks⟩ : Cursor).location ['a']]), r2, marks, ?_, h6, h3⟩
  unfold Machine.parse
  simp only [RM.bind_run, manyParser, hrun, h5]
  have : decide ((⟨start, List.replicate n 'x', n, marks⟩ : Cursor).rest = []) = true := by simp [Cursor.rest]
  simp only [this, if_true, RM.bind_run, RM.get_run]
  rw [if_neg]
  · rfl
  · simp only [List.cons_append, labelsAgree, tokens_agree out h4]; simp

/-- C90 fails: the parser for `a={'x'};` accepts `n` times `x`, and leaves a mark for each of them: one can now go back by one character, by
two characters, and so on to the beginning, although the caller never marked anything. -/
theorem c90_grows : ∃ m, ParserOf .default m ∧
    ∀ n, n < 4294967295 → ∀ location source, Delivers source (List.replicate n 'x') →
      (∀ k j, ¬ GoesBack (Reader.withLocation location source dbg) k j) ∧
      ∃ enough, ∀ fuel, enough ≤ fuel →
        (∃ events, (m.parse fuel (Reader.withLocation location source dbg)).1 = .ok events) ∧
        ∀ back, 1 ≤ back → back ≤ n → ∃ k, GoesBack (m.parse fuel (Reader.withLocation location source dbg)).2 k back := by
  refine ⟨manyParser, many_parser, fun n hn location source hd => ?_⟩
  have h : Stands dbg (Reader.withLocation location source dbg) ⟨location, List.replicate n 'x', 0, []⟩ := ⟨(new_rep hd dbg).toRep, rfl⟩
  refine ⟨fun k j hk => ?_, n + 10, fun fuel hf => ?_⟩
  · obtain ⟨p, hp⟩ := (goes_back_iff h k).mp ⟨j, hk⟩
    cases hp
  · obtain ⟨out, r', marks, h1, h2, h3⟩ := many_parse hn h hf
    rw [h1]
    refine ⟨⟨out, rfl⟩, fun back hb1 hb2 => ?_⟩
    obtain ⟨k, hk⟩ := h3 (n - back) (by simp only; omega)
    have := goes_back h2 hk
    simp only at this
    rw [show n - (n - back) = back by omega] at this
    exact ⟨k, this⟩

/-- C90 fails: this parser does not keep the marks as they were. -/
theorem c90_not_kept : ∃ m, ParserOf .default m ∧ ¬ KeepsMarks dbg m := by
  obtain ⟨m, h1, h2⟩ := c90_grows (dbg := dbg)
  refine ⟨m, h1, fun h => ?_⟩
  have hd : Delivers (.buffered ['x']) (List.replicate 1 'x') := ⟨[], rfl, by simp [Source.buffered]⟩
  obtain ⟨h3, f, h4⟩ := h2 1 (by decide) (Location.new []) (.buffered ['x']) hd
  obtain ⟨⟨events, h5⟩, h6⟩ := h4 f (Nat.le_refl _)
  obtain ⟨k, h7⟩ := h6 1 (by omega) (by omega)
  obtain ⟨j, h8⟩ := (h _ _ _ f (input_new hd) (by rw [h5]; simp) k).mp ⟨1, h7⟩
  exact h3 k j h8

/-! ## The hypotheses are met -/

/-- `c90_bound` for the parser above: no special sequence leaves a mark, hence at most three for each instruction. -/
example : ∃ m, ParserOf .default m ∧ ∀ fuel r, liveMarks (m.parse fuel r).2 ≤ liveMarks r + 3 * m.steps fuel r :=
  ⟨manyParser, many_parser, fun fuel r => c90_bound many_parser (k := 0) (fun _ t => leaves_default t) fuel r⟩

/-- The bound is not far off: for `xxx`, six instructions are executed, and three marks are left. -/
example : manyParser.steps 20 (readerOn "xxx") = 6 ∧ liveMarks (manyParser.parse 20 (readerOn "xxx")).2 = 3 ∧
    liveMarks (readerOn "xxx") = 0 := by decide +kernel

/-- The rule `a='x',(b,);` and the rule `b='y';`. -/
private def straightRules : List SyntaxRule :=
  [⟨⟨[], 1, 1⟩, ['a'], .cons (.cons (.plain (.mk 1 (.terminalString ⟨[], 1, 3⟩ ['x']))) (.cons (.plain (.mk 1 (.grouped ⟨[], 1, 7⟩
    (.cons (.cons (.plain (.mk 1 (.metaIdentifier ⟨[], 1, 8⟩ ['b']))) (.cons (.plain (.mk 1 (.empty ⟨[], 1, 9⟩))) .nil)) .nil)))) .nil)) .nil⟩,
    ⟨⟨[], 1, 12⟩, ['b'], .cons (.cons (.plain (.mk 1 (.terminalString ⟨[], 1, 14⟩ ['y']))) .nil) .nil⟩]

private def accepts : Res (List Event) → Bool
  | .ok _ => true
  | _ => false

private def straightRun : Option (Bool × ReaderAns) :=
  match sampleMachine .default "a='x',(b,);b='y';" with
  | some (_, _, m) =>
    let r := (performAll [.mark, .read] (readerOn "zxy")).2
    some (accepts (m.parse 50 r).1, (perform (.resetToMark 0) (m.parse 50 r).2).1)
  | none => none

/-- The hypotheses of `c90_straight_partial` and `c90_kept` are met: the reader is inside a text, with a mark, the parse accepts, and afterwards
one can go back to the mark, by three characters. -/
example : ∃ m, ParserFor false (plainLanguage straightRules) straightRules[0] m ∧ KeepsMarks false m ∧
    InputAt false (performAll [.mark, .read] (readerOn "zxy")).2 ⟨[], 1, 2⟩ ['x', 'y'] ∧
    GoesBack (performAll [.mark, .read] (readerOn "zxy")).2 0 1 ∧
    accepts (m.parse 50 (performAll [.mark, .read] (readerOn "zxy")).2).1 = true ∧
    GoesBack (m.parse 50 (performAll [.mark, .read] (readerOn "zxy")).2).2 0 3 := by
  have hr : straightRun = some (true, .num 3) := by decide +kernel
  unfold straightRun at hr
  have hg : parseStr [] "a='x',(b,);b='y';".toList = .ok straightRules := by decide +kernel
  cases h : sampleMachine .default "a='x',(b,);b='y';" with
  | none => rw [h] at hr; simp at hr
  | some x =>
    obtain ⟨rules, start, m⟩ := x
    rw [h] at hr
    simp only [Option.some.injEq, Prod.mk.injEq] at hr
    obtain ⟨h1, h2, h3⟩ := sampleMachine_parser .default _ _ (fun _ => plain_realizes _) _ _ _ _ h
    rw [hg, Res.ok.injEq] at h1
    subst h1
    simp only [straightRules, List.head?_cons, Option.some.injEq] at h3
    subst h3
    refine ⟨m, h2, ?_, ?_, by unfold GoesBack; decide +kernel, hr.1, hr.2⟩
    · obtain ⟨s, config, g, query, a1, _, a2, _, a3⟩ := h2.made
      exact c90_straight_partial (by simp [straightRules, StraightList, StraightTerms, StraightPrimary]) a1 a2 a3
    · refine ⟨Location.new [], .buffered "zxy".toList, "zxy".toList, [.mark, .read], ⟨Location.new [], "zxy".toList, 1, [(0, 0)]⟩,
        ⟨[], rfl, by simp [Source.buffered]⟩, rfl, ?_, by decide +kernel, by decide +kernel⟩
      have : (performAll [.mark, .read] (Reader.withLocation (Location.new []) (.buffered "zxy".toList) false)).1 = [.num 0, .char (some 'z')] := by
        decide +kernel
      rw [this]
      exact .cons (.mark _ 0 (by simp)) (.cons (.read _) (.nil _))

end Ebnf.Props
