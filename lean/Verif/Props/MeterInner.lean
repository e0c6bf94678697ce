import Verif.Proofs.MeterInner
import Verif.Props.Work

set_option autoImplicit false

/-! # C105: what a parse costs in all, with the readers that exceptions make -/

namespace Ebnf.Props

open Ebnf Ebnf.Spec

variable {location : Location} {source : Source} {dbg : Bool}

private theorem sound_calls (ops : List ReaderOp) : Meter.Sound (afterCalls location source dbg ops).reader := by
  obtain ⟨_, h2, h3⟩ := Meter.calls_same ops (opened location source dbg) (Meter.sound_new location source dbg)
  unfold afterCalls
  rw [h2]; exact h3

/-- C105: on a reader in any state, whatever the grammar and whatever the outcome: all that `parse` copies in the reader and all marks it makes or looks at,
together with all steps of the readers that its exceptions make for themselves, are at most so many for each instruction as the number of characters that
are left or kept allows, at most its square. -/
theorem c105_exceptions (before : List ReaderOp) {scan : SpecialScanner → Location → RM Metered Reaction} {m : Machine} {N D : Nat}
    (hl : ReadsWithin N D scan m.graph) (hN : (afterCalls location source dbg before).reader.size ≤ N) (fuel : Nat) :
    (Dyn.parse Metered.required.methods scan m fuel (afterCalls location source dbg before)).2.copied +
        (Dyn.parse Metered.required.methods scan m fuel (afterCalls location source dbg before)).2.marks +
        m.inner scan fuel (afterCalls location source dbg before).reader ≤
      (afterCalls location source dbg before).copied +
        3 * ((afterCalls location source dbg before).marks + (afterCalls location source dbg before).reader.buffer.stack.length) +
        ((10 * D + 2 * N + 67 + N * (N + 1) / 2) * m.steps fuel (afterCalls location source dbg before).reader + 43) :=
  Meter.works_total hl fuel (sound_calls before) hN

/-- C105: what is counted there for one exception is what the machine does: run it on a reader over the captured text, and ask for the end of that text. -/
theorem c105_test {scan : SpecialScanner → Location → RM Metered Reaction} {g : Graph} (hl : LibraryScanners Metered.required.methods scan g)
    (fuel exception : Nat) :
    (testException scan g fuel exception (opened location source dbg)).1 =
      (match runFrom g fuel (some exception) (Reader.withLocation location source dbg) with
      | (.ok (.proceed, _), r) => (Reader.isEof r).1
      | (.ok (.notThisWay _, _), _) => .ok false
      | (.err e, _) => .err e
      | (.panic p, _) => .panic p
      | (.diverge, _) => .diverge) := by
  have h := (Meter.same_test hl fuel exception (fun _ => True) (opened location source dbg) (Reader.withLocation location source dbg)
    ⟨rfl, trivial, Meter.sound_new location source dbg⟩).1
  rw [h]
  simp only [RM.bind_run]
  generalize runFrom g fuel (some exception) (Reader.withLocation location source dbg) = x
  obtain ⟨x, r⟩ := x
  cases x with
  | ok pe =>
    obtain ⟨p, evs⟩ := pe
    cases p with
    | proceed => exact congrArg Prod.fst (congrFun Meter.isEof_eq r)
    | notThisWay e => rfl
  | err e => rfl
  | panic e => rfl
  | diverge => rfl

private theorem no_specials {G : Language} {start : SyntaxRule} {m : Machine} (hp : ParserFor dbg G start m)
    (hS : ∀ loc s, ¬ Occurs G (.primary (.specialSequence loc s))) {scan : SpecialScanner → Location → RM Metered Reaction} :
    LibraryScanners Metered.required.methods scan m.graph := by
  obtain ⟨s, config, g, query, h1, _, h2, _, h3⟩ := hp.made
  have hm : m.graph = g := by
    unfold Machine.new at h3
    cases ha : g.indexOfLabel ('$' :: query) with
    | none => rw [ha] at h3; simp at h3
    | some a =>
      rw [ha] at h3
      simp only at h3
      cases hn : g.canonicalName query with
      | none => rw [hn] at h3; simp at h3
      | some n => rw [hn] at h3; simp at h3; subst h3; rfl
  intro addr instr scanner hi hstep
  rw [hm] at hi
  have h := compile_comes h1 h2 instr (List.mem_of_getElem? hi)
  unfold Comes at h
  rw [hstep] at h
  obtain ⟨loc, s, h, rfl⟩ := h
  exact absurd h (hS _ _)

private theorem terminals_upto (l : List Instruction) :
    ∃ D, ∀ x ∈ l, ∀ p, x.step = .scan (.terminal p) → p.length ≤ D := by
  induction l with
  | nil => exact ⟨0, by simp⟩
  | cons y l ih =>
    obtain ⟨D, h⟩ := ih
    refine ⟨D + (match y.step with | .scan (.terminal p) => p.length | _ => 0), fun x hx p hp => ?_⟩
    rcases List.mem_cons.mp hx with rfl | hx
    · rw [hp]; simp only; omega
    · have := h x hx p hp; omega

/-- C105: whatever the grammar, if its special sequences are scanned by scanners of the library, there is such a bound: a constant, and the number of characters
that are left or kept. -/
theorem c105_library {scan : SpecialScanner → Location → RM Metered Reaction} {g : Graph} (hl : LibraryScanners Metered.required.methods scan g) :
    ∃ D, ∀ N, ReadsWithin N (D + N) scan g := by
  obtain ⟨D, hD⟩ := terminals_upto g.instructions
  refine ⟨D + 257, fun N addr instr hi => ?_⟩
  have h1 := hD instr (List.mem_of_getElem? hi)
  have h2 := hl addr instr
  revert h1 h2
  cases instr.step with
  | repetition a b c => exact fun _ _ => trivial
  | or subs => exact fun _ _ => trivial
  | alias n => exact fun _ _ => trivial
  | scan sc =>
    cases sc with
    | terminal p => intro h _; have := h p rfl; show p.length ≤ _; omega
    | special scanner =>
      intro _ h
      have h3 := h scanner hi rfl
      show ScanWithin N (D + 257 + N) scanner (scan scanner)
      generalize scan scanner = sc at h3
      cases h3 with
      | default content => exact .default content
      | chars allowed min max => exact .chars allowed min max (.inl (by omega))
      | regex source find => exact .regex source find (by omega)
    | empty => exact fun _ _ => trivial
    | exception a b => exact fun _ _ => trivial

/-- C105: for grammars that need one character of look-ahead (see C92), exceptions included: all that a parse copies in the reader, all marks it makes or looks at
and all steps of the readers that exceptions make are, together, at most cubic in the length of the text, accepted or not. -/
theorem c105_cubic {G : Language} {start : SyntaxRule} {m : Machine} (hp : ParserFor dbg G start m) (hO : OneAhead regardless G)
    (hP : Productive regardless G) (hX : LeafExceptions G) (ho : Everywhere (ordinary G) G) (hl : ¬ LeftRecursive G)
    {scan : SpecialScanner → Location → RM Metered Reaction} (hs : LibraryScanners Metered.required.methods scan m.graph) :
    ∃ B, ∀ (location : Location) (source : Source) (text : Str), Delivers source text → ∃ enough, ∀ fuel, enough ≤ fuel →
      (Dyn.parse Metered.required.methods scan m fuel (opened location source dbg)).2.copied +
        (Dyn.parse Metered.required.methods scan m fuel (opened location source dbg)).2.marks +
        m.inner scan fuel (Reader.withLocation location source dbg) ≤
      B * ((text.length + 1) * (text.length + 1) * (text.length + 1)) := by
  obtain ⟨B, hB⟩ := c92_linear hp hO hP hX ho hl
  obtain ⟨D, hD⟩ := c105_library hs
  refine ⟨(10 * D + 80) * B + 43, fun location source text ht => ?_⟩
  obtain ⟨n, ⟨enough, hn⟩, hle⟩ := hB _ location text (input_new (dbg := dbg) (location := location) ht)
  refine ⟨enough, fun fuel hf => ?_⟩
  have hsize : (opened location source dbg).reader.size ≤ text.length := by
    obtain ⟨pieces, h1, h2⟩ := ht
    rw [Meter.size_eq]
    change ([] : Str).length + leftIn source ≤ _
    unfold leftIn
    rw [h1, h2, List.length_append, List.length_flatten, List.map_map]
    exact Nat.le_of_eq (Nat.zero_add _)
  have h := Meter.works_total (hD text.length) fuel (s := opened location source dbg) (Meter.sound_new location source dbg) hsize
  have e : m.steps fuel (opened location source dbg).reader = n := hn fuel hf
  rw [e] at h
  have e1 : (opened location source dbg).copied = 0 := rfl
  have e2 : Meter.phi (opened location source dbg) = 0 := rfl
  rw [e1, e2] at h
  refine Nat.le_trans h ?_
  generalize text.length = t at *
  have a1 : 10 * (D + t) + 2 * t + 67 + t * (t + 1) / 2 ≤ (10 * D + 80) * ((t + 1) * (t + 1)) := by
    have b1 : t * (t + 1) / 2 ≤ (t + 1) * (t + 1) := Nat.le_trans (Nat.div_le_self _ _) (Nat.mul_le_mul_right _ (by omega))
    have b2 : t + 1 ≤ (t + 1) * (t + 1) := Nat.le_mul_of_pos_left _ (by omega)
    have b3 : 10 * D * 1 ≤ 10 * D * ((t + 1) * (t + 1)) := Nat.mul_le_mul_left _ (by omega)
    rw [Nat.add_mul]
    omega
  have a2 : (10 * (D + t) + 2 * t + 67 + t * (t + 1) / 2) * n ≤ (10 * D + 80) * B * ((t + 1) * (t + 1) * (t + 1)) := by
    refine Nat.le_trans (Nat.mul_le_mul a1 hle) (Nat.le_of_eq ?_)
    rw [Nat.mul_assoc (10 * D + 80), Nat.mul_assoc (10 * D + 80)]
    congr 1
    rw [Nat.mul_left_comm]
  have a3 : 1 ≤ (t + 1) * (t + 1) * (t + 1) := Nat.mul_pos (Nat.mul_pos (by omega) (by omega)) (by omega)
  rw [Nat.add_mul ((10 * D + 80) * B)]
  omega

/-- C105, where the look-ahead is checked with a table (see `c92_checked`), all steps of all readers on a text in memory. -/
theorem c105_checked_cubic {G : Language} {start : SyntaxRule} {m : Machine} (hp : ParserFor dbg G start m) {tab : Str → Row}
    (hc : checkRules G tab = true) (hr : ∀ rule ∈ G.rules, ∃ w, Produces regardless G (.list rule.definitionList) w)
    (ho : Everywhere (ordinary G) G) (hl : ¬ LeftRecursive G) (scan : SpecialScanner → Location → RM Metered Reaction) :
    ∃ B, ∀ (location : Location) (text : Str), ∃ enough, ∀ fuel, enough ≤ fuel →
      (Dyn.parse Metered.required.methods scan m fuel (opened location (Source.fromStr text) dbg)).2.total +
        m.inner scan fuel (Reader.withLocation location (Source.fromStr text) dbg) ≤
      B * ((text.length + 1) * (text.length + 1) * (text.length + 1)) := by
  have hlib : LibraryScanners Metered.required.methods scan m.graph := no_specials hp fun loc s h => checked_special hc h
  obtain ⟨B, hB⟩ := c105_cubic hp (predictive_of_check (parser_oneMeaning hp) hc).toOneAhead
    (productive_of hp.shape (fun loc s h => absurd h (checked_special hc)) fun loc n h => by
      obtain ⟨r, h1, h2⟩ := checked_defined hc h
      obtain ⟨w, h3⟩ := hr r h1
      exact ⟨w, .reference h1 h2 h3⟩)
    (fun f k p h => by
      obtain ⟨loc, s, h⟩ := checked_exception hc h
      cases h
      trivial) ho hl hlib
  refine ⟨B + 1, fun location text => ?_⟩
  obtain ⟨enough, h⟩ := hB location (Source.fromStr text) text ⟨[], rfl, by simp [Source.fromStr, Source.buffered]⟩
  refine ⟨enough, fun fuel hf => ?_⟩
  have h1 := h fuel hf
  have h2 := (c104_string location text dbg hlib fuel).1
  have h3 : text.length * (text.length + 1) ≤ (text.length + 1) * (text.length + 1) * (text.length + 1) := by
    refine Nat.mul_le_mul_right _ (Nat.le_trans (Nat.le_succ _) (Nat.le_mul_of_pos_left _ (by omega)))
  unfold Metered.total
  rw [Nat.add_mul B, Nat.one_mul]
  omega

/-! ## Examples -/

/-- Special sequences stand for numbers. -/
private def numbers : Config := fun _ _ => charsScanner Char.isDigit (some 1) none

/-- A list of numbers, none of which is `0` or `12`. -/
private def list : String := "S=N,{',',N};N=?n?-M;M=?n?-(?n?-('0'|'12'));"

-- A parser for lists of numbers, without `0` and `12`, with exceptions in exceptions, and the steps of their readers on three texts.
example : ∃ m : Machine, LibraryScanners Metered.required.methods (fun _ => Dyn.charsScan Metered.required.methods Char.isDigit (some 1) none) m.graph ∧
    (∃ D, ∀ N, ReadsWithin N (D + N) (fun _ => Dyn.charsScan Metered.required.methods Char.isDigit (some 1) none) m.graph) ∧
    m.inner (fun _ => Dyn.charsScan Metered.required.methods Char.isDigit (some 1) none) 100 (readerOn "7") = 67 ∧
    m.inner (fun _ => Dyn.charsScan Metered.required.methods Char.isDigit (some 1) none) 100 (readerOn "345,7") = 179 ∧
    m.inner (fun _ => Dyn.charsScan Metered.required.methods Char.isDigit (some 1) none) 100 (readerOn "3,12,4") = 145 := by
  have hok : (sampleMachine numbers list).isSome = true := by decide +kernel
  have h5 : (sampleMachine numbers list).map (fun x => (
      x.2.2.inner (fun _ => Dyn.charsScan Metered.required.methods Char.isDigit (some 1) none) 100 (readerOn "7"),
      x.2.2.inner (fun _ => Dyn.charsScan Metered.required.methods Char.isDigit (some 1) none) 100 (readerOn "345,7"),
      x.2.2.inner (fun _ => Dyn.charsScan Metered.required.methods Char.isDigit (some 1) none) 100 (readerOn "3,12,4"))) =
      some (67, 179, 145) := by decide +kernel
  cases hm : sampleMachine numbers list with
  | none => rw [hm] at hok; simp at hok
  | some x =>
    obtain ⟨rules, start, m⟩ := x
    rw [hm] at h5
    simp only [Option.map_some, Option.some.injEq, Prod.mk.injEq] at h5
    obtain ⟨h6, h7, h8⟩ := h5
    obtain ⟨h1, s, g, h2, h3, h4, _⟩ := sample_made hm
    have hlib := c104_library (scan := fun _ => Dyn.charsScan Metered.required.methods Char.isDigit (some 1) none) h2
      (fun r hr => (c12_shape [] _ _ h1 r hr).1) h3 h4 (fun _ _ => .chars _ _ _)
    exact ⟨m, hlib, c105_library hlib, h6, h7, h8⟩

/-- The rules `A='(',{A},')'|B-'z';` and `B='x'|'y'|'z';`. -/
private def ruleA : SyntaxRule :=
  ⟨⟨[], 1, 1⟩, ['A'], .cons (.cons (.plain (.mk 1 (.terminalString ⟨[], 1, 3⟩ ['('])))
    (.cons (.plain (.mk 1 (.repeated ⟨[], 1, 7⟩ (.cons (.cons (.plain (.mk 1 (.metaIdentifier ⟨[], 1, 8⟩ ['A']))) .nil) .nil))))
      (.cons (.plain (.mk 1 (.terminalString ⟨[], 1, 11⟩ [')']))) .nil)))
    (.cons (.cons (.except (.mk 1 (.metaIdentifier ⟨[], 1, 15⟩ ['B'])) (.mk 1 (.terminalString ⟨[], 1, 17⟩ ['z']))) .nil) .nil)⟩
private def ruleB : SyntaxRule :=
  ⟨⟨[], 1, 21⟩, ['B'], .cons (.cons (.plain (.mk 1 (.terminalString ⟨[], 1, 23⟩ ['x']))) .nil)
    (.cons (.cons (.plain (.mk 1 (.terminalString ⟨[], 1, 27⟩ ['y']))) .nil)
    (.cons (.cons (.plain (.mk 1 (.terminalString ⟨[], 1, 31⟩ ['z']))) .nil) .nil))⟩

/-- The table. -/
private def table (n : Str) : Row :=
  if n = ['A'] then ⟨false, ['(', 'x', 'y', 'z'], ['(', 'x', 'y', 'z', ')']⟩
  else ⟨false, ['x', 'y', 'z'], ['(', 'x', 'y', 'z', ')']⟩

-- The grammar of C92 with an exception: it meets the hypotheses.
example : ∃ m, ParserFor false (plainLanguage [ruleA, ruleB]) ruleA m ∧ checkRules (plainLanguage [ruleA, ruleB]) table = true ∧
    OneAhead regardless (plainLanguage [ruleA, ruleB]) ∧ Productive regardless (plainLanguage [ruleA, ruleB]) ∧
    LeafExceptions (plainLanguage [ruleA, ruleB]) ∧
    (∀ rule ∈ (plainLanguage [ruleA, ruleB]).rules, ∃ w, Produces regardless (plainLanguage [ruleA, ruleB]) (.list rule.definitionList) w) ∧
    Everywhere (ordinary (plainLanguage [ruleA, ruleB])) (plainLanguage [ruleA, ruleB]) ∧ ¬ LeftRecursive (plainLanguage [ruleA, ruleB]) ∧
    LibraryScanners Metered.required.methods (fun _ => Dyn.defaultScan) m.graph ∧ Delivers (Source.fromStr "((x)y)".toList) "((x)y)".toList := by
  obtain ⟨m, h1, h2, _⟩ := samplePlainOf "A='(',{A},')'|B-'z';B='x'|'y'|'z';" ruleA [ruleB] (by decide +kernel) (by decide +kernel)
  have hc : checkRules (plainLanguage [ruleA, ruleB]) table = true := by decide +kernel
  have hr : ∀ rule ∈ (plainLanguage [ruleA, ruleB]).rules, ∃ w, Produces regardless (plainLanguage [ruleA, ruleB]) (.list rule.definitionList) w := by
    intro r hr
    simp [plainLanguage] at hr
    rcases hr with rfl | rfl
    · exact ⟨['('] ++ [] ++ ([] ++ ([')'] ++ [] ++ [])), .choice List.mem_cons_self
        (.next (.plain (.again .terminal .never)) (.next (w := []) (.plain (.again (w := []) (w' := []) .noMore .never))
          (.next (.plain (.again .terminal .never)) .done)))⟩
    · exact ⟨['x'] ++ [] ++ [], .choice List.mem_cons_self
        (.next (.plain (.again .terminal .never)) .done)⟩
  refine ⟨m, h1, hc, (predictive_of_check (parser_oneMeaning h1) hc).toOneAhead, ?_, ?_, hr, ?_,
    not_leftRecursive (fun r => if r.metaIdentifier = ['A'] then 1 else 0) ?_,
    no_specials h1 fun loc s h => checked_special hc h, ⟨[], rfl, by simp [Source.fromStr, Source.buffered]⟩⟩
  · refine productive_of h1.shape (fun loc s h => absurd h (checked_special hc)) fun loc n h => ?_
    obtain ⟨r, h1, h2⟩ := checked_defined hc h
    obtain ⟨w, h3⟩ := hr r h1
    exact ⟨w, .reference h1 h2 h3⟩
  · intro f k p h
    obtain ⟨loc, s, h⟩ := checked_exception hc h
    cases h
    trivial
  · intro r hr
    simp [plainLanguage] at hr
    rcases hr with rfl | rfl <;>
    simp [ruleA, ruleB, EveryList, EverySingle, EveryTerm, EveryFactor, EveryPrimary, ordinary, groupsLast, smallCounts, IsBareGroup]
  · rintro r r' ⟨h1, h2⟩
    simp [plainLanguage] at h1
    rcases h1 with rfl | rfl
    · simp [ruleA, begins_list, begins_cons, begins_nil, begins_plain, begins_factor, begins_except, begins_reference,
        begins_terminal, DefinitionList.toList, empty_plain, empty_factor, empty_terminal, IsBareGroup,
        plainLanguage] at h2
      rcases h2 with ⟨rfl | rfl, h2⟩
      · have := keyed_differs h2
        exact absurd this (by decide)
      · decide
    · simp [ruleB, begins_list, begins_cons, begins_nil, begins_plain, begins_factor, begins_terminal, DefinitionList.toList] at h2

end Ebnf.Props
