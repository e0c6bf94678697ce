import Verif.Proofs.CodeOrigin
import Verif.Proofs.MeterWork
import Verif.Props.Linear
import Verif.Props.Meter

set_option autoImplicit false

/-! # C105: what a parse costs in all -/

namespace Ebnf.Props

open Ebnf Ebnf.Spec

variable {location : Location} {source : Source} {dbg : Bool}

private theorem sound_after (ops : List ReaderOp) : Meter.Sound (afterCalls location source dbg ops).reader := by
  obtain ⟨_, h2, h3⟩ := Meter.calls_same ops (opened location source dbg) (Meter.sound_new location source dbg)
  unfold afterCalls
  rw [h2]; exact h3

/-- C105: on a reader in any state, whatever the grammar and whatever the outcome, each of the instructions that `parse` executes copies at most `4 D + 20`
characters out of and into the buffer of the reader, however much it holds, and makes or looks at a number of marks that depends on `D` alone, on average,
however many are set.  `D` bounds how far one instruction looks ahead. -/
theorem c105_parse (before : List ReaderOp) {scan : SpecialScanner → Location → RM Metered Reaction} {m : Machine} {N D : Nat}
    (hl : LooksWithin N D scan m.graph) (hN : (afterCalls location source dbg before).reader.size ≤ N) (fuel : Nat) :
    (Dyn.parse Metered.required.methods scan m fuel (afterCalls location source dbg before)).2.copied ≤
      (afterCalls location source dbg before).copied + ((4 * D + 20) * m.steps fuel (afterCalls location source dbg before).reader + 22) ∧
    (Dyn.parse Metered.required.methods scan m fuel (afterCalls location source dbg before)).2.marks ≤
      3 * ((afterCalls location source dbg before).marks + (afterCalls location source dbg before).reader.buffer.stack.length +
        ((2 * D + 12) * m.steps fuel (afterCalls location source dbg before).reader + 6)) + 3 := by
  have h := Meter.works_parse hl fuel (sound_after before) hN
  exact ⟨h.copied, h.all⟩

/-- C105: and if it succeeds, without the factor. -/
theorem c105_parse_ok (before : List ReaderOp) {scan : SpecialScanner → Location → RM Metered Reaction} {m : Machine} {N D : Nat}
    (hl : LooksWithin N D scan m.graph) (hN : (afterCalls location source dbg before).reader.size ≤ N) (fuel : Nat) (events : List Event)
    (ho : (Dyn.parse Metered.required.methods scan m fuel (afterCalls location source dbg before)).1 = .ok events) :
    (Dyn.parse Metered.required.methods scan m fuel (afterCalls location source dbg before)).2.marks +
        (Dyn.parse Metered.required.methods scan m fuel (afterCalls location source dbg before)).2.reader.buffer.stack.length ≤
      (afterCalls location source dbg before).marks + (afterCalls location source dbg before).reader.buffer.stack.length +
        ((2 * D + 12) * m.steps fuel (afterCalls location source dbg before).reader + 6) :=
  (Meter.works_parse hl fuel (sound_after before) hN).ok events ho

/-- C105: what an instruction looks at is what the grammar says. -/
theorem c105_grammar {G : Language} {s : Syntax} {config : Config} {g : Graph} {query : Str} {m : Machine} {N D : Nat}
    (h1 : Syntax.new G.rules = .ok s) (h2 : Graph.compile s config = .ok g) (h3 : Machine.new g query = .ok (some m))
    {scan : SpecialScanner → Location → RM Metered Reaction} (hl : LooksAtMost N D config scan G) : LooksWithin N D scan m.graph := by
  have hm : m.graph = g := by
    unfold Machine.new at h3
    cases ha : g.indexOfLabel ('$' :: query) with
    | none => rw [ha] at h3; simp at h3
    | some a =>
      rw [ha] at h3
      simp only at h3
      cases hn : g.canonicalName query with
      | none => rw [hn] at h3; simp at h3
      | some n => rw [hn] at h3; simp at h3; subst h3; rfl
  intro addr instr hi
  rw [hm] at hi
  have h := compile_comes h1 h2 instr (List.mem_of_getElem? hi)
  unfold Comes at h
  revert h
  cases instr.step with
  | repetition a b c => exact fun _ => trivial
  | or subs => exact fun _ => trivial
  | alias n => exact fun _ => trivial
  | scan sc =>
    cases sc with
    | terminal p => exact fun ⟨loc, h⟩ => hl.terminal loc p h
    | special scanner => rintro ⟨loc, s, h, rfl⟩; exact hl.special loc s h
    | empty => exact fun _ => trivial
    | exception a b => exact fun ⟨f, e, h⟩ => hl.exception f e h

/-- C105: for grammars that need one character of look-ahead (see C92), and whose parts look at no more than `D` characters at once: what a parse copies in
the reader, and the marks it makes or looks at, are linear in the length of the text, accepted or not. -/
theorem c105_linear {G : Language} {start : SyntaxRule} {m : Machine} (hp : ParserFor dbg G start m) (hO : OneAhead regardless G)
    (hP : Productive regardless G) (ho : Everywhere (ordinary G) G) (hl : ¬ LeftRecursive G)
    (hX : ∀ f x, ¬ Occurs G (.term (.except f x))) {scan : SpecialScanner → Location → RM Metered Reaction} {D : Nat}
    (hD : ∀ N, LooksWithin N D scan m.graph) :
    ∃ B, ∀ (location : Location) (source : Source) (text : Str), Delivers source text → ∃ enough, ∀ fuel, enough ≤ fuel →
      (Dyn.parse Metered.required.methods scan m fuel (opened location source dbg)).2.copied +
        (Dyn.parse Metered.required.methods scan m fuel (opened location source dbg)).2.marks ≤ B * (text.length + 1) := by
  obtain ⟨B, hB⟩ := c92_linear hp hO hP (fun f k p h => absurd h (hX _ _)) ho hl
  refine ⟨(4 * D + 20) * B + 3 * ((2 * D + 12) * B) + 43, fun location source text ht => ?_⟩
  obtain ⟨n, ⟨enough, hn⟩, hle⟩ := hB _ location text (input_new (dbg := dbg) (location := location) ht)
  refine ⟨enough, fun fuel hf => ?_⟩
  have h := Meter.works_parse (hD (Reader.withLocation location source dbg).size) fuel (s := opened location source dbg)
    (Meter.sound_new location source dbg) (Nat.le_refl _)
  have e : m.steps fuel (opened location source dbg).reader = n := hn fuel hf
  have h1 := h.copied
  have h2 := h.all
  rw [e] at h1 h2
  have e1 : (opened location source dbg).copied = 0 := rfl
  have e2 : Meter.phi (opened location source dbg) = 0 := rfl
  rw [e1] at h1
  rw [e2] at h2
  have a1 : (4 * D + 20) * n ≤ (4 * D + 20) * B * (text.length + 1) := by
    rw [Nat.mul_assoc]; exact Nat.mul_le_mul_left _ hle
  have a2 : (2 * D + 12) * n ≤ (2 * D + 12) * B * (text.length + 1) := by
    rw [Nat.mul_assoc]; exact Nat.mul_le_mul_left _ hle
  rw [Nat.add_mul, Nat.add_mul, Nat.mul_assoc 3]
  omega

/-- C105: so a byte stream that brings at most `K` characters with each read is parsed, all steps of the reader together, in linear time. -/
theorem c105_stream {G : Language} {start : SyntaxRule} {m : Machine} (hp : ParserFor dbg G start m) (hO : OneAhead regardless G)
    (hP : Productive regardless G) (ho : Everywhere (ordinary G) G) (hl : ¬ LeftRecursive G)
    (hX : ∀ f x, ¬ Occurs G (.term (.except f x))) {scan : SpecialScanner → Location → RM Metered Reaction} {D : Nat}
    (hD : ∀ N, LooksWithin N D scan m.graph) (K : Nat) :
    ∃ B, ∀ (location at' : Location) (pieces : List Str), (∀ t ∈ pieces, t.length ≤ K) → ∃ enough, ∀ fuel, enough ≤ fuel →
      (Dyn.parse Metered.required.methods scan m fuel (opened location ⟨[], pieces.map .ok, at'⟩ dbg)).2.moved +
        (Dyn.parse Metered.required.methods scan m fuel (opened location ⟨[], pieces.map .ok, at'⟩ dbg)).2.copied +
        (Dyn.parse Metered.required.methods scan m fuel (opened location ⟨[], pieces.map .ok, at'⟩ dbg)).2.marks ≤
      B * (pieces.flatten.length + 1) + pieces.length := by
  obtain ⟨B, hB⟩ := c105_linear hp hO hP ho hl hX hD
  refine ⟨B + (K + 5), fun location at' pieces hK => ?_⟩
  obtain ⟨enough, h⟩ := hB location ⟨[], pieces.map .ok, at'⟩ pieces.flatten ⟨pieces, rfl, rfl⟩
  refine ⟨enough, fun fuel hf => ?_⟩
  have h1 := h fuel hf
  have h2 := c104_stream location at' (pieces.map .ok) dbg K (by simpa using hK) (Meter.library_within (hD 0)) fuel
  have e : leftIn ⟨[], pieces.map .ok, at'⟩ = pieces.flatten.length := by
    unfold leftIn
    simp only [List.length_nil, Nat.zero_add, List.map_map, List.length_flatten]
    rfl
  rw [e, List.length_map] at h2
  rw [Nat.add_mul, Nat.mul_add (K + 5)]
  omega

/-- C105: and with a text held in memory, all but the moves in the source is linear; those are `n (n + 1) / 2`, if the text is accepted. -/
theorem c105_string {G : Language} {start : SyntaxRule} {m : Machine} (hp : ParserFor dbg G start m) (hO : OneAhead regardless G)
    (hP : Productive regardless G) (ho : Everywhere (ordinary G) G) (hl : ¬ LeftRecursive G)
    (hX : ∀ f x, ¬ Occurs G (.term (.except f x))) {scan : SpecialScanner → Location → RM Metered Reaction} {D : Nat}
    (hD : ∀ N, LooksWithin N D scan m.graph) :
    ∃ B, ∀ (location : Location) (text : Str), ∃ enough, ∀ fuel, enough ≤ fuel →
      (Dyn.parse Metered.required.methods scan m fuel (opened location (Source.fromStr text) dbg)).2.copied +
        (Dyn.parse Metered.required.methods scan m fuel (opened location (Source.fromStr text) dbg)).2.marks ≤ B * (text.length + 1) ∧
      2 * (Dyn.parse Metered.required.methods scan m fuel (opened location (Source.fromStr text) dbg)).2.moved ≤ text.length * (text.length + 1) ∧
      ((∃ events, (Dyn.parse Metered.required.methods scan m fuel (opened location (Source.fromStr text) dbg)).1 = .ok events) →
        2 * (Dyn.parse Metered.required.methods scan m fuel (opened location (Source.fromStr text) dbg)).2.moved = text.length * (text.length + 1)) := by
  obtain ⟨B, hB⟩ := c105_linear hp hO hP ho hl hX hD
  refine ⟨B, fun location text => ?_⟩
  obtain ⟨enough, h⟩ := hB location (Source.fromStr text) text ⟨[], rfl, by simp [Source.fromStr, Source.buffered]⟩
  exact ⟨enough, fun fuel hf => ⟨h fuel hf, c104_string location text dbg (Meter.library_within (hD 0)) fuel⟩⟩

private theorem terminals_bounded (l : List Instruction) :
    ∃ D, ∀ x ∈ l, ∀ p, x.step = .scan (.terminal p) → p.length ≤ D := by
  induction l with
  | nil => exact ⟨0, by simp⟩
  | cons y l ih =>
    obtain ⟨D, h⟩ := ih
    refine ⟨D + (match y.step with | .scan (.terminal p) => p.length | _ => 0), fun x hx p hp => ?_⟩
    rcases List.mem_cons.mp hx with rfl | hx
    · rw [hp]; simp only; omega
    · have := h x hx p hp; omega

/-- C105: a grammar without special sequences and exceptions looks at a bounded number of characters at once. -/
theorem c105_plain {G : Language} {start : SyntaxRule} {m : Machine} (hp : ParserFor dbg G start m)
    (hX : ∀ f x, ¬ Occurs G (.term (.except f x))) (hS : ∀ loc s, ¬ Occurs G (.primary (.specialSequence loc s)))
    (scan : SpecialScanner → Location → RM Metered Reaction) : ∃ D, ∀ N, LooksWithin N D scan m.graph := by
  obtain ⟨s, config, g, query, h1, _, h2, _, h3⟩ := hp.made
  have hm : m.graph = g := by
    unfold Machine.new at h3
    cases ha : g.indexOfLabel ('$' :: query) with
    | none => rw [ha] at h3; simp at h3
    | some a =>
      rw [ha] at h3
      simp only at h3
      cases hn : g.canonicalName query with
      | none => rw [hn] at h3; simp at h3
      | some n => rw [hn] at h3; simp at h3; subst h3; rfl
  obtain ⟨D, hD⟩ := terminals_bounded g.instructions
  refine ⟨D, fun N addr instr hi => ?_⟩
  rw [hm] at hi
  have hx := List.mem_of_getElem? hi
  have h := compile_comes h1 h2 instr hx
  have h' := hD instr hx
  unfold Comes at h
  revert h h'
  cases instr.step with
  | repetition a b c => exact fun _ _ => trivial
  | or subs => exact fun _ _ => trivial
  | alias n => exact fun _ _ => trivial
  | scan sc =>
    cases sc with
    | terminal p => exact fun _ h => h p rfl
    | special scanner => rintro ⟨loc, s, h, rfl⟩; exact absurd h (hS _ _)
    | empty => exact fun _ _ => trivial
    | exception a b => exact fun ⟨f, e, h⟩ => absurd h (hX _ _)

/-- C105, where the look-ahead is checked with a table (see `c92_checked`): a byte stream is parsed in linear time. -/
theorem c105_checked {G : Language} {start : SyntaxRule} {m : Machine} (hp : ParserFor dbg G start m) {tab : Str → Row}
    (hc : checkRules G tab = true) (hr : ∀ rule ∈ G.rules, ∃ w, Produces regardless G (.list rule.definitionList) w)
    (ho : Everywhere (ordinary G) G) (hl : ¬ LeftRecursive G) (hX : ∀ f x, ¬ Occurs G (.term (.except f x)))
    (scan : SpecialScanner → Location → RM Metered Reaction) (K : Nat) :
    ∃ B, ∀ (location at' : Location) (pieces : List Str), (∀ t ∈ pieces, t.length ≤ K) → ∃ enough, ∀ fuel, enough ≤ fuel →
      (Dyn.parse Metered.required.methods scan m fuel (opened location ⟨[], pieces.map .ok, at'⟩ dbg)).2.moved +
        (Dyn.parse Metered.required.methods scan m fuel (opened location ⟨[], pieces.map .ok, at'⟩ dbg)).2.copied +
        (Dyn.parse Metered.required.methods scan m fuel (opened location ⟨[], pieces.map .ok, at'⟩ dbg)).2.marks ≤
      B * (pieces.flatten.length + 1) + pieces.length := by
  obtain ⟨D, hD⟩ := c105_plain hp hX (fun loc s h => checked_special hc h) scan
  refine c105_stream hp (predictive_of_check (parser_oneMeaning hp) hc).toOneAhead ?_ ho hl hX hD K
  refine productive_of hp.shape (fun loc s h => absurd h (checked_special hc)) fun loc n h => ?_
  obtain ⟨r, h1, h2⟩ := checked_defined hc h
  obtain ⟨w, h3⟩ := hr r h1
  exact ⟨w, .reference h1 h2 h3⟩

/-! ## Examples -/

/-- No exceptions. -/
private def noExceptions : Local := { follows := fun t _ => ∀ f x, t ≠ .except f x }

private theorem no_exceptions {G : Language} (h : Everywhere noExceptions G) (f x : Factor) : ¬ Occurs G (.term (.except f x)) := by
  intro ho
  cases ho with
  | first ho => exact (occurs_every h ho).1 f x rfl

/-- The rule `A='(',{A},')'|'x';`. -/
private def ruleA : SyntaxRule :=
  ⟨⟨[], 1, 1⟩, ['A'], .cons (.cons (.plain (.mk 1 (.terminalString ⟨[], 1, 3⟩ ['('])))
    (.cons (.plain (.mk 1 (.repeated ⟨[], 1, 7⟩ (.cons (.cons (.plain (.mk 1 (.metaIdentifier ⟨[], 1, 8⟩ ['A']))) .nil) .nil))))
      (.cons (.plain (.mk 1 (.terminalString ⟨[], 1, 11⟩ [')']))) .nil)))
    (.cons (.cons (.plain (.mk 1 (.terminalString ⟨[], 1, 15⟩ ['x']))) .nil) .nil)⟩

/-- The table. -/
private def table (_ : Str) : Row := ⟨false, ['(', 'x'], ['(', 'x', ')']⟩

-- A parser for brackets on a byte stream.
example : ∃ m, ParserFor false (plainLanguage [ruleA]) ruleA m ∧ checkRules (plainLanguage [ruleA]) table = true ∧
    OneAhead regardless (plainLanguage [ruleA]) ∧ Productive regardless (plainLanguage [ruleA]) ∧
    (∀ rule ∈ (plainLanguage [ruleA]).rules, ∃ w, Produces regardless (plainLanguage [ruleA]) (.list rule.definitionList) w) ∧
    Everywhere (ordinary (plainLanguage [ruleA])) (plainLanguage [ruleA]) ∧ ¬ LeftRecursive (plainLanguage [ruleA]) ∧
    (∀ f x, ¬ Occurs (plainLanguage [ruleA]) (.term (.except f x))) ∧
    (∃ D, ∀ N, LooksWithin N D (fun _ => Dyn.defaultScan) m.graph) ∧
    (∀ t ∈ [['(', '('], [], ['x', ')', 'x'], [')']], t.length ≤ 3) := by
  obtain ⟨m, h1, h2, _⟩ := samplePlainOf "A='(',{A},')'|'x';" ruleA [] (by decide +kernel) (by decide +kernel)
  have hc : checkRules (plainLanguage [ruleA]) table = true := by decide +kernel
  have hr : ∀ rule ∈ (plainLanguage [ruleA]).rules, ∃ w, Produces regardless (plainLanguage [ruleA]) (.list rule.definitionList) w := by
    intro r hr
    simp [plainLanguage] at hr
    subst hr
    exact ⟨['('] ++ [] ++ ([] ++ ([')'] ++ [] ++ [])), .choice List.mem_cons_self
        (.next (.plain (.again .terminal .never)) (.next (w := []) (.plain (.again (w := []) (w' := []) .noMore .never))
          (.next (.plain (.again .terminal .never)) .done)))⟩
  have hX : ∀ f x, ¬ Occurs (plainLanguage [ruleA]) (.term (.except f x)) := no_exceptions (by
    intro r hr
    simp [plainLanguage] at hr
    subst hr
    simp [ruleA, EveryList, EverySingle, EveryTerm, EveryFactor, EveryPrimary, noExceptions])
  refine ⟨m, h1, hc, (predictive_of_check (parser_oneMeaning h1) hc).toOneAhead, ?_, hr, ?_,
    not_leftRecursive (fun _ => 0) ?_, hX, c105_plain h1 hX (fun loc s h => checked_special hc h) _, by decide⟩
  · refine productive_of h1.shape (fun loc s h => absurd h (checked_special hc)) fun loc n h => ?_
    obtain ⟨r, h1, h2⟩ := checked_defined hc h
    obtain ⟨w, h3⟩ := hr r h1
    exact ⟨w, .reference h1 h2 h3⟩
  · intro r hr
    simp [plainLanguage] at hr
    subst hr
    simp [ruleA, EveryList, EverySingle, EveryTerm, EveryFactor, EveryPrimary, ordinary, groupsLast, smallCounts, IsBareGroup]
  · rintro r r' ⟨h1, h2⟩
    simp [plainLanguage] at h1
    subst h1
    simp [ruleA, begins_list, begins_cons, begins_nil, begins_plain, begins_factor, begins_terminal, DefinitionList.toList, empty_plain,
      empty_factor, empty_terminal, IsBareGroup, plainLanguage] at h2

-- What it costs there: the first text is accepted after 26 instructions, the second refused after 20.
example : (sampleMachine .default "A='(',{A},')'|'x';").map (fun x =>
    let run := fun (s : Metered) => (fun (q : Res (List Event) × Metered) =>
      ((match q.1 with | .ok _ => true | _ => false), q.2.moved, q.2.copied, q.2.marks, x.2.2.steps 100 s.reader))
      (Dyn.parse Metered.required.methods (fun _ => Dyn.defaultScan) x.2.2 100 s)
    (run (opened (Location.new []) ⟨[], [.ok ['(', '('], .ok [], .ok ['x', ')', 'x'], .ok [')']], Location.new []⟩ false),
      run (opened (Location.new []) ⟨[], [.ok ['(', '('], .ok [], .ok ['x', '-', 'x'], .ok [')']], Location.new []⟩ false))) =
    some ((true, 23, 50, 81, 26), (false, 23, 59, 74, 20)) := by decide +kernel

/-- The rule `L=?n?,[',',L];`. -/
private def ruleL : SyntaxRule :=
  ⟨⟨[], 1, 1⟩, ['L'], .cons (.cons (.plain (.mk 1 (.specialSequence ⟨[], 1, 3⟩ ['n'])))
    (.cons (.plain (.mk 1 (.optional ⟨[], 1, 7⟩ (.cons (.cons (.plain (.mk 1 (.terminalString ⟨[], 1, 8⟩ [','])))
      (.cons (.plain (.mk 1 (.metaIdentifier ⟨[], 1, 12⟩ ['L']))) .nil)) .nil)))) .nil)) .nil⟩

/-- Numbers of up to nine digits. -/
private def number : Config := fun _ _ => charsScanner Char.isDigit (some 1) (some 9)
private def readNumber : SpecialScanner → Location → RM Metered Reaction :=
  fun _ => Dyn.charsScan Metered.required.methods Char.isDigit (some 1) (some 9)

/-- Terminal strings of at most nine characters, and no exceptions. -/
private def short : Local :=
  { primary := fun p => ∀ l s, p = .terminalString l s → s.length ≤ 9
    follows := noExceptions.follows }

-- A parser for lists of numbers on a reader from which something has been read.
example : ∃ m N, LooksWithin N 9 readNumber m.graph ∧
    (afterCalls (Location.new []) (Source.fromStr "(12,3".toList) false [.read, .mark, .peek 2]).reader.size ≤ N ∧
    (∃ events, (Dyn.parse Metered.required.methods readNumber m 100
      (afterCalls (Location.new []) (Source.fromStr "(12,3".toList) false [.read, .mark, .peek 2])).1 = .ok events) ∧
    (Dyn.parse Metered.required.methods readNumber m 100
      (afterCalls (Location.new []) (Source.fromStr "(12,3".toList) false [.read, .mark, .peek 2])).2.copied = 12 := by
  have hok : (sampleMachine number "L=?n?,[',',L];").isSome = true := by decide +kernel
  have hru : parseStr [] "L=?n?,[',',L];".toList = .ok [ruleL] := by decide +kernel
  have h5 : (sampleMachine number "L=?n?,[',',L];").map (fun x =>
      ((match (Dyn.parse Metered.required.methods readNumber x.2.2 100
        (afterCalls (Location.new []) (Source.fromStr "(12,3".toList) false [.read, .mark, .peek 2])).1 with | .ok _ => true | _ => false),
      (Dyn.parse Metered.required.methods readNumber x.2.2 100
        (afterCalls (Location.new []) (Source.fromStr "(12,3".toList) false [.read, .mark, .peek 2])).2.copied)) = some (true, 12) := by decide +kernel
  cases hm : sampleMachine number "L=?n?,[',',L];" with
  | none => rw [hm] at hok; simp at hok
  | some x =>
    obtain ⟨rules, start, m⟩ := x
    rw [hm] at h5
    simp only [Option.map_some, Option.some.injEq, Prod.mk.injEq] at h5
    obtain ⟨h6, h7⟩ := h5
    obtain ⟨h1, s, g, h2, h3, h4, _⟩ := sample_made hm
    rw [hru] at h1
    injection h1 with h1
    subst h1
    have hs : Everywhere short (plainLanguage [ruleL]) := by
      intro r hr
      simp [plainLanguage] at hr
      subst hr
      simp [ruleL, EveryList, EverySingle, EveryTerm, EveryFactor, EveryPrimary, short, noExceptions]
    have hX : ∀ f x, ¬ Occurs (plainLanguage [ruleL]) (.term (.except f x)) := by
      intro f x ho
      cases ho with
      | first ho => exact (occurs_every hs ho).1 f x rfl
    refine ⟨m, _, c105_grammar (G := plainLanguage [ruleL]) h2 h3 h4
      ⟨fun loc s h => occurs_every hs h loc s rfl, fun loc s _ => .chars _ _ _ (.inr ⟨9, rfl, Nat.le_refl _⟩), hX⟩, Nat.le_refl _, ?_, h7⟩
    revert h6
    cases (Dyn.parse Metered.required.methods readNumber m 100
        (afterCalls (Location.new []) (Source.fromStr "(12,3".toList) false [.read, .mark, .peek 2])).1 with
    | ok evs => intro _; exact ⟨evs, rfl⟩
    | err _ => simp
    | panic _ => simp
    | diverge => simp

end Ebnf.Props
