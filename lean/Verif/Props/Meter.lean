import Verif.Model.Api
import Verif.Proofs.MeterParse
import Verif.Props.Builds

set_option autoImplicit false

/-! # C104: how much work reading a text takes -/

namespace Ebnf.Props

open Ebnf Ebnf.Spec

variable {location : Location} {source : Source} {dbg : Bool}

private theorem sound_after (ops : List ReaderOp) : Meter.Sound (afterCalls location source dbg ops).reader := by
  obtain ⟨_, h2, h3⟩ := Meter.calls_same ops (opened location source dbg) (Meter.sound_new location source dbg)
  unfold afterCalls
  rw [h2]; exact h3

/-- C104: the reader whose steps are counted is the reader: every history of calls gives the same answers and leaves it in the same state. -/
theorem c104_same (location : Location) (source : Source) (dbg : Bool) (ops : List ReaderOp) :
    (callAll Metered.required.methods ops (opened location source dbg)).1 = (performAll ops (Reader.withLocation location source dbg)).1 ∧
    (callAll Metered.required.methods ops (opened location source dbg)).2.reader = (performAll ops (Reader.withLocation location source dbg)).2 := by
  obtain ⟨h1, h2, _⟩ := Meter.calls_same ops (opened location source dbg) (Meter.sound_new location source dbg)
  exact ⟨h1, h2⟩

/-- C104: and so is the parser on it. -/
theorem c104_same_parse (before : List ReaderOp) {scan : SpecialScanner → Location → RM Metered Reaction} {m : Machine}
    (hs : LibraryScanners Metered.required.methods scan m.graph) (fuel : Nat) :
    (Dyn.parse Metered.required.methods scan m fuel (afterCalls location source dbg before)).1 =
      (m.parse fuel (performAll before (Reader.withLocation location source dbg)).2).1 ∧
    (Dyn.parse Metered.required.methods scan m fuel (afterCalls location source dbg before)).2.reader =
      (m.parse fuel (performAll before (Reader.withLocation location source dbg)).2).2 := by
  obtain ⟨_, h2, h3⟩ := Meter.calls_same before (opened location source dbg) (Meter.sound_new location source dbg)
  have h := Meter.parse_paid (Q := fun _ => True) hs fuel (afterCalls location source dbg before) _ ⟨h2, trivial, h3⟩
  exact ⟨h.1, h.2.1⟩

/-- C104: whatever is called on a reader, and even if calls fail: the steps taken in the source so far, together with those it takes to read the rest of
the source character by character, are at most those it takes to read the whole source so.  In particular, no character is taken from the
source twice, however often marks are set and gone back to. -/
theorem c104_calls (location : Location) (source : Source) (dbg : Bool) (ops : List ReaderOp) (ho : .readChars 0 ∉ ops) :
    2 * (afterCalls location source dbg ops).moved + stepsTwice (afterCalls location source dbg ops).reader.source ≤ stepsTwice source := by
  have := Meter.calls_atMost ops ho (opened location source dbg) (Meter.sound_new location source dbg)
  have e : 2 * (opened location source dbg).moved + stepsTwice (opened location source dbg).reader.source = stepsTwice source := by
    simp [opened, Metered.start, Reader.withLocation]
  rw [e] at this
  exact this

/-- C104: and exactly as many, if only operations are called that look at one character after the other. -/
theorem c104_one_by_one (location : Location) (source : Source) (dbg : Bool) (ops : List ReaderOp) (ho : ∀ op ∈ ops, OneByOne op) :
    2 * (afterCalls location source dbg ops).moved + stepsTwice (afterCalls location source dbg ops).reader.source = stepsTwice source := by
  have := Meter.calls_exactly ops ho (opened location source dbg) (Meter.sound_new location source dbg)
  have e : 2 * (opened location source dbg).moved + stepsTwice (opened location source dbg).reader.source = stepsTwice source := by
    simp [opened, Metered.start, Reader.withLocation]
  rw [e] at this
  exact this

/-- C104: one call, after any history: the characters that it copies out of and into the buffer of the reader are at most twice those that it asks for —
however much the buffer holds —, and the marks that it looks at are at most twice those that are set, and three more. -/
theorem c104_call (location : Location) (source : Source) (dbg : Bool) (before : List ReaderOp) (op : ReaderOp) :
    (call Metered.required.methods op (afterCalls location source dbg before)).2.copied ≤
      (afterCalls location source dbg before).copied + 2 * asks (afterCalls location source dbg before).reader op ∧
    (call Metered.required.methods op (afterCalls location source dbg before)).2.marks ≤
      (afterCalls location source dbg before).marks + 2 * (afterCalls location source dbg before).reader.buffer.stack.length + 3 := by
  obtain ⟨_, h2, h3, _⟩ := Meter.call_facts op (afterCalls location source dbg before) (sound_after before)
  exact ⟨h2, h3⟩

/-- C104: if none of the calls fails, the marks take at most two steps per call, however many are set. -/
theorem c104_marks (location : Location) (source : Source) (dbg : Bool) (ops : List ReaderOp)
    (ha : ∀ a ∈ (callAll Metered.required.methods ops (opened location source dbg)).1, NoError a) :
    (afterCalls location source dbg ops).marks ≤ 2 * ops.length := by
  have h := Meter.calls_marks ops (opened location source dbg) (Meter.sound_new location source dbg) ha
  have e : (opened location source dbg).marks + (opened location source dbg).reader.buffer.stack.length = 0 := rfl
  rw [e] at h
  unfold afterCalls
  omega

/-- C104: `parse` takes, in the source, the steps it takes to read what it reads character by character, whatever the grammar and whatever the
outcome: going back never makes it read from the source again.  If it succeeds, it has read the source to its end. -/
theorem c104_parse (before : List ReaderOp) {scan : SpecialScanner → Location → RM Metered Reaction} {m : Machine}
    (hs : LibraryScanners Metered.required.methods scan m.graph) (fuel : Nat) :
    2 * (Dyn.parse Metered.required.methods scan m fuel (afterCalls location source dbg before)).2.moved +
        stepsTwice (Dyn.parse Metered.required.methods scan m fuel (afterCalls location source dbg before)).2.reader.source =
      2 * (afterCalls location source dbg before).moved + stepsTwice (afterCalls location source dbg before).reader.source ∧
    ((∃ events, (Dyn.parse Metered.required.methods scan m fuel (afterCalls location source dbg before)).1 = .ok events) →
      2 * (Dyn.parse Metered.required.methods scan m fuel (afterCalls location source dbg before)).2.moved =
        2 * (afterCalls location source dbg before).moved + stepsTwice (afterCalls location source dbg before).reader.source) := by
  have hr := sound_after (location := location) (source := source) (dbg := dbg) before
  generalize afterCalls location source dbg before = s at hr
  have h := (Meter.parse_paid (Q := fun k => k = 2 * s.moved + stepsTwice s.reader.source) hs fuel s s.reader ⟨rfl, rfl, hr⟩).2.2.1
  refine ⟨h, fun ⟨events, he⟩ => ?_⟩
  have h2 := Meter.parse_ended hs fuel s hr events he
  rw [h2] at h
  simpa [stepsTwice] using h

/-- C104: parsers that use the scanners of the library are such parsers. -/
theorem c104_library {rules : List SyntaxRule} {s : Syntax} {config : Config} {g : Graph} {query : Str} {m : Machine}
    (h1 : Syntax.new rules = .ok s) (h2 : ∀ r ∈ rules, RuleShape r) (h3 : Graph.compile s config = .ok g)
    (h4 : Machine.new g query = .ok (some m)) {scan : SpecialScanner → Location → RM Metered Reaction}
    (hc : ∀ l t, LibraryScan Metered.required.methods (config l t) (scan (config l t))) :
    LibraryScanners Metered.required.methods scan m.graph := by
  have hm : m.graph = g := by
    unfold Machine.new at h4
    cases ha : g.indexOfLabel ('$' :: query) with
    | none => rw [ha] at h4; simp at h4
    | some a =>
      rw [ha] at h4
      simp only at h4
      cases hn : g.canonicalName query with
      | none => rw [hn] at h4; simp at h4
      | some n => rw [hn] at h4; simp at h4; subst h4; rfl
  obtain ⟨g', h5, h6⟩ := compile_ok (G := ⟨rules, fun _ _ => defaultRecognizer, fun l t => (config l t).symbol⟩) (fun _ _ => rfl) h1 h2
  rw [h3] at h5; injection h5 with h5; subst h5
  intro addr instr scanner h7 h8
  rw [hm] at h7
  have h9 := (h6.closed instr (List.mem_of_getElem? h7)).2
  rw [h8] at h9
  obtain ⟨l, t, rfl⟩ := h9
  exact hc l t

/-- C104: so a text held in memory, of `n` characters, is parsed in at most `n (n + 1) / 2` moves of characters in the source; and accepted in no fewer than
exactly so many, however simple the grammar: each character that is taken moves all those after it. -/
theorem c104_string (location : Location) (text : Str) (dbg : Bool) {scan : SpecialScanner → Location → RM Metered Reaction} {m : Machine}
    (hs : LibraryScanners Metered.required.methods scan m.graph) (fuel : Nat) :
    2 * (Dyn.parse Metered.required.methods scan m fuel (opened location (Source.fromStr text) dbg)).2.moved ≤ text.length * (text.length + 1) ∧
    ((∃ events, (Dyn.parse Metered.required.methods scan m fuel (opened location (Source.fromStr text) dbg)).1 = .ok events) →
      2 * (Dyn.parse Metered.required.methods scan m fuel (opened location (Source.fromStr text) dbg)).2.moved =
        text.length * (text.length + 1)) := by
  obtain ⟨h1, h2⟩ := c104_parse (location := location) (source := Source.fromStr text) (dbg := dbg) [] hs fuel
  have e : 2 * (afterCalls location (Source.fromStr text) dbg []).moved + stepsTwice (afterCalls location (Source.fromStr text) dbg []).reader.source =
      text.length * (text.length + 1) := by
    simp [afterCalls, callAll, opened, Metered.start, Reader.withLocation, stepsTwice, Source.fromStr, Source.buffered]
  rw [e] at h1 h2
  exact ⟨Nat.le_trans (Nat.le_add_right _ _) (Nat.le_of_eq h1), h2⟩

/-- C104: a byte stream, in contrast, that brings at most `K` characters with each read, is read in a number of steps that is linear in its
length: whatever is called, -/
theorem c104_stream_calls (location at' : Location) (rounds : List (Except Nat Str)) (dbg : Bool) (K : Nat)
    (hK : ∀ cs, .ok cs ∈ rounds → cs.length ≤ K) (ops : List ReaderOp) (ho : .readChars 0 ∉ ops) :
    2 * (afterCalls location ⟨[], rounds, at'⟩ dbg ops).moved ≤ (K + 5) * leftIn ⟨[], rounds, at'⟩ + 2 * rounds.length := by
  have h1 := c104_calls location ⟨[], rounds, at'⟩ dbg ops ho
  have h2 := Meter.rounds_le hK
  have e1 : stepsTwice ⟨[], rounds, at'⟩ = (rounds.map roundTwice).sum := by simp [stepsTwice]
  have e2 : leftIn ⟨[], rounds, at'⟩ = (rounds.map fun | .ok t => t.length | .error _ => 0).sum := Nat.zero_add _
  rw [e1] at h1
  rw [e2]
  exact Nat.le_trans (Nat.le_trans (Nat.le_add_right _ _) h1) h2

/-- C104: and by `parse` too. -/
theorem c104_stream (location at' : Location) (rounds : List (Except Nat Str)) (dbg : Bool) (K : Nat)
    (hK : ∀ cs, .ok cs ∈ rounds → cs.length ≤ K) {scan : SpecialScanner → Location → RM Metered Reaction} {m : Machine}
    (hs : LibraryScanners Metered.required.methods scan m.graph) (fuel : Nat) :
    2 * (Dyn.parse Metered.required.methods scan m fuel (opened location ⟨[], rounds, at'⟩ dbg)).2.moved ≤
      (K + 5) * leftIn ⟨[], rounds, at'⟩ + 2 * rounds.length := by
  obtain ⟨h1, _⟩ := c104_parse (location := location) (source := ⟨[], rounds, at'⟩) (dbg := dbg) [] hs fuel
  have h2 := Meter.rounds_le hK
  have e1 : 2 * (afterCalls location ⟨[], rounds, at'⟩ dbg []).moved + stepsTwice (afterCalls location ⟨[], rounds, at'⟩ dbg []).reader.source =
      (rounds.map roundTwice).sum := by
    simp [afterCalls, callAll, opened, Metered.start, Reader.withLocation, stepsTwice]
  have e2 : leftIn ⟨[], rounds, at'⟩ = (rounds.map fun | .ok t => t.length | .error _ => 0).sum := Nat.zero_add _
  rw [e1] at h1
  rw [e2]
  exact Nat.le_trans (Nat.le_trans (Nat.le_add_right _ _) (Nat.le_of_eq h1)) h2

/-! ## Examples -/

/-- Calls on a reader: marks, looking ahead, going back. -/
private def calls : List ReaderOp :=
  [.mark, .peek 3, .read, .prefixMatches ['b', 'c'], .resetToMark 1, .resetToMark 0, .location, .readChars 2, .skip 1, .isEof, .readAll, .isEof]

example : .readChars 0 ∉ calls ∧
    (callAll Metered.required.methods calls (opened (Location.new []) (Source.fromStr "abcdef".toList) true)).1 =
      [.num 0, .chars ['a', 'b', 'c'], .char (some 'a'), .bool true, .error ⟨⟨[], 1, 2⟩, .invalidMark 1⟩, .num 1, .location ⟨[], 1, 1⟩,
       .chars ['a', 'b'], .num 1, .bool false, .chars ['d', 'e', 'f'], .bool true] ∧
    (let m := afterCalls (Location.new []) (Source.fromStr "abcdef".toList) true calls; (m.moved, m.copied, m.marks)) = (20, 15, 12) ∧
    stepsTwice (Source.fromStr "abcdef".toList) = 42 := by
  refine ⟨by simp [calls], by decide +kernel, by decide +kernel, by decide +kernel⟩

-- A byte stream, a part of which cannot be read.
example : (let m := afterCalls (Location.new []) ⟨[], [.ok ['a', 'b', 'c'], .ok [], .error 5, .ok ['d', 'e']], Location.new []⟩ true [.mark, .read, .peek 3, .read, .isEof, .resetToMark 0, .peek 2, .prefixMatches ['a', 'b', 'c', 'd']]; (m.moved, m.copied, m.marks)) = (21, 16, 10) ∧
    (∀ op ∈ [ReaderOp.mark, .read, .peek 3, .read, .isEof, .resetToMark 0, .peek 2, .prefixMatches ['a', 'b', 'c', 'd']], OneByOne op) ∧
    stepsTwice ⟨[], [.ok ['a', 'b', 'c'], .ok [], .error 5, .ok ['d', 'e']], Location.new []⟩ = 42 := by
  refine ⟨by decide +kernel, by simp [OneByOne], by decide +kernel⟩

/-- Special sequences stand for numbers. -/
private def numbers : Config := fun _ _ => charsScanner Char.isDigit (some 1) none

/-- A list of numbers, none of which is `0`. -/
private def list : String := "S=N,{',',N};N=?n?-'0';"

-- A parser for lists of numbers, without zeros, on texts in memory and on a byte stream.  The first text is accepted, the second is not (of its 31 characters, it takes 12).
example : ∃ m, LibraryScanners Metered.required.methods (fun _ => Dyn.charsScan Metered.required.methods Char.isDigit (some 1) none) m.graph ∧
    (∃ events, (Dyn.parse Metered.required.methods (fun _ => Dyn.charsScan Metered.required.methods Char.isDigit (some 1) none) m 100
      (opened (Location.new []) (Source.fromStr "12,3,456".toList) false)).1 = .ok events) ∧
    (Dyn.parse Metered.required.methods (fun _ => Dyn.charsScan Metered.required.methods Char.isDigit (some 1) none) m 100
      (opened (Location.new []) (Source.fromStr "12,3,456".toList) false)).2.moved = 36 ∧
    (Dyn.parse Metered.required.methods (fun _ => Dyn.charsScan Metered.required.methods Char.isDigit (some 1) none) m 100
      (opened (Location.new []) (Source.fromStr "12,x,45678901234567890123456789".toList) false)).2.moved = 306 ∧
    (Dyn.parse Metered.required.methods (fun _ => Dyn.charsScan Metered.required.methods Char.isDigit (some 1) none) m 100
      (opened (Location.new []) ⟨[], [.ok ['1', '2', ','], .ok [], .ok ['3', ','], .ok ['4', '5', '6']], Location.new []⟩ false)).2.moved = 32 := by
  have hok : (sampleMachine numbers list).isSome = true := by decide +kernel
  have h5 : (sampleMachine numbers list).map (fun x => (
      (match (Dyn.parse Metered.required.methods (fun _ => Dyn.charsScan Metered.required.methods Char.isDigit (some 1) none) x.2.2 100
        (opened (Location.new []) (Source.fromStr "12,3,456".toList) false)).1 with | .ok _ => true | _ => false),
      (Dyn.parse Metered.required.methods (fun _ => Dyn.charsScan Metered.required.methods Char.isDigit (some 1) none) x.2.2 100
        (opened (Location.new []) (Source.fromStr "12,3,456".toList) false)).2.moved,
      (Dyn.parse Metered.required.methods (fun _ => Dyn.charsScan Metered.required.methods Char.isDigit (some 1) none) x.2.2 100
        (opened (Location.new []) (Source.fromStr "12,x,45678901234567890123456789".toList) false)).2.moved,
      (Dyn.parse Metered.required.methods (fun _ => Dyn.charsScan Metered.required.methods Char.isDigit (some 1) none) x.2.2 100
        (opened (Location.new []) ⟨[], [.ok ['1', '2', ','], .ok [], .ok ['3', ','], .ok ['4', '5', '6']], Location.new []⟩ false)).2.moved)) =
      some (true, 36, 306, 32) := by decide +kernel
  cases hm : sampleMachine numbers list with
  | none => rw [hm] at hok; simp at hok
  | some x =>
    obtain ⟨rules, start, m⟩ := x
    rw [hm] at h5
    simp only [Option.map_some, Option.some.injEq, Prod.mk.injEq] at h5
    obtain ⟨h6, h7, h8, h9⟩ := h5
    obtain ⟨h1, s, g, h2, h3, h4, _⟩ := sample_made hm
    refine ⟨m, c104_library h2 (fun r hr => (c12_shape [] _ _ h1 r hr).1) h3 h4 (fun _ _ => .chars _ _ _), ?_, h7, h8, h9⟩
    revert h6
    cases (Dyn.parse Metered.required.methods (fun _ => Dyn.charsScan Metered.required.methods Char.isDigit (some 1) none) m 100
        (opened (Location.new []) (Source.fromStr "12,3,456".toList) false)).1 with
    | ok evs => intro _; exact ⟨evs, rfl⟩
    | err _ => simp
    | panic _ => simp
    | diverge => simp

end Ebnf.Props
