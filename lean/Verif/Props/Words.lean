import Verif.Proofs.WordsMachine
import Verif.Props.AnyReader

set_option autoImplicit false

/-! # 64-bit integers in readers and in the machine (C101) -/

namespace Ebnf.Props

open Ebnf Ebnf.Spec

/-- C101: as long as the numbers of lines and columns, from where the reader and its source begin, stay within 64 bits for all the
characters there are, every history of calls on a reader with 64-bit integers is the one with unbounded integers: no addition and no
subtraction panics or wraps around.  (For any source, with or without errors, and marks of any kind.) -/
theorem c101_calls (location : Location) (s : Source) (dbg : Bool) (h : Fits location (leftIn s)) (hs : Fits s.location (leftIn s))
    (ops : List ReaderOp) :
    callAll Word.reader.methods ops (Reader.withLocation location s dbg) =
      callAll Reader.required.methods ops (Reader.withLocation location s dbg) :=
  Word.callAll_small ops (Word.new_small h hs)

/-- C101: and after any such history, parsing with the scanners of the library does what it does with unbounded integers. -/
theorem c101_parse (location : Location) (s : Source) (dbg : Bool) (h : Fits location (leftIn s)) (hs : Fits s.location (leftIn s))
    (ops : List ReaderOp) (m : Machine) (scan : SpecialScanner → Location → RM Reader Reaction)
    (hscan : ∀ addr instr scanner, m.graph.instruction addr = some instr → instr.step = .scan (.special scanner) →
      LibraryScan Word.reader.methods scanner (scan scanner)) (fuel : Nat) :
    Word.parse scan m fuel (callAll Word.reader.methods ops (Reader.withLocation location s dbg)).2 =
      m.parse fuel (callAll Reader.required.methods ops (Reader.withLocation location s dbg)).2 := by
  have hsm : Word.Small (callAll Reader.required.methods ops (Reader.withLocation location s dbg)).2 := by
    have key : ∀ (ops : List ReaderOp) (r : Reader), Word.Small r → Word.Small (callAll Reader.required.methods ops r).2 := by
      intro ops
      induction ops with
      | nil => intro r hr; exact hr
      | cons op ops ih => intro r hr; exact ih _ (Word.call_small op hr).2
    exact key ops _ (Word.new_small h hs)
  rw [c101_calls location s dbg h hs ops, ← c99_same]
  refine (Word.keeps_parse ?_ ?_ fuel [] _ hsm Word.Has.nil).1
  · intro addr instr scanner h1 h2 d
    generalize hsc : scan scanner = sc
    have h3 := hscan addr instr scanner h1 h2
    rw [hsc] at h3
    cases h3 with
    | default content => exact Word.Keeps.pure _
    | chars allowed min max => exact Word.keeps_chars allowed min max d
    | regex source find => exact Word.keeps_regex source find (by rw [Word.I, c98_same]) (by rw [Word.I, c98_same]) d
  · intro fuel next
    rw [Word.I, c98_same]
    exact Dyn.run_same m.graph fuel next

/-- C101: for instance, a parser made from a grammar text with the default configuration. -/
theorem c101_default (name grammar : Str) (rules : List SyntaxRule) (hr : parseStr name grammar = .ok rules) (y : Syntax)
    (hy : Syntax.new rules = .ok y) (g : Graph) (hg : Graph.compile y .default = .ok g) (query : Str) (m : Machine)
    (hm : Machine.new g query = .ok (some m)) (location : Location) (text : Str) (dbg : Bool) (h : Fits location text.length) (fuel : Nat) :
    Word.parse (fun _ => Dyn.defaultScan) m fuel (Reader.withLocation location (.buffered text) dbg) =
      m.parse fuel (Reader.withLocation location (.buffered text) dbg) := by
  have e : leftIn (.buffered text) = text.length := by simp [leftIn, Source.buffered]
  have h1 : m.graph = g := by
    unfold Machine.new at hm
    cases ha : g.indexOfLabel ('$' :: query) with
    | none => rw [ha] at hm; simp at hm
    | some a =>
      rw [ha] at hm
      simp only at hm
      cases hb : g.canonicalName query with
      | none => rw [hb] at hm; simp at hm
      | some b => rw [hb] at hm; simp only [Res.ok.injEq, Option.some.injEq] at hm; rw [← hm]
  obtain ⟨g', h2, h3⟩ := compile_ok (config := .default) (G := plainLanguage rules) (fun _ _ => rfl) hy
    (fun r h => (c12_shape name grammar rules hr r h).1)
  rw [hg] at h2
  cases h2
  refine c101_parse location (.buffered text) dbg (by rw [e]; exact h) (by rw [e]; exact ⟨h.2.2, h.2.2, h.2.2⟩) [] m _ ?_ fuel
  intro addr instr scanner h4 h5
  rw [h1] at h4
  obtain ⟨_, hx⟩ := h3.closed instr (List.mem_of_getElem? h4)
  rw [h5] at hx
  obtain ⟨l, t, rfl⟩ := hx
  exact .default t

/-- C101: a bound that is easy to check: both begin at lines and columns below 2⁶³, and there are fewer than 2⁶³ characters. -/
theorem c101_enough (l : Location) (n : Nat) (h1 : l.lines < 2 ^ 63) (h2 : l.columns < 2 ^ 63) (h3 : n < 2 ^ 63) : Fits l n := by
  unfold Fits
  omega

/-- C101: the bound on the columns is needed: a debug build panics on reading a line that goes beyond column 2⁶⁴ − 1. -/
theorem c101_overflow (location : Location) (text : Str) (hn : '\n' ∉ text) (hlo : location.columns < 2 ^ 64)
    (hhi : 2 ^ 64 ≤ location.columns + text.length) :
    (callAll Word.reader.methods [.readChars text.length] (Reader.withLocation location (.buffered text) true)).1 = [.crash] := by
  obtain ⟨p, r, h⟩ := Word.new_overflow hn hlo hhi
  have e : Word.reader.methods.readChars = Word.readChars := rfl
  simp only [callAll, call, e, h, answerOf]

/-- C101: and a release build goes on with the column modulo 2⁶⁴. -/
theorem c101_wraps (location : Location) (text : Str) (hn : '\n' ∉ text) (hlo : location.columns < 2 ^ 64) :
    (callAll Word.reader.methods [.readChars text.length, .location] (Reader.withLocation location (.buffered text) false)).1 =
      [.chars text, .location { location with columns := (location.columns + text.length) % 2 ^ 64 }] := by
  obtain ⟨r, h1, h2⟩ := Word.new_wraps hn hlo
  have e : Word.reader.methods.readChars = Word.readChars := rfl
  have e2 : Word.reader.methods.location r = r.buffer.location := rfl
  simp only [callAll, call, e, h1, answerOf, e2, h2]

-- The bound is met at the beginning of a text.
example (text : Str) (h : text.length < 2 ^ 63) : Fits (Location.new []) (leftIn (.buffered text)) ∧
    Fits (Source.buffered text).location (leftIn (.buffered text)) := by
  have e : leftIn (.buffered text) = text.length := by simp [leftIn, Source.buffered]
  rw [e]
  exact ⟨c101_enough _ _ (by simp [Location.new, Location.withLocation]) (by simp [Location.new, Location.withLocation]) h, c101_enough _ _ (by simp [Source.buffered, Location.new, Location.withLocation])
    (by simp [Source.buffered, Location.new, Location.withLocation]) h⟩

-- A reader that begins near the last column, in both builds.
example : (callAll Word.reader.methods [.mark, .read, .location, .peek 2]
    (Reader.withLocation ⟨[], 1, 18446744073709551613⟩ (.buffered "abc".toList) true)).1 =
    [.num 0, .char (some 'a'), .location ⟨[], 1, 18446744073709551614⟩, .crash] := by
  decide +kernel

example : (callAll Word.reader.methods [.mark, .read, .location, .peek 2, .skip 9, .location]
    (Reader.withLocation ⟨[], 1, 18446744073709551613⟩ (.buffered "abc".toList) false)).1 =
    [.num 0, .char (some 'a'), .location ⟨[], 1, 18446744073709551614⟩, .chars "bc".toList, .num 2, .location ⟨[], 1, 0⟩] := by
  decide +kernel

example : Fits ⟨[], 1, 2 ^ 64 - 4⟩ 3 ∧ ¬ Fits ⟨[], 1, 2 ^ 64 - 4⟩ 4 := by
  constructor <;> simp [Fits]

end Ebnf.Props
