import Verif.Model.Meter
import Verif.Spec.AnyReader

set_option autoImplicit false

/-! # Specification: what reading costs (C104) -/

namespace Ebnf.Spec

/-- Twice the steps it takes to read, one character at a time, what one read of the byte stream brings: 1 step if it brings nothing; if it brings `n` characters,
`3 n` steps to get the first of them, and `n - 1`, `n - 2`, …, `1` steps to get the others. -/
def roundTwice : Except Nat Str → Nat
  | .error _ => 2
  | .ok [] => 2
  | .ok (c :: cs) => (c :: cs).length * ((c :: cs).length + 5)

/-- Twice the steps it takes to read a source to its end, one character at a time: `n + (n - 1) + … + 1` steps for the `n` characters that it has at hand, and
those for what is still to come from the byte stream. -/
def stepsTwice (s : Source) : Nat := s.pending.length * (s.pending.length + 1) + (s.rounds.map roundTwice).sum

/-- Operations that look at one character after the other. -/
def OneByOne : ReaderOp → Prop
  | .readChars n => n = 1
  | .readAll => False
  | .skip _ => False
  | _ => True

/-- How many characters a call on a reader asks for. -/
def asks (r : Reader) : ReaderOp → Nat
  | .read => 1
  | .readChars n => n
  | .readAll => r.size
  | .peek n => n
  | .prefixMatches p => p.length
  | .isEof => 1
  | .skip n => n
  | _ => 0

/-- All special sequences of a grammar are scanned by scanners of the library; on readers with the methods `I` they do what `scan` says. -/
def LibraryScanners {σ : Type} (I : Methods σ) (scan : SpecialScanner → Location → RM σ Reaction) (g : Graph) : Prop :=
  ∀ addr instr scanner, g.instruction addr = some instr → instr.step = .scan (.special scanner) → LibraryScan I scanner (scan scanner)

/-- An answer that is not an error (or a crash). -/
def NoError : ReaderAns → Prop
  | .error _ => False
  | .crash => False
  | _ => True

/-- A reader that has just been made, over a source. -/
def opened (location : Location) (source : Source) (dbg : Bool) : Metered := Metered.start (Reader.withLocation location source dbg)

/-- The reader after a history of calls. -/
def afterCalls (location : Location) (source : Source) (dbg : Bool) (ops : List ReaderOp) : Metered :=
  (callAll Metered.required.methods ops (opened location source dbg)).2

end Ebnf.Spec
