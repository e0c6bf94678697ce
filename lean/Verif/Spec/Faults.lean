import Verif.Model.Scanner
import Verif.Spec.Cursor
import Verif.Spec.Parsing

set_option autoImplicit false

/-! # Specification: readers over sources that fail now and then -/

namespace Ebnf.Spec

/-- The source supplies the whole text, in any pieces, with I/O errors in between. -/
inductive SuppliesIn : List (Except Nat Str) → Str → List Nat → Prop
  | nil : SuppliesIn [] [] []
  | piece {cs rounds text faults} : SuppliesIn rounds text faults → SuppliesIn (.ok cs :: rounds) (cs ++ text) faults
  | fault {code rounds text faults} : SuppliesIn rounds text faults →
      SuppliesIn (.error code :: rounds) text (code :: faults)

/-- The source supplies the text; `faults` are the codes of the I/O errors in between, in order. -/
def Supplies (s : Source) (text : Str) (faults : List Nat) : Prop :=
  ∃ more, SuppliesIn s.rounds more faults ∧ text = s.pending ++ more

/-- A number for a new mark: marks at the same position share it, marks at other positions do not. -/
def NewMark (c : Cursor) (m : Nat) : Prop := ∀ m' p, (m', p) ∈ c.marks → (m' = m ↔ p = c.pos)

/-- Where an operation leaves the cursor when the source fails under it.  Reading stays; skipping and reading all
may have advanced; looking ahead may have advanced and leaves a mark where it started. -/
inductive FaultStep : Cursor → ReaderOp → Cursor → Prop
  | read (c) : FaultStep c .read c
  | readChars (c n) : FaultStep c (.readChars n) c
  | readAll (c k) : k ≤ c.rest.length → FaultStep c .readAll (c.advance k)
  | skip (c n k) : k < n → k ≤ c.rest.length → FaultStep c (.skip n) (c.advance k)
  | peek (c n k m) : k < n → k ≤ c.rest.length → NewMark c m →
      FaultStep c (.peek n) { c.advance k with marks := (m, c.pos) :: c.marks }
  | prefixMatches (c p k m) : k < p.length → p.take k <+: c.rest → NewMark c m →
      FaultStep c (.prefixMatches p) { c.advance k with marks := (m, c.pos) :: c.marks }
  | isEof (c m) : NewMark c m → FaultStep c .isEof { c with marks := (m, c.pos) :: c.marks }

/-- A history of operations on a source with the given faults: every operation does what the cursor says, or it reports
the next fault at the place reached. -/
inductive FaultySteps : Cursor → List Nat → List ReaderOp → List ReaderAns → Cursor → List Nat → Prop
  | nil (c faults) : FaultySteps c faults [] [] c faults
  | step {c op a c' faults ops as c'' faults'} : CursorStep c op a c' → FaultySteps c' faults ops as c'' faults' →
      FaultySteps c faults (op :: ops) (a :: as) c'' faults'
  | fault {c op c' code faults ops as c'' faults' below} : FaultStep c op c' → FaultySteps c' faults ops as c'' faults' →
      FaultySteps c (code :: faults) (op :: ops) (.error ⟨c'.location, .wrapped below code⟩ :: as) c'' faults'

/-- The error is a failure of the source. -/
def IsFault (e : Error) : Prop := ∃ below code, e.msg = .wrapped below code

/-- What is left of the rounds of a source when it does not fail: the pieces that are not empty. -/
def steadyRounds : List (Except Nat Str) → List (Except Nat Str)
  | [] => []
  | .error _ :: rounds => steadyRounds rounds
  | .ok [] :: rounds => steadyRounds rounds
  | .ok (ch :: cs) :: rounds => .ok (ch :: cs) :: steadyRounds rounds

/-- The same reader, over the same source without its failures. -/
def steady (r : Reader) : Reader := { r with source := { r.source with rounds := steadyRounds r.source.rounds } }

/-- Whenever the source fails under the method, the method fails with that error; otherwise it does what it does over
a source that does not fail. -/
def PassesFaults {α : Type} (f : RM Reader α) : Prop :=
  ∀ r, (∃ e, (f r).1 = .err e ∧ IsFault e) ∨ f (steady r) = ((f r).1, steady (f r).2)

/-- A scanner that reports the failures of the source. -/
def ReportsFaults (s : SpecialScanner) : Prop := ∀ definition, PassesFaults (s.scan definition)

/-- A parser for the rule `start` (see `ParserFor`) whose scanners report the failures of the source and do not forward
to rules. -/
structure ReportingParser (dbg : Bool) (G : Language) (start : SyntaxRule) (m : Machine) : Prop where
  made : ∃ s config g query, Syntax.new G.rules = .ok s ∧ Realizes dbg config G ∧ (∀ l t, ReportsFaults (config l t)) ∧
    Graph.compile s config = .ok g ∧ SameName start.metaIdentifier query ∧ Machine.new g query = .ok (some m)
  shape : ∀ r ∈ G.rules, RuleShape r
  start : start ∈ G.rules
  direct : ∀ l t definition here rest name n, G.special l t definition here rest ≠ .forward name n

end Ebnf.Spec
