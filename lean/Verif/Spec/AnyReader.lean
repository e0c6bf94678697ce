import Verif.Spec.Growing
import Verif.Spec.Scanner
import Verif.Spec.Builds
import Verif.Model.Dyn

set_option autoImplicit false

/-! # Specification: readers of any make (C98, C99) -/

namespace Ebnf.Spec

variable {σ : Type}

/-- Record a result. -/
def answerOf {α : Type} (f : α → ReaderAns) : Res α × σ → ReaderAns × σ
  | (.ok a, s) => (f a, s)
  | (.err e, s) => (.error e, s)
  | (.panic _, s) => (.crash, s)
  | (.diverge, s) => (.crash, s)

/-- Call a method of an implementation of `MarkableCharReader`. -/
def call (I : Methods σ) : ReaderOp → σ → ReaderAns × σ
  | .read, s => answerOf .char (I.read s)
  | .readChars n, s => answerOf .chars (I.readChars n s)
  | .readAll, s => answerOf .chars (I.readAll s)
  | .peek n, s => answerOf .chars (I.peek n s)
  | .prefixMatches p, s => answerOf .bool (I.prefixMatches p s)
  | .isEof, s => answerOf .bool (I.isEof s)
  | .skip n, s => answerOf .num (I.skip n s)
  | .mark, s => answerOf .num (I.mark s)
  | .resetToMark m, s => answerOf .num (I.resetToMark m s)
  | .unmark m, s => answerOf (fun _ => .unit) (I.unmark m s)
  | .location, s => (.location (I.location s), s)

/-- Call methods one after the other. -/
def callAll (I : Methods σ) : List ReaderOp → σ → List ReaderAns × σ
  | [], s => ([], s)
  | op :: ops, s =>
    let (a, s) := call I op s
    let (as, s) := callAll I ops s
    (a :: as, s)

/-- What a method may do at a cursor.  Readers of other makes are free to give every mark a number of its own: all that is asked is that two live marks
with the same number are at the same position. -/
inductive AnyStep : Cursor → ReaderOp → ReaderAns → Cursor → Prop
  | step {c op a c'} : CursorStep c op a c' → AnyStep c op a c'
  | mark (c m) : (∀ m' p, (m', p) ∈ c.marks → m' = m → p = c.pos) →
      AnyStep c .mark (.num m) { c with marks := (m, c.pos) :: c.marks }

/-- A sequence of steps. -/
inductive AnySteps : Cursor → List ReaderOp → List ReaderAns → Cursor → Prop
  | nil (c) : AnySteps c [] [] c
  | cons {c op a c' ops as c''} : AnyStep c op a c' → AnySteps c' ops as c'' → AnySteps c (op :: ops) (a :: as) c''

/-- `At s c` says where a reader in the state `s` stands; the methods in question do, each time, what the cursor does.  (`read_chars` is not
called with an empty buffer.) -/
structure LikeCursorFor (which : ReaderOp → Prop) (dbg : Bool) (I : Methods σ) (At : σ → Cursor → Prop) : Prop where
  steps : ∀ op s c, which op → op ≠ .readChars 0 → At s c → ∃ a s' c', call I op s = (a, s') ∧ AnyStep c op a c' ∧ At s' c'
  size : ∀ s c, At s c → c.rest.length ≤ I.size s
  debug : ∀ s c, At s c → I.debug s = dbg
  marks : ∀ s c, At s c → ∀ m p p', (m, p) ∈ c.marks → (m, p') ∈ c.marks → p = p'

/-- All methods do what the cursor does. -/
abbrev LikeCursor (dbg : Bool) (I : Methods σ) (At : σ → Cursor → Prop) : Prop := LikeCursorFor (fun _ => True) dbg I At

/-- The methods an implementation has to bring along. -/
def IsRequired : ReaderOp → Prop
  | .readChars _ | .mark | .resetToMark _ | .unmark _ | .location => True
  | _ => False

/-- On readers of this make the scanner does what `f` says (see `Behaves`). -/
def BehavesOn (dbg : Bool) (At : σ → Cursor → Prop) (scan : Location → RM σ Reaction) (f : Recognizer) : Prop :=
  ∀ (definition : Location) (s : σ) (c : Cursor), At s c → c.marks ≠ [] →
    match f definition c.location c.rest with
    | .accept events n => ∃ s' own, scan definition s = (.ok (.match events), s') ∧ n ≤ c.rest.length ∧
        At s' { c.advance n with marks := own ++ c.marks } ∧ (dbg = true → Balanced events)
    | .unmatched => ∃ s' own p, scan definition s = (.ok .unmatch, s') ∧ At s' { c with pos := p, marks := own ++ c.marks }
    | .forward name n => ∃ s' own, scan definition s = (.ok (.forward name), s') ∧ n ≤ c.rest.length ∧
        At s' { c.advance n with marks := own ++ c.marks }
    | .error e => ∃ s' own p, scan definition s = (.err e, s') ∧ At s' { c with pos := p, marks := own ++ c.marks }

/-- Each scanner in the graph of a parser does on readers of this make what it does on a `MarkableReader`. -/
def ScannersAgree (dbg : Bool) (At : σ → Cursor → Prop) (scan : SpecialScanner → Location → RM σ Reaction) (g : Graph) : Prop :=
  ∀ addr instr scanner, g.instruction addr = some instr → instr.step = .scan (.special scanner) →
    ∃ f, Behaves dbg scanner f ∧ BehavesOn dbg At (scan scanner) f

/-- A scanner of the library, as it is on a `MarkableReader` and as it is on readers with the methods `I`. -/
inductive LibraryScan (I : Methods σ) : SpecialScanner → (Location → RM σ Reaction) → Prop
  | default (content) : LibraryScan I (defaultScanner content) Dyn.defaultScan
  | chars (allowed min max) : LibraryScan I (charsScanner allowed min max) (Dyn.charsScan I allowed min max)
  | regex (source find) : LibraryScan I (regexScanner source find) (Dyn.regexScan I find)

/-- On a reader with the methods `I` in the state `s`, `parse` returns `x` (a value, an error, or a panic). -/
def ReturnsOn (I : Methods σ) (scan : SpecialScanner → Location → RM σ Reaction) (m : Machine) (s : σ) (x : Res (List Event)) : Prop :=
  x ≠ .diverge ∧ ∃ enough, ∀ fuel, enough ≤ fuel → (Dyn.parse I scan m fuel s).1 = x

end Ebnf.Spec
