import Verif.Model.Dyn
import Verif.Model.Meter
import Verif.Model.Steps

set_option autoImplicit false

/-! # The steps of the readers that exceptions make — src/parser/machine.rs:314-324

`F - X` puts the text that `F` matched into a `MarkableReader` of its own, `test`, and runs `X` on it.  `Metered` (Model/Meter.lean) counts the steps of
one reader; the functions here add up the steps of all the readers `test` of a parse, also of those that are made while another one is
read.  They follow the machine as those of Model/Steps.lean do. -/

namespace Ebnf

/-- All the steps that a reader has taken. -/
def Metered.total (s : Metered) : Nat := s.moved + s.copied + s.marks

/-- What is done with the reader `test` — machine.rs:317-318. -/
def testException (scan : SpecialScanner → Location → RM Metered Reaction) (g : Graph) (fuel exception : Nat) : RM Metered Bool := do
  let (p, _) ← Dyn.runFrom Metered.required.methods scan g fuel (some exception)
  match p with
  | .proceed => Metered.required.methods.isEof
  | .notThisWay _ => pure false

/-- Steps of the readers `test` that one instruction makes, with the calls it makes — machine.rs:52-133, as `callSteps`; `own` are the steps of `test`
itself. -/
def innerStep (g : Graph) (run : Nat → Run) (count own : Nat → Reader → Nat) (fuel : Nat) (instr : Instruction) (r : Reader) : Nat :=
  match instr.step with
  | .scan (.exception factor exception) => exceptionSteps (run factor) (count factor) (fun test => own exception test + count exception test) r
  | _ => callSteps g run count fuel instr r

/-- Steps of the readers `test` in `parse_to_subroutine_end` — machine.rs:44-137, as `stepsFrom`. -/
def innerFrom (scan : SpecialScanner → Location → RM Metered Reaction) (g : Graph) : Nat → Option Nat → Reader → Nat
  | 0, _, _ => 0
  | _ + 1, none, _ => 0
  | fuel + 1, some addr, r =>
    match g.instruction addr with
    | none => 0
    | some instr =>
      innerStep g (fun a => runFrom g fuel (some a)) (fun a => innerFrom scan g fuel (some a))
          (fun a test => (testException scan g fuel a (Metered.start test)).2.total) fuel instr r +
        match execStep g (fun a => runFrom g fuel (some a)) fuel addr instr r with
        | (.ok (.proceed, _), r') => innerFrom scan g fuel instr.next r'
        | _ => 0

/-- Steps of the readers `test` in `LexMachine::parse` / `Parser::parse` — machine.rs:32-42. -/
def Machine.inner (m : Machine) (scan : SpecialScanner → Location → RM Metered Reaction) (fuel : Nat) (r : Reader) : Nat :=
  innerFrom scan m.graph fuel (some m.entry) r

end Ebnf
