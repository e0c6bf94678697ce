import Verif.Model.Machine

set_option autoImplicit false

/-! # How many instructions the parsing machine executes — src/parser/machine.rs

The rounds of the `while` loop of `parse_to_subroutine_end` (machine.rs:52-133), those of the calls it makes included.  The functions here follow
those of the machine, call by call: `run` is what a call does to the reader, and `count` how many instructions it executes.  What
is executed before an error or a panic counts.  The time of an instruction that makes no call is not modelled (it is a bounded number of
operations of the reader, or a call of a scanner). -/

namespace Ebnf

/-- Instructions executed in the rounds of `Step::Repetition` — machine.rs:56-77, as `repetitionLoop`. -/
def repetitionSteps (body : Run) (count : Reader → Nat) (max : Nat) : Nat → Nat → Reader → Nat
  | 0, _, _ => 0
  | fuel + 1, i, r =>
    if i < max then
      match Reader.mark r with
      | (.ok _, r1) =>
        count r1 +
          match body r1 with
          | (.ok (.proceed, _), r2) =>
            if max = u32Max ∧ r2.buffer.location = r.buffer.location then 0
            else repetitionSteps body count max fuel (i + 1) r2
          | _ => 0
      | _ => 0
    else 0

/-- Instructions executed in the alternatives of `Step::Or` — machine.rs:82-95, as `orLoop`. -/
def orSteps (run : Nat → Run) (count : Nat → Reader → Nat) : List Nat → Reader → Nat
  | [], _ => 0
  | sub :: subs, r =>
    match Reader.mark r with
    | (.ok mark, r1) =>
      count sub r1 +
        match run sub r1 with
        | (.ok (.notThisWay _, _), r2) =>
          match Reader.resetToMark mark r2 with
          | (.ok _, r3) => orSteps run count subs r3
          | _ => 0
        | _ => 0
    | _ => 0

/-- Instructions executed in the operands of an exception — machine.rs:290-335, as `scanException`. -/
def exceptionSteps (runFactor : Run) (countFactor countException : Reader → Nat) (r : Reader) : Nat :=
  match Reader.mark r with
  | (.ok mark, r1) =>
    countFactor r1 +
      match runFactor r1 with
      | (.ok (.proceed, _), r2) =>
        match Reader.resetToMark mark r2 with
        | (.ok _, r3) =>
          match Reader.mark r3 with
          | (.ok _, r4) =>
            match captureLoop r2.buffer.location (r4.size + 1) r4 with
            | (.ok buffer, r5) =>
              if r4.buffer.dbg && r5.buffer.location ≠ r2.buffer.location then 0
              else countException (Reader.withLocation r.buffer.location (.buffered buffer) r4.buffer.dbg)
            | _ => 0
          | _ => 0
        | _ => 0
      | _ => 0
  | _ => 0

/-- Instructions executed in the rule to which a special sequence forwards — machine.rs:219-255, as `scanSpecial`. -/
def specialSteps (g : Graph) (instr : Instruction) (scanner : SpecialScanner) (count : Nat → Reader → Nat) (r : Reader) : Nat :=
  match Reader.mark r with
  | (.ok mark, r1) =>
    match scanner.scan instr.definition r1 with
    | (.ok (.forward metaIdentifier), r2) =>
      match g.indexOfLabel metaIdentifier with
      | some next =>
        match Reader.unmark mark r2 with
        | (.ok _, r3) => count next r3
        | _ => 0
      | none => 0
    | _ => 0
  | _ => 0

/-- Instructions executed in the calls that one instruction makes — machine.rs:52-133, as `execStep`. -/
def callSteps (g : Graph) (run : Nat → Run) (count : Nat → Reader → Nat) (fuel : Nat) (instr : Instruction) (r : Reader) : Nat :=
  match instr.step with
  | .repetition _ max sub => repetitionSteps (run sub) (count sub) max fuel 0 r
  | .or subs => orSteps run count subs r
  | .alias name =>
    match g.indexOfLabel name, g.canonicalName name with
    | some address, some _ => count address r
    | _, _ => 0
  | .scan (.terminal _) => 0
  | .scan (.special scanner) => specialSteps g instr scanner count r
  | .scan .empty => 0
  | .scan (.exception factor exception) => exceptionSteps (run factor) (count factor) (count exception) r

/-- Instructions executed by `parse_to_subroutine_end` — machine.rs:44-137, as `runFrom`. -/
def stepsFrom (g : Graph) : Nat → Option Nat → Reader → Nat
  | 0, _, _ => 0
  | _ + 1, none, _ => 0
  | fuel + 1, some addr, r =>
    match g.instruction addr with
    | none => 0
    | some instr =>
      1 + callSteps g (fun a => runFrom g fuel (some a)) (fun a => stepsFrom g fuel (some a)) fuel instr r +
        match execStep g (fun a => runFrom g fuel (some a)) fuel addr instr r with
        | (.ok (.proceed, _), r') => stepsFrom g fuel instr.next r'
        | _ => 0

/-- Instructions executed by `LexMachine::parse` / `Parser::parse` — machine.rs:32-42. -/
def Machine.steps (m : Machine) (fuel : Nat) (r : Reader) : Nat := stepsFrom m.graph fuel (some m.entry) r

end Ebnf
