import Verif.Model.Machine

set_option autoImplicit false

/-! # The parsing machine with a bounded call stack — src/parser/machine.rs

`parse_to_subroutine_end` calls itself for the body of a repetition, for every alternative of a choice, for a reference, for both operands of an
exception and for a forward.  Following `next` is a loop and needs no stack.  Here the number of calls that can be nested is bounded; one call too
many is a panic (in Rust: the process is aborted).  A frame of the stack stands for the frames of one such call and of the `scan` method
between it and the next one. -/

namespace Ebnf

/-- A call for which there is no room. -/
def noRoom : Run := RM.lift (.panic .stackOverflow)

/-- `parse_to_subroutine_end` — machine.rs:44-137, where `room` more calls can be nested.  Fuel as in `runFrom`. -/
def runDeep (g : Graph) : Nat → Nat → Option Nat → Run
  | _, 0, _ => RM.lift .diverge
  | _, _ + 1, none => pure (.proceed, [])
  | room, fuel + 1, some addr =>
    match g.instruction addr with
    | none => RM.lift (.panic .missing)
    | some instr => do
      let (prospect, evs) ← execStep g (fun a => if room = 0 then noRoom else runDeep g (room - 1) fuel (some a)) fuel addr instr
      match prospect with
      | .notThisWay e => pure (.notThisWay e, evs)
      | .proceed => do
        let (prospect, evs') ← runDeep g room fuel instr.next
        pure (prospect, evs ++ evs')

/-- A call of `parse_to_subroutine_end` where `room` calls can be nested (this one included). -/
def callDeep (g : Graph) (room fuel : Nat) (a : Nat) : Run := if room = 0 then noRoom else runDeep g (room - 1) fuel (some a)

/-- `LexMachine::parse` / `Parser::parse` — machine.rs:32-42, parser/mod.rs:75-77, with room for `frames` nested calls of
`parse_to_subroutine_end`. -/
def Machine.parseDeep (m : Machine) (frames fuel : Nat) : RM Reader (List Event) := do
  let (prospect, events) ← callDeep m.graph frames fuel m.entry
  match prospect with
  | .proceed => do
    if ← Reader.isEof then do
      let r ← RM.get
      if r.buffer.dbg && !labelsAgree events then RM.lift (.panic .debugAssert) else pure (removeEmpty events)
    else do
      let e ← errExpected m.graph none
      RM.lift (.err e)
  | .notThisWay e => RM.lift (.err e)

end Ebnf
