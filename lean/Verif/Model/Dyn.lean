import Verif.Model.Machine
import Verif.Model.Methods

/-! # The machine on a reader of any make — src/parser/machine.rs

`Parser::parse` takes a `&mut dyn MarkableCharReader`.  `Model/Machine.lean` runs it on a `MarkableReader`; here it
calls the methods `I` of any implementation.  A special-sequence scanner is called with the same reader: `scan` says what each scanner
of the grammar does with it.  Only the text matched by the first part of an exception is put into a `MarkableReader`, as in
the code. -/

namespace Ebnf.Dyn

variable {σ : Type}

/-- `stream_prefix_to_string` — machine.rs:159-171. -/
def streamPrefix (I : Methods σ) : RM σ Actual := do
  if ← I.isEof then pure .eof
  else do
    let text ← I.peek 9
    pure (actualOfPeek text)

/-- `err_expected_but_stream_not` — machine.rs:139-149. -/
def errExpected (I : Methods σ) (g : Graph) (current : Option Nat) : RM σ Error := fun r =>
  let expected := ((current.bind g.instruction).map (·.symbol)).getD "EOF".toList
  match streamPrefix I r with
  | (.ok actual, r') => (.ok ⟨I.location r, .expected expected actual⟩, r')
  | (.err e, r') => (.ok e, r')
  | (.panic p, r') => (.panic p, r')
  | (.diverge, r') => (.diverge, r')

/-- `r.location()`. -/
def location (I : Methods σ) : RM σ Location := fun r => (.ok (I.location r), r)

/-- The `while i < *max` loop of `Step::Repetition` — machine.rs:56-77.  Fuel bounds the rounds. -/
def repetitionLoop (I : Methods σ) (body : RM σ (Prospect × List Event)) (min max : Nat) : Nat → Nat → List Event → RM σ (Prospect × List Event)
  | 0, _, _ => RM.lift .diverge
  | fuel + 1, i, temp =>
    if i < max then do
      let location ← Dyn.location I
      let mark ← I.mark
      let (prospect, evs) ← body
      match prospect with
      | .notThisWay e =>
        if i < min then pure (.notThisWay e, [])
        else do
          let _ ← I.resetToMark mark
          pure (.proceed, temp ++ evs)
      | .proceed => do
        let location' ← Dyn.location I
        if max = u32Max ∧ location' = location then RM.lift (.fail location .livelock)
        else repetitionLoop I body min max fuel (i + 1) (temp ++ evs)
    else pure (.proceed, temp)

/-- The `for` loop of `Step::Or` — machine.rs:82-95. -/
def orLoop (I : Methods σ) (run : Nat → RM σ (Prospect × List Event)) : List Nat → List Error → RM σ (Except (List Error) (List Event))
  | [], errors => pure (.error errors)
  | sub :: subs, errors => do
    let mark ← I.mark
    let (prospect, evs) ← run sub
    match prospect with
    | .proceed => pure (.ok evs)
    | .notThisWay e => do
      let _ ← I.resetToMark mark
      orLoop I run subs (errors ++ [e])

/-- Capture loop of `TermWithExceptionScanner::scan` — machine.rs:308-312. -/
def captureLoop (I : Methods σ) (endLoc : Location) : Nat → RM σ Str
  | 0 => RM.lift .diverge
  | fuel + 1 => do
    let here ← Dyn.location I
    if here.lines < endLoc.lines ∨ here.columns < endLoc.columns then do
      match ← I.read with
      | some ch => do
        let more ← captureLoop I endLoc fuel
        pure (ch :: more)
      | none => captureLoop I endLoc fuel
    else pure []

/-- `TermWithExceptionScanner::scan` — machine.rs:290-335; `runFactor` and `runException` are
`parse_to_subroutine_end` on the two addresses, the first with the reader `r`, the second with the reader `test`. -/
def scanException (I : Methods σ) (g : Graph) (addr : Nat) (runFactor : RM σ (Prospect × List Event)) (runException : Run) : RM σ (Prospect × List Event) := do
  let begin ← Dyn.location I
  let mark ← I.mark
  let (prospect, temp) ← runFactor
  match prospect with
  | .proceed => do
    let endLoc ← Dyn.location I
    let _ ← I.resetToMark mark
    let mark ← I.mark
    let r ← RM.get
    let buffer ← captureLoop I endLoc (I.size r + 1)
    let here ← Dyn.location I
    if I.debug r && here ≠ endLoc then RM.lift (.panic .debugAssert)
    else do
      let excluded ← RM.lift
        ((do
          let (p, _) ← runException
          match p with
          | .proceed => Reader.isEof
          | .notThisWay _ => pure false) (Reader.withLocation begin (.buffered buffer) (I.debug r))).1
      if excluded then do
        let _ ← I.resetToMark mark
        let e ← errExpected I g (some addr)
        pure (.notThisWay e, [])
      else pure (.proceed, temp)
  | .notThisWay e => do
    let _ ← I.resetToMark mark
    pure (.notThisWay e, [])

/-- `SpecialSequenceScanner::scan` — machine.rs:219-255. -/
def scanSpecial (I : Methods σ) (g : Graph) (addr : Nat) (instr : Instruction) (scan : Location → RM σ Reaction)
    (run : Nat → RM σ (Prospect × List Event)) : RM σ (Prospect × List Event) := do
  let mark ← I.mark
  match ← scan instr.definition with
  | .match evts => do
    I.unmark mark
    pure (.proceed, evts)
  | .forward metaIdentifier =>
    match g.indexOfLabel metaIdentifier with
    | some next => do
      I.unmark mark
      let (_, evs) ← run next
      pure (.proceed, evs)
    | none => do
      let _ ← I.resetToMark mark
      let here ← Dyn.location I
      RM.lift (.fail here (.forwardUndefined metaIdentifier instr.symbol instr.definition))
  | .unmatch => do
    let _ ← I.resetToMark mark
    let e ← errExpected I g (some addr)
    pure (.notThisWay e, [])

/-- `TerminalStringScanner::scan` — machine.rs:185-205. -/
def scanTerminal (I : Methods σ) (g : Graph) (addr : Nat) (instr : Instruction) (s : Str) : RM σ (Prospect × List Event) := do
  if ← I.prefixMatches s then do
    let location ← Dyn.location I
    let _ ← I.skip s.length
    pure (.proceed, [.token instr.definition location s])
  else do
    let e ← errExpected I g (some addr)
    pure (.notThisWay e, [])

/-- One instruction: the body of the `while` loop in `parse_to_subroutine_end` — machine.rs:52-133.  `inner` executes a
subroutine on a `MarkableReader`. -/
def execStep (I : Methods σ) (scan : SpecialScanner → Location → RM σ Reaction) (g : Graph) (run : Nat → RM σ (Prospect × List Event))
    (inner : Nat → Run) (fuel : Nat) (addr : Nat) (instr : Instruction) : RM σ (Prospect × List Event) :=
  match instr.step with
  | .repetition min max sub => repetitionLoop I (run sub) min max fuel 0 []
  | .or subs => do
    match ← orLoop I run subs [] with
    | .ok evs => pure (.proceed, evs)
    | .error errors =>
      match errors.reverse with
      | [] => RM.lift (.panic .missing)
      | last :: others => do
        let err := pickError last others
        let here ← Dyn.location I
        if err.location = here then do
          let e ← errExpected I g (some addr)
          pure (.notThisWay e, [])
        else pure (.notThisWay err, [])
  | .alias name =>
    match g.indexOfLabel name with
    | none => RM.lift (.panic .missing)
    | some address =>
      match g.canonicalName name with
      | none => RM.lift (.panic .missing)
      | some label => do
        let location ← Dyn.location I
        let (prospect, evs) ← run address
        match prospect with
        | .notThisWay e => pure (.notThisWay e, [])
        | .proceed => do
          let location' ← Dyn.location I
          pure (.proceed,
            .begin instr.definition location label :: evs ++ [.end instr.definition location' label])
  | .scan (.terminal s) => scanTerminal I g addr instr s
  | .scan (.special scanner) => scanSpecial I g addr instr (scan scanner) run
  | .scan .empty => pure (.proceed, [])
  | .scan (.exception factor exception) => scanException I g addr (run factor) (inner exception)

/-- `parse_to_subroutine_end` — machine.rs:44-137, from an optional address (`next`).  Fuel bounds the
depth of calls and the number of instructions. -/
def runFrom (I : Methods σ) (scan : SpecialScanner → Location → RM σ Reaction) (g : Graph) : Nat → Option Nat → RM σ (Prospect × List Event)
  | 0, _ => RM.lift .diverge
  | _ + 1, none => pure (.proceed, [])
  | fuel + 1, some addr =>
    match g.instruction addr with
    | none => RM.lift (.panic .missing)
    | some instr => do
      let (prospect, evs) ← execStep I scan g (fun a => runFrom I scan g fuel (some a))
        (fun a => Ebnf.runFrom g fuel (some a)) fuel addr instr
      match prospect with
      | .notThisWay e => pure (.notThisWay e, evs)
      | .proceed => do
        let (prospect, evs') ← runFrom I scan g fuel instr.next
        pure (prospect, evs ++ evs')

/-- `LexMachine::parse` / `Parser::parse` — machine.rs:32-42, parser/mod.rs:75-77. -/
def parse (I : Methods σ) (scan : SpecialScanner → Location → RM σ Reaction) (m : Machine) (fuel : Nat) : RM σ (List Event) := do
  let (prospect, events) ← runFrom I scan m.graph fuel (some m.entry)
  match prospect with
  | .proceed => do
    if ← I.isEof then do
      let r ← RM.get
      if I.debug r && !labelsAgree events then RM.lift (.panic .debugAssert) else pure (removeEmpty events)
    else do
      let e ← errExpected I m.graph none
      RM.lift (.err e)
  | .notThisWay e => RM.lift (.err e)

/-! ## The scanners of the library -/

/-- `DefaultScanner::scan` — parser/mod.rs:120-133. -/
def defaultScan : Location → RM σ Reaction := fun _ => pure (.match [])

/-- The `while` loop of `CharsScanner::scan` — parser/mod.rs:179-191; `count` is `buffer.len()`. -/
def charsLoop (I : Methods σ) (predicator : Char → Bool) (max : Option Nat) : Nat → Nat → RM σ Str
  | 0, _ => RM.lift .diverge
  | fuel + 1, count =>
    if (max.map fun m => decide (count < m)).getD true then do
      let m2 ← I.mark
      match ← I.read with
      | some ch =>
        if !predicator ch then do
          let _ ← I.resetToMark m2
          pure []
        else do
          I.unmark m2
          let more ← charsLoop I predicator max fuel (count + 1)
          pure (ch :: more)
      | none => pure []
    else pure []

/-- `CharsScanner::scan` — parser/mod.rs:170-203. -/
def charsScan (I : Methods σ) (predicator : Char → Bool) (min max : Option Nat) : Location → RM σ Reaction := fun definition => do
  let mark ← I.mark
  let location ← Dyn.location I
  let r ← RM.get
  let buffer ← charsLoop I predicator max (I.size r + 1) 0
  if (min.map fun m => decide (buffer.length < m)).getD false then do
    let _ ← I.resetToMark mark
    pure .unmatch
  else pure (.match [.token definition location buffer])

/-- `RegExScanner::scan` — parser/mod.rs:227-251. -/
def regexScan (I : Methods σ) (find : Str → Option (Nat × Nat)) : Location → RM σ Reaction := fun definition => do
  let location ← Dyn.location I
  let text ← I.peek 257
  match find text with
  | some (0, len) =>
    let token := text.take len
    if token.length > 256 then do
      let here ← Dyn.location I
      RM.lift (.fail here (.regexTooLong 256))
    else do
      let _ ← I.skip token.length
      pure (.match [.token definition location token])
  | _ => pure .unmatch

end Ebnf.Dyn
