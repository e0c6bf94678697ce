import Verif.Model.Graph

/-! # The parsing machine — src/parser/machine.rs -/

namespace Ebnf

/-- `enum Prospect` — graph.rs:34-37. -/
inductive Prospect
  | proceed
  | notThisWay (e : Error)
deriving DecidableEq, Repr

/-- Number of characters peeked for an error message — machine.rs:163-168: nine are peeked, eight are
shown, followed by `...` when the ninth exists. -/
def actualOfPeek (text : Str) : Actual :=
  if text.length < 9 then .text text false else .text (text.take 8) true

/-- `stream_prefix_to_string` — machine.rs:159-171. -/
def streamPrefix : RM Reader Actual := do
  if ← Reader.isEof then pure .eof
  else do
    let text ← Reader.peek 9
    pure (actualOfPeek text)

/-- `err_expected_but_stream_not` — machine.rs:139-149.  An error while looking ahead becomes the
error reported. -/
def errExpected (g : Graph) (current : Option Nat) : RM Reader Error := fun r =>
  let expected := ((current.bind g.instruction).map (·.symbol)).getD "EOF".toList
  match streamPrefix r with
  | (.ok actual, r') => (.ok ⟨r.buffer.location, .expected expected actual⟩, r')
  | (.err e, r') => (.ok e, r')
  | (.panic p, r') => (.panic p, r')
  | (.diverge, r') => (.diverge, r')

/-- What a run of instructions yields: `Result<Prospect>` together with the events it appended to the
`events` out-parameter. -/
abbrev Run := RM Reader (Prospect × List Event)

/-- The `while i < *max` loop of `Step::Repetition` — machine.rs:56-77.  `temp` are the events
accumulated; the body is the subroutine.  Fuel bounds the rounds.  On success the result is `temp`,
which still contains the events of a failed last iteration. -/
def repetitionLoop (body : Run) (min max : Nat) : Nat → Nat → List Event → Run
  | 0, _, _ => RM.lift .diverge
  | fuel + 1, i, temp =>
    if i < max then do
      let location ← Reader.location
      let mark ← Reader.mark
      let (prospect, evs) ← body
      match prospect with
      | .notThisWay e =>
        if i < min then pure (.notThisWay e, [])
        else do
          let _ ← Reader.resetToMark mark
          pure (.proceed, temp ++ evs)
      | .proceed => do
        let location' ← Reader.location
        if max = u32Max ∧ location' = location then RM.lift (.fail location .livelock)
        else repetitionLoop body min max fuel (i + 1) (temp ++ evs)
    else pure (.proceed, temp)

/-- The `for` loop of `Step::Or` — machine.rs:82-95: either the events of the first alternative that
matches, or the errors of all alternatives. -/
def orLoop (run : Nat → Run) : List Nat → List Error → RM Reader (Except (List Error) (List Event))
  | [], errors => pure (.error errors)
  | sub :: subs, errors => do
    let mark ← Reader.mark
    let (prospect, evs) ← run sub
    match prospect with
    | .proceed => pure (.ok evs)
    | .notThisWay e => do
      let _ ← Reader.resetToMark mark
      orLoop run subs (errors ++ [e])

/-- Selection of the deepest error — machine.rs:99-105: start with the last one, prefer an earlier one
only if its location is greater. -/
def pickError : Error → List Error → Error
  | err, [] => err
  | err, other :: others => pickError (if err.location.lt other.location then other else err) others

/-- Capture loop of `TermWithExceptionScanner::scan` — machine.rs:308-312. -/
def captureLoop (endLoc : Location) : Nat → RM Reader Str
  | 0 => RM.lift .diverge
  | fuel + 1 => do
    let here ← Reader.location
    if here.lines < endLoc.lines ∨ here.columns < endLoc.columns then do
      match ← Reader.read with
      | some ch => do
        let more ← captureLoop endLoc fuel
        pure (ch :: more)
      | none => captureLoop endLoc fuel
    else pure []

/-- `TermWithExceptionScanner::scan` — machine.rs:290-335; `runFactor` and `runException` are
`parse_to_subroutine_end` on the two addresses. -/
def scanException (g : Graph) (addr : Nat) (runFactor runException : Run) : Run := do
  let begin ← Reader.location
  let mark ← Reader.mark
  let (prospect, temp) ← runFactor
  match prospect with
  | .proceed => do
    let endLoc ← Reader.location
    let _ ← Reader.resetToMark mark
    let mark ← Reader.mark
    let r ← RM.get
    let buffer ← captureLoop endLoc (r.size + 1)
    let here ← Reader.location
    if r.buffer.dbg && here ≠ endLoc then RM.lift (.panic .debugAssert)
    else do
      let excluded ← RM.lift
        ((do
          let (p, _) ← runException
          match p with
          | .proceed => Reader.isEof
          | .notThisWay _ => pure false) (Reader.withLocation begin (.buffered buffer) r.buffer.dbg)).1
      if excluded then do
        let _ ← Reader.resetToMark mark
        let e ← errExpected g (some addr)
        pure (.notThisWay e, [])
      else pure (.proceed, temp)
  | .notThisWay e => do
    let _ ← Reader.resetToMark mark
    pure (.notThisWay e, [])

/-- `SpecialSequenceScanner::scan` — machine.rs:219-255.  The outcome of a forwarded rule is ignored
(line 237); its events are kept. -/
def scanSpecial (g : Graph) (addr : Nat) (instr : Instruction) (scanner : SpecialScanner)
    (run : Nat → Run) : Run := do
  let mark ← Reader.mark
  match ← scanner.scan instr.definition with
  | .match evts => do
    Reader.unmark mark
    pure (.proceed, evts)
  | .forward metaIdentifier =>
    match g.indexOfLabel metaIdentifier with
    | some next => do
      Reader.unmark mark
      let (_, evs) ← run next
      pure (.proceed, evs)
    | none => do
      let _ ← Reader.resetToMark mark
      let here ← Reader.location
      RM.lift (.fail here (.forwardUndefined metaIdentifier instr.symbol instr.definition))
  | .unmatch => do
    let _ ← Reader.resetToMark mark
    let e ← errExpected g (some addr)
    pure (.notThisWay e, [])

/-- `TerminalStringScanner::scan` — machine.rs:185-205. -/
def scanTerminal (g : Graph) (addr : Nat) (instr : Instruction) (s : Str) : Run := do
  if ← Reader.prefixMatches s then do
    let location ← Reader.location
    let _ ← Reader.skip s.length
    pure (.proceed, [.token instr.definition location s])
  else do
    let e ← errExpected g (some addr)
    pure (.notThisWay e, [])

/-- One instruction: the body of the `while` loop in `parse_to_subroutine_end` — machine.rs:52-133.
`run` executes a subroutine; `fuel` bounds the rounds of a repetition. -/
def execStep (g : Graph) (run : Nat → Run) (fuel : Nat) (addr : Nat) (instr : Instruction) : Run :=
  match instr.step with
  | .repetition min max sub => repetitionLoop (run sub) min max fuel 0 []
  | .or subs => do
    match ← orLoop run subs [] with
    | .ok evs => pure (.proceed, evs)
    | .error errors =>
      match errors.reverse with
      | [] => RM.lift (.panic .missing)
      | last :: others => do
        let err := pickError last others
        let here ← Reader.location
        if err.location = here then do
          let e ← errExpected g (some addr)
          pure (.notThisWay e, [])
        else pure (.notThisWay err, [])
  | .alias name =>
    match g.indexOfLabel name with
    | none => RM.lift (.panic .missing)
    | some address =>
      match g.canonicalName name with
      | none => RM.lift (.panic .missing)
      | some label => do
        let location ← Reader.location
        let (prospect, evs) ← run address
        match prospect with
        | .notThisWay e => pure (.notThisWay e, [])
        | .proceed => do
          let location' ← Reader.location
          pure (.proceed,
            .begin instr.definition location label :: evs ++ [.end instr.definition location' label])
  | .scan (.terminal s) => scanTerminal g addr instr s
  | .scan (.special scanner) => scanSpecial g addr instr scanner run
  | .scan .empty => pure (.proceed, [])
  | .scan (.exception factor exception) => scanException g addr (run factor) (run exception)

/-- `parse_to_subroutine_end` — machine.rs:44-137, from an optional address (`next`).  Fuel bounds the
depth of calls and the number of instructions. -/
def runFrom (g : Graph) : Nat → Option Nat → Run
  | 0, _ => RM.lift .diverge
  | _ + 1, none => pure (.proceed, [])
  | fuel + 1, some addr =>
    match g.instruction addr with
    | none => RM.lift (.panic .missing)
    | some instr => do
      let (prospect, evs) ← execStep g (fun a => runFrom g fuel (some a)) fuel addr instr
      match prospect with
      | .notThisWay e => pure (.notThisWay e, evs)
      | .proceed => do
        let (prospect, evs') ← runFrom g fuel instr.next
        pure (prospect, evs ++ evs')

/-- `remove_empty_begin_end_pair` — machine.rs:342-353, on the events from index `i` on. -/
def removeEmptyFrom : List Event → List Event
  | .begin _ _ _ :: .end _ _ _ :: es => removeEmptyFrom es
  | e :: es => e :: removeEmptyFrom es
  | [] => []

/-- `remove_empty_begin_end_pair` — machine.rs:342-353: the scan starts at index 1. -/
def removeEmpty : List Event → List Event
  | [] => []
  | e :: es => e :: removeEmptyFrom es

/-- `debug_assert_eq!(begin, end)` at machine.rs:347, for every pair that `removeEmptyFrom` removes. -/
def pairsAgree : List Event → Bool
  | .begin _ _ b :: .end _ _ e :: es => b == e && pairsAgree es
  | _ :: es => pairsAgree es
  | [] => true

/-- The assertion at machine.rs:347 holds throughout `remove_empty_begin_end_pair`. -/
def labelsAgree : List Event → Bool
  | [] => true
  | _ :: es => pairsAgree es

/-- `struct LexMachine` — machine.rs:11-15. -/
structure Machine where
  graph : Graph
  metaIdentifier : Str
  entry : Nat

/-- `LexMachine::new` / `Parser::new` — machine.rs:18-26, parser/mod.rs:67-69. -/
def Machine.new (g : Graph) (metaIdentifier : Str) : Res (Option Machine) :=
  match g.indexOfLabel ('$' :: metaIdentifier) with
  | none => .ok none
  | some entry =>
    match g.canonicalName metaIdentifier with
    | none => .panic .missing
    | some name => .ok (some ⟨g, name, entry⟩)

/-- `LexMachine::parse` / `Parser::parse` — machine.rs:32-42, parser/mod.rs:75-77.  A failed debug assertion in
`remove_empty_begin_end_pair` is a panic. -/
def Machine.parse (m : Machine) (fuel : Nat) : RM Reader (List Event) := do
  let (prospect, events) ← runFrom m.graph fuel (some m.entry)
  match prospect with
  | .proceed => do
    if ← Reader.isEof then do
      let r ← RM.get
      if r.buffer.dbg && !labelsAgree events then RM.lift (.panic .debugAssert) else pure (removeEmpty events)
    else do
      let e ← errExpected m.graph none
      RM.lift (.err e)
  | .notThisWay e => RM.lift (.err e)

end Ebnf
