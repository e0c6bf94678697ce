import Verif.Model.Scanner
import Verif.Spec.Represents

set_option autoImplicit false

/-! # Specification: what a special-sequence scanner means

A scanner gets a reader.  Its meaning is a function of the place in the grammar, the place in the input
and the text that is left. -/

namespace Ebnf.Spec

/-- The reaction of a scanner, as a function of what it sees. -/
inductive Recognition
  /-- it matches `n` characters and reports events -/
  | accept (events : List Event) (n : Nat)
  /-- it does not match -/
  | unmatched
  /-- it matches `n` characters, then the named rule has to match -/
  | forward (metaIdentifier : Str) (n : Nat)
  /-- it fails -/
  | error (e : Error)
deriving DecidableEq

/-- Where in the grammar the special sequence is, where in the input we are, and the text left. -/
abbrev Recognizer := Location → Location → Str → Recognition

/-- Well nested: every begin has its end, with the same label and definition. -/
inductive Balanced : List Event → Prop
  | nil : Balanced []
  | token {definition location token es} : Balanced es → Balanced (.token definition location token :: es)
  | pair {definition location label inner location' es} : Balanced inner → Balanced es →
      Balanced (.begin definition location label :: inner ++ .end definition location' label :: es)

/-- The scanner `s` computes `f`, in a release build (`dbg = false`) or a debug build: started on a reader that stands
anywhere in any text, it reacts as `f` says.  When it matches it leaves the reader behind the characters matched; it may
leave marks of its own, but the marks that were there stay.  The reader has a mark (the parser sets one before it calls
a scanner), so that a debug build may read.  In a debug build the events reported have to be well nested. -/
def Behaves (dbg : Bool) (s : SpecialScanner) (f : Recognizer) : Prop :=
  ∀ (definition : Location) (r : Reader) (c : Cursor), Rep r c → r.buffer.dbg = dbg → c.marks ≠ [] →
    match f definition c.location c.rest with
    | .accept events n => ∃ r' own, s.scan definition r = (.ok (.match events), r') ∧ n ≤ c.rest.length ∧
        Rep r' { c.advance n with marks := own ++ c.marks } ∧ r'.buffer.dbg = dbg ∧ (dbg = true → Balanced events)
    | .unmatched => ∃ r' own p, s.scan definition r = (.ok .unmatch, r') ∧
        Rep r' { c with pos := p, marks := own ++ c.marks } ∧ r'.buffer.dbg = dbg
    | .forward name n => ∃ r' own, s.scan definition r = (.ok (.forward name), r') ∧ n ≤ c.rest.length ∧
        Rep r' { c.advance n with marks := own ++ c.marks } ∧ r'.buffer.dbg = dbg
    | .error e => ∃ r' own p, s.scan definition r = (.err e, r') ∧
        Rep r' { c with pos := p, marks := own ++ c.marks } ∧ r'.buffer.dbg = dbg

/-- The default scanner: matches nothing, always. -/
def defaultRecognizer : Recognizer := fun _ _ _ => .accept [] 0

/-- The longest prefix of allowed characters, at most `max` of them. -/
def greedyRun (allowed : Char → Bool) : Option Nat → Str → Str
  | none, s => s.takeWhile allowed
  | some m, s => (s.takeWhile allowed).take m

/-- `CharsScanner`: the greedy run, if it has at least `min` characters, as one token. -/
def charsRecognizer (allowed : Char → Bool) (min max : Option Nat) : Recognizer := fun definition here rest =>
  let w := greedyRun allowed max rest
  if ∃ m, min = some m ∧ w.length < m then .unmatched
  else .accept [.token definition here w] w.length

/-- `RegExScanner`: a match at the start of the next 257 characters, of at most 256 characters, as one
token.  `find` is the regular expression engine: offset and length of the leftmost match. -/
def regexRecognizer (find : Str → Option (Nat × Nat)) : Recognizer := fun definition here rest =>
  match find (rest.take 257) with
  | some (0, n) =>
    if ((rest.take 257).take n).length ≤ 256 then
      .accept [.token definition here (rest.take n)] (min n rest.length)
    else .error ⟨here, .regexTooLong 256⟩
  | _ => .unmatched

end Ebnf.Spec
