import Verif.Model.Io

/-! # Events and special-sequence scanners — src/parser/mod.rs -/

namespace Ebnf

/-- `enum Event` — parser/mod.rs:18-34. -/
inductive Event
  | token (definition location : Location) (token : Str)
  | begin (definition location : Location) (label : Str)
  | end (definition location : Location) (label : Str)
deriving DecidableEq, Repr

/-- `enum Reaction` — parser/mod.rs:81-94. -/
inductive Reaction
  | match (events : List Event)
  | unmatch
  | forward (metaIdentifier : Str)
deriving DecidableEq, Repr

/-- `trait SpecialSequenceScanner` — parser/mod.rs:135-138. -/
structure SpecialScanner where
  symbol : Str
  scan : Location → RM Reader Reaction

/-- `DefaultScanner` — parser/mod.rs:120-133. -/
def defaultScanner (content : Str) : SpecialScanner where
  symbol := '?' :: content ++ ['?']
  scan _ := pure (.match [])

/-- The `while` loop of `CharsScanner::scan` — parser/mod.rs:179-191; `count` is `buffer.len()`.
Fuel bounds the rounds. -/
def charsLoop (predicator : Char → Bool) (max : Option Nat) : Nat → Nat → RM Reader Str
  | 0, _ => RM.lift .diverge
  | fuel + 1, count =>
    if (max.map fun m => decide (count < m)).getD true then do
      let m2 ← Reader.mark
      match ← Reader.read with
      | some ch =>
        if !predicator ch then do
          let _ ← Reader.resetToMark m2
          pure []
        else do
          Reader.unmark m2
          let more ← charsLoop predicator max fuel (count + 1)
          pure (ch :: more)
      | none => pure []
    else pure []

/-- `CharsScanner` — parser/mod.rs:141-203.  On a match the first mark is left on the stack. -/
def charsScanner (predicator : Char → Bool) (min max : Option Nat) : SpecialScanner where
  symbol := "?chars?".toList
  scan definition := do
    let mark ← Reader.mark
    let location ← Reader.location
    let r ← RM.get
    let buffer ← charsLoop predicator max (r.size + 1) 0
    if (min.map fun m => decide (buffer.length < m)).getD false then do
      let _ ← Reader.resetToMark mark
      pure .unmatch
    else pure (.match [.token definition location buffer])

/-- `RegExScanner` — parser/mod.rs:206-251.  `find` is `Regex::find` of the regex crate (a parameter):
start offset and the number of characters of the leftmost match. -/
def regexScanner (source : Str) (find : Str → Option (Nat × Nat)) : SpecialScanner where
  symbol := '?' :: source ++ ['?']
  scan definition := do
    let location ← Reader.location
    let text ← Reader.peek 257
    match find text with
    | some (0, len) =>
      let token := text.take len
      if token.length > 256 then do
        let here ← Reader.location
        RM.lift (.fail here (.regexTooLong 256))
      else do
        let _ ← Reader.skip token.length
        pure (.match [.token definition location token])
    | _ => pure .unmatch

end Ebnf
