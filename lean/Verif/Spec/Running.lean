import Verif.Spec.Parsing
import Verif.Model.Syntax

set_option autoImplicit false

/-! # Specification: running a parser on an input -/

namespace Ebnf.Spec

/-- The reader was made, in a release build (`dbg = false`) or a debug build, over a source that delivers a text, and was
then used by some operations (any number of reads, marks, resets, …), none of which panicked.  Where that leaves it,
according to the cursor specification, is the place `here`, with `text` ahead. -/
def InputAt (dbg : Bool) (r : Reader) (here : Location) (text : Str) : Prop :=
  ∃ location source whole ops c, Delivers source whole ∧
    r = (performAll ops (Reader.withLocation location source dbg)).2 ∧
    CursorSteps ⟨location, whole, 0, []⟩ ops (performAll ops (Reader.withLocation location source dbg)).1 c ∧
    here = c.location ∧ text = c.rest

/-- What one can observe of a reader: its location, and what is ahead. -/
def Observed (r : Reader) (here : Location) (text : Str) : Prop :=
  (perform .location r).1 = .location here ∧ ∀ n, (perform (.peek n) r).1 = .chars (text.take n)

/-- The longest prefix of allowed characters, up to `max` of them. -/
structure IsGreedyRun (allowed : Char → Bool) (max : Option Nat) (text run : Str) : Prop where
  isPrefix : run <+: text
  onlyAllowed : ∀ ch ∈ run, allowed ch = true
  atMost : ∀ m, max = some m → run.length ≤ m
  longest : ∀ run', run' <+: text → (∀ ch ∈ run', allowed ch = true) → (∀ m, max = some m → run'.length ≤ m) →
    run'.length ≤ run.length

/-- `parse` returns `x` (a value, an error, or a panic). -/
def Returns (m : Machine) (r : Reader) (x : Res (List Event)) : Prop :=
  x ≠ .diverge ∧ ∃ enough, ∀ fuel, enough ≤ fuel → (m.parse fuel r).1 = x

/-- `parse` runs forever. -/
def Loops (m : Machine) (r : Reader) : Prop := ∀ fuel, (m.parse fuel r).1 = .diverge

/-- A fresh reader over a text. -/
def readerOn (text : String) : Reader := Reader.withLocation (Location.new []) (.buffered text.toList) false

/-- The language of rules whose special sequences have the default scanner. -/
def plainLanguage (rules : List SyntaxRule) : Language :=
  ⟨rules, fun _ _ => defaultRecognizer, fun _ s => '?' :: s ++ ['?']⟩

end Ebnf.Spec
