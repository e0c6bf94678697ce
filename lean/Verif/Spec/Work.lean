import Verif.Spec.Errors
import Verif.Spec.Meter

set_option autoImplicit false

/-! # Specification: what a parse costs in all (C105) -/

namespace Ebnf.Spec

/-- What a scanner of the library looks at, in a text of which `N` characters are left or kept, are at most `D` characters: the default scanner looks at none,
one for a regular expression at 257, one for a set of characters at no more than its maximum and no more than there are. -/
inductive ScanWithin (N D : Nat) : SpecialScanner → (Location → RM Metered Reaction) → Prop
  | default (content) : ScanWithin N D (defaultScanner content) Dyn.defaultScan
  | chars (allowed min max) (h : N ≤ D ∨ ∃ M, max = some M ∧ M ≤ D) :
    ScanWithin N D (charsScanner allowed min max) (Dyn.charsScan Metered.required.methods allowed min max)
  | regex (source find) (h : 257 ≤ D) : ScanWithin N D (regexScanner source find) (Dyn.regexScan Metered.required.methods find)

/-- No instruction looks at more than `D` characters at once: a terminal looks at as many as it has, a special sequence at what its scanner looks at.
There are no exceptions: their second part is run on a reader of its own (see `ReadsWithin`). -/
def LooksWithin (N D : Nat) (scan : SpecialScanner → Location → RM Metered Reaction) (g : Graph) : Prop :=
  ∀ addr instr, g.instruction addr = some instr →
    match instr.step with
    | .scan (.terminal p) => p.length ≤ D
    | .scan (.special scanner) => ScanWithin N D scanner (scan scanner)
    | .scan (.exception _ _) => False
    | _ => True

/-- The same, with exceptions: `F - X` looks again at what `F` matched. -/
def ReadsWithin (N D : Nat) (scan : SpecialScanner → Location → RM Metered Reaction) (g : Graph) : Prop :=
  ∀ addr instr, g.instruction addr = some instr →
    match instr.step with
    | .scan (.terminal p) => p.length ≤ D
    | .scan (.special scanner) => ScanWithin N D scanner (scan scanner)
    | _ => True

/-- The same of a grammar: its terminal strings have at most `D` characters, the scanners of its special sequences look at no more, and it has no
exceptions. -/
structure LooksAtMost (N D : Nat) (config : Config) (scan : SpecialScanner → Location → RM Metered Reaction) (G : Language) : Prop where
  terminal : ∀ loc s, Occurs G (.primary (.terminalString loc s)) → s.length ≤ D
  special : ∀ loc s, Occurs G (.primary (.specialSequence loc s)) → ScanWithin N D (config loc s) (scan (config loc s))
  exception : ∀ f x, ¬ Occurs G (.term (.except f x))

end Ebnf.Spec
