import Verif.Model.Machine

set_option autoImplicit false

/-! # Specification: release builds and debug builds -/

namespace Ebnf.Spec

/-- The reader, in a release build. -/
def rel (r : Reader) : Reader := { r with buffer := { r.buffer with dbg := false } }

/-- On every reader of a debug build the method fails a debug assertion, or does what it does in a release build. -/
def Mirrors {α : Type} (f : RM Reader α) : Prop :=
  ∀ r, (f r).1 = .panic .debugAssert ∨
    ((f (rel r)).1 = (f r).1 ∧ (f (rel r)).2 = rel (f r).2 ∧ (f r).2.buffer.dbg = r.buffer.dbg)

/-- A scanner that does not look at the build it runs in. -/
def BuildIndependent (s : SpecialScanner) : Prop := ∀ definition, Mirrors (s.scan definition)

/-- All scanners of a graph are such. -/
def GraphIndependent (g : Graph) : Prop :=
  ∀ addr instr scanner, g.instruction addr = some instr → instr.step = .scan (.special scanner) → BuildIndependent scanner

/-- The scanners that come with the library. -/
inductive LibraryScanner : SpecialScanner → Prop
  | default (content) : LibraryScanner (defaultScanner content)
  | chars (allowed min max) : LibraryScanner (charsScanner allowed min max)
  | regex (source find) : LibraryScanner (regexScanner source find)

end Ebnf.Spec
