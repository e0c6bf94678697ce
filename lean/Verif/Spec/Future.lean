import Verif.Model.Machine
import Verif.Spec.Cursor

set_option autoImplicit false

/-! # Specification: what has not been asked for does not matter (C108) -/

namespace Ebnf.Spec

/-- The same reader over a byte stream that will bring something else from now on: other text, errors, or nothing any more. -/
def withFuture (r : Reader) (rest : List (Except Nat Str)) : Reader := { r with source := { r.source with rounds := rest } }

/-- What a method returns, and what becomes of the reader, depends only on what the method has asked the byte stream for: it takes some of what is to come and,
unless it has seen the end, would have done the same whatever came after that.  (The place in the buffer lies in the buffer, as it always does.) -/
def Causal {α : Type} (f : RM Reader α) : Prop := ∀ r : Reader, r.buffer.next ≤ r.buffer.buffer.length →
  (f r).2.buffer.next ≤ (f r).2.buffer.buffer.length ∧
  ∃ taken, r.source.rounds = taken ++ (f r).2.source.rounds ∧
    ((f r).2.source.rounds ≠ [] → ∀ rest, f (withFuture r (taken ++ rest)) = ((f r).1, withFuture (f r).2 rest))

/-- All scanners of a compiled grammar are such methods. -/
def CausalScanners (g : Graph) : Prop :=
  ∀ addr instr scanner, g.instruction addr = some instr → instr.step = .scan (.special scanner) → ∀ definition, Causal (scanner.scan definition)

end Ebnf.Spec
