import Verif.Model.Words

set_option autoImplicit false

/-! # Specification: locations that stay within 64 bits -/

namespace Ebnf.Spec

/-- From this location, `n` more characters do not lead to a line or a column beyond `u64::MAX`. -/
def Fits (l : Location) (n : Nat) : Prop :=
  l.lines + n < 2 ^ 64 ∧ l.columns + n < 2 ^ 64 ∧ 1 + n < 2 ^ 64

/-- The number of characters that the source has left. -/
def leftIn (s : Source) : Nat :=
  s.pending.length + (s.rounds.map fun | .ok t => t.length | .error _ => 0).sum

end Ebnf.Spec
