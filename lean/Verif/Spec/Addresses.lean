import Verif.Model.Graph

set_option autoImplicit false

/-! # Specification: addresses in compiled code -/

namespace Ebnf.Spec

/-- The instructions an instruction may jump to or call. -/
def targets (x : Instruction) : List Nat :=
  x.next.toList ++
  match x.step with
  | .repetition _ _ sub => [sub]
  | .or subs => subs
  | .scan (.exception factor exception) => [factor, exception]
  | .scan _ => []
  | .alias _ => []

/-- All addresses and labels refer to instructions. -/
structure ClosedGraph (g : Graph) : Prop where
  targets : ∀ x ∈ g.instructions, ∀ i ∈ targets x, ∃ y, g.instruction i = some y
  labels : ∀ name i, g.indexOfLabel name = some i → ∃ y, g.instruction i = some y


end Ebnf.Spec
