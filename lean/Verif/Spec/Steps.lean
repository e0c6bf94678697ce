import Verif.Spec.Running
import Verif.Model.Steps

set_option autoImplicit false

/-! # The time that `parse` takes -/

namespace Ebnf.Spec

/-- `parse` executes `n` instructions, and then ends. -/
def Executes (m : Machine) (r : Reader) (n : Nat) : Prop := ∃ enough, ∀ fuel, enough ≤ fuel → m.steps fuel r = n

/-- `parse` executes more than any number of instructions. -/
def ExecutesForever (m : Machine) (r : Reader) : Prop := ∀ n, ∃ enough, ∀ fuel, enough ≤ fuel → n ≤ m.steps fuel r

end Ebnf.Spec
