import Verif.Spec.Conditions
import Verif.Spec.Events

set_option autoImplicit false

/-! # Specification: results that differ in additional events (C35, C37, C54, C69) -/

namespace Ebnf.Spec

/-- The same result, but that there may be more events: those of the first are, in order, among those of the second. -/
inductive SameButMore : Res (List Event) → Res (List Event) → Prop
  | accepted {out more} : out.Sublist more → SameButMore (.ok out) (.ok more)
  | error {e} : SameButMore (.err e) (.err e)
  | crash {p} : SameButMore (.panic p) (.panic p)

/-- Nothing follows a bare group, scanners do not forward and counts are below the limit; optional and repeated bodies are of any form. -/
def mostlyTidy (G : Language) : Local :=
  { count := smallCounts.count, primary := (noForwards G).primary, follows := groupsLast.follows }

end Ebnf.Spec
