import Verif.Spec.Linear
import Verif.Spec.Conditions
import Verif.Spec.Events

set_option autoImplicit false

/-! # Specification: grammars whose optional and repeated parts know when to stop -/

namespace Ebnf.Spec

/-- The next character tells that an optional or a repeated part is over: what may follow such a part does not begin with a character with which
the part begins.  (Exceptions do not count.  Nothing is asked of alternatives, which may well begin alike.) -/
structure ClearEnds (G : Language) : Prop where
  optionals : ∀ loc l, Occurs G (.primary (.optional loc l)) → ∀ c, First regardless G (.list l) c →
    ¬ Next regardless G (.primary (.optional loc l)) c
  repeats : ∀ loc l, Occurs G (.primary (.repeated loc l)) → ∀ c, First regardless G (.list l) c →
    ¬ Next regardless G (.primary (.repeated loc l)) c

/-- Nothing follows a bare group, and scanners do not forward. -/
def whole (G : Language) : Local :=
  { primary := (noForwards G).primary
    follows := groupsLast.follows }

/-- The tokens, those of the empty text aside. -/
def realTokens (events : List Event) : List Event := events.filter fun e =>
  match e with
  | .token _ _ s => !s.isEmpty
  | _ => false

end Ebnf.Spec
