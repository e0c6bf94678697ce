import Verif.Spec.Trees
import Verif.Spec.Text

set_option autoImplicit false

/-! # Specification: the outcome of parsing with every reported place moved -/

namespace Ebnf.Spec

/-- The outcome with every reported place `l` replaced by `f l`: the places in the rules, or the place
of the error. -/
def relocated (f : Location → Location) : Res (List SyntaxRule) → Res (List SyntaxRule)
  | .ok rules => .ok (rules.map (mapRule f f))
  | .err e => .err ⟨f e.location, e.msg⟩
  | .panic p => .panic p
  | .diverge => .diverge

/-- The outcome with `rules` put in front of the rules. -/
def following (rules : List SyntaxRule) : Res (List SyntaxRule) → Res (List SyntaxRule)
  | .ok more => .ok (rules ++ more)
  | .err e => .err e
  | .panic p => .panic p
  | .diverge => .diverge

/-- Where the place `l` of a text called `name` is once that text stands behind another one that ends at
`stop`: its first line continues the last line of the other text, its other lines follow.  Places that
are not in the text stay. -/
def behind (name : Str) (stop l : Location) : Location :=
  if l.name = name then
    ⟨name, stop.lines + (l.lines - 1), if l.lines = 1 then stop.columns + (l.columns - 1) else l.columns⟩
  else l

/-- The place `l` when the text called `name` is called `other` instead. -/
def calledBy (name other : Str) (l : Location) : Location :=
  if l.name = name then { l with name := other } else l

end Ebnf.Spec
