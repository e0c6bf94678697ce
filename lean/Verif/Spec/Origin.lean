import Verif.Spec.Errors
import Verif.Spec.Shape

set_option autoImplicit false

/-! # Specification: where the events of a parse come from -/

namespace Ebnf.Spec

/-- A reference of the grammar to the rule `r` is at `definition`; or `definition` is where the rule itself is. -/
def RefersTo (G : Language) (r : SyntaxRule) (definition : Location) : Prop :=
  definition = r.location ∨ ∃ name, Occurs G (.primary (.metaIdentifier definition name)) ∧ SameName r.metaIdentifier name

/-- `Origin G here text e`: the event `e` tells of a place of the text (which begins at `here`) and of a part of the grammar. -/
inductive Origin (G : Language) (here : Location) (text : Str) : Event → Prop
  /-- the text goes on with a terminal string of the grammar there -/
  | terminal {definition s pre post} : Occurs G (.primary (.terminalString definition s)) → text = pre ++ s ++ post →
      Origin G here text (.token definition (lineColumn here pre) s)
  /-- a rule is begun there -/
  | begin {r definition pre post} : r ∈ G.rules → RefersTo G r definition → text = pre ++ post →
      Origin G here text (.begin definition (lineColumn here pre) r.metaIdentifier)
  /-- a rule is completed there -/
  | end {r definition pre post} : r ∈ G.rules → RefersTo G r definition → text = pre ++ post →
      Origin G here text (.end definition (lineColumn here pre) r.metaIdentifier)
  /-- the scanner of a special sequence of the grammar reports it there -/
  | scanner {definition s pre post evs n e} : Occurs G (.primary (.specialSequence definition s)) → text = pre ++ post →
      G.special definition s definition (lineColumn here pre) post = .accept evs n → e ∈ evs → Origin G here text e

/-- `definition` is the line and column of a place of the grammar text, where the text goes on with `post`. -/
def PlaceOf (gname gtext : Str) (definition : Location) (post : Str) : Prop :=
  ∃ pre, gtext = pre ++ post ∧ definition = lineColumn (Location.new gname) pre

/-- What an event tells about the text of the grammar and the text of the input. -/
def PointsBack (gname gtext : Str) (here : Location) (text : Str) : Event → Prop
  /- the input goes on with the token at its place, and the grammar has that string in quotes, or a special sequence, at the definition -/
  | .token definition place s => (∃ pre post, text = pre ++ s ++ post ∧ place = lineColumn here pre) ∧
      ∃ post, PlaceOf gname gtext definition post ∧
        ('\'' :: s ++ ['\''] <+: post ∨ '"' :: s ++ ['"'] <+: post ∨ ∃ t, '?' :: t ++ ['?'] <+: post)
  /- the grammar has the first word of (some spelling of) the name at the definition -/
  | .begin definition place label => PlaceIn here text place ∧
      ∃ post name w, PlaceOf gname gtext definition post ∧ SameName label name ∧ w ≠ [] ∧ w <+: name ∧ w <+: post
  | .end definition place label => PlaceIn here text place ∧
      ∃ post name w, PlaceOf gname gtext definition post ∧ SameName label name ∧ w ≠ [] ∧ w <+: name ∧ w <+: post

end Ebnf.Spec
