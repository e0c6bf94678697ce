import Verif.Spec.Parsing
import Verif.Spec.Conditions

set_option autoImplicit false

/-! # Specification: the context-free reading of a grammar -/

namespace Ebnf.Spec

/-- `Derives G part w`: the part of a grammar derives the text `w`, in the ordinary reading of EBNF: any alternative may be
chosen, an optional part may be left out, a repeated part may be taken any number of times.  Exceptions are not
considered: `F - X` derives what `F` does.  A special sequence derives what its scanner accepts at some place of some text,
and what a scanner that forwards skips, followed by what the rule derives. -/
inductive Derives (G : Language) : Task → Str → Prop
  | empty {loc} : Derives G (.primary (.empty loc)) []
  | terminal {loc s} : Derives G (.primary (.terminalString loc s)) s
  | reference {loc name r w} : r ∈ G.rules → SameName r.metaIdentifier name → Derives G (.list r.definitionList) w →
      Derives G (.primary (.metaIdentifier loc name)) w
  | leftOut {loc l} : Derives G (.primary (.optional loc l)) []
  | taken {loc l w} : Derives G (.list l) w → Derives G (.primary (.optional loc l)) w
  | noMore {loc l} : Derives G (.primary (.repeated loc l)) []
  | more {loc l w w'} : Derives G (.list l) w → Derives G (.primary (.repeated loc l)) w' →
      Derives G (.primary (.repeated loc l)) (w ++ w')
  | grouped {loc l w} : Derives G (.list l) w → Derives G (.primary (.grouped loc l)) w
  | special {loc s here rest evs n} : G.special loc s loc here rest = .accept evs n →
      Derives G (.primary (.specialSequence loc s)) (rest.take n)
  | forward {loc s here rest name n task w} : G.special loc s loc here rest = .forward name n → ForwardTarget G name task →
      Derives G task w → Derives G (.primary (.specialSequence loc s)) (rest.take n ++ w)
  | never {p} : Derives G (.factor (.mk 0 p)) []
  | again {k p w w'} : Derives G (.primary p) w → Derives G (.factor (.mk k p)) w' → Derives G (.factor (.mk (k + 1) p)) (w ++ w')
  | plain {f w} : Derives G (.factor f) w → Derives G (.term (.plain f)) w
  | except {f x w} : Derives G (.factor f) w → Derives G (.term (.except f x)) w
  | done : Derives G (.sequence .nil) []
  | next {t d w w'} : Derives G (.term t) w → Derives G (.sequence d) w' → Derives G (.sequence (.cons t d)) (w ++ w')
  | choice {l d w} : d ∈ l.toList → Derives G (.sequence d) w → Derives G (.list l) w

/-- Nothing follows a bare group, and scanners do not forward. -/
def straight (G : Language) : Local :=
  { primary := (noForwards G).primary, follows := groupsLast.follows }

/-- Every primary of the grammar, at every depth, derives some text. -/
def productive (G : Language) : Local := { primary := fun p => ∃ w, Derives G (.primary p) w }

/-- What the start rule derives begins with `pre`: a text of the language, exceptions aside, may begin so. -/
def Viable (G : Language) (start : SyntaxRule) (pre : Str) : Prop :=
  ∃ w, Derives G (.list start.definitionList) (pre ++ w)

end Ebnf.Spec
