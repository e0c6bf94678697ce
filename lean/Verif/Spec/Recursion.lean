import Verif.Spec.Semantics

set_option autoImplicit false

/-! # Specification: left recursion -/

namespace Ebnf.Spec

/-- `MayBeEmpty G part`: the part of the grammar may match without consuming anything.  (What follows a bare group is not
looked at, as in the code.) -/
inductive MayBeEmpty (G : Language) : Task → Prop
  | optional {loc l} : MayBeEmpty G (.primary (.optional loc l))
  | repeated {loc l} : MayBeEmpty G (.primary (.repeated loc l))
  | grouped {loc l} : MayBeEmpty G (.list l) → MayBeEmpty G (.primary (.grouped loc l))
  | empty {loc} : MayBeEmpty G (.primary (.empty loc))
  | terminal {loc} : MayBeEmpty G (.primary (.terminalString loc []))
  | reference {loc name r} : r ∈ G.rules → SameName r.metaIdentifier name → MayBeEmpty G (.list r.definitionList) →
      MayBeEmpty G (.primary (.metaIdentifier loc name))
  | special {loc s here rest evs} : G.special loc s loc here rest = .accept evs 0 →
      MayBeEmpty G (.primary (.specialSequence loc s))
  | forward {loc s here rest name} : G.special loc s loc here rest = .forward name 0 →
      MayBeEmpty G (.primary (.specialSequence loc s))
  | never {p} : MayBeEmpty G (.factor (.mk 0 p))
  | factor {k p} : MayBeEmpty G (.primary p) → MayBeEmpty G (.factor (.mk k p))
  | plain {f} : MayBeEmpty G (.factor f) → MayBeEmpty G (.term (.plain f))
  | except {f x} : MayBeEmpty G (.factor f) → MayBeEmpty G (.term (.except f x))
  | done : MayBeEmpty G (.sequence .nil)
  | next {t d} : MayBeEmpty G (.term t) → MayBeEmpty G (.sequence d) → MayBeEmpty G (.sequence (.cons t d))
  | group {t d} : MayBeEmpty G (.term t) → IsBareGroup t → MayBeEmpty G (.sequence (.cons t d))
  | choice {l d} : d ∈ l.toList → MayBeEmpty G (.sequence d) → MayBeEmpty G (.list l)

/-- `Begins G part r`: the part may start the rule `r` before it has consumed anything. -/
inductive Begins (G : Language) : Task → SyntaxRule → Prop
  | optional {loc l r} : Begins G (.list l) r → Begins G (.primary (.optional loc l)) r
  | repeated {loc l r} : Begins G (.list l) r → Begins G (.primary (.repeated loc l)) r
  | grouped {loc l r} : Begins G (.list l) r → Begins G (.primary (.grouped loc l)) r
  | reference {loc name r} : r ∈ G.rules → SameName r.metaIdentifier name → Begins G (.primary (.metaIdentifier loc name)) r
  | forward {loc s here rest name r} : G.special loc s loc here rest = .forward name 0 → r ∈ G.rules →
      SameName r.metaIdentifier name ∨ SameName ('$' :: r.metaIdentifier) name → Begins G (.primary (.specialSequence loc s)) r
  | factor {k p r} : k ≠ 0 → Begins G (.primary p) r → Begins G (.factor (.mk k p)) r
  | plain {f r} : Begins G (.factor f) r → Begins G (.term (.plain f)) r
  | except {f x r} : Begins G (.factor f) r → Begins G (.term (.except f x)) r
  | exception {f x r} : Begins G (.factor x) r → Begins G (.term (.except f x)) r
  | first {t d r} : Begins G (.term t) r → Begins G (.sequence (.cons t d)) r
  | later {t d r} : MayBeEmpty G (.term t) → ¬ IsBareGroup t → Begins G (.sequence d) r → Begins G (.sequence (.cons t d)) r
  | choice {l d r} : d ∈ l.toList → Begins G (.sequence d) r → Begins G (.list l) r

/-- A rule that may start another one before it has consumed anything. -/
def LeftCalls (G : Language) (r r' : SyntaxRule) : Prop := r ∈ G.rules ∧ Begins G (.list r.definitionList) r'

/-- Some rule can reach itself without consuming anything. -/
def LeftRecursive (G : Language) : Prop := ∃ r ∈ G.rules, Relation.TransGen (LeftCalls G) r r

/-- `AlwaysBegins G part r`: whatever the input, the first thing the part does is to start the rule `r`. -/
inductive AlwaysBegins (G : Language) : Task → SyntaxRule → Prop
  | optional {loc l r} : AlwaysBegins G (.list l) r → AlwaysBegins G (.primary (.optional loc l)) r
  | repeated {loc l r} : AlwaysBegins G (.list l) r → AlwaysBegins G (.primary (.repeated loc l)) r
  | grouped {loc l r} : AlwaysBegins G (.list l) r → AlwaysBegins G (.primary (.grouped loc l)) r
  | reference {loc name r} : r ∈ G.rules → SameName r.metaIdentifier name →
      AlwaysBegins G (.primary (.metaIdentifier loc name)) r
  | factor {k p r} : k ≠ 0 → AlwaysBegins G (.primary p) r → AlwaysBegins G (.factor (.mk k p)) r
  | plain {f r} : AlwaysBegins G (.factor f) r → AlwaysBegins G (.term (.plain f)) r
  | except {f x r} : AlwaysBegins G (.factor f) r → AlwaysBegins G (.term (.except f x)) r
  | first {t d r} : AlwaysBegins G (.term t) r → AlwaysBegins G (.sequence (.cons t d)) r
  | choice {d l r} : AlwaysBegins G (.sequence d) r → AlwaysBegins G (.list (.cons d l)) r

end Ebnf.Spec
