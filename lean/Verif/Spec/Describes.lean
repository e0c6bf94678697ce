import Verif.Spec.Predictive

set_option autoImplicit false

/-! # Specification: the events of a derivation -/

namespace Ebnf.Spec

/-- `Describes E G part here w evs`: `evs` are the events of a derivation of the text `w`, found at the place `here`, from the part of the
grammar: in their order, a token for every terminal string, what the scanner says for every special sequence, and a begin and an
end around the events of every rule.  `F - X` derives what `F` does and `E` does not say of `X`. -/
inductive Describes (E : Factor → Str → Prop) (G : Language) : Task → Location → Str → List Event → Prop
  | empty {loc here} : Describes E G (.primary (.empty loc)) here [] []
  | terminal {loc here s} : Describes E G (.primary (.terminalString loc s)) here s [.token loc here s]
  | reference {loc name r here w evs} : r ∈ G.rules → SameName r.metaIdentifier name → Describes E G (.list r.definitionList) here w evs →
      Describes E G (.primary (.metaIdentifier loc name)) here w
        (.begin loc here r.metaIdentifier :: evs ++ [.end loc (lineColumn here w) r.metaIdentifier])
  | leftOut {loc l here} : Describes E G (.primary (.optional loc l)) here [] []
  | taken {loc l here w evs} : Describes E G (.list l) here w evs → Describes E G (.primary (.optional loc l)) here w evs
  | noMore {loc l here} : Describes E G (.primary (.repeated loc l)) here [] []
  | more {loc l here w w' evs evs'} : Describes E G (.list l) here w evs →
      Describes E G (.primary (.repeated loc l)) (lineColumn here w) w' evs' →
      Describes E G (.primary (.repeated loc l)) here (w ++ w') (evs ++ evs')
  | grouped {loc l here w evs} : Describes E G (.list l) here w evs → Describes E G (.primary (.grouped loc l)) here w evs
  | special {loc s here rest evs n} : G.special loc s loc here rest = .accept evs n →
      Describes E G (.primary (.specialSequence loc s)) here (rest.take n) evs
  | never {p here} : Describes E G (.factor (.mk 0 p)) here [] []
  | again {k p here w w' evs evs'} : Describes E G (.primary p) here w evs → Describes E G (.factor (.mk k p)) (lineColumn here w) w' evs' →
      Describes E G (.factor (.mk (k + 1) p)) here (w ++ w') (evs ++ evs')
  | plain {f here w evs} : Describes E G (.factor f) here w evs → Describes E G (.term (.plain f)) here w evs
  | except {f x here w evs} : Describes E G (.factor f) here w evs → ¬ E x w → Describes E G (.term (.except f x)) here w evs
  | done {here} : Describes E G (.sequence .nil) here [] []
  | next {t d here w w' evs evs'} : Describes E G (.term t) here w evs → Describes E G (.sequence d) (lineColumn here w) w' evs' →
      Describes E G (.sequence (.cons t d)) here (w ++ w') (evs ++ evs')
  | choice {l d here w evs} : d ∈ l.toList → Describes E G (.sequence d) here w evs → Describes E G (.list l) here w evs

/-- No claim about exceptions. -/
def noException : Factor → Str → Prop := fun _ _ => False

/-- Furthermore, optional parts do not derive the empty text, and the events of a scanner are determined by the place and the text it
accepts. -/
structure Unambiguous (E : Factor → Str → Prop) (G : Language) : Prop where
  optionals : ∀ loc l, Occurs G (.primary (.optional loc l)) → ¬ Produces E G (.list l) []
  specials : ∀ loc s, Occurs G (.primary (.specialSequence loc s)) → ∀ here rest rest' evs evs' n n',
    G.special loc s loc here rest = .accept evs n → G.special loc s loc here rest' = .accept evs' n' → rest.take n = rest'.take n' →
    evs = evs'

end Ebnf.Spec
