import Verif.Spec.Describes

set_option autoImplicit false

/-! # Specification: grammars in which taking the first alternative that matches is never wrong -/

namespace Ebnf.Spec

/-- `GoesOn E G start part tail`: what the part derives may be followed by `tail`, to the end of a text that the start rule derives, or of
a text that an exception of the grammar derives. -/
inductive GoesOn (E : Factor → Str → Prop) (G : Language) (start : SyntaxRule) : Task → Str → Prop
  | start : GoesOn E G start (.list start.definitionList) []
  | exception {f x} : Occurs G (.term (.except f x)) → GoesOn E G start (.factor x) []
  /-- a term is followed by a text of the rest of its definition -/
  | first {t d w tail} : GoesOn E G start (.sequence (.cons t d)) tail → Produces E G (.sequence d) w → GoesOn E G start (.term t) (w ++ tail)
  /-- a round of a repetition is followed by further rounds -/
  | round {loc l w tail} : GoesOn E G start (.primary (.repeated loc l)) tail → Produces E G (.primary (.repeated loc l)) w →
      GoesOn E G start (.list l) (w ++ tail)
  /-- a counted primary is followed by fewer of them than the count says -/
  | counted {k j p w tail} : GoesOn E G start (.factor (.mk k p)) tail → j < k → Produces E G (.factor (.mk j p)) w →
      GoesOn E G start (.primary p) (w ++ tail)
  -- what may follow the whole may follow its last part
  | later {t d tail} : GoesOn E G start (.sequence (.cons t d)) tail → GoesOn E G start (.sequence d) tail
  | alternative {l d tail} : GoesOn E G start (.list l) tail → d ∈ l.toList → GoesOn E G start (.sequence d) tail
  | reference {loc name r tail} : GoesOn E G start (.primary (.metaIdentifier loc name)) tail → r ∈ G.rules → SameName r.metaIdentifier name →
      GoesOn E G start (.list r.definitionList) tail
  | optional {loc l tail} : GoesOn E G start (.primary (.optional loc l)) tail → GoesOn E G start (.list l) tail
  | grouped {loc l tail} : GoesOn E G start (.primary (.grouped loc l)) tail → GoesOn E G start (.list l) tail
  | plain {f tail} : GoesOn E G start (.term (.plain f)) tail → GoesOn E G start (.factor f) tail
  | except {f x tail} : GoesOn E G start (.term (.except f x)) tail → GoesOn E G start (.factor f) tail

/-- The first alternative that matches is never the wrong one, however far one has to look to tell. -/
structure Decisive (E : Factor → Str → Prop) (G : Language) (start : SyntaxRule) : Prop where
  /-- where an alternative derives `w'` and `tail` follows, an earlier one does not derive any other beginning of the text -/
  choices : ∀ l tail, GoesOn E G start (.list l) tail → l.toList.Pairwise fun d d' => ∀ w w' rest, Produces E G (.sequence d) w →
    Produces E G (.sequence d') w' → w ++ rest = w' ++ tail → w = w'
  /-- what follows an optional part does not begin with a text of it, other than the empty one -/
  optionals : ∀ loc l w rest, GoesOn E G start (.primary (.optional loc l)) (w ++ rest) → Produces E G (.list l) w → w = []
  /-- what follows a repeated part does not begin with a text of it, and it does not derive the empty text -/
  repeats : ∀ loc l w rest, GoesOn E G start (.primary (.repeated loc l)) (w ++ rest) → ¬ Produces E G (.list l) w
  progress : ∀ loc l, Occurs G (.primary (.repeated loc l)) → ¬ Produces E G (.list l) []
  /-- what a scanner accepts at some place it accepts everywhere, before every text that may follow -/
  specials : ∀ loc s w tail, GoesOn E G start (.primary (.specialSequence loc s)) tail → Produces E G (.primary (.specialSequence loc s)) w →
    ∀ here, ∃ evs, G.special loc s loc here (w ++ tail) = .accept evs w.length

/-- Furthermore, no two alternatives derive the same text, optional parts do not derive the empty text, and the events of a scanner are
determined by the place and the text it accepts. -/
structure Sole (E : Factor → Str → Prop) (G : Language) (start : SyntaxRule) : Prop extends Unambiguous E G where
  choices : ∀ l tail, GoesOn E G start (.list l) tail → l.toList.Pairwise fun d d' => ∀ w, Produces E G (.sequence d) w →
    ¬ Produces E G (.sequence d') w

end Ebnf.Spec
