import Verif.Spec.Derivation
import Verif.Spec.Errors

set_option autoImplicit false

/-! # Specification: grammars that can be read with one character of look-ahead -/

namespace Ebnf.Spec

/-- `Produces E G part w`: the part of a grammar derives the text `w`, in the ordinary reading of EBNF (see `Derives`), where `F - X` derives
what `F` does and `E` does not say of `X`. -/
inductive Produces (E : Factor → Str → Prop) (G : Language) : Task → Str → Prop
  | empty {loc} : Produces E G (.primary (.empty loc)) []
  | terminal {loc s} : Produces E G (.primary (.terminalString loc s)) s
  | reference {loc name r w} : r ∈ G.rules → SameName r.metaIdentifier name → Produces E G (.list r.definitionList) w →
      Produces E G (.primary (.metaIdentifier loc name)) w
  | leftOut {loc l} : Produces E G (.primary (.optional loc l)) []
  | taken {loc l w} : Produces E G (.list l) w → Produces E G (.primary (.optional loc l)) w
  | noMore {loc l} : Produces E G (.primary (.repeated loc l)) []
  | more {loc l w w'} : Produces E G (.list l) w → Produces E G (.primary (.repeated loc l)) w' →
      Produces E G (.primary (.repeated loc l)) (w ++ w')
  | grouped {loc l w} : Produces E G (.list l) w → Produces E G (.primary (.grouped loc l)) w
  | special {loc s here rest evs n} : G.special loc s loc here rest = .accept evs n →
      Produces E G (.primary (.specialSequence loc s)) (rest.take n)
  | never {p} : Produces E G (.factor (.mk 0 p)) []
  | again {k p w w'} : Produces E G (.primary p) w → Produces E G (.factor (.mk k p)) w' → Produces E G (.factor (.mk (k + 1) p)) (w ++ w')
  | plain {f w} : Produces E G (.factor f) w → Produces E G (.term (.plain f)) w
  | except {f x w} : Produces E G (.factor f) w → ¬ E x w → Produces E G (.term (.except f x)) w
  | done : Produces E G (.sequence .nil) []
  | next {t d w w'} : Produces E G (.term t) w → Produces E G (.sequence d) w' → Produces E G (.sequence (.cons t d)) (w ++ w')
  | choice {l d w} : d ∈ l.toList → Produces E G (.sequence d) w → Produces E G (.list l) w

/-- `E` is a reading of the exceptions: it says of `X`, in every `F - X` of the grammar, what `X` derives. -/
def FitsExceptions (E : Factor → Str → Prop) (G : Language) : Prop :=
  ∀ f x, Occurs G (.term (.except f x)) → ∀ w, E x w ↔ Produces E G (.factor x) w

/-- Some text of the part begins with the character. -/
def First (E : Factor → Str → Prop) (G : Language) (part : Task) (c : Char) : Prop := ∃ w, Produces E G part (c :: w)

/-- `Next E G part c`: in a text of some rule, what the part derives may be followed by the character `c`. -/
inductive Next (E : Factor → Str → Prop) (G : Language) : Task → Char → Prop
  /-- the first character of the rest of a definition -/
  | rest {t d c} : Occurs G (.sequence (.cons t d)) → First E G (.sequence d) c → Next E G (.term t) c
  /-- the first character of another round of a repetition -/
  | round {loc l c} : Occurs G (.primary (.repeated loc l)) → First E G (.list l) c → Next E G (.list l) c
  /-- the first character of another repetition of a counted primary -/
  | again {k p c} : Occurs G (.factor (.mk k p)) → 2 ≤ k → First E G (.primary p) c → Next E G (.primary p) c
  -- what may follow the whole may follow its last part
  | skip {t d c} : Next E G (.sequence (.cons t d)) c → Produces E G (.sequence d) [] → Next E G (.term t) c
  | tail {t d c} : Next E G (.sequence (.cons t d)) c → Next E G (.sequence d) c
  | alternative {l d c} : Next E G (.list l) c → d ∈ l.toList → Next E G (.sequence d) c
  | reference {loc name r c} : Next E G (.primary (.metaIdentifier loc name)) c → r ∈ G.rules → SameName r.metaIdentifier name →
      Next E G (.list r.definitionList) c
  | optional {loc l c} : Next E G (.primary (.optional loc l)) c → Next E G (.list l) c
  | repeated {loc l c} : Next E G (.primary (.repeated loc l)) c → Next E G (.list l) c
  | grouped {loc l c} : Next E G (.primary (.grouped loc l)) c → Next E G (.list l) c
  | primary {k p c} : Next E G (.factor (.mk k p)) c → Next E G (.primary p) c
  | plain {f c} : Next E G (.term (.plain f)) c → Next E G (.factor f) c
  | except {f x c} : Next E G (.term (.except f x)) c → Next E G (.factor f) c

/-- One character of look-ahead tells which alternative to take, and whether to go on. -/
structure OneAhead (E : Factor → Str → Prop) (G : Language) : Prop where
  /-- no two alternatives have a text that begins with the same character; only the last one may derive the empty text, and then
  no other may begin with a character that may follow -/
  choices : ∀ l, Occurs G (.list l) → l.toList.Pairwise fun d d' =>
    ¬ Produces E G (.sequence d) [] ∧ (∀ c, First E G (.sequence d) c → ¬ First E G (.sequence d') c) ∧
      (Produces E G (.sequence d') [] → ∀ c, First E G (.sequence d) c → ¬ Next E G (.list l) c)
  /-- an optional part does not begin with a character that may follow -/
  optionals : ∀ loc l, Occurs G (.primary (.optional loc l)) → ∀ c, First E G (.list l) c → ¬ Next E G (.primary (.optional loc l)) c
  /-- nor does a repeated part, and it does not derive the empty text -/
  repeats : ∀ loc l, Occurs G (.primary (.repeated loc l)) → ¬ Produces E G (.list l) [] ∧
    ∀ c, First E G (.list l) c → ¬ Next E G (.primary (.repeated loc l)) c

/-- One character of look-ahead decides: the grammar is LL(1). -/
structure Predictive (E : Factor → Str → Prop) (G : Language) : Prop extends OneAhead E G where
  /-- what a scanner accepts at some place it accepts everywhere, before the end and before every character that may follow -/
  specials : ∀ loc s, Occurs G (.primary (.specialSequence loc s)) → ∀ w tail, Produces E G (.primary (.specialSequence loc s)) w →
    (∀ c t, tail = c :: t → Next E G (.primary (.specialSequence loc s)) c) →
    ∀ here, ∃ evs, G.special loc s loc here (w ++ tail) = .accept evs w.length

/-- Counts are below the limit, scanners match or do not match (they do not forward and have no errors of their own), nothing follows a
bare group. -/
def ordinary (G : Language) : Local :=
  { count := smallCounts.count
    primary := fun p => ∀ l s, p = .specialSequence l s → ∀ d here rest,
      (∃ evs n, G.special l s d here rest = .accept evs n) ∨ G.special l s d here rest = .unmatched
    follows := groupsLast.follows }

end Ebnf.Spec
