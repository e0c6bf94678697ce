import Verif.Spec.Semantics

set_option autoImplicit false

/-! # Specification: what a parse costs

`Costs G task here rest k` reads: carrying out `task` at the place `here` of the input, with the text `rest` left, takes `k` steps.  A terminal,
a special sequence, a reference, an exception, a choice between several definitions, brackets and braces, and a count take one step each, besides
those of the parts that are carried out; sequences and groups are free.  How the parts end is told by their meaning, `Ev`. -/

namespace Ebnf.Spec

/-- The steps of a task. -/
inductive Costs (G : Language) : Task → Location → Str → Nat → Prop
  -- primaries
  | empty {loc here rest} : Costs G (.primary (.empty loc)) here rest 1
  | terminal {loc s here rest} : Costs G (.primary (.terminalString loc s)) here rest 1
  | grouped {loc l here rest k} : Costs G (.list l) here rest k → Costs G (.primary (.grouped loc l)) here rest k
  | optional {loc l here rest k} : Costs G (.rounds (.list l) 0 (some 1) false 0) here rest k →
      Costs G (.primary (.optional loc l)) here rest (k + 1)
  | repeated {loc l here rest k} : Costs G (.rounds (.list l) 0 (some 4294967295) true 0) here rest k →
      Costs G (.primary (.repeated loc l)) here rest (k + 1)
  | reference {loc name here rest r k} : r ∈ G.rules → SameName r.metaIdentifier name →
      Costs G (.list r.definitionList) here rest k → Costs G (.primary (.metaIdentifier loc name)) here rest (k + 1)
  | undefined {loc name here rest} : (∀ r ∈ G.rules, ¬ SameName r.metaIdentifier name) →
      Costs G (.primary (.metaIdentifier loc name)) here rest 1
  | special {loc s here rest} : (∀ name n, G.special loc s loc here rest ≠ .forward name n) →
      Costs G (.primary (.specialSequence loc s)) here rest 1
  | forward {loc s here rest name n task k} : G.special loc s loc here rest = .forward name n → ForwardTarget G name task →
      Costs G task (lineColumn here (rest.take n)) (rest.drop n) k → Costs G (.primary (.specialSequence loc s)) here rest (k + 1)
  | forwardUndefined {loc s here rest name n} : G.special loc s loc here rest = .forward name n → (∀ task, ¬ ForwardTarget G name task) →
      Costs G (.primary (.specialSequence loc s)) here rest 1
  -- factors
  | once {p here rest k} : Costs G (.primary p) here rest k → Costs G (.factor (.mk 1 p)) here rest k
  | counted {c p here rest k} : c ≠ 1 → Costs G (.rounds (.primary p) c (some c) (decide (c = 4294967295)) 0) here rest k →
      Costs G (.factor (.mk c p)) here rest (k + 1)
  -- terms
  | plain {f here rest k} : Costs G (.factor f) here rest k → Costs G (.term (.plain f)) here rest k
  /-- the exception is looked at only if the rest matches, and then on what it matches -/
  | except {f x here rest evs n a b} : Ev asBuilt G (.factor f) here rest (.ok evs n) → Costs G (.factor f) here rest a →
      Costs G (.factor x) here (rest.take n) b → Costs G (.term (.except f x)) here rest (a + b + 1)
  | exceptFail {f x here rest o a} : Ev asBuilt G (.factor f) here rest o → ¬ o.IsOk → Costs G (.factor f) here rest a →
      Costs G (.term (.except f x)) here rest (a + 1)
  -- sequences
  | done {here rest} : Costs G (.sequence .nil) here rest 0
  | next {t d here rest evs n a b} : ¬ IsBareGroup t → Ev asBuilt G (.term t) here rest (.ok evs n) → Costs G (.term t) here rest a →
      Costs G (.sequence d) (lineColumn here (rest.take n)) (rest.drop n) b → Costs G (.sequence (.cons t d)) here rest (a + b)
  /-- what follows is not carried out if the term does not match, nor if it is a bare group -/
  | last {t d here rest o a} : Ev asBuilt G (.term t) here rest o → IsBareGroup t ∨ ¬ o.IsOk → Costs G (.term t) here rest a →
      Costs G (.sequence (.cons t d)) here rest a
  -- definition lists
  | single {d here rest k} : Costs G (.sequence d) here rest k → Costs G (.list (.cons d .nil)) here rest k
  | choice {d d' l here rest k} : Costs G (.alternatives (.cons d (.cons d' l))) here rest k →
      Costs G (.list (.cons d (.cons d' l))) here rest (k + 1)
  | first {d l here rest o a} : Ev asBuilt G (.sequence d) here rest o → l = .nil ∨ (∀ e evs n, o ≠ .fail e evs n) →
      Costs G (.sequence d) here rest a → Costs G (.alternatives (.cons d l)) here rest a
  | other {d d' l here rest e evs n a b} : Ev asBuilt G (.sequence d) here rest (.fail e evs n) → Costs G (.sequence d) here rest a →
      Costs G (.alternatives (.cons d' l)) here rest b → Costs G (.alternatives (.cons d (.cons d' l))) here rest (a + b)
  -- repetitions
  | enough {body min max guarded i here rest} : max ≤ i → Costs G (.rounds body min (some max) guarded i) here rest 0
  | round {body min max guarded i here rest evs n a b} : i < max → ¬ (guarded = true ∧ n = 0) → Ev asBuilt G body here rest (.ok evs n) →
      Costs G body here rest a → Costs G (.rounds body min (some max) guarded (i + 1)) (lineColumn here (rest.take n)) (rest.drop n) b →
      Costs G (.rounds body min (some max) guarded i) here rest (a + b)
  /-- the last round does not match, or makes no progress -/
  | lastRound {body min max guarded i here rest o a} : i < max → Ev asBuilt G body here rest o →
      ¬ o.IsOk ∨ (guarded = true ∧ ∃ evs, o = .ok evs 0) → Costs G body here rest a →
      Costs G (.rounds body min (some max) guarded i) here rest a

end Ebnf.Spec
