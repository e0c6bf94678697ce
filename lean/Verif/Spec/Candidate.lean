import Verif.Spec.Matching

set_option autoImplicit false

/-! # Specification: candidates and their exclusion -/

namespace Ebnf.Spec

/-- The definition `d` is the first of the list that matches here, with these events and this length. -/
def FirstMatch (G : Language) (l : DefinitionList) (here : Location) (rest : Str) (d : SingleDefinition) (events : List Event)
    (n : Nat) : Prop :=
  Matches asBuilt G (.sequence d) here rest events n ∧
    ∃ pre post, l.toList = pre ++ d :: post ∧ ∀ x ∈ pre, Fails asBuilt G (.sequence x) here rest

/-- The definition `d` is a best candidate of the list: it matches here, and no definition of the list matches more. -/
def BestMatch (G : Language) (l : DefinitionList) (here : Location) (rest : Str) (d : SingleDefinition) (events : List Event)
    (n : Nat) : Prop :=
  Matches asBuilt G (.sequence d) here rest events n ∧ d ∈ l.toList ∧
    ∀ x ∈ l.toList, ∀ evs k, Matches asBuilt G (.sequence x) here rest evs k → k ≤ n

/-- The exception matches all of the first `n` characters. -/
def Excludes (G : Language) (x : Factor) (here : Location) (rest : Str) (n : Nat) : Prop :=
  ∃ events, Matches asBuilt G (.factor x) here (rest.take n) events n

end Ebnf.Spec
