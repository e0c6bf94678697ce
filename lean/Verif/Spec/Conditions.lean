import Verif.Spec.Semantics

set_option autoImplicit false

/-! # Specification: conditions on grammars -/

namespace Ebnf.Spec

/-- A condition on the parts of a grammar. -/
structure Local where
  /-- on repetition counts -/
  count : Nat → Prop := fun _ => True
  /-- on primaries -/
  primary : Primary → Prop := fun _ => True
  /-- on a term and what follows it in its definition -/
  follows : Term → SingleDefinition → Prop := fun _ _ => True

mutual
/-- The condition holds at every depth of a primary. -/
def EveryPrimary (K : Local) : Primary → Prop
  | .optional loc l => K.primary (.optional loc l) ∧ EveryList K l
  | .repeated loc l => K.primary (.repeated loc l) ∧ EveryList K l
  | .grouped loc l => K.primary (.grouped loc l) ∧ EveryList K l
  | p => K.primary p
/-- At every depth of a factor. -/
def EveryFactor (K : Local) : Factor → Prop
  | .mk n p => K.count n ∧ EveryPrimary K p
/-- At every depth of a term. -/
def EveryTerm (K : Local) : Term → Prop
  | .plain f => EveryFactor K f
  | .except f e => EveryFactor K f ∧ EveryFactor K e
/-- At every depth of a definition. -/
def EverySingle (K : Local) : SingleDefinition → Prop
  | .nil => True
  | .cons t d => K.follows t d ∧ EveryTerm K t ∧ EverySingle K d
/-- At every depth of a definition list. -/
def EveryList (K : Local) : DefinitionList → Prop
  | .nil => True
  | .cons d l => EverySingle K d ∧ EveryList K l
end

/-- The condition holds in all rules. -/
def Everywhere (K : Local) (G : Language) : Prop := ∀ r ∈ G.rules, EveryList K r.definitionList

/-- Nothing follows a bare group `( … )`. -/
def groupsLast : Local := { follows := fun t d => IsBareGroup t → d = .nil }

mutual
/-- A failure of the primary leaves no events of a part that did match. -/
def QuietPrimary : Primary → Prop
  | .grouped _ l => QuietList l
  | _ => True
/-- The same for a factor. -/
def QuietFactor : Factor → Prop
  | .mk n p => n = 1 → QuietPrimary p
/-- The same for a term. -/
def QuietTerm : Term → Prop
  | .plain f => QuietFactor f
  | .except _ _ => True
/-- The same for a definition: it has just one term. -/
def QuietSingle : SingleDefinition → Prop
  | .nil => True
  | .cons t .nil => QuietTerm t
  | .cons _ (.cons _ _) => False
/-- The same for a definition list: a choice, or a definition of one term. -/
def QuietList : DefinitionList → Prop
  | .nil => True
  | .cons d .nil => QuietSingle d
  | .cons _ (.cons _ _) => True
end

/-- What is optional or repeated is a choice or a single term. -/
def quietBodies : Local :=
  { primary := fun p => ∀ loc l, p = .optional loc l ∨ p = .repeated loc l → QuietList l }

/-- Counts are below the limit. -/
def smallCounts : Local := { count := fun n => n < 4294967295 }

/-- The special sequences do not forward. -/
def noForwards (G : Language) : Local :=
  { primary := fun p => ∀ l s, p = .specialSequence l s → ∀ d here rest name n, G.special l s d here rest ≠ .forward name n }

/-- The four conditions together. -/
def tidy (G : Language) : Local :=
  { count := smallCounts.count
    primary := fun p => quietBodies.primary p ∧ (noForwards G).primary p
    follows := groupsLast.follows }

/-- No scanner matches more than there is. -/
def Bounded (G : Language) : Prop := ∀ loc s d here rest,
  (∀ evs n, G.special loc s d here rest = .accept evs n → n ≤ rest.length) ∧
  (∀ name n, G.special loc s d here rest = .forward name n → n ≤ rest.length)

end Ebnf.Spec
