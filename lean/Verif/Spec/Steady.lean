import Verif.Spec.Clear

set_option autoImplicit false

/-! # Specification: grammars in which a failed last round has nothing to tell -/

namespace Ebnf.Spec

mutual
/-- What the primary begins with tells at once whether it matches: nothing empty comes before it. -/
def PromptPrimary (G : Language) : Primary → Prop
  | .grouped _ l => PromptList G l
  | _ => True
/-- The same for a factor. -/
def PromptFactor (G : Language) : Factor → Prop
  | .mk n p => n = 1 → PromptPrimary G p
/-- The same for a term. -/
def PromptTerm (G : Language) : Term → Prop
  | .plain f => PromptFactor G f
  | .except _ _ => True
/-- The same for a definition: it has one term, or its first term does not derive the empty text. -/
def PromptSingle (G : Language) : SingleDefinition → Prop
  | .nil => True
  | .cons t d => PromptTerm G t ∧ (d = .nil ∨ ¬ Produces regardless G (.term t) [])
/-- The same for a definition list: a choice, or one such definition. -/
def PromptList (G : Language) : DefinitionList → Prop
  | .nil => True
  | .cons d .nil => PromptSingle G d
  | .cons _ (.cons _ _) => True
end

/-- Every optional and every repeated part has a body that is a choice or a single term; or its body does not begin with a term that may be empty,
and the next character tells that the part is over. -/
structure SteadyEnds (G : Language) : Prop where
  optionals : ∀ loc l, Occurs G (.primary (.optional loc l)) → QuietList l ∨
    PromptList G l ∧ ∀ c, First regardless G (.list l) c → ¬ Next regardless G (.primary (.optional loc l)) c
  repeats : ∀ loc l, Occurs G (.primary (.repeated loc l)) → QuietList l ∨
    PromptList G l ∧ ∀ c, First regardless G (.list l) c → ¬ Next regardless G (.primary (.repeated loc l)) c

end Ebnf.Spec
