import Verif.Spec.Semantics

set_option autoImplicit false

/-! # Specification: the rules that matter for a start rule -/

namespace Ebnf.Spec

/-- The rule can be reached from the rule `start`: through a reference in a rule that can be reached, or because the scanner of a special
sequence in such a rule may forward to it. -/
inductive Used (G : Language) (start : SyntaxRule) : SyntaxRule → Prop
  | start : Used G start start
  | reference {r loc name r'} : Used G start r → Primary.metaIdentifier loc name ∈ primariesOfList r.definitionList →
      r' ∈ G.rules → SameName r'.metaIdentifier name → Used G start r'
  | forward {r loc s here rest name n r'} : Used G start r → Primary.specialSequence loc s ∈ primariesOfList r.definitionList →
      G.special loc s loc here rest = .forward name n →
      r' ∈ G.rules → SameName r'.metaIdentifier name ∨ SameName ('$' :: r'.metaIdentifier) name → Used G start r'

/-- What the rules that matter refer to and `G` does not define, `rules` does not define either. -/
structure StaysUndefined (G : Language) (start : SyntaxRule) (rules : List SyntaxRule) : Prop where
  reference : ∀ r, Used G start r → ∀ loc name, Primary.metaIdentifier loc name ∈ primariesOfList r.definitionList →
    Defines rules name → Defines G.rules name
  forward : ∀ r, Used G start r → ∀ loc s, Primary.specialSequence loc s ∈ primariesOfList r.definitionList →
    ∀ here rest name n, G.special loc s loc here rest = .forward name n →
    (∃ r' ∈ rules, SameName r'.metaIdentifier name ∨ SameName ('$' :: r'.metaIdentifier) name) →
    ∃ r' ∈ G.rules, SameName r'.metaIdentifier name ∨ SameName ('$' :: r'.metaIdentifier) name

end Ebnf.Spec
