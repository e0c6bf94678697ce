import Verif.Spec.Running

set_option autoImplicit false

/-! # Specification: what a scanner for special sequences does at a place of the input -/

namespace Ebnf.Spec

/-- The scanner takes `run`, as one token, and stands behind it. -/
def Takes (scanner : SpecialScanner) (r : Reader) (here : Location) (text run : Str) : Prop :=
  ∀ definition, ∃ r', scanner.scan definition r = (.ok (.match [.token definition here run]), r') ∧
    Observed r' (lineColumn here run) (text.drop run.length)

/-- The scanner does not match and stays where it is. -/
def Refuses (scanner : SpecialScanner) (r : Reader) (here : Location) (text : Str) : Prop :=
  ∀ definition, ∃ r', scanner.scan definition r = (.ok .unmatch, r') ∧ Observed r' here text

end Ebnf.Spec
