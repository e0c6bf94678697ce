import Verif.Model.Ast

set_option autoImplicit false

/-! # Specification: trees up to locations -/

namespace Ebnf.Spec

mutual
/-- Replace every location of a tree by `f` of it, those of empty sequences by `e` of it. -/
def mapPrimary (f e : Location → Location) : Primary → Primary
  | .optional l d => .optional (f l) (mapList f e d)
  | .repeated l d => .repeated (f l) (mapList f e d)
  | .grouped l d => .grouped (f l) (mapList f e d)
  | .metaIdentifier l s => .metaIdentifier (f l) s
  | .terminalString l s => .terminalString (f l) s
  | .specialSequence l s => .specialSequence (f l) s
  | .empty l => .empty (e l)
/-- See `mapPrimary`. -/
def mapFactor (f e : Location → Location) : Factor → Factor
  | .mk n p => .mk n (mapPrimary f e p)
/-- See `mapPrimary`. -/
def mapTerm (f e : Location → Location) : Term → Term
  | .plain x => .plain (mapFactor f e x)
  | .except x y => .except (mapFactor f e x) (mapFactor f e y)
/-- See `mapPrimary`. -/
def mapSingle (f e : Location → Location) : SingleDefinition → SingleDefinition
  | .nil => .nil
  | .cons t d => .cons (mapTerm f e t) (mapSingle f e d)
/-- See `mapPrimary`. -/
def mapList (f e : Location → Location) : DefinitionList → DefinitionList
  | .nil => .nil
  | .cons d l => .cons (mapSingle f e d) (mapList f e l)
end

/-- See `mapPrimary`. -/
def mapRule (f e : Location → Location) (r : SyntaxRule) : SyntaxRule :=
  ⟨f r.location, r.metaIdentifier, mapList f e r.definitionList⟩

/-- Some location. -/
def nowhere : Location := ⟨[], 0, 0⟩

/-- The rule without the locations of its empty sequences. -/
def forgetEmpty : SyntaxRule → SyntaxRule := mapRule id (fun _ => nowhere)

/-- The rule without any location. -/
def forgetLocations : SyntaxRule → SyntaxRule := mapRule (fun _ => nowhere) (fun _ => nowhere)

end Ebnf.Spec
