import Verif.Spec.Conditions
import Verif.Spec.Partials
import Verif.Spec.Parsing

set_option autoImplicit false

/-! # Specification: a grammar without what is written after bare groups (C36) -/

namespace Ebnf.Spec

instance : DecidablePred IsBareGroup := fun t => by
  cases t with
  | plain f =>
    cases f with
    | mk n p =>
      by_cases h : n = 1
      · subst h
        cases p <;> first | exact isTrue trivial | exact isFalse (fun h => h)
      · refine isFalse fun h' => ?_
        unfold IsBareGroup at h'
        split at h'
        · rename_i heq
          injection heq with heq
          injection heq with heq _
          exact h heq
        · exact h'
  | except f e => exact isFalse (fun h => h)

mutual
/-- The primary, without what is written after bare groups inside it. -/
def cutPrimary : Primary → Primary
  | .optional loc l => .optional loc (cutList l)
  | .repeated loc l => .repeated loc (cutList l)
  | .grouped loc l => .grouped loc (cutList l)
  | .metaIdentifier loc n => .metaIdentifier loc n
  | .terminalString loc s => .terminalString loc s
  | .specialSequence loc s => .specialSequence loc s
  | .empty loc => .empty loc
/-- The same for a factor. -/
def cutFactor : Factor → Factor
  | .mk n p => .mk n (cutPrimary p)
/-- The same for a term. -/
def cutTerm : Term → Term
  | .plain f => .plain (cutFactor f)
  | .except f e => .except (cutFactor f) (cutFactor e)
/-- The same for a definition: it ends with its first bare group. -/
def cutSingle : SingleDefinition → SingleDefinition
  | .nil => .nil
  | .cons t d => .cons (cutTerm t) (if IsBareGroup t then .nil else cutSingle d)
/-- The same for a definition list. -/
def cutList : DefinitionList → DefinitionList
  | .nil => .nil
  | .cons d l => .cons (cutSingle d) (cutList l)
end

/-- The same for a rule. -/
def cutRule (r : SyntaxRule) : SyntaxRule := { r with definitionList := cutList r.definitionList }

/-- The same for a grammar. -/
def cutLanguage (G : Language) : Language := { G with rules := G.rules.map cutRule }

/-- The same result up to the wording of an error. -/
inductive SameButWording : Res (List Event) → Res (List Event) → Prop
  | accepted {out} : SameButWording (.ok out) (.ok out)
  | error {e e' : Error} : e.location = e'.location → SameButWording (.err e) (.err e')
  | crash {p} : SameButWording (.panic p) (.panic p)

/-- The same result up to the wording of an error, and but that there may be more events. -/
inductive RoughlySame : Res (List Event) → Res (List Event) → Prop
  | accepted {out more} : out.Sublist more → RoughlySame (.ok out) (.ok more)
  | error {e e' : Error} : e.location = e'.location → RoughlySame (.err e) (.err e')
  | crash {p} : RoughlySame (.panic p) (.panic p)

/-- Scanners do not forward, and counts are below the limit. -/
def unforwarded (G : Language) : Local := { count := smallCounts.count, primary := (noForwards G).primary }

end Ebnf.Spec
