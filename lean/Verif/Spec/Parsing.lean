import Verif.Spec.Semantics
import Verif.Model.Machine

set_option autoImplicit false

/-! # Specification: how a parse ends -/

namespace Ebnf.Spec

/-- In a release build (`dbg = false`) or a debug build, the configuration gives every special sequence the meaning and
the name the language says. -/
def Realizes (dbg : Bool) (config : Config) (G : Language) : Prop :=
  ∀ l s, Behaves dbg (config l s) (G.special l s) ∧ (config l s).symbol = G.specialName l s

/-- A begin event. -/
def IsBegin : Event → Prop
  | .begin _ _ _ => True
  | _ => False
/-- An end event. -/
def IsEnd : Event → Prop
  | .end _ _ _ => True
  | _ => False

/-- One pass from left to right that removes every begin event directly followed by an end event. -/
inductive OnePass : List Event → List Event → Prop
  | nil : OnePass [] []
  | pair {b e es out} : IsBegin b → IsEnd e → OnePass es out → OnePass (b :: e :: es) out
  | keep {x es out} : (∀ e es', es = e :: es' → ¬ (IsBegin x ∧ IsEnd e)) → OnePass es out → OnePass (x :: es) (x :: out)

/-- The same, but the first event stays. -/
inductive Trimmed : List Event → List Event → Prop
  | nil : Trimmed [] []
  | cons {x es out} : OnePass es out → Trimmed (x :: es) (x :: out)

/-- How parsing `text` at `here` from the rule `start` ends. -/
inductive Parses (q : Quirks) (G : Language) (start : SyntaxRule) (here : Location) (text : Str) : Res (List Event) → Prop
  | accepted {evs out} :
      Ev q G (.primary (.metaIdentifier start.location start.metaIdentifier)) here text (.ok evs text.length) →
      Trimmed evs out → Parses q G start here text (.ok out)
  | leftover {evs n} :
      Ev q G (.primary (.metaIdentifier start.location start.metaIdentifier)) here text (.ok evs n) → n < text.length →
      Parses q G start here text (.err (expectedAt "EOF".toList (lineColumn here (text.take n)) (text.drop n)))
  | rejected {e evs n} :
      Ev q G (.primary (.metaIdentifier start.location start.metaIdentifier)) here text (.fail e evs n) →
      Parses q G start here text (.err e)
  | aborted {e} :
      Ev q G (.primary (.metaIdentifier start.location start.metaIdentifier)) here text (.abort e) →
      Parses q G start here text (.err e)
  | crashed {p} :
      Ev q G (.primary (.metaIdentifier start.location start.metaIdentifier)) here text (.panic p) →
      Parses q G start here text (.panic p)

/-- A parser for the rule `start` of the language: its rules make a syntax, the syntax compiles with a configuration
that realizes the language, and the parser is made for a spelling of the name of the rule. -/
structure ParserFor (dbg : Bool) (G : Language) (start : SyntaxRule) (m : Machine) : Prop where
  made : ∃ s config g query, Syntax.new G.rules = .ok s ∧ Realizes dbg config G ∧ Graph.compile s config = .ok g ∧
    SameName start.metaIdentifier query ∧ Machine.new g query = .ok (some m)
  shape : ∀ r ∈ G.rules, RuleShape r
  start : start ∈ G.rules

end Ebnf.Spec
