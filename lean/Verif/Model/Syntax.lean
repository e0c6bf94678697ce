import Verif.Model.Display

/-! # `Syntax` and its validation — src/lib.rs:182-282, src/validity/mod.rs -/

namespace Ebnf

/-- A `HashMap<String, V>`: association list, newest binding first. -/
abbrev Map (V : Type) := List (Str × V)

namespace Map

variable {V : Type}

/-- `HashMap::get`. -/
def get? : Map V → Str → Option V
  | [], _ => none
  | (k, v) :: m, q => if k = q then some v else get? m q

/-- `HashMap::insert`: the new map; the old value is `get?` before. -/
def insert (m : Map V) (k : Str) (v : V) : Map V := (k, v) :: m

/-- `HashMap::contains_key`. -/
def containsKey (m : Map V) (k : Str) : Bool := (m.get? k).isSome

end Map

/-- `struct Syntax` — src/lib.rs:182-186. -/
structure Syntax where
  canonicalNames : Map Str
  rules : Map Nat
  syntaxRules : List SyntaxRule
deriving DecidableEq, Repr

/-- The `for` loop of `new_syntax` — validity/mod.rs:12-27.  `all` is `syntax_rules`, `i` the index of
the head of the list. -/
def newSyntaxLoop (all : List SyntaxRule) : Nat → List SyntaxRule → Map Str → Map Nat →
    Res (Map Str × Map Nat)
  | _, [], names, rules => .ok (names, rules)
  | i, r :: rs, names, rules =>
    let id := keyedMetaIdentifier r.metaIdentifier
    let canonicalName := normalizedMetaIdentifier r.metaIdentifier
    if canonicalName ≠ r.metaIdentifier then .panic .notNormalized
    else match names.get? id with
      | some _ =>
        match (rules.get? id).bind (all[·]?) with
        | some d => .fail r.location (.duplicate r.metaIdentifier d.location.lines d.location.columns)
        | none => .panic .missing
      | none => newSyntaxLoop all (i + 1) rs (names.insert id canonicalName) (rules.insert id i)

/-- `is_def` — validity/mod.rs:42-56. -/
def isDef (defined : Str → Bool) : Primary → Res Unit
  | .metaIdentifier loc name =>
    if defined (keyedMetaIdentifier name) then .ok () else .fail loc (.notDefined name)
  | _ => .ok ()

/-- The inner loop of `is_defined` over the terms of one definition — validity/mod.rs:59-64. -/
def isDefinedTerms (defined : Str → Bool) : SingleDefinition → Res Unit
  | .nil => .ok ()
  | .cons (.plain f) r => do isDef defined f.primary; isDefinedTerms defined r
  | .cons (.except f e) r => do
    isDef defined f.primary; isDef defined e.primary; isDefinedTerms defined r

/-- `is_defined` — validity/mod.rs:57-67. -/
def isDefined (defined : Str → Bool) : DefinitionList → Res Unit
  | .nil => .ok ()
  | .cons d r => do isDefinedTerms defined d; isDefined defined r

/-- `make_sure_all_meta_identifiers_are_defined` — validity/mod.rs:38-72. -/
def allDefined (defined : Str → Bool) : List SyntaxRule → Res Unit
  | [] => .ok ()
  | r :: rs => do isDefined defined r.definitionList; allDefined defined rs

namespace Syntax

/-- `Syntax::new` / `validity::new_syntax` — src/lib.rs:195-197, validity/mod.rs:9-34. -/
def new (syntaxRules : List SyntaxRule) : Res Syntax := do
  let (names, rules) ← newSyntaxLoop syntaxRules 0 syntaxRules [] []
  allDefined rules.containsKey syntaxRules
  pure ⟨names, rules, syntaxRules⟩

/-- `Syntax::canonical_name` — src/lib.rs:199-202. -/
def canonicalName (s : Syntax) (metaIdentifier : Str) : Option Str :=
  s.canonicalNames.get? (keyedMetaIdentifier metaIdentifier)

/-- `Syntax::rule` — src/lib.rs:208-210. -/
def rule (s : Syntax) (i : Nat) : Option SyntaxRule := s.syntaxRules[i]?

/-- `Syntax::get_syntax_rule` — src/lib.rs:269-272: `.map(|i| &self.syntax_rules[i])` panics when the
index is out of range. -/
def getSyntaxRule (s : Syntax) (metaIdentifier : Str) : Res (Option SyntaxRule) :=
  match s.rules.get? (keyedMetaIdentifier metaIdentifier) with
  | none => .ok none
  | some i =>
    match s.syntaxRules[i]? with
    | some r => .ok (some r)
    | none => .panic .missing

/-- `Display for Syntax` — src/lib.rs:275-282. -/
def display (s : Syntax) : Str := s.syntaxRules.flatMap SyntaxRule.display

/-- `Syntax::new(lex::parse_str(..)?)`: the composition used by `Syntax::read_from*`
(src/lib.rs:244-255) when the text is already decoded. -/
def ofStr (name text : Str) : Res Syntax := do
  let rules ← parseStr name text
  new rules

end Syntax

end Ebnf
