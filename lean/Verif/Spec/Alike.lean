import Verif.Spec.Semantics
import Verif.Spec.Trees
import Verif.Spec.Shape

set_option autoImplicit false

/-! # Specification: grammars that are alike

Two grammars are alike when they have the same structure and the same terminal strings and counts.  The names of the rules,
the special sequences and the places in the grammar may differ; a `Correspondence` says which correspond. -/

namespace Ebnf.Spec

/-- What corresponds in two grammars. -/
structure Correspondence where
  /-- names of rules -/
  name : Str → Str → Prop
  /-- special sequences, each with its place -/
  special : Location → Str → Location → Str → Prop
  /-- places in the grammar -/
  place : Location → Location → Prop
  /-- texts that error messages quote from the grammar -/
  shown : Str → Str → Prop

mutual
/-- The same structure, with corresponding names and special sequences, and the same terminal strings and counts. -/
inductive AlikePrimary (K : Correspondence) : Primary → Primary → Prop
  | optional {l l' d d'} : AlikeList K d d' → AlikePrimary K (.optional l d) (.optional l' d')
  | repeated {l l' d d'} : AlikeList K d d' → AlikePrimary K (.repeated l d) (.repeated l' d')
  | grouped {l l' d d'} : AlikeList K d d' → AlikePrimary K (.grouped l d) (.grouped l' d')
  | metaIdentifier {l l' n n'} : K.place l l' → K.name n n' → AlikePrimary K (.metaIdentifier l n) (.metaIdentifier l' n')
  | terminalString {l l' s} : K.place l l' → AlikePrimary K (.terminalString l s) (.terminalString l' s)
  | specialSequence {l l' s s'} : K.place l l' → K.special l s l' s' → AlikePrimary K (.specialSequence l s) (.specialSequence l' s')
  | empty {l l'} : AlikePrimary K (.empty l) (.empty l')
/-- See `AlikePrimary`. -/
inductive AlikeFactor (K : Correspondence) : Factor → Factor → Prop
  | mk {k p p'} : AlikePrimary K p p' → AlikeFactor K (.mk k p) (.mk k p')
/-- See `AlikePrimary`. -/
inductive AlikeTerm (K : Correspondence) : Term → Term → Prop
  | plain {f f'} : AlikeFactor K f f' → AlikeTerm K (.plain f) (.plain f')
  | except {f f' x x'} : AlikeFactor K f f' → AlikeFactor K x x' → AlikeTerm K (.except f x) (.except f' x')
/-- See `AlikePrimary`. -/
inductive AlikeSingle (K : Correspondence) : SingleDefinition → SingleDefinition → Prop
  | nil : AlikeSingle K .nil .nil
  | cons {t t' d d'} : AlikeTerm K t t' → AlikeSingle K d d' → AlikeSingle K (.cons t d) (.cons t' d')
/-- See `AlikePrimary`. -/
inductive AlikeList (K : Correspondence) : DefinitionList → DefinitionList → Prop
  | nil : AlikeList K .nil .nil
  | cons {d d' l l'} : AlikeSingle K d d' → AlikeList K l l' → AlikeList K (.cons d l) (.cons d' l')
end

/-- Rules with corresponding names and the same structure. -/
def AlikeRule (K : Correspondence) (r r' : SyntaxRule) : Prop :=
  K.place r.location r'.location ∧ K.name r.metaIdentifier r'.metaIdentifier ∧ AlikeList K r.definitionList r'.definitionList

/-- The same event, except that the place in the grammar and the name of the rule correspond. -/
inductive AlikeEvent (K : Correspondence) : Event → Event → Prop
  | token {d d' l s} : K.place d d' → AlikeEvent K (.token d l s) (.token d' l s)
  | begin {d d' l n n'} : K.place d d' → K.name n n' → AlikeEvent K (.begin d l n) (.begin d' l n')
  | end {d d' l n n'} : K.place d d' → K.name n n' → AlikeEvent K (.end d l n) (.end d' l n')

/-- Equally many events, alike one by one. -/
inductive AlikeEvents (K : Correspondence) : List Event → List Event → Prop
  | nil : AlikeEvents K [] []
  | cons {e e' es es'} : AlikeEvent K e e' → AlikeEvents K es es' → AlikeEvents K (e :: es) (e' :: es')

/-- The same message, except for texts that stem from the grammar. -/
inductive AlikeMsg (K : Correspondence) : Msg → Msg → Prop
  | same {m} : AlikeMsg K m m
  | expected {s s' a} : K.shown s s' → AlikeMsg K (.expected s a) (.expected s' a)
  | forwardUndefined {n n' s s' d d'} : K.shown n n' → K.shown s s' → K.place d d' → AlikeMsg K (.forwardUndefined n s d) (.forwardUndefined n' s' d')

/-- The same error at the same place of the input. -/
def AlikeError (K : Correspondence) (e e' : Error) : Prop := e.location = e'.location ∧ AlikeMsg K e.msg e'.msg

/-- What a scanner forwards to corresponds. -/
def AlikeTarget (K : Correspondence) (rules rules' : List SyntaxRule) (n n' : Str) : Prop :=
  ∀ r ∈ rules, ∀ r' ∈ rules', K.name r.metaIdentifier r'.metaIdentifier →
    (SameName r.metaIdentifier n ↔ SameName r'.metaIdentifier n') ∧
    (SameName ('$' :: r.metaIdentifier) n ↔ SameName ('$' :: r'.metaIdentifier) n')

/-- Scanners that react alike. -/
inductive AlikeReaction (K : Correspondence) (rules rules' : List SyntaxRule) : Recognition → Recognition → Prop
  | accept {evs evs' n} : AlikeEvents K evs evs' → AlikeReaction K rules rules' (.accept evs n) (.accept evs' n)
  | unmatched : AlikeReaction K rules rules' .unmatched .unmatched
  | forward {s s' n} : AlikeTarget K rules rules' s s' → K.shown s s' → AlikeReaction K rules rules' (.forward s n) (.forward s' n)
  | error {e e'} : AlikeError K e e' → AlikeReaction K rules rules' (.error e) (.error e')

/-- Special sequences whose scanners react alike, everywhere. -/
def AlikeSpecial (K : Correspondence) (G G' : Language) (l : Location) (s : Str) (l' : Location) (s' : Str) : Prop :=
  K.shown (G.specialName l s) (G'.specialName l' s') ∧
    ∀ here rest, AlikeReaction K G.rules G'.rules (G.special l s l here rest) (G'.special l' s' l' here rest)

/-- Two grammars that are alike: every rule has a counterpart, two names that mean the same rule in one grammar
correspond to two that do in the other, and special sequences that correspond have scanners that react alike. -/
structure AlikeGrammars (K : Correspondence) (G G' : Language) :
    Prop where
  names : ∀ {a a' b b'}, K.name a a' → K.name b b' → (SameName a b ↔ SameName a' b')
  rules : ∀ r ∈ G.rules, ∃ r' ∈ G'.rules, AlikeRule K r r'
  rules' : ∀ r' ∈ G'.rules, ∃ r ∈ G.rules, AlikeRule K r r'
  specials : ∀ {l s l' s'}, K.special l s l' s' → AlikeSpecial K G G' l s l' s'

/-- The same outcome of a parse: events that are alike, or errors that are alike, or the same panic. -/
inductive AlikeResult (K : Correspondence) : Res (List Event) → Res (List Event) → Prop
  | ok {evs evs'} : AlikeEvents K evs evs' → AlikeResult K (.ok evs) (.ok evs')
  | err {e e'} : AlikeError K e e' → AlikeResult K (.err e) (.err e')
  | panic {p} : AlikeResult K (.panic p) (.panic p)

mutual
/-- Rename all rule names in a tree. -/
def renamePrimary (ρ : Str → Str) : Primary → Primary
  | .optional l d => .optional l (renameList ρ d)
  | .repeated l d => .repeated l (renameList ρ d)
  | .grouped l d => .grouped l (renameList ρ d)
  | .metaIdentifier l n => .metaIdentifier l (ρ n)
  | .terminalString l s => .terminalString l s
  | .specialSequence l s => .specialSequence l s
  | .empty l => .empty l
/-- See `renamePrimary`. -/
def renameFactor (ρ : Str → Str) : Factor → Factor
  | .mk n p => .mk n (renamePrimary ρ p)
/-- See `renamePrimary`. -/
def renameTerm (ρ : Str → Str) : Term → Term
  | .plain x => .plain (renameFactor ρ x)
  | .except x y => .except (renameFactor ρ x) (renameFactor ρ y)
/-- See `renamePrimary`. -/
def renameSingle (ρ : Str → Str) : SingleDefinition → SingleDefinition
  | .nil => .nil
  | .cons t d => .cons (renameTerm ρ t) (renameSingle ρ d)
/-- See `renamePrimary`. -/
def renameList (ρ : Str → Str) : DefinitionList → DefinitionList
  | .nil => .nil
  | .cons d l => .cons (renameSingle ρ d) (renameList ρ l)
end

/-- Rename a rule and all rules it refers to. -/
def renameRule (ρ : Str → Str) (r : SyntaxRule) : SyntaxRule :=
  ⟨r.location, ρ r.metaIdentifier, renameList ρ r.definitionList⟩

/-- A name that is defined or referred to somewhere in the rules. -/
def Mentioned (rules : List SyntaxRule) (n : Str) : Prop :=
  ∃ r ∈ rules, n = r.metaIdentifier ∨ ∃ l, Primary.metaIdentifier l n ∈ primariesOfList r.definitionList

/-- Rename the rule an event is about. -/
def renameEvent (ρ : Str → Str) : Event → Event
  | .token d l s => .token d l s
  | .begin d l n => .begin d l (ρ n)
  | .end d l n => .end d l (ρ n)

/-- An event about a piece of the input. -/
def IsToken : Event → Prop
  | .token _ _ _ => True
  | _ => False

/-- A scanner that reports just pieces of the input, and does not name rules. -/
def ReportsTokens : Recognition → Prop
  | .accept evs _ => ∀ e ∈ evs, IsToken e
  | .forward _ _ => False
  | _ => True

/-- An event without the place in the grammar. -/
def placeless : Event → Event
  | .token _ l s => .token nowhere l s
  | .begin _ l n => .begin nowhere l n
  | .end _ l n => .end nowhere l n

/-- An error without the place in the grammar. -/
def placelessError (e : Error) : Error :=
  ⟨e.location, match e.msg with
    | .forwardUndefined n s _ => .forwardUndefined n s nowhere
    | m => m⟩

/-- A result without places in the grammar. -/
def placelessResult : Res (List Event) → Res (List Event)
  | .ok evs => .ok (evs.map placeless)
  | .err e => .err (placelessError e)
  | .panic p => .panic p
  | .diverge => .diverge

/-- A reaction of a scanner without places in the grammar. -/
def placelessReaction : Recognition → Recognition
  | .accept evs n => .accept (evs.map placeless) n
  | .error e => .error (placelessError e)
  | x => x

end Ebnf.Spec
