import Verif.Spec.Scanner
import Verif.Spec.Names
import Verif.Model.Graph

set_option autoImplicit false

/-! # Specification: the meaning of a grammar as a recogniser

`Ev q G task here rest o` reads: carrying out `task` at the place `here` of the input, with the text `rest`
left, ends with the outcome `o`.  The rules follow the syntax tree; nothing of the compiled machine appears.
`q` selects between the intended meaning (`ideal`) and the meaning with the deviations of the code
(`asBuilt`). -/

namespace Ebnf.Spec

/-- How a task ends. -/
inductive Outcome
  /-- matched `n` characters, with events -/
  | ok (events : List Event) (n : Nat)
  /-- not this way: the error; the events and the characters of the part that did match -/
  | fail (e : Error) (events : List Event) (n : Nat)
  /-- the whole parse stops with an error -/
  | abort (e : Error)
  /-- a panic -/
  | panic (p : Panic)
deriving DecidableEq

namespace Outcome

/-- The outcome of a sequence whose first part matched `n` characters with `events`. -/
def after (events : List Event) (n : Nat) : Outcome → Outcome
  | ok es m => ok (events ++ es) (n + m)
  | fail e es m => fail e (events ++ es) (n + m)
  | abort e => abort e
  | panic p => panic p

/-- The same for the next round of a repetition: a failure forgets the events of the rounds before. -/
def afterRound (events : List Event) (n : Nat) : Outcome → Outcome
  | ok es m => ok (events ++ es) (n + m)
  | fail e es m => fail e es (n + m)
  | abort e => abort e
  | panic p => panic p

/-- Matched. -/
def IsOk : Outcome → Prop
  | ok _ _ => True
  | _ => False

/-- The whole parse stops. -/
def IsStop : Outcome → Prop
  | abort _ => True
  | panic _ => True
  | _ => False

end Outcome

/-- The deviations of the code. -/
structure Quirks where
  /-- what follows a bare group `( … )` in a sequence is skipped -/
  dropAfterGroup : Bool
  /-- an optional or repeated sequence keeps the events of its failed last round -/
  keepPartial : Bool
  /-- a failure of the rule a scanner forwards to is ignored -/
  ignoreForward : Bool
  /-- `{ … }` makes at most this many rounds, and a count of this size is guarded like `{ … }` -/
  roundLimit : Option Nat

/-- The intended meaning. -/
def ideal : Quirks := ⟨false, false, false, none⟩
/-- The meaning of the code. -/
def asBuilt : Quirks := ⟨true, true, true, some 4294967295⟩

/-- A grammar with the meaning of its special sequences, and the names they have in messages. -/
structure Language where
  rules : List SyntaxRule
  special : Location → Str → Recognizer
  specialName : Location → Str → Str

/-- Things to do. -/
inductive Task
  | primary (p : Primary)
  | factor (f : Factor)
  | term (t : Term)
  | sequence (d : SingleDefinition)
  | list (l : DefinitionList)
  /-- try the definitions in order -/
  | alternatives (l : DefinitionList)
  /-- rounds `i`, `i + 1`, … of a repetition; at least `min`, at most `max` rounds in all; `guarded`: a
  round that matches nothing is an error -/
  | rounds (body : Task) (min : Nat) (max : Option Nat) (guarded : Bool) (i : Nat)

mutual
/-- The name of a primary in messages. -/
def nameOfPrimary (G : Language) : Primary → Str
  | .optional l d => (Primary.optional l d).display
  | .repeated l d => (Primary.repeated l d).display
  | .grouped _ d => nameOfList G d
  | .metaIdentifier _ n => n
  | .terminalString _ s => debugStr s
  | .specialSequence l s => G.specialName l s
  | .empty _ => "EMPTY".toList
/-- The name of a factor. -/
def nameOfFactor (G : Language) : Factor → Str
  | .mk n p => if n = 1 then nameOfPrimary G p else (Factor.mk n p).display
/-- The name of a term. -/
def nameOfTerm (G : Language) : Term → Str
  | .plain f => nameOfFactor G f
  | .except f e => (Term.except f e).display
/-- The name of a definition: that of its first term. -/
def nameOfSingle (G : Language) : SingleDefinition → Str
  | .nil => []
  | .cons t _ => nameOfTerm G t
/-- The names of all definitions. -/
def namesOfList (G : Language) : DefinitionList → List Str
  | .nil => []
  | .cons d l => nameOfSingle G d :: namesOfList G l
/-- The name of a definition list: `a`, `a or b`, `a, b, or c`. -/
def nameOfList (G : Language) : DefinitionList → Str
  | .nil => []
  | .cons d .nil => nameOfSingle G d
  | .cons d (.cons d' l) => parallelNotation (nameOfSingle G d :: nameOfSingle G d' :: namesOfList G l)
end

/-- What is at the current place, for messages: at most eight characters. -/
def ahead (rest : Str) : Actual :=
  if rest = [] then .eof
  else if rest.length ≤ 8 then .text rest false
  else .text (rest.take 8) true

/-- "… expected, but … appeared." -/
def expectedAt (name : Str) (here : Location) (rest : Str) : Error := ⟨here, .expected name (ahead rest)⟩

/-- A term that is just a group `( … )`. -/
def IsBareGroup : Term → Prop
  | .plain (.mk 1 (.grouped _ _)) => True
  | _ => False

/-- The later of two errors; the second one if they are at the same place. -/
def laterError (e₁ e₂ : Error) : Error := if e₂.location.lt e₁.location then e₁ else e₂

/-- What a scanner may forward to: a rule by its name, or by `$` and its name, which adds the begin and end
events. -/
inductive ForwardTarget (G : Language) : Str → Task → Prop
  | rule {name : Str} {r : SyntaxRule} : r ∈ G.rules → SameName r.metaIdentifier name →
      ForwardTarget G name (.list r.definitionList)
  | marked {name : Str} {r : SyntaxRule} : r ∈ G.rules → SameName ('$' :: r.metaIdentifier) name →
      ForwardTarget G name (.primary (.metaIdentifier r.location r.metaIdentifier))

/-- Big-step meaning. -/
inductive Ev (q : Quirks) (G : Language) : Task → Location → Str → Outcome → Prop
  -- primaries
  | optional {loc l here rest o} :
      Ev q G (.rounds (.list l) 0 (some 1) false 0) here rest o →
      Ev q G (.primary (.optional loc l)) here rest o
  | repeated {loc l here rest o} :
      Ev q G (.rounds (.list l) 0 q.roundLimit true 0) here rest o →
      Ev q G (.primary (.repeated loc l)) here rest o
  | grouped {loc l here rest o} :
      Ev q G (.list l) here rest o →
      Ev q G (.primary (.grouped loc l)) here rest o
  | empty {loc here rest} :
      Ev q G (.primary (.empty loc)) here rest (.ok [] 0)
  | terminal {loc s here rest} :
      s <+: rest →
      Ev q G (.primary (.terminalString loc s)) here rest (.ok [.token loc here s] s.length)
  | terminalFail {loc s here rest} :
      ¬ s <+: rest →
      Ev q G (.primary (.terminalString loc s)) here rest (.fail (expectedAt (debugStr s) here rest) [] 0)
  | reference {loc name here rest r evs n} :
      r ∈ G.rules → SameName r.metaIdentifier name →
      Ev q G (.list r.definitionList) here rest (.ok evs n) →
      Ev q G (.primary (.metaIdentifier loc name)) here rest
        (.ok (.begin loc here r.metaIdentifier :: evs ++
          [.end loc (lineColumn here (rest.take n)) r.metaIdentifier]) n)
  | referenceFail {loc name here rest r e evs n} :
      r ∈ G.rules → SameName r.metaIdentifier name →
      Ev q G (.list r.definitionList) here rest (.fail e evs n) →
      Ev q G (.primary (.metaIdentifier loc name)) here rest (.fail e [] n)
  | referenceStop {loc name here rest r o} :
      r ∈ G.rules → SameName r.metaIdentifier name →
      Ev q G (.list r.definitionList) here rest o → o.IsStop →
      Ev q G (.primary (.metaIdentifier loc name)) here rest o
  | referenceUndefined {loc name here rest} :
      (∀ r ∈ G.rules, ¬ SameName r.metaIdentifier name) →
      Ev q G (.primary (.metaIdentifier loc name)) here rest (.panic .missing)
  -- special sequences
  | special {loc s here rest evs n} :
      G.special loc s loc here rest = .accept evs n →
      Ev q G (.primary (.specialSequence loc s)) here rest (.ok evs n)
  | specialFail {loc s here rest} :
      G.special loc s loc here rest = .unmatched →
      Ev q G (.primary (.specialSequence loc s)) here rest (.fail (expectedAt (G.specialName loc s) here rest) [] 0)
  | specialError {loc s here rest e} :
      G.special loc s loc here rest = .error e →
      Ev q G (.primary (.specialSequence loc s)) here rest (.abort e)
  | forward {loc s here rest name n task evs m} :
      G.special loc s loc here rest = .forward name n → ForwardTarget G name task →
      Ev q G task (lineColumn here (rest.take n)) (rest.drop n) (.ok evs m) →
      Ev q G (.primary (.specialSequence loc s)) here rest (.ok evs (n + m))
  | forwardFail {loc s here rest name n task e evs m} :
      G.special loc s loc here rest = .forward name n → ForwardTarget G name task →
      Ev q G task (lineColumn here (rest.take n)) (rest.drop n) (.fail e evs m) →
      q.ignoreForward = false →
      Ev q G (.primary (.specialSequence loc s)) here rest (.fail e [] 0)
  | forwardIgnored {loc s here rest name n task e evs m} :
      G.special loc s loc here rest = .forward name n → ForwardTarget G name task →
      Ev q G task (lineColumn here (rest.take n)) (rest.drop n) (.fail e evs m) →
      q.ignoreForward = true →
      Ev q G (.primary (.specialSequence loc s)) here rest (.ok evs (n + m))
  | forwardStop {loc s here rest name n task o} :
      G.special loc s loc here rest = .forward name n → ForwardTarget G name task →
      Ev q G task (lineColumn here (rest.take n)) (rest.drop n) o → o.IsStop →
      Ev q G (.primary (.specialSequence loc s)) here rest o
  | forwardUndefined {loc s here rest name n} :
      G.special loc s loc here rest = .forward name n → (∀ task, ¬ ForwardTarget G name task) →
      Ev q G (.primary (.specialSequence loc s)) here rest
        (.abort ⟨here, .forwardUndefined name (G.specialName loc s) loc⟩)
  -- factors
  | once {p here rest o} :
      Ev q G (.primary p) here rest o → Ev q G (.factor (.mk 1 p)) here rest o
  | counted {k p here rest o} : k ≠ 1 →
      Ev q G (.rounds (.primary p) k (some k) (decide (q.roundLimit = some k)) 0) here rest o →
      Ev q G (.factor (.mk k p)) here rest o
  -- terms
  | plain {f here rest o} :
      Ev q G (.factor f) here rest o → Ev q G (.term (.plain f)) here rest o
  | exceptFail {f x here rest e evs n} :
      Ev q G (.factor f) here rest (.fail e evs n) →
      Ev q G (.term (.except f x)) here rest (.fail e [] 0)
  | exceptStop {f x here rest o} :
      Ev q G (.factor f) here rest o → o.IsStop →
      Ev q G (.term (.except f x)) here rest o
  | excluded {f x here rest evs n evs'} :
      Ev q G (.factor f) here rest (.ok evs n) →
      Ev q G (.factor x) here (rest.take n) (.ok evs' n) →
      Ev q G (.term (.except f x)) here rest (.fail (expectedAt (Term.except f x).display here rest) [] 0)
  | notExcluded {f x here rest evs n evs' m} :
      Ev q G (.factor f) here rest (.ok evs n) →
      Ev q G (.factor x) here (rest.take n) (.ok evs' m) → m ≠ n →
      Ev q G (.term (.except f x)) here rest (.ok evs n)
  | notExcludedFail {f x here rest evs n e evs' m} :
      Ev q G (.factor f) here rest (.ok evs n) →
      Ev q G (.factor x) here (rest.take n) (.fail e evs' m) →
      Ev q G (.term (.except f x)) here rest (.ok evs n)
  | excludedStop {f x here rest evs n o} :
      Ev q G (.factor f) here rest (.ok evs n) →
      Ev q G (.factor x) here (rest.take n) o → o.IsStop →
      Ev q G (.term (.except f x)) here rest o
  -- sequences
  | done {here rest} : Ev q G (.sequence .nil) here rest (.ok [] 0)
  | next {t d here rest evs n o} :
      ¬ (q.dropAfterGroup = true ∧ IsBareGroup t) →
      Ev q G (.term t) here rest (.ok evs n) →
      Ev q G (.sequence d) (lineColumn here (rest.take n)) (rest.drop n) o →
      Ev q G (.sequence (.cons t d)) here rest (o.after evs n)
  | dropped {t d here rest evs n} :
      q.dropAfterGroup = true → IsBareGroup t →
      Ev q G (.term t) here rest (.ok evs n) →
      Ev q G (.sequence (.cons t d)) here rest (.ok evs n)
  | nextFail {t d here rest o} :
      Ev q G (.term t) here rest o → ¬ o.IsOk →
      Ev q G (.sequence (.cons t d)) here rest o
  -- definition lists
  | single {d here rest o} :
      Ev q G (.sequence d) here rest o → Ev q G (.list (.cons d .nil)) here rest o
  | choice {d d' l here rest o} :
      Ev q G (.alternatives (.cons d (.cons d' l))) here rest o → (∀ e evs n, o ≠ .fail e evs n) →
      Ev q G (.list (.cons d (.cons d' l))) here rest o
  | choiceFail {d d' l here rest e evs n} :
      Ev q G (.alternatives (.cons d (.cons d' l))) here rest (.fail e evs n) →
      Ev q G (.list (.cons d (.cons d' l))) here rest
        (.fail (if e.location = here then expectedAt (nameOfList G (.cons d (.cons d' l))) here rest else e) [] 0)
  | first {d l here rest o} :
      Ev q G (.sequence d) here rest o → (∀ e evs n, o ≠ .fail e evs n) →
      Ev q G (.alternatives (.cons d l)) here rest o
  | last {d here rest e evs n} :
      Ev q G (.sequence d) here rest (.fail e evs n) →
      Ev q G (.alternatives (.cons d .nil)) here rest (.fail e [] 0)
  | other {d d' l here rest e evs n o} :
      Ev q G (.sequence d) here rest (.fail e evs n) →
      Ev q G (.alternatives (.cons d' l)) here rest o → (∀ e evs n, o ≠ .fail e evs n) →
      Ev q G (.alternatives (.cons d (.cons d' l))) here rest o
  | otherFail {d d' l here rest e evs n e' evs' n'} :
      Ev q G (.sequence d) here rest (.fail e evs n) →
      Ev q G (.alternatives (.cons d' l)) here rest (.fail e' evs' n') →
      Ev q G (.alternatives (.cons d (.cons d' l))) here rest (.fail (laterError e e') [] 0)
  -- repetitions
  | enough {body min max guarded i here rest} :
      max ≤ i →
      Ev q G (.rounds body min (some max) guarded i) here rest (.ok [] 0)
  | round {body min max guarded i here rest evs n o} :
      (∀ m, max = some m → i < m) → ¬ (guarded = true ∧ n = 0) →
      Ev q G body here rest (.ok evs n) →
      Ev q G (.rounds body min max guarded (i + 1)) (lineColumn here (rest.take n)) (rest.drop n) o →
      Ev q G (.rounds body min max guarded i) here rest (o.afterRound evs n)
  | livelock {body min max i here rest evs} :
      (∀ m, max = some m → i < m) →
      Ev q G body here rest (.ok evs 0) →
      Ev q G (.rounds body min max true i) here rest (.abort ⟨here, .livelock⟩)
  | lastRound {body min max guarded i here rest e evs n} :
      (∀ m, max = some m → i < m) → min ≤ i →
      Ev q G body here rest (.fail e evs n) →
      Ev q G (.rounds body min max guarded i) here rest (.ok (if q.keepPartial then evs else []) 0)
  | tooFew {body min max guarded i here rest e evs n} :
      (∀ m, max = some m → i < m) → i < min →
      Ev q G body here rest (.fail e evs n) →
      Ev q G (.rounds body min max guarded i) here rest (.fail e [] n)
  | roundStop {body min max guarded i here rest o} :
      (∀ m, max = some m → i < m) →
      Ev q G body here rest o → o.IsStop →
      Ev q G (.rounds body min max guarded i) here rest o

end Ebnf.Spec
