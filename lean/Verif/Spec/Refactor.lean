import Verif.Spec.Parsing

set_option autoImplicit false

/-! # Specification: rewriting a grammar

`Refactors G G' t t'` reads: the part `t'` of the grammar `G'` is obtained from the part `t` of the grammar `G` by the laws below.  Every law may be
used in both directions, anywhere, and any number of times. -/

namespace Ebnf.Spec

/-- The definitions of two lists, one after the other. -/
def DefinitionList.append : DefinitionList → DefinitionList → DefinitionList
  | .nil, m => m
  | .cons d l, m => .cons d (DefinitionList.append l m)

/-- `p₁, p₂, …, pₖ, d`. -/
def copies : List Primary → SingleDefinition → SingleDefinition
  | [], d => d
  | p :: ps, d => .cons (.plain (.mk 1 p)) (copies ps d)

/-- The terms of two sequences, one after the other. -/
def SingleDefinition.append : SingleDefinition → SingleDefinition → SingleDefinition
  | .nil, e => e
  | .cons t d, e => .cons t (SingleDefinition.append d e)

/-- No term is just a group. -/
def NoBareGroup : SingleDefinition → Prop
  | .nil => True
  | .cons t d => ¬ IsBareGroup t ∧ NoBareGroup d

/-- A group `( … )`. -/
def IsGroup : Primary → Prop
  | .grouped _ _ => True
  | _ => False

/-- The sequence that is just the group `(l)`. -/
abbrev inParens (loc : Location) (l : DefinitionList) : SingleDefinition := .cons (.plain (.mk 1 (.grouped loc l))) .nil

/-- The sequence of nothing. -/
abbrev nothing (loc : Location) : SingleDefinition := .cons (.plain (.mk 1 (.empty loc))) .nil

/-- The term that is just the terminal string `s`. -/
abbrev text (loc : Location) (s : Str) : Term := .plain (.mk 1 (.terminalString loc s))

/-- Scanners that match the same, and fail together. -/
inductive SameReaction : Recognition → Recognition → Prop
  | accept {evs evs' n} : SameReaction (.accept evs n) (.accept evs' n)
  | unmatched : SameReaction .unmatched .unmatched
  | error {e e'} : SameReaction (.error e) (.error e')

/-- Rewriting by laws. -/
inductive Refactors (G G' : Language) : Task → Task → Prop
  -- the parts may be rewritten
  | empty {loc loc'} : Refactors G G' (.primary (.empty loc)) (.primary (.empty loc'))
  | terminal {loc loc' s} : Refactors G G' (.primary (.terminalString loc s)) (.primary (.terminalString loc' s))
  | special {loc loc' s s'} : (∀ here rest, SameReaction (G.special loc s loc here rest) (G'.special loc' s' loc' here rest)) →
      Refactors G G' (.primary (.specialSequence loc s)) (.primary (.specialSequence loc' s'))
  | reference {loc loc' n n'} : SameName n n' → Defines G.rules n → Defines G'.rules n' →
      Refactors G G' (.primary (.metaIdentifier loc n)) (.primary (.metaIdentifier loc' n'))
  | optional {loc loc' l l'} : Refactors G G' (.list l) (.list l') → Refactors G G' (.primary (.optional loc l)) (.primary (.optional loc' l'))
  | repeated {loc loc' l l'} : Refactors G G' (.list l) (.list l') → Refactors G G' (.primary (.repeated loc l)) (.primary (.repeated loc' l'))
  | grouped {loc loc' l l'} : Refactors G G' (.list l) (.list l') → Refactors G G' (.primary (.grouped loc l)) (.primary (.grouped loc' l'))
  | factor {k p p'} : Refactors G G' (.primary p) (.primary p') → Refactors G G' (.factor (.mk k p)) (.factor (.mk k p'))
  | plain {f f'} : Refactors G G' (.factor f) (.factor f') → Refactors G G' (.term (.plain f)) (.term (.plain f'))
  | except {f f' x x'} : Refactors G G' (.factor f) (.factor f') → Refactors G G' (.factor x) (.factor x') →
      Refactors G G' (.term (.except f x)) (.term (.except f' x'))
  | nil : Refactors G G' (.sequence .nil) (.sequence .nil)
  | cons {t t' d d'} : ¬ IsBareGroup t → ¬ IsBareGroup t' → Refactors G G' (.term t) (.term t') → Refactors G G' (.sequence d) (.sequence d') →
      Refactors G G' (.sequence (.cons t d)) (.sequence (.cons t' d'))
  | closed {t t' d d'} : IsBareGroup t → IsBareGroup t' → Refactors G G' (.term t) (.term t') → Refactors G G' (.sequence d) (.sequence d') →
      Refactors G G' (.sequence (.cons t d)) (.sequence (.cons t' d'))
  | last {t t'} : Refactors G G' (.term t) (.term t') → Refactors G G' (.sequence (.cons t .nil)) (.sequence (.cons t' .nil))
  | none : Refactors G G' (.list .nil) (.list .nil)
  | alternative {d d' l l'} : Refactors G G' (.sequence d) (.sequence d') → Refactors G G' (.list l) (.list l') →
      Refactors G G' (.list (.cons d l)) (.list (.cons d' l'))
  /-- `(a | b) | c` is `a | b | c` -/
  | flatten {loc l l' m m'} : l ≠ .nil → Refactors G G' (.list l) (.list l') → Refactors G G' (.list m) (.list m') →
      Refactors G G' (.list (.cons (inParens loc l) m)) (.list (DefinitionList.append l' m'))
  | unflatten {loc l l' m m'} : l' ≠ .nil → Refactors G G' (.list l) (.list l') → Refactors G G' (.list m) (.list m') →
      Refactors G G' (.list (DefinitionList.append l m)) (.list (.cons (inParens loc l') m'))
  /-- `a, (b, c)` is `a, b, c` -/
  | inline {loc d d'} : Refactors G G' (.sequence d) (.sequence d') →
      Refactors G G' (.sequence (inParens loc (.cons d .nil))) (.sequence d')
  | group {loc d d'} : Refactors G G' (.sequence d) (.sequence d') →
      Refactors G G' (.sequence d) (.sequence (inParens loc (.cons d' .nil)))
  /-- `a, b | a, c` is `a, (b | c)` -/
  | factorOut {loc t₁ t₂ t' d₁ d₁' d₂ d₂' l l'} : ¬ IsBareGroup t₁ → ¬ IsBareGroup t₂ → ¬ IsBareGroup t' →
      Refactors G G' (.term t₁) (.term t') → Refactors G G' (.term t₂) (.term t') →
      Refactors G G' (.sequence d₁) (.sequence d₁') → Refactors G G' (.sequence d₂) (.sequence d₂') → Refactors G G' (.list l) (.list l') →
      Refactors G G' (.list (.cons (.cons t₁ d₁) (.cons (.cons t₂ d₂) l)))
        (.list (.cons (.cons t' (inParens loc (.cons d₁' (.cons d₂' .nil)))) l'))
  | multiplyOut {loc t t₁' t₂' d₁ d₁' d₂ d₂' l l'} : ¬ IsBareGroup t → ¬ IsBareGroup t₁' → ¬ IsBareGroup t₂' →
      Refactors G G' (.term t) (.term t₁') → Refactors G G' (.term t) (.term t₂') →
      Refactors G G' (.sequence d₁) (.sequence d₁') → Refactors G G' (.sequence d₂) (.sequence d₂') → Refactors G G' (.list l) (.list l') →
      Refactors G G' (.list (.cons (.cons t (inParens loc (.cons d₁ (.cons d₂ .nil)))) l))
        (.list (.cons (.cons t₁' d₁') (.cons (.cons t₂' d₂') l')))
  /-- `a | b | a | c` is `a | b | c` -/
  | dropCopy {d₁ d₂ d' l l' m m'} : Refactors G G' (.sequence d₁) (.sequence d') → Refactors G G' (.sequence d₂) (.sequence d') →
      Refactors G G' (.list l) (.list l') → Refactors G G' (.list m) (.list m') →
      Refactors G G' (.list (.cons d₁ (DefinitionList.append l (.cons d₂ m)))) (.list (.cons d' (DefinitionList.append l' m')))
  | addCopy {d d₁' d₂' l l' m m'} : Refactors G G' (.sequence d) (.sequence d₁') → Refactors G G' (.sequence d) (.sequence d₂') →
      Refactors G G' (.list l) (.list l') → Refactors G G' (.list m) (.list m') →
      Refactors G G' (.list (.cons d (DefinitionList.append l m))) (.list (.cons d₁' (DefinitionList.append l' (.cons d₂' m'))))
  /-- what follows an empty alternative does not matter -/
  | cut {loc loc' m m'} : Refactors G G' (.list (.cons (nothing loc) m)) (.list (.cons (nothing loc') m'))
  /-- `[a | b]` is `(a | b | )` -/
  | choose {loc loc' loc'' l l'} : l ≠ .nil → Refactors G G' (.list l) (.list l') →
      Refactors G G' (.primary (.optional loc l)) (.primary (.grouped loc' (DefinitionList.append l' (.cons (nothing loc'') .nil))))
  | opt {loc loc' loc'' l l'} : l' ≠ .nil → Refactors G G' (.list l) (.list l') →
      Refactors G G' (.primary (.grouped loc (DefinitionList.append l (.cons (nothing loc'') .nil)))) (.primary (.optional loc' l'))
  /-- `3 * a, b` is `a, a, a, b`, and `0 * a, b` is `b` -/
  | unroll {p ps' d d'} : ps'.length ≠ 1 → ps'.length ≠ 4294967295 → (∀ p' ∈ ps', ¬ IsGroup p') →
      (∀ p' ∈ ps', Refactors G G' (.primary p) (.primary p')) → Refactors G G' (.sequence d) (.sequence d') →
      Refactors G G' (.sequence (.cons (.plain (.mk ps'.length p)) d)) (.sequence (copies ps' d'))
  | count {ps p' d d'} : ps.length ≠ 1 → ps.length ≠ 4294967295 → (∀ p ∈ ps, ¬ IsGroup p) →
      (∀ p ∈ ps, Refactors G G' (.primary p) (.primary p')) → Refactors G G' (.sequence d) (.sequence d') →
      Refactors G G' (.sequence (copies ps d)) (.sequence (.cons (.plain (.mk ps.length p')) d'))
  /-- `'ab', c` is `'a', 'b', c` -/
  | split {loc loc₁ loc₂ s₁ s₂ d d'} : Refactors G G' (.sequence d) (.sequence d') →
      Refactors G G' (.sequence (.cons (text loc (s₁ ++ s₂)) d)) (.sequence (.cons (text loc₁ s₁) (.cons (text loc₂ s₂) d')))
  | join {loc loc₁ loc₂ s₁ s₂ d d'} : Refactors G G' (.sequence d) (.sequence d') →
      Refactors G G' (.sequence (.cons (text loc₁ s₁) (.cons (text loc₂ s₂) d))) (.sequence (.cons (text loc (s₁ ++ s₂)) d'))
  /-- `, a` is `a` -/
  | dropEmpty {loc d d'} : Refactors G G' (.sequence d) (.sequence d') →
      Refactors G G' (.sequence (.cons (.plain (.mk 1 (.empty loc))) d)) (.sequence d')
  | addEmpty {loc d d'} : Refactors G G' (.sequence d) (.sequence d') →
      Refactors G G' (.sequence d) (.sequence (.cons (.plain (.mk 1 (.empty loc))) d'))
  /-- a reference is the definition of its rule in parentheses -/
  | unfold {loc loc' n r l'} : r ∈ G.rules → SameName r.metaIdentifier n → Refactors G G' (.list r.definitionList) (.list l') →
      Refactors G G' (.primary (.metaIdentifier loc n)) (.primary (.grouped loc' l'))
  | fold {loc loc' n r l} : r ∈ G'.rules → SameName r.metaIdentifier n → Refactors G G' (.list l) (.list r.definitionList) →
      Refactors G G' (.primary (.grouped loc l)) (.primary (.metaIdentifier loc' n))
  /-- a reference to a rule with one definition is that definition -/
  | replace {loc n r d₀ d₀' d d'} : r ∈ G.rules → SameName r.metaIdentifier n → r.definitionList = .cons d₀ .nil → NoBareGroup d₀' →
      Refactors G G' (.sequence d₀) (.sequence d₀') → Refactors G G' (.sequence d) (.sequence d') →
      Refactors G G' (.sequence (.cons (.plain (.mk 1 (.metaIdentifier loc n))) d)) (.sequence (SingleDefinition.append d₀' d'))
  | extract {loc n r d₀ d₀' d d'} : r ∈ G'.rules → SameName r.metaIdentifier n → r.definitionList = .cons d₀' .nil → NoBareGroup d₀ →
      Refactors G G' (.sequence d₀) (.sequence d₀') → Refactors G G' (.sequence d) (.sequence d') →
      Refactors G G' (.sequence (SingleDefinition.append d₀ d)) (.sequence (.cons (.plain (.mk 1 (.metaIdentifier loc n))) d'))

/-- Rules of the same name are rewritten by the laws.  Either grammar may have rules besides. -/
def RefactoredGrammar (G G' : Language) : Prop :=
  ∀ r ∈ G.rules, ∀ r' ∈ G'.rules, SameName r.metaIdentifier r'.metaIdentifier → Refactors G G' (.list r.definitionList) (.list r'.definitionList)

/-- No scanner forwards to a rule. -/
def NeverForwards (G : Language) : Prop := ∀ loc s here rest name n, G.special loc s loc here rest ≠ .forward name n

end Ebnf.Spec
