import Verif.Spec.Parsing

set_option autoImplicit false

/-! # Specification: errors of a parse -/

namespace Ebnf.Spec

/-- The location is that of a position of the text (the end included). -/
def PlaceIn (here : Location) (text : Str) (place : Location) : Prop :=
  ∃ pre post, text = pre ++ post ∧ place = lineColumn here pre

/-- The errors of scanners point into the text they are given. -/
def ScannersPoint (G : Language) : Prop :=
  ∀ l s d here rest e, G.special l s d here rest = .error e → PlaceIn here rest e.location

/-- Where an error of the parser comes from. -/
inductive Reason (G : Language) : Error → Prop
  /-- "… expected, but … appeared." -/
  | expected (place name actual) : Reason G ⟨place, .expected name actual⟩
  /-- a round of a repetition matches nothing -/
  | livelock (place) : Reason G ⟨place, .livelock⟩
  /-- a scanner forwards to a name that is not defined -/
  | forward {l s here rest name n} : G.special l s l here rest = .forward name n → (∀ task, ¬ ForwardTarget G name task) →
      Reason G ⟨here, .forwardUndefined name (G.specialName l s) l⟩
  /-- a scanner reports it -/
  | scanner {l s d here rest e} : G.special l s d here rest = .error e → Reason G e

/-- `Occurs G part`: the part is found somewhere in the rules (a reference to the rule itself counts). -/
inductive Occurs (G : Language) : Task → Prop
  | rule {r} : r ∈ G.rules → Occurs G (.list r.definitionList)
  | definition {l d} : Occurs G (.list l) → d ∈ l.toList → Occurs G (.sequence d)
  | first {t d} : Occurs G (.sequence (.cons t d)) → Occurs G (.term t)
  | later {t d} : Occurs G (.sequence (.cons t d)) → Occurs G (.sequence d)
  | plain {f} : Occurs G (.term (.plain f)) → Occurs G (.factor f)
  | base {f x} : Occurs G (.term (.except f x)) → Occurs G (.factor f)
  | exception {f x} : Occurs G (.term (.except f x)) → Occurs G (.factor x)
  | primary {k p} : Occurs G (.factor (.mk k p)) → Occurs G (.primary p)
  | optional {loc l} : Occurs G (.primary (.optional loc l)) → Occurs G (.list l)
  | repeated {loc l} : Occurs G (.primary (.repeated loc l)) → Occurs G (.list l)
  | grouped {loc l} : Occurs G (.primary (.grouped loc l)) → Occurs G (.list l)

/-- `Unmet G place post name`: some part of the grammar is called `name` in messages and does not match at the place `place`, where the
text goes on with `post`. -/
inductive Unmet (G : Language) (place : Location) (post : Str) : Str → Prop
  /-- a terminal string that the text does not go on with -/
  | terminal {loc s} : Occurs G (.primary (.terminalString loc s)) → ¬ s <+: post → Unmet G place post (debugStr s)
  /-- a special sequence whose scanner does not match -/
  | special {loc s} : Occurs G (.primary (.specialSequence loc s)) → G.special loc s loc place post = .unmatched →
      Unmet G place post (G.specialName loc s)
  /-- `F - X`, where `X` matches all that `F` matches -/
  | excluded {f x evs evs' n} : Occurs G (.term (.except f x)) → Ev asBuilt G (.factor f) place post (.ok evs n) →
      Ev asBuilt G (.factor x) place (post.take n) (.ok evs' n) → Unmet G place post (Term.except f x).display
  /-- a choice none of whose alternatives matches -/
  | choice {l} : Occurs G (.list l) → 2 ≤ l.toList.length →
      (∀ d ∈ l.toList, ∃ e evs n, Ev asBuilt G (.sequence d) place post (.fail e evs n)) → Unmet G place post (nameOfList G l)

/-- Such a message is about the text before `post`: the place is where `post` begins, `post` is quoted, and what is said to be expected is
either the end of the text, which is not there although the start rule matches all before it, or something that does not match there. -/
inductive Truthful (G : Language) (start : SyntaxRule) (here : Location) (text : Str) : Error → Prop
  | eof {pre post evs} : text = pre ++ post → post ≠ [] →
      Ev asBuilt G (.primary (.metaIdentifier start.location start.metaIdentifier)) here text (.ok evs pre.length) →
      Truthful G start here text ⟨lineColumn here pre, .expected "EOF".toList (ahead post)⟩
  | unmet {pre post name} : text = pre ++ post → Unmet G (lineColumn here pre) post name →
      Truthful G start here text ⟨lineColumn here pre, .expected name (ahead post)⟩

end Ebnf.Spec
