import Verif.Proofs.RefactorCases
import Verif.Proofs.Running

set_option autoImplicit false

/-! # C93: rewriting a grammar keeps what it accepts -/

namespace Ebnf.Props

open Ebnf Ebnf.Spec

variable {dbg dbg' : Bool}

private theorem starts {G G' : Language} {start start' : SyntaxRule} {m m' : Machine} (hp : ParserFor dbg G start m)
    (hp' : ParserFor dbg' G' start' m') (hn : SameName start.metaIdentifier start'.metaIdentifier) :
    Refactors G G' (.primary (.metaIdentifier start.location start.metaIdentifier)) (.primary (.metaIdentifier start'.location start'.metaIdentifier)) :=
  .reference hn ⟨start, hp.start, .refl _⟩ ⟨start', hp'.start, .refl _⟩

private theorem judged {G : Language} {start : SyntaxRule} {m : Machine} (hp : ParserFor dbg G start m) (hf : NeverForwards G) {r : Reader}
    {here : Location} {text : Str} (hi : InputAt dbg r here text) :
    ((∃ out, Returns m r (.ok out)) ↔ Judges G (.primary (.metaIdentifier start.location start.metaIdentifier)) here text (.matched text.length)) ∧
      ((∃ x, Returns m r x) ↔ ∃ v, Judges G (.primary (.metaIdentifier start.location start.metaIdentifier)) here text v) := by
  refine ⟨⟨?_, ?_⟩, ?_, ?_⟩
  · rintro ⟨out, h⟩
    have h := (returns_iff hp hi _).mp h
    cases h with
    | accepted h _ => exact ev_judges hf h
  · rintro ⟨k, h⟩
    obtain ⟨o, h1, h2⟩ := judges_ev h
    obtain ⟨evs, rfl⟩ := verdictOf_matched h2
    exact ⟨_, (returns_iff hp hi _).mpr (.accepted h1 ((trimmed_iff _ _).mpr rfl))⟩
  · rintro ⟨x, h⟩
    cases (returns_iff hp hi _).mp h with
    | accepted h1 _ => exact ⟨_, ev_judges hf h1⟩
    | leftover h1 _ => exact ⟨_, ev_judges hf h1⟩
    | rejected h1 => exact ⟨_, ev_judges hf h1⟩
    | aborted h1 => exact ⟨_, ev_judges hf h1⟩
    | crashed h1 => exact ⟨_, ev_judges hf h1⟩
  · rintro ⟨v, k, h⟩
    obtain ⟨o, h1, h2⟩ := judges_ev h
    exact ⟨_, (returns_iff hp hi _).mpr (parses_of_ev (parser_bounded hp) h1)⟩

/-- C93: a grammar and its rewriting by the laws of `Refactors` (associativity of `|` and of `,`, left distributivity of `,` over `|`, removal of
repeated alternatives, the meaning of `[…]` and of `k * …`, splitting terminal strings, dropping empty terms, introducing and eliminating rules)
accept the same texts. -/
theorem c93_accepts {G G' : Language} {start start' : SyntaxRule} {m m' : Machine} (hp : ParserFor dbg G start m)
    (hp' : ParserFor dbg' G' start' m') (hn : SameName start.metaIdentifier start'.metaIdentifier) (hR : RefactoredGrammar G G')
    (hf : NeverForwards G) (hf' : NeverForwards G') {r r' : Reader} {here : Location} {text : Str} (hi : InputAt dbg r here text)
    (hi' : InputAt dbg' r' here text) : (∃ out, Returns m r (.ok out)) ↔ ∃ out, Returns m' r' (.ok out) := by
  rw [(judged hp hf hi).1, (judged hp' hf' hi').1]
  exact judges_iff (parser_oneMeaning hp) (parser_oneMeaning hp') hR (starts hp hp' hn) _ _ _

/-- C93: they run forever on the same texts. -/
theorem c93_loops {G G' : Language} {start start' : SyntaxRule} {m m' : Machine} (hp : ParserFor dbg G start m)
    (hp' : ParserFor dbg' G' start' m') (hn : SameName start.metaIdentifier start'.metaIdentifier) (hR : RefactoredGrammar G G')
    (hf : NeverForwards G) (hf' : NeverForwards G') {r r' : Reader} {here : Location} {text : Str} (hi : InputAt dbg r here text)
    (hi' : InputAt dbg' r' here text) : Loops m r ↔ Loops m' r' := by
  have key : (∃ x, Returns m r x) ↔ ∃ x, Returns m' r' x := by
    rw [(judged hp hf hi).2, (judged hp' hf' hi').2]
    exact exists_congr fun v => judges_iff (parser_oneMeaning hp) (parser_oneMeaning hp') hR (starts hp hp' hn) _ _ v
  rw [loops_iff hp hi, loops_iff hp' hi']
  constructor
  · intro h x hx
    obtain ⟨y, hy⟩ := key.mpr ⟨x, (returns_iff hp' hi' x).mpr hx⟩
    exact h y ((returns_iff hp hi y).mp hy)
  · intro h x hx
    obtain ⟨y, hy⟩ := key.mp ⟨x, (returns_iff hp hi x).mpr hx⟩
    exact h y ((returns_iff hp' hi' y).mp hy)

private theorem plain_neverForwards (rules : List SyntaxRule) : NeverForwards (plainLanguage rules) := by
  intro loc s here rest name n
  simp [plainLanguage, defaultRecognizer]

/-- The rule `A='ab',2*'c'|'ab',['d'];`. -/
private def spread : SyntaxRule :=
  ⟨⟨[], 1, 1⟩, ['A'], .cons (.cons (text ⟨[], 1, 3⟩ ['a', 'b']) (.cons (.plain (.mk 2 (.terminalString ⟨[], 1, 10⟩ ['c']))) .nil))
    (.cons (.cons (text ⟨[], 1, 14⟩ ['a', 'b'])
      (.cons (.plain (.mk 1 (.optional ⟨[], 1, 19⟩ (.cons (.cons (text ⟨[], 1, 20⟩ ['d']) .nil) .nil)))) .nil)) .nil)⟩

/-- The rule `A='ab',('c','c'|('d'|));`. -/
private def factored : SyntaxRule :=
  ⟨⟨[], 1, 1⟩, ['A'], .cons (.cons (text ⟨[], 1, 3⟩ ['a', 'b']) (inParens ⟨[], 1, 8⟩
    (.cons (.cons (text ⟨[], 1, 9⟩ ['c']) (.cons (text ⟨[], 1, 13⟩ ['c']) .nil))
      (.cons (inParens ⟨[], 1, 17⟩ (.cons (.cons (text ⟨[], 1, 18⟩ ['d']) .nil) (.cons (nothing ⟨[], 1, 21⟩) .nil))) .nil)))) .nil⟩

example : ∃ m m', ParserFor false (plainLanguage [spread]) spread m ∧ ParserFor false (plainLanguage [factored]) factored m' ∧
    RefactoredGrammar (plainLanguage [spread]) (plainLanguage [factored]) ∧
    NeverForwards (plainLanguage [spread]) ∧ NeverForwards (plainLanguage [factored]) ∧
    (∃ out, Returns m (readerOn "abd") (.ok out)) ∧ ∃ e, Returns m (readerOn "abc") (.err e) := by
  obtain ⟨m, h1, h2, _⟩ := samplePlainOf "A='ab',2*'c'|'ab',['d'];" spread [] (by decide +kernel) (by decide +kernel)
  obtain ⟨m', h1', _⟩ := samplePlainOf "A='ab',('c','c'|('d'|));" factored [] (by decide +kernel) (by decide +kernel)
  refine ⟨m, m', h1, h1', ?_, plain_neverForwards _, plain_neverForwards _,
    ⟨_, h2 "abd" 100 (.ok [.begin ⟨[], 1, 1⟩ ⟨[], 1, 1⟩ ['A'], .token ⟨[], 1, 14⟩ ⟨[], 1, 1⟩ ['a', 'b'], .token ⟨[], 1, 20⟩ ⟨[], 1, 3⟩ ['d'],
      .end ⟨[], 1, 1⟩ ⟨[], 1, 4⟩ ['A']]) (by decide +kernel) (by simp)⟩,
    ⟨_, h2 "abc" 100 (.err ⟨⟨[], 1, 3⟩, .expected "EOF".toList (.text ['c'] false)⟩) (by decide +kernel) (by simp)⟩⟩
  intro r hr r' hr' _
  simp [plainLanguage] at hr hr'
  subst hr hr'
  refine .factorOut (by simp [IsBareGroup, text]) (by simp [IsBareGroup, text]) (by simp [IsBareGroup, text]) (.plain (.factor .terminal))
    (.plain (.factor .terminal)) ?_ ?_ .none
  · refine Refactors.unroll (ps' := [.terminalString ⟨[], 1, 9⟩ ['c'], .terminalString ⟨[], 1, 13⟩ ['c']]) (by decide) (by decide) ?_ ?_ .nil
    · intro p hp
      simp only [List.mem_cons, List.not_mem_nil, or_false] at hp
      rcases hp with rfl | rfl <;> exact id
    · intro p hp
      simp only [List.mem_cons, List.not_mem_nil, or_false] at hp
      rcases hp with rfl | rfl <;> exact .terminal
  · exact .last (.plain (.factor (.choose (by simp) (.alternative (.last (.plain (.factor .terminal))) .none))))

/-- The rule `A='(',{A},')';`. -/
private def whole : SyntaxRule :=
  ⟨⟨[], 1, 1⟩, ['A'], .cons (.cons (text ⟨[], 1, 3⟩ ['(']) (.cons (.plain (.mk 1 (.repeated ⟨[], 1, 7⟩
    (.cons (.cons (.plain (.mk 1 (.metaIdentifier ⟨[], 1, 8⟩ ['A']))) .nil) .nil)))) (.cons (text ⟨[], 1, 11⟩ [')']) .nil))) .nil⟩

/-- The rule `A='(',B,')';`. -/
private def outer : SyntaxRule :=
  ⟨⟨[], 1, 1⟩, ['A'], .cons (.cons (text ⟨[], 1, 3⟩ ['(']) (.cons (.plain (.mk 1 (.metaIdentifier ⟨[], 1, 7⟩ ['B'])))
    (.cons (text ⟨[], 1, 9⟩ [')']) .nil))) .nil⟩

/-- The rule `B={A};` after it. -/
private def inner : SyntaxRule :=
  ⟨⟨[], 1, 13⟩, ['B'], .cons (.cons (.plain (.mk 1 (.repeated ⟨[], 1, 15⟩
    (.cons (.cons (.plain (.mk 1 (.metaIdentifier ⟨[], 1, 16⟩ ['A']))) .nil) .nil)))) .nil) .nil⟩

example : ∃ m m', ParserFor false (plainLanguage [whole]) whole m ∧ ParserFor false (plainLanguage [outer, inner]) outer m' ∧
    RefactoredGrammar (plainLanguage [whole]) (plainLanguage [outer, inner]) ∧
    NeverForwards (plainLanguage [whole]) ∧ NeverForwards (plainLanguage [outer, inner]) := by
  obtain ⟨m, h1, _⟩ := samplePlainOf "A='(',{A},')';" whole [] (by decide +kernel) (by decide +kernel)
  obtain ⟨m', h1', _⟩ := samplePlainOf "A='(',B,')';B={A};" outer [inner] (by decide +kernel) (by decide +kernel)
  refine ⟨m, m', h1, h1', ?_, plain_neverForwards _, plain_neverForwards _⟩
  intro r hr r' hr' hn
  simp [plainLanguage] at hr hr'
  subst hr
  rcases hr' with rfl | rfl
  · refine .alternative (.cons (by simp [IsBareGroup, text]) (by simp [IsBareGroup, text]) (.plain (.factor .terminal)) ?_) .none
    refine Refactors.extract (r := inner) (d₀ := .cons (.plain (.mk 1 (.repeated ⟨[], 1, 7⟩
      (.cons (.cons (.plain (.mk 1 (.metaIdentifier ⟨[], 1, 8⟩ ['A']))) .nil) .nil)))) .nil) (by simp [plainLanguage]) (.refl _) rfl
      ⟨by simp [IsBareGroup], trivial⟩ ?_ (.last (.plain (.factor .terminal)))
    exact .last (.plain (.factor (.repeated (.alternative (.last (.plain (.factor (.reference (.refl _) ⟨whole, by simp [plainLanguage], .refl _⟩
      ⟨outer, by simp [plainLanguage], .refl _⟩)))) .none))))
  · exact absurd ((keyed_eq_iff _ _).mpr hn) (by decide +kernel)

/-- The rule `A='a'|'a','b';`. -/
private def shortFirst : SyntaxRule :=
  ⟨⟨[], 1, 1⟩, ['A'], .cons (.cons (text ⟨[], 1, 3⟩ ['a']) .nil)
    (.cons (.cons (text ⟨[], 1, 7⟩ ['a']) (.cons (text ⟨[], 1, 11⟩ ['b']) .nil)) .nil)⟩

/-- The rule `A='a','b'|'a';`. -/
private def longFirst : SyntaxRule :=
  ⟨⟨[], 1, 1⟩, ['A'], .cons (.cons (text ⟨[], 1, 3⟩ ['a']) (.cons (text ⟨[], 1, 7⟩ ['b']) .nil))
    (.cons (.cons (text ⟨[], 1, 11⟩ ['a']) .nil) .nil)⟩

/-- The order of alternatives matters, so `a | b` is not `b | a`: `A='a'|'a','b';` rejects `ab`, and `A='a','b'|'a';` accepts it. -/
theorem c93_not_commutative : ∃ m m', ParserFor false (plainLanguage [shortFirst]) shortFirst m ∧
    ParserFor false (plainLanguage [longFirst]) longFirst m' ∧
    (∃ e, Returns m (readerOn "ab") (.err e)) ∧ ∃ out, Returns m' (readerOn "ab") (.ok out) := by
  obtain ⟨m, h1, h2, _⟩ := samplePlainOf "A='a'|'a','b';" shortFirst [] (by decide +kernel) (by decide +kernel)
  obtain ⟨m', h1', h2', _⟩ := samplePlainOf "A='a','b'|'a';" longFirst [] (by decide +kernel) (by decide +kernel)
  exact ⟨m, m', h1, h1', ⟨_, h2 "ab" 100 (.err ⟨⟨[], 1, 2⟩, .expected "EOF".toList (.text ['b'] false)⟩) (by decide +kernel) (by simp)⟩,
    _, h2' "ab" 100 (.ok [.begin ⟨[], 1, 1⟩ ⟨[], 1, 1⟩ ['A'], .token ⟨[], 1, 3⟩ ⟨[], 1, 1⟩ ['a'], .token ⟨[], 1, 7⟩ ⟨[], 1, 2⟩ ['b'],
      .end ⟨[], 1, 1⟩ ⟨[], 1, 3⟩ ['A']]) (by decide +kernel) (by simp)⟩

/-- The rule `A='a','c'|'a','b','c';`. -/
private def multiplied : SyntaxRule :=
  ⟨⟨[], 1, 1⟩, ['A'], .cons (.cons (text ⟨[], 1, 3⟩ ['a']) (.cons (text ⟨[], 1, 7⟩ ['c']) .nil))
    (.cons (.cons (text ⟨[], 1, 11⟩ ['a']) (.cons (text ⟨[], 1, 15⟩ ['b']) (.cons (text ⟨[], 1, 19⟩ ['c']) .nil))) .nil)⟩

/-- The rule `A=R,'c';`. -/
private def ends : SyntaxRule :=
  ⟨⟨[], 1, 1⟩, ['A'], .cons (.cons (.plain (.mk 1 (.metaIdentifier ⟨[], 1, 3⟩ ['R']))) (.cons (text ⟨[], 1, 5⟩ ['c']) .nil)) .nil⟩

/-- The rule `R='a'|'a','b';` after it. -/
private def begins : SyntaxRule :=
  ⟨⟨[], 1, 9⟩, ['R'], .cons (.cons (text ⟨[], 1, 11⟩ ['a']) .nil)
    (.cons (.cons (text ⟨[], 1, 15⟩ ['a']) (.cons (text ⟨[], 1, 19⟩ ['b']) .nil)) .nil)⟩

/-- What ends all alternatives cannot be factored out: `A='a','c'|'a','b','c';` accepts `abc`, and `A=R,'c';R='a'|'a','b';` rejects it. -/
theorem c93_not_right_distributive : ∃ m m', ParserFor false (plainLanguage [multiplied]) multiplied m ∧
    ParserFor false (plainLanguage [ends, begins]) ends m' ∧
    (∃ out, Returns m (readerOn "abc") (.ok out)) ∧ ∃ e, Returns m' (readerOn "abc") (.err e) := by
  obtain ⟨m, h1, h2, _⟩ := samplePlainOf "A='a','c'|'a','b','c';" multiplied [] (by decide +kernel) (by decide +kernel)
  obtain ⟨m', h1', h2', _⟩ := samplePlainOf "A=R,'c';R='a'|'a','b';" ends [begins] (by decide +kernel) (by decide +kernel)
  exact ⟨m, m', h1, h1', ⟨_, h2 "abc" 100 (.ok [.begin ⟨[], 1, 1⟩ ⟨[], 1, 1⟩ ['A'], .token ⟨[], 1, 11⟩ ⟨[], 1, 1⟩ ['a'],
      .token ⟨[], 1, 15⟩ ⟨[], 1, 2⟩ ['b'], .token ⟨[], 1, 19⟩ ⟨[], 1, 3⟩ ['c'], .end ⟨[], 1, 1⟩ ⟨[], 1, 4⟩ ['A']]) (by decide +kernel) (by simp)⟩,
    _, h2' "abc" 100 (.err ⟨⟨[], 1, 2⟩, .expected "\"c\"".toList (.text ['b', 'c'] false)⟩) (by decide +kernel) (by simp)⟩

end Ebnf.Props
