import Verif.Proofs.Errors
import Verif.Props.Events

set_option autoImplicit false

/-! # C45, C47: panics and errors of `Parser::parse` -/

namespace Ebnf.Props

open Ebnf Ebnf.Spec

variable {dbg : Bool}

/-! ## C45 -/

/-- C45: when every meta-identifier, at every depth, is defined, `parse` does not panic. -/
theorem c45_no_panic {G : Language} {start : SyntaxRule} {m : Machine} (hp : ParserFor dbg G start m) (hd : AllDefined G.rules)
    {r : Reader} {here : Location} {text : Str} (hi : InputAt dbg r here text) (p : Panic) : ¬ Returns m r (.panic p) := by
  intro h
  cases (returns_iff hp hi _).mp h with
  | crashed h =>
    refine ev_no_panic (everywhere_defined hd) h ?_ _ rfl
    intro l n hn
    cases hn
    exact ⟨start, hp.start, .refl _⟩

/-- C45, whatever the grammar: the only panic is that of the look-up of an undefined meta-identifier. -/
theorem c45_only_missing {G : Language} {start : SyntaxRule} {m : Machine} (hp : ParserFor dbg G start m)
    {r : Reader} {here : Location} {text : Str} (hi : InputAt dbg r here text) (fuel : Nat) (p : Panic)
    (h : (m.parse fuel r).1 = .panic p) : p = .missing ∧ ¬ AllDefined G.rules := by
  have h := returns_of_run hp hi (fuel := fuel) h (by simp)
  refine ⟨?_, fun hd => c45_no_panic hp hd hi p h⟩
  cases (returns_iff hp hi _).mp h with
  | crashed h => exact ev_panic h _ rfl

/-- C45: no error other than these is returned: something else was expected, a repetition makes no progress, a scanner
forwards to an undefined name, or a scanner reports the error.  In particular no mark used for backtracking is invalid. -/
theorem c45_error_reasons {G : Language} {start : SyntaxRule} {m : Machine} (hp : ParserFor dbg G start m)
    {r : Reader} {here : Location} {text : Str} (hi : InputAt dbg r here text) (e : Error) (h : Returns m r (.err e)) : Reason G e :=
  (parses_good ((returns_iff hp hi _).mp h)).2

/-- Without definition of `B`, `A=[B];` compiles, and panics. -/
theorem c45_undefined_panics :
    ∃ rules start m, parseStr [] "A=[B];".toList = .ok rules ∧ ParserFor false (plainLanguage rules) start m ∧
      ¬ AllDefined rules ∧ Returns m (readerOn "b") (.panic .missing) := by
  obtain ⟨rules, start, m, h1, h2, _, h3, _⟩ := samplePlain "A=[B];" (by decide +kernel)
  have h4 := h3 "b" 100 (.panic .missing) (by decide +kernel) (by simp)
  refine ⟨rules, start, m, h1, h2, ?_, h4⟩
  intro hd
  exact c45_no_panic h2 hd (input_readerOn _) _ h4

/-- The rules `A=[B];` and `B='b';`. -/
private def optB : SyntaxRule :=
  ⟨⟨[], 1, 1⟩, ['A'], .cons (.cons (.plain (.mk 1 (.optional ⟨[], 1, 3⟩ (.cons (.cons (.plain (.mk 1
    (.metaIdentifier ⟨[], 1, 4⟩ ['B']))) .nil) .nil)))) .nil) .nil⟩
private def justB : SyntaxRule :=
  ⟨⟨[], 1, 7⟩, ['B'], .cons (.cons (.plain (.mk 1 (.terminalString ⟨[], 1, 9⟩ ['b']))) .nil) .nil⟩

example : ∃ m, ParserFor false (plainLanguage [optB, justB]) optB m ∧ AllDefined (plainLanguage [optB, justB]).rules ∧
    InputAt false (readerOn "b") (Location.new []) "b".toList := by
  obtain ⟨m, h1, _⟩ := samplePlainOf "A=[B];B='b';" optB [justB] (by decide +kernel) (by decide +kernel)
  refine ⟨m, h1, ?_, input_readerOn _⟩
  intro r hr l n hn
  simp [plainLanguage] at hr
  rcases hr with rfl | rfl
  · simp [optB, primariesOfList, primariesOfSingle, primariesOfTerm, primariesOfFactor, primariesIn] at hn
    obtain ⟨_, rfl⟩ := hn
    exact ⟨justB, by simp [plainLanguage], .refl _⟩
  · simp [justB, primariesOfList, primariesOfSingle, primariesOfTerm, primariesOfFactor, primariesIn] at hn

/-! ## C47 -/

/-- C47: the location of every error is the line and column of a position of the text (its end included), when this is so
for the errors of the scanners. -/
theorem c47_errors_point {G : Language} {start : SyntaxRule} {m : Machine} (hp : ParserFor dbg G start m) (hs : ScannersPoint G)
    {r : Reader} {here : Location} {text : Str} (hi : InputAt dbg r here text) (e : Error) (h : Returns m r (.err e)) :
    PlaceIn here text e.location := (parses_good ((returns_iff hp hi _).mp h)).1 hs

/-- C47: the scanners of the library do so. -/
theorem c47_built_in_scanners {G : Language} (h : ∀ l s, IsBuiltIn (G.special l s)) : ScannersPoint G := by
  intro l s d here rest e he
  have hb := h l s
  generalize G.special l s = f at hb he
  cases hb with
  | default => cases he
  | chars allowed min max =>
    unfold charsRecognizer at he
    simp only at he
    split at he <;> cases he
  | regex find =>
    unfold regexRecognizer at he
    cases hf : find (rest.take 257) with
    | none => rw [hf] at he; cases he
    | some x =>
      rw [hf] at he
      obtain ⟨a, b⟩ := x
      cases a with
      | succ a => cases he
      | zero =>
        simp only at he
        split at he
        · cases he
        · cases he; exact placeIn_here _ _

/-- An error after two characters, before a line end. -/
example : ∃ rules start m, parseStr [] "A='a',?x?,B;B='b'|'c';".toList = .ok rules ∧ ParserFor false (plainLanguage rules) start m ∧
    ScannersPoint (plainLanguage rules) ∧ InputAt false (readerOn "ab\nx") (Location.new []) "ab\nx".toList ∧
    Returns m (readerOn "ab\nx") (.err ⟨⟨[], 1, 3⟩, .expected "EOF".toList (.text ['\n', 'x'] false)⟩) := by
  obtain ⟨rules, start, m, h1, h2, _, h3, _⟩ := samplePlain "A='a',?x?,B;B='b'|'c';" (by decide +kernel)
  exact ⟨rules, start, m, h1, h2, c47_built_in_scanners fun _ _ => .default, input_readerOn _,
    h3 _ 100 _ (by decide +kernel) (by simp)⟩

end Ebnf.Props
