import Verif.Proofs.Origin
import Verif.Props.Grammar
import Verif.Props.Events
import Verif.Props.Scanners

set_option autoImplicit false

/-! # C76: where the events come from -/

namespace Ebnf.Props

open Ebnf Ebnf.Spec

variable {dbg : Bool}

/-- C76: every event of an accepted text tells of a place of the text and of a part of the grammar: the token of a terminal string is found in
the text at its place, begin and end events name a rule and the place of a reference to it (or of the rule itself), all others were
reported by the scanner of a special sequence for such a place.  This holds for all grammars (also for the stale events of C37). -/
theorem c76_origin {G : Language} {start : SyntaxRule} {m : Machine} (hp : ParserFor dbg G start m) {r : Reader} {here : Location}
    {text : Str} (hi : InputAt dbg r here text) {out : List Event} (h : Returns m r (.ok out)) (e : Event) (he : e ∈ out) :
    Origin G here text e := by
  have U := parser_oneMeaning hp
  cases (returns_iff hp hi _).mp h with
  | accepted h1 h2 =>
    refine ev_origin U h1 ?_ e (trimmed_mem h2 he)
    intro r' h2 hn
    rw [U.rule r' h2 start hp.start _ hn (.refl _)]
    exact .inl rfl

/-- The tokens of the scanners of the library. -/
private theorem built_in_tokens {f : Recognizer} (hb : IsBuiltIn f) {d here : Location} {rest : Str} {evs : List Event} {n : Nat}
    (h : f d here rest = .accept evs n) {e : Event} (he : e ∈ evs) : ∃ s, e = .token d here s ∧ s <+: rest := by
  cases hb with
  | default => cases h; cases he
  | chars allowed min max =>
    unfold charsRecognizer at h
    simp only at h
    split at h
    · cases h
    · injection h with h1 _
      subst h1
      rw [List.mem_singleton] at he
      exact ⟨_, he, (isGreedyRun allowed max rest).isPrefix⟩
  | regex find =>
    unfold regexRecognizer at h
    cases hf : find (rest.take 257) with
    | none => rw [hf] at h; cases h
    | some x =>
      obtain ⟨i, k⟩ := x
      rw [hf] at h
      cases i with
      | zero =>
        simp only at h
        split at h
        · injection h with h1 _
          subst h1
          rw [List.mem_singleton] at he
          exact ⟨_, he, List.take_prefix _ _⟩
        · cases h
      | succ i => cases h

/-- C76 in terms of the two texts, with the scanners of the library: every token is found in the input at its place, and its definition is the
line and column, in the text of the grammar, of that string in quotes or of a special sequence; begin and end events carry places of the input, and their
definition is the line and column, in the text of the grammar, of the name of the rule. -/
theorem c76_texts (gname gtext : Str) (rules : List SyntaxRule) (hg : parseStr gname gtext = .ok rules)
    (special : Location → Str → Recognizer) (specialName : Location → Str → Str) (hb : ∀ l s, IsBuiltIn (special l s))
    {start : SyntaxRule} {m : Machine} (hp : ParserFor dbg ⟨rules, special, specialName⟩ start m) {r : Reader} {here : Location}
    {text : Str} (hi : InputAt dbg r here text) {out : List Event} (h : Returns m r (.ok out)) (e : Event) (he : e ∈ out) :
    PointsBack gname gtext here text e := by
  have place : ∀ {p : Primary}, Occurs ⟨rules, special, specialName⟩ (.primary p) → (∀ l, p ≠ .empty l) →
      ∃ post, PlaceOf gname gtext p.location post ∧ StartsWith p post := by
    intro p ho hn
    obtain ⟨r', h1, h2⟩ := occurs_primary ho
    obtain ⟨pre, post, h3, h4, h5⟩ := (c08_rule_positions gname gtext rules hg r' h1).2 p h2 hn
    exact ⟨post, ⟨pre, h3, h4⟩, h5⟩
  have named : ∀ {r' : SyntaxRule} {definition : Location}, r' ∈ rules → RefersTo ⟨rules, special, specialName⟩ r' definition →
      ∃ post name w, PlaceOf gname gtext definition post ∧ SameName r'.metaIdentifier name ∧ w ≠ [] ∧ w <+: name ∧ w <+: post := by
    rintro r' definition h1 (rfl | ⟨name, h2, h3⟩)
    · obtain ⟨pre, post, w, h3, h4, h5, h6, h7⟩ := (c08_rule_positions gname gtext rules hg r' h1).1
      exact ⟨post, _, w, ⟨pre, h3, h4⟩, .refl _, h5, h6, h7⟩
    · obtain ⟨post, h4, w, h5, h6, h7⟩ := place h2 (by simp)
      exact ⟨post, name, w, h4, h3, h5, h6, h7⟩
  cases c76_origin hp hi h e he with
  | terminal h1 h2 =>
    obtain ⟨post, h3, h4⟩ := place h1 (by simp)
    refine ⟨⟨_, _, h2, rfl⟩, post, h3, ?_⟩
    rcases h4 with h4 | h4
    · exact .inl h4
    · exact .inr (.inl h4)
  | begin h1 h2 h3 => exact ⟨⟨_, _, h3, rfl⟩, named h1 h2⟩
  | «end» h1 h2 h3 => exact ⟨⟨_, _, h3, rfl⟩, named h1 h2⟩
  | @scanner definition s pre post evs n e h1 h2 h3 h4 =>
    obtain ⟨t, rfl, rest, h5⟩ := built_in_tokens (hb _ _) h3 h4
    obtain ⟨gpost, h6, h7⟩ := place h1 (by simp)
    refine ⟨⟨pre, rest, by rw [List.append_assoc, h5]; exact h2, rfl⟩, gpost, h6, .inr (.inr ⟨s, h7⟩)⟩

/-- A grammar over two lines with a reference, and its events: the definitions are places of the grammar text. -/
example : ∃ rules start m, parseStr [] "A=\n b b;bb='x';".toList = .ok rules ∧ ParserFor false (plainLanguage rules) start m ∧
    Returns m (readerOn "x") (.ok [.begin ⟨[], 1, 1⟩ ⟨[], 1, 1⟩ "A".toList, .begin ⟨[], 2, 2⟩ ⟨[], 1, 1⟩ "bb".toList,
      .token ⟨[], 2, 9⟩ ⟨[], 1, 1⟩ "x".toList, .end ⟨[], 2, 2⟩ ⟨[], 1, 2⟩ "bb".toList, .end ⟨[], 1, 1⟩ ⟨[], 1, 2⟩ "A".toList]) := by
  obtain ⟨rules, start, m, h1, h2, _, h3, _⟩ := samplePlain "A=\n b b;bb='x';" (by decide +kernel)
  exact ⟨rules, start, m, h1, h2, h3 _ 100 _ (by decide +kernel) (by simp)⟩

end Ebnf.Props
