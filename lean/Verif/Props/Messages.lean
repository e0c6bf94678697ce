import Verif.Proofs.Messages
import Verif.Props.Errors

set_option autoImplicit false

/-! # C66: messages of parse errors tell the truth -/

namespace Ebnf.Props

open Ebnf Ebnf.Spec

variable {dbg : Bool}

/-- C66: an error "X expected, but Y appeared." that no scanner made up itself is about its place in the text: Y quotes what the text
goes on with there (its end, or its first eight characters), and X is the end of the text or a part of the grammar that
does not match there. -/
theorem c66_truthful {G : Language} {start : SyntaxRule} {m : Machine} (hp : ParserFor dbg G start m) {r : Reader} {here : Location}
    {text : Str} (hi : InputAt dbg r here text) {place : Location} {name : Str} {actual : Actual}
    (h : Returns m r (.err ⟨place, .expected name actual⟩)) :
    (∃ l s d here' rest, G.special l s d here' rest = .error ⟨place, .expected name actual⟩) ∨
      Truthful G start here text ⟨place, .expected name actual⟩ :=
  parses_tells ((returns_iff hp hi _).mp h) rfl

/-- C66: with the scanners of the library, every such error is. -/
theorem c66_library {G : Language} {start : SyntaxRule} {m : Machine} (hp : ParserFor dbg G start m)
    (hb : ∀ l s, IsBuiltIn (G.special l s)) {r : Reader} {here : Location} {text : Str} (hi : InputAt dbg r here text) {place : Location}
    {name : Str} {actual : Actual} (h : Returns m r (.err ⟨place, .expected name actual⟩)) :
    Truthful G start here text ⟨place, .expected name actual⟩ := by
  rcases c66_truthful hp hi h with ⟨l, s, d, here', rest, he⟩ | h
  · exfalso
    have hb := hb l s
    generalize G.special l s = f at hb he
    cases hb with
    | default => cases he
    | chars allowed min max =>
      unfold charsRecognizer at he
      simp only at he
      split at he <;> cases he
    | regex find =>
      unfold regexRecognizer at he
      cases hf : find (rest.take 257) with
      | none => rw [hf] at he; cases he
      | some x =>
        rw [hf] at he
        obtain ⟨a, b⟩ := x
        cases a with
        | succ a => cases he
        | zero =>
          simp only at he
          split at he <;> cases he
  · exact h

/-- C66: the end of the text is quoted iff the error is at the end, and the quotation is a prefix of what follows, with dots iff there is more. -/
theorem c66_quotation (post : Str) : (ahead post = .eof ↔ post = []) ∧
    ∀ s more, ahead post = .text s more → s ≠ [] ∧ s <+: post ∧ s.length ≤ 8 ∧ (more = false ↔ s = post) ∧ (more = true → s.length = 8) := by
  unfold ahead
  by_cases h : post = []
  · simp [h]
  · rw [if_neg h]
    by_cases h8 : post.length ≤ 8
    · rw [if_pos h8]
      refine ⟨by simp [h], ?_⟩
      rintro s more ⟨⟩
      exact ⟨h, List.prefix_rfl, h8, by simp, by simp⟩
    · rw [if_neg h8]
      refine ⟨by simp [h], ?_⟩
      rintro s more ⟨⟩
      have hl : (post.take 8).length = 8 := by rw [List.length_take]; omega
      refine ⟨?_, List.take_prefix _ _, by omega, ?_, fun _ => hl⟩
      · intro hn; rw [hn] at hl; simp at hl
      · simp only [Bool.true_eq_false, false_iff]
        intro hn; rw [hn] at hl; omega

/-- A choice fails after a line end. -/
example : ∃ rules start m, parseStr [] "A='a',{B};B=('b'|'c')-'b';".toList = .ok rules ∧
    ParserFor false (plainLanguage rules) start m ∧
    (∀ l s, IsBuiltIn ((plainLanguage rules).special l s)) ∧ InputAt false (readerOn "acc bx") (Location.new []) "acc bx".toList ∧
    Returns m (readerOn "acc bx") (.err ⟨⟨[], 1, 4⟩, .expected "EOF".toList (.text [' ', 'b', 'x'] false)⟩) ∧
    Returns m (readerOn "xyz123456") (.err ⟨⟨[], 1, 1⟩, .expected "\"a\"".toList (.text "xyz12345".toList true)⟩) := by
  obtain ⟨rules, start, m, h1, h2, _, h3, _⟩ := samplePlain "A='a',{B};B=('b'|'c')-'b';" (by decide +kernel)
  exact ⟨rules, start, m, h1, h2, fun _ _ => .default, input_readerOn _,
    h3 _ 100 _ (by decide +kernel) (by simp), h3 _ 100 _ (by decide +kernel) (by simp)⟩

end Ebnf.Props
