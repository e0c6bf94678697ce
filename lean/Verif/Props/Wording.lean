import Verif.Proofs.Wording
import Verif.Props.ErrorText

set_option autoImplicit false

/-! # C85, continued: the wording of error messages -/

namespace Ebnf.Props

open Ebnf Ebnf.Spec

/-- C85: the text of every message is its format string, filled with the facts it states. -/
theorem c85_wording (T : Texts) (m : Msg) : m.text T = fill T.hidden (wording T m).1.toList (wording T m).2 :=
  text_wording T m

/-- C85: an error is displayed as its place, a space and its text; a place as its name, and its line and column in brackets. -/
theorem c85_display (T : Texts) (e : Error) : e.display T = place e.location ++ ' ' :: fill T.hidden (wording T e.msg).1.toList (wording T e.msg).2 := by
  rw [← text_wording, place_eq]
  rfl

/-- C85: `==` holds between two errors exactly if they are at the same place and have the same text; so for messages that the library
composes itself, exactly if they state the same facts about the same place. -/
theorem c85_same (T : Texts) (name : Str) (e e' : Error) :
    (Error.same T e e' ↔ e.location = e'.location ∧ e.msg.text T = e'.msg.text T) ∧
      (Composed e.msg → Composed e'.msg → MentionsOnly name e.msg → MentionsOnly name e'.msg → (Error.same T e e' ↔ e = e')) := by
  refine ⟨Iff.rfl, fun h h' hn hn' => ?_⟩
  unfold Error.same
  rw [c85_texts_distinct T name _ _ h h' hn hn']
  obtain ⟨l, m⟩ := e
  obtain ⟨l', m'⟩ := e'
  simp

private def plainTexts : Texts := ⟨fun _ => false, fun _ => [], fun _ => [], fun _ => [], fun _ => [], [], fun _ => []⟩

example : fill (fun _ => false) (wording plainTexts (.undefinedChar '\t')).1.toList (wording plainTexts (.undefinedChar '\t')).2 =
      "An undefined character was detected: '\\t' (U+0009)".toList ∧
    (⟨⟨['f'], 12, 3⟩, .undefinedChar '\t'⟩ : Error).display plainTexts =
      "f(12,3) An undefined character was detected: '\\t' (U+0009)".toList ∧
    (⟨⟨['f'], 12, 3⟩, .undefinedChar '😀'⟩ : Error).display plainTexts =
      "f(12,3) An undefined character was detected: '😀' (U+1F600)".toList := by
  refine ⟨?_, by decide +kernel, by decide +kernel⟩
  rw [show (fun _ => false : Char → Bool) = plainTexts.hidden from rfl, ← c85_wording]
  decide +kernel

/-- C85: tokens are shown as they are written, strings and special sequences without their quotation and question marks, gaps and
separators in quotation marks. -/
theorem c85_token_shown (hidden : Char → Bool) {t : Token} {s : Str} (h : Spelled t s) :
    match t with
    | .terminalString _ _ q => s = q :: t.debug hidden ++ [q]
    | .specialSequence .. => s = '?' :: t.debug hidden ++ ['?']
    | .gapSeparatorSequence .. => t.debug hidden = fill hidden "{:?}".toList [.text s]
    | .definitionSeparatorSymbol _ c => s = [c] ∧ t.debug hidden = fill hidden "{:?}".toList [.char c]
    | _ => t.debug hidden = s := by
  cases h <;> simp [Token.debug, fill, quoted_char, quoted_text]

/-- C85: a token of a text is at the place of its first character. -/
theorem c85_token_place (t : Token) : t.location = positionOf t := by cases t <;> rfl

/-- C85: the scanners of the library for special sequences are named in messages like this. -/
theorem c85_scanner_names (content source : Str) (find : Str → Option (Nat × Nat)) (allowed : Char → Bool) (min max : Option Nat)
    (hidden : Char → Bool) :
    (defaultScanner content).symbol = fill hidden "?{}?".toList [.text content] ∧
    (regexScanner source find).symbol = fill hidden "?{}?".toList [.text source] ∧
    (charsScanner allowed min max).symbol = "?chars?".toList := by
  refine ⟨?_, ?_, rfl⟩ <;> simp [fill, Filling.plain, defaultScanner, regexScanner]

example : Spelled (.gapSeparatorSequence ⟨[], 1, 1⟩ [' ', '\n']) [' ', '\n'] ∧
    (Token.gapSeparatorSequence ⟨[], 1, 1⟩ [' ', '\n']).debug (fun _ => false) = "\" \\n\"".toList ∧
    (Token.comment ⟨[], 1, 1⟩ ['x']).debug (fun _ => false) = "(*x*)".toList :=
  ⟨.gapSeparator _ _ _ (by decide) (by decide), by decide +kernel, by decide +kernel⟩

private theorem joined (ws : List Str) : joinComma ws = List.intercalate ", ".toList ws := by
  induction ws with
  | nil => rfl
  | cons w ws ih =>
    cases ws with
    | nil => simp [joinComma, List.intercalate]
    | cons v vs => rw [joinComma, ih]; simp [List.intercalate]; simp

/-- C85: what a choice is called in messages, from the names of its alternatives: `a`, `a or b`, `a, b, or c`, and so on. -/
theorem c85_choice (G : Language) (l : DefinitionList) :
    (∀ a, namesOfList G l = [a] → nameOfList G l = a) ∧
    (∀ a b, namesOfList G l = [a, b] → nameOfList G l = a ++ " or ".toList ++ b) ∧
    (∀ names a, 2 ≤ names.length → namesOfList G l = names ++ [a] →
      nameOfList G l = List.intercalate ", ".toList names ++ ", or ".toList ++ a) := by
  cases l with
  | nil => refine ⟨?_, ?_, ?_⟩ <;> intros <;> simp_all [namesOfList]
  | cons d l =>
    cases l with
    | nil =>
      refine ⟨fun a h => by simpa [namesOfList, nameOfList] using h, fun a b h => by simp [namesOfList] at h, fun names a h h' => ?_⟩
      have := congrArg List.length h'
      simp [namesOfList] at this
      subst this
      simp at h
    | cons d' l =>
      have e : nameOfList G (.cons d (.cons d' l)) = parallelNotation (namesOfList G (.cons d (.cons d' l))) := rfl
      rw [e]
      refine ⟨fun a h => by rw [h]; rfl, fun a b h => by rw [h]; rfl, fun names a h h' => ?_⟩
      rw [h']
      match names, h with
      | x :: y :: zs, _ =>
        have : parallelNotation (x :: y :: zs ++ [a]) =
            joinComma (x :: y :: zs ++ [a]).dropLast ++ ", or ".toList ++ (x :: y :: zs ++ [a]).getLastD [] := by
          cases zs <;> rfl
        rw [this, List.dropLast_concat, joined, List.getLastD_concat]

/-- The name of the definitions of a grammar text of one rule. -/
private def shown (text : Str) : Option Str :=
  match parseStr [] text with
  | .ok [r] => some (nameOfList ⟨[r], fun _ _ => defaultRecognizer, fun _ s => s⟩ r.definitionList)
  | _ => none

example : shown "A='x',B;".toList = some "\"x\"".toList ∧ shown "A='x',B|B;".toList = some "\"x\" or B".toList ∧
    shown "A='x',B|B|('y'|'z')|'w';".toList = some "\"x\", B, \"y\" or \"z\", or \"w\"".toList := by
  decide +kernel

end Ebnf.Props
