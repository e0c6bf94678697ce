import Verif.Spec.Wording

set_option autoImplicit false

namespace Ebnf

open Ebnf.Spec

theorem numeral_eq (base n : Nat) (hb : 1 < base) : numeral base n = Nat.toDigits base n := by
  induction n using Nat.strongRecOn with
  | ind n ih =>
    rw [numeral, if_neg (by omega)]
    by_cases hn : n < base
    · rw [if_pos hn, Nat.toDigits_of_lt_base hn]
    · rw [if_neg hn, Nat.toDigits_of_base_le hb (by omega), ih _ (Nat.div_lt_self (by omega) hb)]

theorem escaped_eq (hidden : Char → Bool) (quote c : Char) : escaped hidden quote c = escapeChar hidden quote c := by
  unfold escaped escapeChar
  rw [numeral_eq _ _ (by decide)]
  simp only [List.lookup_cons, List.lookup_nil]
  by_cases h1 : c = '\x00'
  · subst h1; rfl
  by_cases h2 : c = '\t'
  · subst h2; rfl
  by_cases h3 : c = '\r'
  · subst h3; rfl
  by_cases h4 : c = '\n'
  · subst h4; rfl
  by_cases h5 : c = '\\'
  · subst h5; rfl
  rw [beq_eq_false_iff_ne.mpr h1, beq_eq_false_iff_ne.mpr h2, beq_eq_false_iff_ne.mpr h3, beq_eq_false_iff_ne.mpr h4,
    beq_eq_false_iff_ne.mpr h5, if_neg h1, if_neg h2, if_neg h3, if_neg h4, if_neg h5]
  by_cases h6 : c = quote
  · subst h6
    rw [beq_self_eq_true, if_pos rfl]
  · rw [beq_eq_false_iff_ne.mpr h6, if_neg h6]
    rfl

theorem quoted_text (hidden : Char → Bool) (s : Str) : (Filling.text s).quoted hidden = debugText hidden s := by
  unfold Filling.quoted debugText
  simp only [funext (escaped_eq hidden '"')]
  rfl

theorem quoted_char (hidden : Char → Bool) (c : Char) : (Filling.char c).quoted hidden = debugChar hidden c := by
  unfold Filling.quoted debugChar
  simp only [escaped_eq]
  rfl

theorem hexadecimal_char (c : Char) : (Filling.char c).hexadecimal = hex4 c := by
  unfold Filling.hexadecimal hex4
  simp only [numeral_eq 16 _ (by decide), List.length_map]
  congr 1
  generalize (Nat.toDigits 16 c.toNat).length = n
  match n with
  | 0 | 1 | 2 | 3 | 4 => rfl
  | n + 5 => rw [show 4 - (n + 5) = 0 by omega]; rfl

private def plainM : Filling → Str
  | .text s => s
  | .number n => Nat.toDigits 10 n
  | .char c => [c]

private def quotedM (hidden : Char → Bool) : Filling → Str
  | .text s => debugText hidden s
  | .number n => Nat.toDigits 10 n
  | .char c => debugChar hidden c

private def hexM : Filling → Str
  | .char c => hex4 c
  | a => a.hexadecimal

/-- `fill` with the model's ways of writing things. -/
private def fillWith (hidden : Char → Bool) : Str → List Filling → Str
  | '{' :: '}' :: rest, a :: args => plainM a ++ fillWith hidden rest args
  | '{' :: ':' :: '?' :: '}' :: rest, a :: args => quotedM hidden a ++ fillWith hidden rest args
  | '{' :: ':' :: '0' :: '4' :: 'X' :: '}' :: rest, a :: args => hexM a ++ fillWith hidden rest args
  | c :: rest, args => c :: fillWith hidden rest args
  | [], _ => []

private theorem fill_eq (hidden : Char → Bool) (t : Str) (args : List Filling) : fill hidden t args = fillWith hidden t args := by
  fun_induction fill hidden t args with
  | case1 rest a args ih =>
    rw [fillWith.eq_1, ih]
    congr 1
    cases a with
    | number n => exact numeral_eq 10 n (by decide)
    | _ => rfl
  | case2 rest a args ih =>
    rw [fillWith.eq_2, ih]
    congr 1
    cases a with
    | text s => exact quoted_text hidden s
    | number n => exact numeral_eq 10 n (by decide)
    | char c => exact quoted_char hidden c
  | case3 rest a args ih =>
    rw [fillWith.eq_3, ih]
    congr 1
    cases a with
    | char c => exact hexadecimal_char c
    | _ => rfl
  | case4 c rest args h1 h2 h3 ih => rw [fillWith.eq_4 _ _ _ _ h1 h2 h3, ih]
  | case5 => rfl

theorem place_eq (l : Location) : place l = l.display := by
  rw [place, fill_eq]
  obtain ⟨n, a, b⟩ := l
  have : n ++ ('(' :: (Nat.toDigits 10 a ++ (',' :: (Nat.toDigits 10 b ++ [')'])))) = Location.display ⟨n, a, b⟩ := by
    simp [Location.display]
  rw [← this]
  with_unfolding_all exact rfl

theorem appeared_eq (hidden : Char → Bool) (a : Actual) : appeared hidden a = a.format hidden := by
  cases a with
  | eof => rfl
  | text s more =>
    rw [appeared, quoted_text]
    cases more <;> rfl

theorem kindName_eq (n : TokenName) : (kindName n).toList = n.text := by cases n <;> rfl

private theorem at_end {x y z : Str} (h : x = y ++ z) : x = y ++ (z ++ []) := by rw [List.append_nil]; exact h

set_option maxHeartbeats 2000000 in
theorem text_wording (T : Texts) (m : Msg) : m.text T = fill T.hidden (wording T m).1.toList (wording T m).2 := by
  cases m with
  | metaIdentifierExpected n | definingExpected n | separatorExpected n | repetitionSymbolExpected n =>
    delta wording
    dsimp only
    rw [fill_eq, kindName_eq]
    delta Msg.text
    dsimp only
    simp only [String.reduceToList]
    rfl
  | bracketNotClosed n s =>
    delta wording
    dsimp only
    rw [fill_eq, kindName_eq]
    refine (List.append_assoc ..).trans ?_
    simp only [String.reduceToList]
    rfl
  | wrapped l c =>
    delta wording
    dsimp only
    rw [fill_eq, place_eq]
    have : Msg.text T (.wrapped l c) = l.display ++ (' ' :: (T.io c ++ [])) := by rw [List.append_nil]; rfl
    rw [this]
    simp only [String.reduceToList]
    rfl
  | expected s a =>
    delta wording
    dsimp only
    rw [fill_eq, appeared_eq]
    delta Msg.text
    dsimp only
    simp only [String.reduceToList]
    rfl
  | forwardUndefined n s d =>
    delta wording
    dsimp only
    rw [fill_eq, place_eq]
    have : Msg.text T (.forwardUndefined n s d) = "The non-existent meta-identifier ".toList ++ (debugText T.hidden n ++
        (" was directed by the special-sequence ".toList ++ (s ++ (" defined in ".toList ++ (d.display ++ []))))) := by
      rw [List.append_nil]; rfl
    rw [this]
    simp only [String.reduceToList]
    rfl
  | ambiguousComment s =>
    delta wording
    dsimp only
    rw [fill_eq, at_end (x := Msg.text T (.ambiguousComment s)) (y := "An ambiguous start/end-command-symbol: ".toList) rfl]
    simp only [String.reduceToList]
    rfl
  | invalidMark n =>
    delta wording
    dsimp only
    have : Msg.text T (.invalidMark n) = "The specified mark ".toList ++ (Nat.toDigits 10 n ++ (" is invalid: ".toList ++
        (T.marks n ++ []))) := by
      rw [List.append_nil]; rfl
    rw [fill_eq, this]
    simp only [String.reduceToList]
    rfl
  | ioError n =>
    delta wording
    dsimp only
    rw [fill_eq, at_end (x := Msg.text T (.ioError n)) (y := "Failed to load data: ".toList) rfl]
    simp only [String.reduceToList]
    rfl
  | streamError n =>
    delta wording
    dsimp only
    rw [fill_eq]
    have : Msg.text T (.streamError n) = T.io n ++ [] := by rw [List.append_nil]; rfl
    rw [this]
    simp only [String.reduceToList]
    rfl
  | unknownEncoding s =>
    delta wording
    dsimp only
    rw [fill_eq, at_end (x := Msg.text T (.unknownEncoding s)) (y := "Unable to recognize the specified character encoding: ".toList) rfl]
    simp only [String.reduceToList]
    rfl
  | malformedRegex n =>
    delta wording
    dsimp only
    rw [fill_eq, at_end (x := Msg.text T (.malformedRegex n)) (y := "Malformed regular expression: ".toList) rfl]
    simp only [String.reduceToList]
    rfl
  | notOpened n =>
    delta wording
    dsimp only
    rw [fill_eq, at_end (x := Msg.text T (.notOpened n)) (y := []) rfl]
    simp only [String.reduceToList]
    rfl
  | custom n =>
    delta wording
    dsimp only
    rw [fill_eq, at_end (x := Msg.text T (.custom n)) (y := []) rfl]
    simp only [String.reduceToList]
    rfl
  | _ =>
    delta wording
    dsimp only
    rw [fill_eq]
    delta Msg.text
    dsimp only
    simp only [String.reduceToList]
    rfl

end Ebnf
