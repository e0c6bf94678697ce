import Verif.Proofs.Comment

set_option autoImplicit false

/-! # Lemmas about `readNext` -/

namespace Ebnf

open Spec

/-! ### `scanQuoted` -/

theorem scanQuoted_sound (q : Char) (ok : Char → Bool) (rest : Str) (n : Nat)
    (h : scanQuoted q ok rest = .ok n) :
    n ≤ rest.length ∧ (∀ c ∈ rest.take n, ok c = true ∧ c ≠ q) ∧
      (n = rest.length ∨ rest.drop n = q :: rest.drop (n + 1)) := by
  induction rest generalizing n with
  | nil => simp [scanQuoted] at h; subst h; simp
  | cons c cs ih =>
    simp only [scanQuoted] at h
    split at h
    · rename_i hc; simp at h; subst h; subst hc; simp
    · rename_i hc
      split at h
      · simp at h
      · rename_i hok
        split at h
        · rename_i m hm
          simp at h; subst h
          obtain ⟨h1, h2, h3⟩ := ih m hm
          refine ⟨by simp; omega, ?_, ?_⟩
          · intro d hd
            rw [List.take_succ_cons] at hd
            rcases List.mem_cons.mp hd with rfl | hd
            · exact ⟨by simpa using hok, hc⟩
            · exact h2 d hd
          · rcases h3 with h3 | h3
            · left; simp [h3]
            · right; simpa using h3
        · simp at h

theorem scanQuoted_complete (q : Char) (ok : Char → Bool) (s r : Str)
    (h : ∀ c ∈ s, ok c = true ∧ c ≠ q) : scanQuoted q ok (s ++ q :: r) = .ok s.length := by
  induction s with
  | nil => simp [scanQuoted]
  | cons c cs ih =>
    have hc := h c (by simp)
    simp only [List.cons_append, scanQuoted]
    rw [if_neg hc.2, if_neg (by simp [hc.1]), ih (fun d hd => h d (by simp [hd]))]
    simp

theorem scanQuoted_extend (q : Char) (ok : Char → Bool) (rest more : Str)
    (h : scanQuoted q ok rest ≠ .ok rest.length) :
    scanQuoted q ok (rest ++ more) = scanQuoted q ok rest := by
  induction rest with
  | nil => exact absurd rfl h
  | cons c cs ih =>
    simp only [List.cons_append, scanQuoted] at *
    split
    · rfl
    · split
      · rfl
      · rw [ih]
        intro he
        rename_i h1 h2
        rw [if_neg h1, if_neg h2, he] at h
        simp at h

/-! ### `readWhile` -/

theorem takeWhile_length_le {α : Type} (p : α → Bool) (l : List α) : (l.takeWhile p).length ≤ l.length :=
  List.Sublist.length_le (List.takeWhile_sublist _)

theorem takeWhile_eq_take {α : Type} (p : α → Bool) (l : List α) :
    l.take (l.takeWhile p).length = l.takeWhile p := by
  induction l with
  | nil => rfl
  | cons c l ih =>
    by_cases hc : p c = true
    · simp [hc, ih]
    · simp [hc]

theorem drop_takeWhile_length {α : Type} (p : α → Bool) (l : List α) :
    l.drop (l.takeWhile p).length = l.dropWhile p := by
  induction l with
  | nil => rfl
  | cons c l ih =>
    by_cases hc : p c = true
    · simp [hc, ih]
    · simp [hc]

theorem readWhile_sound (rest : Str) (p : Char → Bool) (fl : Bool) (n : Nat)
    (h : readWhile rest p fl = some n) :
    n ≤ rest.length ∧ (∀ c ∈ rest.take n, p c = true) ∧
      (∀ c, (rest.drop n).head? = some c → p c = false) ∧ (fl = false → rest.drop n ≠ []) := by
  simp only [readWhile] at h
  split at h
  · simp at h
  · rename_i hc
    simp at h; subst h
    refine ⟨takeWhile_length_le _ _, ?_, ?_, ?_⟩
    · rw [takeWhile_eq_take]
      intro c hc
      exact List.all_eq_true.mp List.all_takeWhile c hc
    · intro c hcc
      rw [drop_takeWhile_length] at hcc
      have := List.head?_dropWhile_not (p := p) rest
      rw [hcc] at this
      simpa using this
    · intro hf he
      subst hf
      simp at hc
      have := congrArg List.length he
      simp at this
      have := takeWhile_length_le p rest
      omega

theorem takeWhile_append_stop {α : Type} (p : α → Bool) (s r : List α) (hs : ∀ c ∈ s, p c = true)
    (hr : ∀ c, r.head? = some c → p c = false) : (s ++ r).takeWhile p = s := by
  induction s with
  | nil =>
    cases r with
    | nil => rfl
    | cons c r => simp [hr c rfl]
  | cons c s ih =>
    simp [hs c (by simp), ih (fun d hd => hs d (by simp [hd]))]

theorem readWhile_complete (s r : Str) (p : Char → Bool) (fl : Bool) (hs : ∀ c ∈ s, p c = true)
    (hr : ∀ c, r.head? = some c → p c = false) (hf : fl = true ∨ r ≠ []) :
    readWhile (s ++ r) p fl = some s.length := by
  simp only [readWhile, takeWhile_append_stop p s r hs hr]
  rw [if_neg]
  rcases hf with hf | hf
  · simp [hf]
  · simp only [List.length_append, Bool.and_eq_true, Bool.not_eq_true', beq_iff_eq, not_and]
    intro _
    have := List.length_pos_iff.mpr hf
    omega

/-! ### Distinguishing characters -/

theorem ne_of_letter {c d : Char} (h : IsLetter c) (hd : ¬ IsLetter d) : c ≠ d := fun e => hd (e ▸ h)
theorem ne_of_digit {c d : Char} (h : IsDigit c) (hd : ¬ IsDigit d) : c ≠ d := fun e => hd (e ▸ h)
theorem ne_of_gap {c d : Char} (h : c ∈ gapChars) (hd : d ∉ gapChars) : c ≠ d := fun e => hd (e ▸ h)

/-- The punctuation characters `readNext` looks for. -/
def punct : List Char :=
  [',', '=', '|', '!', ';', '.', '-', ')', '[', ']', '{', '}', '\'', '"', '(', '/', ':', '*', '?']

theorem punct_not_class : ∀ d ∈ punct, ¬ IsLetter d ∧ ¬ IsDigit d ∧ d ∉ gapChars := by decide

theorem readNext_word {c : Char} (hc : c ∉ punct) (loc : Location) (cs : Str) (flush : Bool) :
    readNext loc (c :: cs) flush =
      if !flush && cs.isEmpty then .ok none
      else if isMetaIdentifierFirstChar c then
        .ok ((readWhile cs isMetaIdentifierChar flush).map fun n =>
          (.metaIdentifier loc (c :: cs.take n), n + 1))
      else if isDecimalDigitChar c then
        .ok ((readWhile cs isDecimalDigitChar flush).map fun n =>
          (.integer loc (c :: cs.take n), n + 1))
      else if isGapChar c then
        .ok ((readWhile cs isGapChar flush).map fun n =>
          (.gapSeparatorSequence loc (c :: cs.take n), n + 1))
      else .fail loc (.undefinedChar c) := by
  simp only [punct, List.mem_cons, List.not_mem_nil, or_false, not_or] at hc
  obtain ⟨h1, h2, h3, h4, h5, h6, h7, h8, h9, h10, h11, h12, h13, h14, h15, h16, h17, h18, h19⟩ := hc
  simp only [readNext, h1, h2, h3, h4, h5, h6, h7, h8, h9, h10, h11, h12, h13, h14, h15, h16, h17, h18, h19,
    if_false, or_self]

theorem letter_not_punct {c : Char} (h : IsLetter c) : c ∉ punct :=
  fun hp => (punct_not_class c hp).1 h
theorem digit_not_punct {c : Char} (h : IsDigit c) : c ∉ punct :=
  fun hp => (punct_not_class c hp).2.1 h
theorem gap_not_punct {c : Char} (h : c ∈ gapChars) : c ∉ punct :=
  fun hp => (punct_not_class c hp).2.2 h

theorem digit_not_letter {c : Char} (h : IsDigit c) : ¬ IsLetter c := by
  unfold IsDigit IsLetter at *
  simp only [Char.le_def, UInt32.le_iff_toNat_le] at *
  have e1 : ('0' : Char).val.toNat = 48 := rfl
  have e2 : ('9' : Char).val.toNat = 57 := rfl
  have e3 : ('a' : Char).val.toNat = 97 := rfl
  have e4 : ('A' : Char).val.toNat = 65 := rfl
  omega

theorem gap_not_letter_digit : ∀ c ∈ gapChars, ¬ IsLetter c ∧ ¬ IsDigit c := by decide

/-! ### Completeness: a spelled token that ends is read -/

/-- `ReadsAs loc s r tk`: from `s ++ r` the token `tk`, spelled `s`, is read; when nothing follows, it
may be that the decision is postponed to the flush. -/
def ReadsAs (loc : Location) (s r : Str) (tk : Token) : Prop :=
  readNext loc (s ++ r) false = .ok (some (tk, s.length)) ∨
    (r = [] ∧ readNext loc s false = .ok none ∧ readNext loc s true = .ok (some (tk, s.length)))

theorem readNext_complete {tk : Token} {s : Str} (hsp : Spelled tk s) (r : Str)
    (hend : Ends tk r.head?) : ReadsAs (positionOf tk) s r tk := by
  unfold ReadsAs
  cases hsp with
  | repetition l =>
    cases r with
    | nil => right; simp [readNext, positionOf]
    | cons d r => left; simp [Ends] at hend; simp [readNext, positionOf, hend]
  | except l => left; simp [readNext, positionOf]
  | concatenate l => left; simp [readNext, positionOf]
  | separator l c hc =>
    simp only [List.mem_cons, List.not_mem_nil, or_false] at hc
    rcases hc with rfl | rfl | rfl
    · left; simp [readNext, positionOf]
    · cases r with
      | nil => right; simp [readNext, positionOf]
      | cons d r => left; simp [Ends] at hend; simp [readNext, positionOf, hend]
    · left; simp [readNext, positionOf]
  | defining l => left; simp [readNext, positionOf]
  | terminator l c hc =>
    simp only [List.mem_cons, List.not_mem_nil, or_false] at hc
    rcases hc with rfl | rfl <;> (left; simp [readNext, positionOf])
  | startOption l s hs =>
    simp only [List.mem_cons, List.not_mem_nil, or_false] at hs
    rcases hs with rfl | rfl <;> (left; simp [readNext, positionOf])
  | endOption l s hs =>
    simp only [List.mem_cons, List.not_mem_nil, or_false] at hs
    rcases hs with rfl | rfl <;> (left; simp [readNext, positionOf])
  | startRepeat l s hs =>
    simp only [List.mem_cons, List.not_mem_nil, or_false] at hs
    rcases hs with rfl | rfl <;> (left; simp [readNext, positionOf])
  | endRepeat l s hs =>
    simp only [List.mem_cons, List.not_mem_nil, or_false] at hs
    rcases hs with rfl | rfl <;> (left; simp [readNext, positionOf])
  | startGroup l =>
    cases r with
    | nil => right; simp [readNext, positionOf]
    | cons d r => left; simp [Ends] at hend; simp [readNext, positionOf, hend]
  | endGroup l => left; simp [readNext, positionOf]
  | metaIdentifier l c s hc hs =>
    have hs' : ∀ d ∈ s, isMetaIdentifierChar d = true := fun d hd => (isMetaIdentifierChar_iff d).mpr (hs d hd)
    have hf : isMetaIdentifierFirstChar c = true := (isLetterChar_iff c).mpr hc
    cases r with
    | nil =>
      right
      refine ⟨rfl, ?_, ?_⟩
      · rw [readNext_word (letter_not_punct hc)]
        simp only [hf, if_true]
        split
        · rfl
        · have := takeWhile_append_stop isMetaIdentifierChar s [] hs' (by simp)
          rw [List.append_nil] at this
          simp [readWhile, this]
      · rw [readNext_word (letter_not_punct hc)]
        have := readWhile_complete s [] isMetaIdentifierChar true hs' (by simp) (.inl rfl)
        rw [List.append_nil] at this
        simp [hf, this, positionOf]
    | cons d r =>
      left
      have hd : isMetaIdentifierChar d = false := by
        simp only [Ends, List.head?_cons] at hend
        rw [Bool.eq_false_iff]; intro h
        rcases (isMetaIdentifierChar_iff d).mp h with h | h
        · exact hend.1 h
        · exact hend.2 h
      rw [List.cons_append, readNext_word (letter_not_punct hc)]
      rw [readWhile_complete s (d :: r) isMetaIdentifierChar false hs' (by simp [hd]) (.inr (by simp))]
      simp [hf, positionOf]
  | terminalString l s q hq hne hs =>
    left
    have hsc := scanQuoted_complete q isTerminalChar s r
      (fun c hc => ⟨(isTerminalChar_iff c).mpr (hs c hc).1, (hs c hc).2⟩)
    have hl : s.length ≠ 0 := by simpa using hne
    simp only [List.mem_cons, List.not_mem_nil, or_false] at hq
    rcases hq with rfl | rfl
    · simp [readNext, terminalString, hsc, positionOf, hne]
    · simp [readNext, terminalString, hsc, positionOf, hne]
  | integer l c s hc hs =>
    have hs' : ∀ d ∈ s, isDecimalDigitChar d = true := fun d hd => (isDecimalDigitChar_iff d).mpr (hs d hd)
    have hf : isDecimalDigitChar c = true := (isDecimalDigitChar_iff c).mpr hc
    have hf' : isMetaIdentifierFirstChar c = false := by
      rw [Bool.eq_false_iff]; intro h; exact digit_not_letter hc ((isLetterChar_iff c).mp h)
    cases r with
    | nil =>
      right
      refine ⟨rfl, ?_, ?_⟩
      · rw [readNext_word (digit_not_punct hc)]
        simp only [hf, hf', if_true]
        split
        · rfl
        · have := takeWhile_append_stop isDecimalDigitChar s [] hs' (by simp)
          rw [List.append_nil] at this
          simp [readWhile, this]
      · rw [readNext_word (digit_not_punct hc)]
        have := readWhile_complete s [] isDecimalDigitChar true hs' (by simp) (.inl rfl)
        rw [List.append_nil] at this
        simp [hf, hf', this, positionOf]
    | cons d r =>
      left
      have hd : isDecimalDigitChar d = false := by
        simp only [Ends, List.head?_cons] at hend
        rw [Bool.eq_false_iff]; intro h
        exact hend ((isDecimalDigitChar_iff d).mp h)
      rw [List.cons_append, readNext_word (digit_not_punct hc)]
      rw [readWhile_complete s (d :: r) isDecimalDigitChar false hs' (by simp [hd]) (.inr (by simp))]
      simp [hf, hf', positionOf]
  | comment l s hs =>
    left
    have hb := commentBody_of_text s hs
    have hl := commentLoop_complete (l.pushStr ['(', '*']) 0 '*' (s ++ ['*']) r hb
    have hh := commentText_head s hs
    have hh' : s.head?.getD '*' ≠ ')' := by
      cases s with
      | nil => simp
      | cons c s => simpa using hh
    rw [List.append_assoc, List.singleton_append] at hl
    simp at hl
    simp [readNext, positionOf, commentToken, hh', hl]
  | specialSequence l s hs =>
    left
    have hsc := scanQuoted_complete '?' isSpecialSequenceChar s r
      (fun c hc => ⟨(isSpecialSequenceChar_iff c).mpr (hs c hc), (hs c hc).2⟩)
    simp [readNext, specialSequence, hsc, positionOf]
  | gapSeparator l c s hc hs =>
    have hs' : ∀ d ∈ s, isGapChar d = true := fun d hd => (isGapChar_iff d).mpr (hs d hd)
    have hf : isGapChar c = true := (isGapChar_iff c).mpr hc
    have hf' : isMetaIdentifierFirstChar c = false := by
      rw [Bool.eq_false_iff]; intro h; exact (gap_not_letter_digit c hc).1 ((isLetterChar_iff c).mp h)
    have hf'' : isDecimalDigitChar c = false := by
      rw [Bool.eq_false_iff]; intro h; exact (gap_not_letter_digit c hc).2 ((isDecimalDigitChar_iff c).mp h)
    cases r with
    | nil =>
      right
      refine ⟨rfl, ?_, ?_⟩
      · rw [readNext_word (gap_not_punct hc)]
        simp only [hf, hf', hf'', if_true]
        split
        · rfl
        · have := takeWhile_append_stop isGapChar s [] hs' (by simp)
          rw [List.append_nil] at this
          simp [readWhile, this]
      · rw [readNext_word (gap_not_punct hc)]
        have := readWhile_complete s [] isGapChar true hs' (by simp) (.inl rfl)
        rw [List.append_nil] at this
        simp [hf, hf', hf'', this, positionOf]
    | cons d r =>
      left
      have hd : isGapChar d = false := by
        simp only [Ends, List.head?_cons] at hend
        rw [Bool.eq_false_iff]; intro h
        exact hend ((isGapChar_iff d).mp h)
      rw [List.cons_append, readNext_word (gap_not_punct hc)]
      rw [readWhile_complete s (d :: r) isGapChar false hs' (by simp [hd]) (.inr (by simp))]
      simp [hf, hf', hf'', positionOf]

/-! ### Soundness: what is read is a spelled token that ends -/

/-- What a successful `readNext` guarantees. -/
structure ReadOk (loc : Location) (rest : Str) (flush : Bool) (tk : Token) (n : Nat) : Prop where
  pos : 0 < n
  le : n ≤ rest.length
  spelled : Spelled tk (rest.take n)
  position : positionOf tk = loc
  ends : flush = false → Ends tk (rest.drop n).head?
  closed : flush = false → rest.drop n = [] → ∀ o, Ends tk o

theorem readOk_mk {loc : Location} {s r : Str} {flush : Bool} {tk : Token} (hne : s ≠ [])
    (h : Spelled tk s) (hp : positionOf tk = loc)
    (he : flush = false → Ends tk r.head?) (hc : flush = false → r = [] → ∀ o, Ends tk o) :
    ReadOk loc (s ++ r) flush tk s.length :=
  ⟨List.length_pos_iff.mpr hne, by simp, by simpa using h, hp, by simpa using he, by simpa using hc⟩

theorem readNext_sound (loc : Location) (rest : Str) (flush : Bool) (tk : Token) (n : Nat)
    (h : readNext loc rest flush = .ok (some (tk, n))) : ReadOk loc rest flush tk n := by
  cases rest with
  | nil => simp [readNext] at h
  | cons c cs =>
    by_cases hp : c ∈ punct
    · simp only [punct, List.mem_cons, List.not_mem_nil, or_false] at hp
      have done : ∀ (s r : Str), c :: cs = s ++ r → s ≠ [] → n = s.length → Spelled tk s →
          positionOf tk = loc → (flush = false → Ends tk r.head?) →
          (flush = false → r = [] → ∀ o, Ends tk o) → ReadOk loc (c :: cs) flush tk n := by
        intro s r e hne hn h1 h2 h3 h4
        rw [e, hn]; exact readOk_mk hne h1 h2 h3 h4
      rcases hp with rfl | rfl | rfl | rfl | rfl | rfl | rfl | rfl | rfl | rfl | rfl | rfl | rfl | rfl |
        rfl | rfl | rfl | rfl | rfl
      -- single characters decided at once
      iterate 12
        · simp [readNext] at h
          obtain ⟨rfl, rfl⟩ := h
          refine done [_] cs rfl (by simp) rfl ?_ rfl (fun _ => ?_) (fun _ _ _ => ?_)
          · constructor <;> simp
          · simp [Ends]
          · simp [Ends]
      -- quotes
      iterate 2
        · simp only [readNext] at h
          simp at h
          split at h
          · simp at h
          · simp only [terminalString] at h
            split at h
            · simp [Res.fail] at h
            · rename_i m hm
              obtain ⟨h1, h2, h3⟩ := scanQuoted_sound _ _ _ _ hm
              split at h
              · split at h <;> simp [Res.fail] at h
              · rename_i hne
                simp at hne
                split at h
                · simp [Res.fail] at h
                · rename_i hm0
                  simp at h hm0
                  obtain ⟨rfl, rfl⟩ := h
                  have h3 := h3.resolve_left hne
                  refine done (_ :: cs.take m ++ [_]) (cs.drop (m + 1)) ?_ (by simp) (by simp; omega)
                    (.terminalString _ _ _ (by simp) ?_ ?_) rfl (fun _ => ?_) (fun _ _ _ => ?_)
                  · conv => lhs; rw [← List.take_append_drop m cs, h3]
                    simp
                  · intro e
                    have := congrArg List.length e
                    simp at this
                    have hl : cs ≠ [] := by rintro rfl; simp at h1; exact hm0 h1
                    rcases this with h | h
                    · exact hm0 h
                    · exact hl h
                  · intro d hd
                    exact ⟨(isTerminalChar_iff d).mp (h2 d hd).1, (h2 d hd).2⟩
                  · simp [Ends]
                  · simp [Ends]
      -- (
      · simp [readNext] at h
        cases cs with
        | nil =>
          cases flush with
          | false => simp at h
          | true =>
          simp at h
          obtain ⟨rfl, rfl⟩ := h
          exact done ['('] [] rfl (by simp) rfl (.startGroup _) rfl (by simp) (by simp)
        | cons d ds =>
          simp at h
          split at h
          · rename_i hd
            subst hd
            split at h
            · simp [Res.fail] at h
            · rename_i hds
              simp only [commentToken] at h
              split at h
              · split at h <;> simp [Res.fail] at h
              · rename_i m hm
                simp at h
                obtain ⟨rfl, rfl⟩ := h
                obtain ⟨h1, h2, h3⟩ := commentLoop_sound _ _ _ _ _ hm
                have hm0 : ds.take m ≠ [] := by
                  intro e
                  have hm1 : m = 0 := by
                    have := congrArg List.length e; simp at this
                    rcases this with h | h
                    · exact h
                    · subst h; simp at h1
                  subst hm1
                  simp at h2
                  rw [h2] at hds; simp at hds
                obtain ⟨t, ht1, ht2⟩ := commentBody_last _ h3 hm0
                have ht : t = ds.take (m - 1) := by
                  have h4 : (ds.take m).take (m - 1) = t := by
                    rw [ht1]
                    have : t.length = m - 1 := by
                      have := congrArg List.length ht1
                      simp at this; omega
                    rw [← this]; simp
                  rw [List.take_take] at h4
                  rw [← h4]; congr 1; omega
                rw [← ht] at done ⊢
                refine done ('(' :: '*' :: t ++ ['*', ')']) (ds.drop (m + 1)) ?_ (by simp) ?_
                  (.comment _ _ ht2) rfl (fun _ => ?_) (fun _ _ _ => ?_)
                · have e : ds = ds.take m ++ ds.drop m := (List.take_append_drop _ _).symm
                  rw [ht1, h2] at e
                  conv => lhs; rw [e]
                  simp
                · have := congrArg List.length ht1
                  simp at this ⊢; omega
                · simp [Ends]
                · simp [Ends]
              · simp [Res.fail] at h
          · rename_i hd
            split at h
            · rename_i hd2; subst hd2
              simp at h; obtain ⟨rfl, rfl⟩ := h
              exact done ['(', '/'] ds rfl (by simp) rfl (.startOption _ _ (by simp)) rfl (by simp [Ends]) (by simp [Ends])
            · split at h
              · rename_i hd3; subst hd3
                simp at h; obtain ⟨rfl, rfl⟩ := h
                exact done ['(', ':'] ds rfl (by simp) rfl (.startRepeat _ _ (by simp)) rfl (by simp [Ends]) (by simp [Ends])
              · rename_i hd2 hd3
                simp at h; obtain ⟨rfl, rfl⟩ := h
                exact done ['('] (d :: ds) rfl (by simp) rfl (.startGroup _) rfl
                  (by simp [Ends, hd, hd2, hd3]) (by simp)
      -- /
      · simp [readNext] at h
        split at h
        · simp at h
        · rename_i hcs
          split at h
          · rename_i hf
            simp at h; obtain ⟨rfl, rfl⟩ := h
            obtain ⟨hf, hd⟩ := hf
            cases cs with
            | nil => simp at hd
            | cons d ds =>
              simp at hd; subst hd
              exact done ['/', ')'] ds rfl (by simp) rfl (.endOption _ _ (by simp)) rfl (by simp [Ends]) (by simp [Ends])
          · rename_i hf
            simp at h; obtain ⟨rfl, rfl⟩ := h
            refine done ['/'] cs rfl (by simp) rfl (.separator _ _ (by simp)) rfl (fun hfl => ?_) (fun hfl hn => ?_)
            · cases cs with
              | nil => simp [Ends]
              | cons d ds => simp [hfl] at hf; simpa [Ends] using hf
            · simp [hfl, hn] at hcs
      -- :
      · simp [readNext] at h
        split at h
        · simp at h
        · split at h
          · rename_i hf
            simp at h; obtain ⟨rfl, rfl⟩ := h
            obtain ⟨hf, hd⟩ := hf
            cases cs with
            | nil => simp at hd
            | cons d ds =>
              simp at hd; subst hd
              exact done [':', ')'] ds rfl (by simp) rfl (.endRepeat _ _ (by simp)) rfl (by simp [Ends]) (by simp [Ends])
          · simp [Res.fail] at h
      -- *
      · simp [readNext] at h
        split at h
        · simp at h
        · rename_i hcs
          split at h
          · simp [Res.fail] at h
          · rename_i hf
            simp at h; obtain ⟨rfl, rfl⟩ := h
            refine done ['*'] cs rfl (by simp) rfl (.repetition _) rfl (fun hfl => ?_) (fun hfl hn => ?_)
            · cases cs with
              | nil => simp [Ends]
              | cons d ds => simp [hfl] at hf; simpa [Ends] using hf
            · simp [hfl, hn] at hcs
      -- ?
      · simp [readNext] at h
        split at h
        · simp at h
        · simp only [specialSequence] at h
          split at h
          · simp [Res.fail] at h
          · rename_i m hm
            obtain ⟨h1, h2, h3⟩ := scanQuoted_sound _ _ _ _ hm
            split at h
            · split at h <;> simp [Res.fail] at h
            · rename_i hne
              simp at h hne
              obtain ⟨rfl, rfl⟩ := h
              have h3 := h3.resolve_left hne
              refine done ('?' :: cs.take m ++ ['?']) (cs.drop (m + 1)) ?_ (by simp) (by simp; omega)
                (.specialSequence _ _ ?_) rfl (fun _ => ?_) (fun _ _ _ => ?_)
              · conv => lhs; rw [← List.take_append_drop m cs, h3]
                simp
              · intro d hd
                exact (isSpecialSequenceChar_iff d).mp (h2 d hd).1
              · simp [Ends]
              · simp [Ends]
    · rw [readNext_word hp] at h
      split at h
      · simp at h
      · rename_i hcs
        have word : ∀ (p : Char → Bool) (mk : Str → Token) (m : Nat),
            readWhile cs p flush = some m → tk = mk (c :: cs.take m) → n = m + 1 →
            ((∀ d ∈ cs.take m, p d = true) → Spelled tk (c :: cs.take m)) → positionOf tk = loc →
            ((∀ d, (cs.drop m).head? = some d → p d = false) → Ends tk (cs.drop m).head?) →
            ReadOk loc (c :: cs) flush tk n := by
          intro p mk m hm e hn hs hpos he
          obtain ⟨h1, h2, h3, h4⟩ := readWhile_sound _ _ _ _ hm
          subst hn
          refine ⟨by omega, by simp; omega, by simpa using hs h2, hpos, fun _ => by simpa using he h3, ?_⟩
          intro hf hn
          simp at hn
          exact absurd (by simpa using hn) (h4 hf)
        split at h
        · rename_i hc
          cases hw : readWhile cs isMetaIdentifierChar flush with
          | none => simp [hw] at h
          | some m =>
            simp [hw] at h
            obtain ⟨rfl, rfl⟩ := h
            refine word _ (.metaIdentifier loc) m hw rfl rfl
              (fun hs => .metaIdentifier _ _ _ ((isLetterChar_iff c).mp hc) (fun d hd => (isMetaIdentifierChar_iff d).mp (hs d hd)))
              rfl (fun he => ?_)
            cases hd : (cs.drop m).head? with
            | none => simp [Ends]
            | some d =>
              have := he d hd
              simp only [Ends]
              constructor
              · intro h; rw [(isMetaIdentifierChar_iff d).mpr (.inl h)] at this; simp at this
              · intro h; rw [(isMetaIdentifierChar_iff d).mpr (.inr h)] at this; simp at this
        · split at h
          · rename_i hc
            cases hw : readWhile cs isDecimalDigitChar flush with
            | none => simp [hw] at h
            | some m =>
              simp [hw] at h
              obtain ⟨rfl, rfl⟩ := h
              refine word _ (.integer loc) m hw rfl rfl
                (fun hs => .integer _ _ _ ((isDecimalDigitChar_iff c).mp hc) (fun d hd => (isDecimalDigitChar_iff d).mp (hs d hd)))
                rfl (fun he => ?_)
              cases hd : (cs.drop m).head? with
              | none => simp [Ends]
              | some d =>
                have := he d hd
                simp only [Ends]
                intro h; rw [(isDecimalDigitChar_iff d).mpr h] at this; simp at this
          · split at h
            · rename_i hc
              cases hw : readWhile cs isGapChar flush with
              | none => simp [hw] at h
              | some m =>
                simp [hw] at h
                obtain ⟨rfl, rfl⟩ := h
                refine word _ (.gapSeparatorSequence loc) m hw rfl rfl
                  (fun hs => .gapSeparator _ _ _ ((isGapChar_iff c).mp hc) (fun d hd => (isGapChar_iff d).mp (hs d hd)))
                  rfl (fun he => ?_)
                cases hd : (cs.drop m).head? with
                | none => simp [Ends]
                | some d =>
                  have := he d hd
                  simp only [Ends]
                  intro h; rw [(isGapChar_iff d).mpr h] at this; simp at this
            · simp [Res.fail] at h

/-- A decided token stays decided when more input arrives. -/
theorem readNext_some_extend (loc : Location) (rest more : Str) (tk : Token) (n : Nat)
    (h : readNext loc rest false = .ok (some (tk, n))) :
    readNext loc (rest ++ more) false = .ok (some (tk, n)) := by
  have hr := readNext_sound _ _ _ _ _ h
  have hend : Ends tk ((rest.drop n) ++ more).head? := by
    cases hd : rest.drop n with
    | nil => exact hr.closed rfl hd _
    | cons c cs => have := hr.ends rfl; rw [hd] at this; simpa using this
  have := readNext_complete hr.spelled _ hend
  have hl : (rest.take n).length = n := by rw [List.length_take]; exact Nat.min_eq_left hr.le
  rw [hr.position] at this
  rcases this with h1 | ⟨h1, h2, _⟩
  · rwa [← List.append_assoc, List.take_append_drop, hl] at h1
  · simp at h1
    have hrest : rest.take n = rest := List.take_of_length_le h1.1
    rw [hrest, h] at h2
    simp at h2

/-- A decided error stays decided when more input arrives. -/
theorem readNext_err_extend (loc : Location) (rest more : Str) (e : Error)
    (h : readNext loc rest false = .err e) : readNext loc (rest ++ more) false = .err e := by
  cases rest with
  | nil => simp [readNext] at h
  | cons c cs =>
    by_cases hp : c ∈ punct
    · simp only [punct, List.mem_cons, List.not_mem_nil, or_false] at hp
      rcases hp with rfl | rfl | rfl | rfl | rfl | rfl | rfl | rfl | rfl | rfl | rfl | rfl | rfl | rfl |
        rfl | rfl | rfl | rfl | rfl
      iterate 12
        · simp [readNext] at h
      iterate 2
        · simp [readNext] at h ⊢
          split at h
          · simp at h
          · rename_i hcs
            rw [if_neg (by simp [hcs])]
            simp only [terminalString] at h ⊢
            cases hs : scanQuoted _ isTerminalChar cs with
            | error d =>
              rw [hs] at h
              rw [scanQuoted_extend _ _ _ _ (by rw [hs]; simp), hs]; exact h
            | ok m =>
              rw [hs] at h
              simp only at h
              split at h
              · simp at h
              · rename_i hm
                have hm' : m ≠ cs.length := by simpa using hm
                have hle := (scanQuoted_sound _ _ _ _ hs).1
                rw [scanQuoted_extend _ _ _ _ (by rw [hs]; simpa using hm'), hs]
                simp only
                rw [if_neg (by simp; omega)]
                split at h
                · rename_i h0; rw [if_pos h0]; exact h
                · simp at h
      · simp [readNext] at h ⊢
        cases cs with
        | nil => simp at h
        | cons d ds =>
          simp at h ⊢
          split at h
          · rename_i hd
            rw [if_pos hd]
            split at h
            · rename_i hds
              rw [if_pos (by simp [hds])]; exact h
            · rename_i hds
              simp only [commentToken] at h
              have hop : commentLoop (loc.pushStr ['(', '*']) 0 '*' ds ≠ .open := by
                intro ho; rw [ho] at h; simp at h
              have hne : ds ≠ [] := by rintro rfl; exact hop rfl
              rw [if_neg]
              · simp only [commentToken]
                rw [commentLoop_extend _ _ _ _ _ hop]
                cases hc : commentLoop (loc.pushStr ['(', '*']) 0 '*' ds with
                | «open» => exact absurd hc hop
                | closed n => rw [hc] at h; simp at h
                | bad l c => rw [hc] at h; exact h
              · cases ds with
                | nil => exact absurd rfl hne
                | cons x xs => simpa using hds
          · rename_i hd
            rw [if_neg hd]
            split at h
            · simp at h
            · split at h <;> simp at h
      · simp [readNext] at h ⊢
        split at h
        · simp at h
        · split at h <;> simp at h
      · simp [readNext] at h ⊢
        cases cs with
        | nil => simp at h
        | cons d ds =>
          simp at h ⊢
          exact h
      · simp [readNext] at h ⊢
        cases cs with
        | nil => simp at h
        | cons d ds =>
          simp at h ⊢
          exact h
      · simp [readNext] at h ⊢
        split at h
        · simp at h
        · rename_i hcs
          rw [if_neg (by simp [hcs])]
          simp only [specialSequence] at h ⊢
          cases hs : scanQuoted _ isSpecialSequenceChar cs with
          | error d =>
            rw [hs] at h
            rw [scanQuoted_extend _ _ _ _ (by rw [hs]; simp), hs]; exact h
          | ok m =>
            rw [hs] at h
            simp only at h
            split at h
            · simp at h
            · simp at h
    · rw [readNext_word hp] at h
      rw [List.cons_append, readNext_word hp]
      split at h
      · simp at h
      · rename_i hcs
        simp at hcs
        rw [if_neg (by simp [hcs])]
        split at h
        · simp at h
        · rename_i h1
          rw [if_neg h1]
          split at h
          · simp at h
          · rename_i h2
            rw [if_neg h2]
            split at h
            · simp at h
            · rename_i h3
              rw [if_neg h3]; exact h

/-- The outcome is a value or an error. -/
def Settled {α : Type} (r : Res α) : Prop := (∃ a, r = .ok a) ∨ (∃ e, r = .err e)

theorem settled_ok {α : Type} (a : α) : Settled (.ok a) := .inl ⟨a, rfl⟩
theorem settled_err {α : Type} (e : Error) : Settled (.err e : Res α) := .inr ⟨e, rfl⟩
theorem settled_fail {α : Type} (l : Location) (m : Msg) : Settled (.fail l m : Res α) := .inr ⟨_, rfl⟩
theorem settled_ite {α : Type} {c : Prop} [Decidable c] {x y : Res α} (hx : Settled x) (hy : Settled y) :
    Settled (if c then x else y) := by split <;> assumption

theorem terminalString_settled (loc : Location) (q : Char) (rest : Str) (flush : Bool) :
    Settled (terminalString loc q rest flush) := by
  unfold terminalString
  split
  · exact settled_fail _ _
  · exact settled_ite (settled_ite (settled_fail _ _) (settled_ok _))
      (settled_ite (settled_fail _ _) (settled_ok _))

theorem specialSequence_settled (loc : Location) (rest : Str) (flush : Bool) :
    Settled (specialSequence loc rest flush) := by
  unfold specialSequence
  split
  · exact settled_fail _ _
  · exact settled_ite (settled_ite (settled_fail _ _) (settled_ok _)) (settled_ok _)

theorem commentToken_settled (loc : Location) (rest : Str) (flush : Bool) :
    Settled (commentToken loc rest flush) := by
  unfold commentToken
  split
  · exact settled_ite (settled_fail _ _) (settled_ok _)
  · exact settled_ok _
  · exact settled_fail _ _

/-- `readNext` never panics and never diverges. -/
theorem readNext_settled (loc : Location) (rest : Str) (flush : Bool) :
    Settled (readNext loc rest flush) := by
  unfold readNext
  split
  · exact settled_ok _
  · repeat' apply settled_ite
    all_goals first
      | exact settled_ok _
      | exact settled_fail _ _
      | exact terminalString_settled _ _ _ _
      | exact specialSequence_settled _ _ _
      | skip
    split
    · exact settled_ok _
    · repeat' apply settled_ite
      all_goals first
        | exact settled_ok _
        | exact settled_fail _ _
        | exact commentToken_settled _ _ _

/-- With the flush flag something is always decided. -/
theorem readNext_flush_ne_none (loc : Location) (rest : Str) (h : rest ≠ []) :
    readNext loc rest true ≠ .ok none := by
  cases rest with
  | nil => exact absurd rfl h
  | cons c cs =>
    have ite : ∀ {p : Prop} [Decidable p] {x y : ReadRes}, x ≠ .ok none → y ≠ .ok none →
        (if p then x else y) ≠ .ok none := by
      intro p _ x y hx hy; split <;> assumption
    have fl : ∀ {l : Location} {m : Msg}, (Res.fail l m : ReadRes) ≠ .ok none := by simp [Res.fail]
    unfold readNext
    simp only [Bool.not_true, Bool.false_and, Bool.false_eq_true, if_false]
    repeat' apply ite
    all_goals first
      | exact fl
      | simp [readWhile]; done
      | skip
    · unfold terminalString
      split
      · exact fl
      · simp only [if_true]
        exact ite fl (ite fl (by simp))
    · split
      · simp
      · repeat' apply ite
        all_goals first
          | exact fl
          | simp; done
          | skip
        unfold commentToken
        split
        · exact fl
        · simp
        · exact fl
    · unfold specialSequence
      split
      · exact fl
      · simp only [if_true]
        exact ite fl (by simp)

/-- What is left undecided by a push is one token (or an error) at the flush. -/
theorem readNext_pending (loc : Location) (rest : Str) (tk : Token) (n : Nat)
    (h : readNext loc rest false = .ok none) (h' : readNext loc rest true = .ok (some (tk, n))) :
    n = rest.length := by
  have hs := readNext_sound _ _ _ _ _ h'
  apply Classical.byContradiction
  intro hn
  cases rest with
  | nil => simp [readNext] at h'
  | cons c cs =>
    by_cases hp : c ∈ punct
    · simp only [punct, List.mem_cons, List.not_mem_nil, or_false] at hp
      rcases hp with rfl | rfl | rfl | rfl | rfl | rfl | rfl | rfl | rfl | rfl | rfl | rfl | rfl | rfl |
        rfl | rfl | rfl | rfl | rfl
      iterate 12
        · simp [readNext] at h
      iterate 2
        · simp [readNext, terminalString] at h h'
          split at h'
          · simp [Res.fail] at h'
          · rename_i m hm
            split at h'
            · simp [Res.fail] at h'
            · rename_i hne
              by_cases hcs : cs = []
              · subst hcs; simp [scanQuoted] at hm; subst hm; simp at hne
              · have h := h hcs
                rw [hm] at h
                simp only at h
                rw [if_neg hne] at h
                split at h <;> simp [Res.fail] at h
      · simp [readNext] at h h'
        cases cs with
        | nil => simp at h'; exact hn (by simp [h'.2])
        | cons d ds =>
          simp at h h'
          split at h'
          · rename_i hd
            subst hd
            rw [if_pos rfl] at h
            split at h'
            · simp [Res.fail] at h'
            · rename_i hds
              rw [if_neg hds] at h
              simp only [commentToken] at h h'
              cases hc : commentLoop (loc.pushStr ['(', '*']) 0 '*' ds with
              | «open» => rw [hc] at h'; simp [Res.fail] at h'
              | closed n => rw [hc] at h; simp at h
              | bad l c => rw [hc] at h'; simp [Res.fail] at h'
          · rename_i hd
            rw [if_neg hd] at h
            split at h <;> first | (simp at h; done) | (split at h <;> simp at h)
      · simp [readNext] at h h'
        by_cases hcs : cs = []
        · subst hcs; simp at hn; exact hn h'.2.symm
        · have h := h hcs; split at h <;> simp at h
      · simp [readNext, Res.fail] at h h'
      · simp [readNext] at h h'
        by_cases hcs : cs = []
        · subst hcs; simp at hn; exact hn h'.2.symm
        · have h := h hcs; split at h <;> simp [Res.fail] at h
      · simp [readNext, specialSequence] at h h'
        split at h'
        · simp [Res.fail] at h'
        · rename_i m hm
          split at h'
          · simp [Res.fail] at h'
          · rename_i hne
            by_cases hcs : cs = []
            · subst hcs; simp [scanQuoted] at hm; subst hm; simp at hne
            · have h := h hcs
              rw [hm] at h
              simp only at h
              rw [if_neg hne] at h
              simp at h
    · rw [readNext_word hp] at h h'
      have word : ∀ (p : Char → Bool), readWhile cs p false = none → readWhile cs p true = some cs.length := by
        intro p hw
        simp only [readWhile] at hw ⊢
        simp at hw ⊢; exact hw
      by_cases hcs : cs = []
      · subst hcs
        have := hs.le
        have := hs.pos
        simp at *; omega
      · simp only [Bool.not_false, Bool.true_and, List.isEmpty_iff, hcs, Bool.false_and, if_false,
          Bool.not_true, Bool.false_eq_true] at h h'
        split at h
        · rename_i hc
          rw [if_pos hc] at h'
          simp at h
          rw [word _ h] at h'; simp at h'; exact hn (by simp [h'.2])
        · rename_i hc
          rw [if_neg hc] at h'
          split at h
          · rename_i hc2
            rw [if_pos hc2] at h'
            simp at h
            rw [word _ h] at h'; simp at h'; exact hn (by simp [h'.2])
          · rename_i hc2
            rw [if_neg hc2] at h'
            split at h
            · rename_i hc3
              rw [if_pos hc3] at h'
              simp at h
              rw [word _ h] at h'; simp at h'; exact hn (by simp [h'.2])
            · simp [Res.fail] at h

end Ebnf
