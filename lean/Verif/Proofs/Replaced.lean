import Verif.Spec.Replaced
import Verif.Proofs.Utf8

set_option autoImplicit false

/-! # What malformed UTF-8 becomes (lemmas for C89) -/

namespace Ebnf

open Spec

theorem encode_ne_nil (ch : Char) : String.utf8EncodeChar ch ≠ [] := by
  obtain ⟨b, bs, h, _⟩ := first_byte ch
  rw [h]; simp

/-- The last byte of a character. -/
theorem last_starts {code : Nat} {p : List Byte} (hp : HalfRead ⟨code, 1, 0x80, 0xBF⟩ p) : ∃ ch, String.utf8EncodeChar ch = p ++ [0x80] := by
  have h : utf8Feed ⟨code, 1, 0x80, 0xBF⟩ 0x80 = (.ground, [Char.ofNat (code * 64)], false) := by
    simp [utf8Feed]
  rcases pending_step hp h with ⟨h1, _⟩ | ⟨ch, _, h2, _⟩
  · cases h1
  · exact ⟨ch, h2⟩

theorem last_two_start {code lower upper : Nat} {p : List Byte} {b : Byte} (hp : HalfRead ⟨code, 2, lower, upper⟩ p) (h1 : lower ≤ b.toNat)
    (h2 : b.toNat ≤ upper) : ∃ ch, String.utf8EncodeChar ch = p ++ [b] ++ [0x80] := by
  have h : utf8Feed ⟨code, 2, lower, upper⟩ b = (⟨code * 64 + (b.toNat - 0x80), 1, 0x80, 0xBF⟩, [], false) := by
    simp only [utf8Feed]
    rw [if_neg (by decide), if_neg (by omega), if_neg (by decide)]
  rcases pending_step hp h with ⟨_, h3⟩ | ⟨ch, h3, _⟩
  · exact last_starts h3
  · cases h3

theorem last_three_start {code lower upper : Nat} {p : List Byte} {b : Byte} (hp : HalfRead ⟨code, 3, lower, upper⟩ p) (h1 : lower ≤ b.toNat)
    (h2 : b.toNat ≤ upper) : ∃ ch, String.utf8EncodeChar ch = p ++ [b] ++ [0x80] ++ [0x80] := by
  have h : utf8Feed ⟨code, 3, lower, upper⟩ b = (⟨code * 64 + (b.toNat - 0x80), 2, 0x80, 0xBF⟩, [], false) := by
    simp only [utf8Feed]
    rw [if_neg (by decide), if_neg (by omega), if_neg (by decide)]
  rcases pending_step hp h with ⟨_, h3⟩ | ⟨ch, h3, _⟩
  · exact last_two_start h3 (by decide) (by decide)
  · cases h3

/-- What has been read of a character is the start of one. -/
theorem halfRead_starts {st : Utf8State} {p : List Byte} (hp : HalfRead st p) : StartsChar p := by
  have pre : ∀ (q r : List Byte) ch, String.utf8EncodeChar ch = q ++ r → StartsChar q := fun q r ch h => ⟨ch, by rw [h]; exact List.prefix_append _ _⟩
  cases hp with
  | ground => exact ⟨'a', List.nil_prefix⟩
  | two h1 h2 =>
    obtain ⟨ch, h⟩ := last_starts (.two h1 h2)
    exact pre _ _ ch h
  | @three a h1 h2 =>
    by_cases ha : a.toNat = 0xE0
    · obtain ⟨ch, h⟩ := last_two_start (b := 0xA0) (.three h1 h2) (by rw [if_pos ha]; decide) (by rw [if_neg (by omega)]; decide)
      exact pre _ _ ch (by rw [h, List.append_assoc])
    · obtain ⟨ch, h⟩ := last_two_start (b := 0x80) (.three h1 h2) (by rw [if_neg ha]; decide) (by split <;> decide)
      exact pre _ _ ch (by rw [h, List.append_assoc])
  | three' h1 h2 h3 h4 =>
    obtain ⟨ch, h⟩ := last_starts (.three' h1 h2 h3 h4)
    exact pre _ _ ch h
  | @four a h1 h2 =>
    by_cases ha : a.toNat = 0xF0
    · obtain ⟨ch, h⟩ := last_three_start (b := 0x90) (.four h1 h2) (by rw [if_pos ha]; decide) (by rw [if_neg (by omega)]; decide)
      exact pre _ _ ch (by rw [h, List.append_assoc, List.append_assoc])
    · obtain ⟨ch, h⟩ := last_three_start (b := 0x80) (.four h1 h2) (by rw [if_neg ha]; decide) (by split <;> decide)
      exact pre _ _ ch (by rw [h, List.append_assoc, List.append_assoc])
  | four' h1 h2 h3 h4 =>
    obtain ⟨ch, h⟩ := last_two_start (b := 0x80) (.four' h1 h2 h3 h4) (by decide) (by decide)
    exact pre _ _ ch (by rw [h, List.append_assoc])
  | four'' h1 h2 h3 h4 h5 h6 =>
    obtain ⟨ch, h⟩ := last_starts (.four'' h1 h2 h3 h4 h5 h6)
    exact pre _ _ ch h

/-- A start of a character is read without complaint, and if it is not the whole character, the decoder waits. -/
theorem starts_run {p : List Byte} (h : StartsChar p) (hne : ∀ ch, p ≠ String.utf8EncodeChar ch) :
    ∃ st, utf8Codec.run .ground p = (st, [], false) ∧ HalfRead st p := by
  obtain ⟨ch, t, ht⟩ := h
  -- the run over a prefix of a text in which no character ends
  have key : ∀ (q s : List Byte) (st : Utf8State) (q0 : List Byte), HalfRead st q0 → q0 ++ q = p →
      (utf8Codec.run st (q ++ t)).2.2 = false →
      ∃ st', utf8Codec.run st q = (st', [], false) ∧ HalfRead st' p := by
    intro q s
    induction q with
    | nil =>
      intro st q0 h1 h2 _
      rw [List.append_nil] at h2
      exact ⟨st, rfl, h2 ▸ h1⟩
    | cons b bs ih =>
      intro st q0 h1 h2 h3
      have h3' : ((utf8Feed st b).2.2 || (utf8Codec.run (utf8Feed st b).1 (bs ++ t)).2.2) = false := h3
      rw [Bool.or_eq_false_iff] at h3'
      have e : utf8Feed st b = ((utf8Feed st b).1, (utf8Feed st b).2.1, false) := by rw [← h3'.1]
      rcases pending_step h1 e with ⟨ho, hp'⟩ | ⟨c, ho, hc, hs⟩
      · obtain ⟨st', h4, h5⟩ := ih _ (q0 ++ [b]) hp' (by simpa using h2) h3'.2
        refine ⟨st', ?_, h5⟩
        show ((utf8Codec.run (utf8Feed st b).1 bs).1, (utf8Feed st b).2.1 ++ (utf8Codec.run (utf8Feed st b).1 bs).2.1,
          (utf8Feed st b).2.2 || (utf8Codec.run (utf8Feed st b).1 bs).2.2) = _
        rw [h4, ho, h3'.1]; rfl
      · -- a character ends inside a character
        exfalso
        have h6 : String.utf8EncodeChar ch = String.utf8EncodeChar c ++ (bs ++ t) := by
          rw [hc, ← ht, ← h2]; simp
        have h7 := utf8_run_char ch
        rw [h6, run_append, utf8_run_char] at h7
        have h8 : bs ++ t = [] := by
          have a1 : garbled utf8Codec .ground (bs ++ t) = false := by
            rw [garbled_eq]
            injection h7 with a b
            injection b with b' c'
            simp only [Bool.or_eq_false_iff] at c'
            rw [c'.2, a]; rfl
          have a2 := encoded_of_clean (bs ++ t) .ground [] .ground a1
          rw [List.nil_append] at a2
          have a3 : decode utf8Codec .ground (bs ++ t) = [] := by
            rw [decode_eq]
            injection h7 with a b
            injection b with b' c'
            have : (utf8Codec.run Utf8State.ground (bs ++ t)).2.1 = [] := by simpa using congrArg List.length b'
            rw [this, a]; rfl
          rw [a2, a3]; rfl
        rw [List.append_eq_nil_iff] at h8
        refine hne c ?_
        rw [hc, ← h2, h8.1]
  refine key p [] .ground [] .ground (by simp) ?_
  rw [ht, utf8_run_char]

/-- Nothing that is malformed is the start of a character. -/
theorem garbled_no_start {p : List Byte} {st : Utf8State} {b : Byte} (h : utf8Codec.run .ground p = (st, [], false))
    (hb : (utf8Feed st b).2.2 = true) : ¬ StartsChar (p ++ [b]) := by
  rintro ⟨ch, t, ht⟩
  have h1 := utf8_run_char ch
  rw [← ht, List.append_assoc, run_append, h] at h1
  have h2 : (utf8Codec.run st ([b] ++ t)).2.2 = false := by
    injection h1 with a b'
    injection b' with b' c'
  have h3 : ((utf8Feed st b).2.2 || (utf8Codec.run (utf8Feed st b).1 t).2.2) = false := h2
  rw [hb] at h3
  cases h3

/-- A byte that is no first byte of a character. -/
theorem first_garbled {b : Byte} (h : (utf8Feed .ground b).2.2 = true) : utf8Feed .ground b = (.ground, ['�'], true) := by
  revert h
  rw [feed_ground]
  unfold utf8First
  simp only
  split
  · intro h; cases h
  split
  · intro h; cases h
  split
  · intro h; cases h
  split
  · intro h; cases h
  intro _; rfl

/-- The first byte of what is left, at the beginning of a character. -/
theorem ground_replaced {b : Byte} {bs : List Byte}
    (ih : ∀ (st : Utf8State) (p : List Byte), HalfRead st p → utf8Codec.run .ground p = (st, [], false) →
      Replaced (p ++ bs) (decode utf8Codec st bs)) : Replaced (b :: bs) (decode utf8Codec .ground (b :: bs)) := by
  show Replaced (b :: bs) ((utf8Feed .ground b).2.1 ++ decode utf8Codec (utf8Feed .ground b).1 bs)
  cases hg : (utf8Feed .ground b).2.2 with
  | false =>
    have e : utf8Feed .ground b = ((utf8Feed .ground b).1, (utf8Feed .ground b).2.1, false) := by rw [← hg]
    rcases pending_step .ground e with ⟨ho, hp⟩ | ⟨c, ho, hc, hs⟩
    · have hr : utf8Codec.run .ground [b] = ((utf8Feed .ground b).1, [], false) := by
        show (_, (utf8Feed .ground b).2.1 ++ [], (utf8Feed .ground b).2.2 || false) = _
        rw [ho, hg]; rfl
      rw [ho]
      exact ih _ [b] hp hr
    · rw [ho, hs]
      have := Replaced.char c (ih .ground [] .ground rfl)
      rw [hc] at this
      exact this
  | true =>
    rw [first_garbled hg]
    exact .malformed (bad := [b]) (.inr ⟨b, rfl, garbled_no_start (p := []) rfl hg⟩) (ih .ground [] .ground rfl)

/-- A byte that the decoder does not take is looked at again. -/
theorem feed_again {code needed lower upper : Nat} {b : Byte} (hn : needed ≠ 0) (h : (utf8Feed ⟨code, needed, lower, upper⟩ b).2.2 = true) :
    utf8Feed ⟨code, needed, lower, upper⟩ b = ((utf8Feed .ground b).1, '�' :: (utf8Feed .ground b).2.1, true) := by
  revert h
  rw [feed_ground]
  simp only [utf8Feed, if_neg hn]
  split
  · intro _; rfl
  · split <;> (intro h; cases h)

theorem halfRead_needed {st : Utf8State} {p : List Byte} (hp : HalfRead st p) (hne : p ≠ []) : st.needed ≠ 0 := by
  cases hp <;> simp_all

theorem halfRead_short {st : Utf8State} {p : List Byte} (h : utf8Codec.run .ground p = (st, [], false)) (ch : Char) :
    p ≠ String.utf8EncodeChar ch := by
  rintro rfl
  rw [utf8_run_char] at h
  injection h with _ h
  injection h with h _
  cases h

theorem replaced_of_decode (bs : List Byte) : ∀ (st : Utf8State) (p : List Byte), HalfRead st p →
    utf8Codec.run .ground p = (st, [], false) → Replaced (p ++ bs) (decode utf8Codec st bs) := by
  induction bs with
  | nil =>
    intro st p hp hr
    rw [List.append_nil]
    show Replaced p (utf8Codec.finish st).1
    cases p with
    | nil => cases hp; exact .nil
    | cons x xs =>
      have hn := halfRead_needed hp (by simp)
      have : (utf8Codec.finish st).1 = ['�'] := by
        show (if st.needed = 0 then (([] : Str), false) else (['�'], true)).1 = _
        rw [if_neg hn]
      rw [this]
      have := Replaced.malformed (bad := x :: xs) (rest := []) (.inl ⟨by simp, halfRead_starts hp, halfRead_short hr, by simp⟩) .nil
      rwa [List.append_nil] at this
  | cons b bs ih =>
    intro st p hp hr
    cases p with
    | nil =>
      cases hp
      exact ground_replaced ih
    | cons x xs =>
      show Replaced (x :: xs ++ b :: bs) ((utf8Feed st b).2.1 ++ decode utf8Codec (utf8Feed st b).1 bs)
      cases hg : (utf8Feed st b).2.2 with
      | false =>
        have e : utf8Feed st b = ((utf8Feed st b).1, (utf8Feed st b).2.1, false) := by rw [← hg]
        rcases pending_step hp e with ⟨ho, hp'⟩ | ⟨c, ho, hc, hs⟩
        · have hr' : utf8Codec.run .ground (x :: xs ++ [b]) = ((utf8Feed st b).1, [], false) := by
            rw [run_append, hr]
            show (_, [] ++ ((utf8Feed st b).2.1 ++ []), false || ((utf8Feed st b).2.2 || false)) = _
            rw [ho, hg]; rfl
          rw [ho]
          have := ih _ _ hp' hr'
          rwa [List.append_assoc] at this
        · rw [ho, hs]
          have := Replaced.char c (ih .ground [] .ground rfl)
          rw [hc, List.append_assoc] at this
          exact this
      | true =>
        have hn := halfRead_needed hp (by simp)
        obtain ⟨code, needed, lower, upper⟩ := st
        rw [feed_again hn hg]
        exact .malformed (.inl ⟨by simp, halfRead_starts hp, halfRead_short hr, fun b' h => by
          have : b' = b := by simpa using h.symm
          rw [this]
          exact garbled_no_start hr hg⟩) (ground_replaced ih)

theorem decode_of_replaced {bytes : List Byte} {text : Str} (h : Replaced bytes text) : decode utf8Codec .ground bytes = text := by
  induction h with
  | nil => rfl
  | char ch _ ih =>
    rw [decode_eq] at ih ⊢
    rw [run_append, utf8_run_char, ← ih]
    rfl
  | @malformed bad rest text h _ ih =>
    rcases h with ⟨h1, h2, h3, h4⟩ | ⟨b, rfl, h2⟩
    · obtain ⟨st, h5, h6⟩ := starts_run h2 h3
      have hn := halfRead_needed h6 h1
      have h7 : decode utf8Codec .ground (bad ++ rest) = decode utf8Codec st rest := by
        rw [decode_eq, decode_eq, run_append, h5]; rfl
      rw [h7, ← ih]
      cases rest with
      | nil =>
        show (if st.needed = 0 then (([] : Str), false) else (['�'], true)).1 = _
        rw [if_neg hn]; rfl
      | cons b bs =>
        have hg : (utf8Feed st b).2.2 = true := by
          cases hg : (utf8Feed st b).2.2 with
          | true => rfl
          | false =>
            exfalso
            have e : utf8Feed st b = ((utf8Feed st b).1, (utf8Feed st b).2.1, false) := by rw [← hg]
            refine h4 b rfl ?_
            rcases pending_step h6 e with ⟨_, hp'⟩ | ⟨c, _, hc, _⟩
            · exact halfRead_starts hp'
            · exact ⟨c, by rw [hc]; exact List.prefix_rfl⟩
        obtain ⟨code, needed, lower, upper⟩ := st
        show (utf8Feed _ b).2.1 ++ decode utf8Codec (utf8Feed _ b).1 bs = '�' :: ((utf8Feed .ground b).2.1 ++ decode utf8Codec (utf8Feed .ground b).1 bs)
        rw [feed_again hn hg]; rfl
    · have hg : utf8Feed .ground b = (.ground, ['�'], true) := by
        cases hg : (utf8Feed .ground b).2.2 with
        | true => exact first_garbled hg
        | false =>
          exfalso
          have e : utf8Feed .ground b = ((utf8Feed .ground b).1, (utf8Feed .ground b).2.1, false) := by rw [← hg]
          refine h2 ?_
          rcases pending_step .ground e with ⟨_, hp'⟩ | ⟨c, _, hc, _⟩
          · exact halfRead_starts hp'
          · exact ⟨c, by rw [hc]; exact List.prefix_rfl⟩
      show (utf8Feed .ground b).2.1 ++ decode utf8Codec (utf8Feed .ground b).1 rest = _
      rw [hg, ← ih]; rfl

theorem replaced_iff (bytes : List Byte) (text : Str) : Replaced bytes text ↔ decode utf8Codec .ground bytes = text :=
  ⟨decode_of_replaced, fun h => h ▸ replaced_of_decode bytes .ground [] .ground rfl⟩

end Ebnf
