import Verif.Model.Utf8
import Verif.Spec.Utf8
import Verif.Proofs.Decoder

set_option autoImplicit false

/-! # Lemmas: the UTF-8 decoder inverts the encoder -/

namespace Ebnf

open Spec

theorem valid_nat (c : Char) : c.val.toNat < 0xD800 ∨ (0xDFFF < c.val.toNat ∧ c.val.toNat < 0x110000) := c.valid

theorem ofNat_val (c : Char) : Char.ofNat c.val.toNat = c := Char.ofNat_toNat c

theorem byte_toNat {n : Nat} (h : n < 256) : (UInt8.ofNat n).toNat = n := by
  rw [UInt8.toNat_ofNat']
  exact Nat.mod_eq_of_lt h

/-- A continuation byte that is not the last one. -/
theorem feed_inner {code needed lower upper n : Nat} (h : n < 256) (h1 : lower ≤ n) (h2 : n ≤ upper) (hn : 1 < needed) :
    utf8Feed ⟨code, needed, lower, upper⟩ (UInt8.ofNat n) =
      (⟨code * 64 + (n - 0x80), needed - 1, 0x80, 0xBF⟩, [], false) := by
  simp only [utf8Feed, byte_toNat h]
  rw [if_neg (by omega), if_neg (by omega), if_neg (by omega)]

/-- The last byte. -/
theorem feed_last {code lower upper n : Nat} (h : n < 256) (h1 : lower ≤ n) (h2 : n ≤ upper) :
    utf8Feed ⟨code, 1, lower, upper⟩ (UInt8.ofNat n) = (.ground, [Char.ofNat (code * 64 + (n - 0x80))], false) := by
  simp only [utf8Feed, byte_toNat h]
  rw [if_neg (by omega), if_neg (by omega)]
  simp

theorem feed_ground (b : Byte) : utf8Feed .ground b = utf8First b := rfl

theorem utf8_run_char (c : Char) :
    utf8Codec.run .ground (String.utf8EncodeChar c) = (.ground, [c], false) := by
  have hv := valid_nat c
  have ho := ofNat_val c
  simp only [String.utf8EncodeChar]
  generalize c.val.toNat = v at hv ho
  by_cases h1 : v ≤ 0x7f
  · rw [if_pos h1]
    simp only [Codec.run, utf8Codec, feed_ground, utf8First, byte_toNat (show v < 256 by omega)]
    rw [if_pos h1]
    simp [ho]
  · rw [if_neg h1]
    by_cases h2 : v ≤ 0x7ff
    · rw [if_pos h2]
      simp only [Codec.run, utf8Codec, feed_ground, utf8First, byte_toNat (show v / 64 % 0x20 + 0xc0 < 256 by omega)]
      rw [if_neg (by omega), if_pos (by omega)]
      simp only
      rw [feed_last (by omega) (by omega) (by omega)]
      have : (v / 64 % 0x20 + 0xc0 - 0xc0) * 64 + (v % 0x40 + 0x80 - 0x80) = v := by omega
      rw [this]
      simp [ho]
    · rw [if_neg h2]
      by_cases h3 : v ≤ 0xffff
      · rw [if_pos h3]
        simp only [Codec.run, utf8Codec, feed_ground, utf8First, byte_toNat (show v / 4096 % 0x10 + 0xe0 < 256 by omega)]
        rw [if_neg (by omega), if_neg (by omega), if_pos (by omega)]
        simp only
        rw [feed_inner (n := v / 64 % 0x40 + 0x80) (by omega) (by split <;> omega) (by split <;> omega) (by omega)]
        simp only
        rw [feed_last (by omega) (by omega) (by omega)]
        have : ((v / 4096 % 0x10 + 0xe0 - 0xe0) * 64 + (v / 64 % 0x40 + 0x80 - 0x80)) * 64 + (v % 0x40 + 0x80 - 0x80) = v := by
          omega
        rw [this]
        simp [ho]
      · rw [if_neg h3]
        simp only [Codec.run, utf8Codec, feed_ground, utf8First, byte_toNat (show v / 262144 % 0x08 + 0xf0 < 256 by omega)]
        rw [if_neg (by omega), if_neg (by omega), if_neg (by omega), if_pos (by omega)]
        simp only
        rw [feed_inner (n := v / 4096 % 0x40 + 0x80) (by omega) (by split <;> omega) (by split <;> omega) (by omega)]
        simp only
        rw [feed_inner (n := v / 64 % 0x40 + 0x80) (by omega) (by omega) (by omega) (by omega)]
        simp only
        rw [feed_last (by omega) (by omega) (by omega)]
        have : (((v / 262144 % 0x08 + 0xf0 - 0xf0) * 64 + (v / 4096 % 0x40 + 0x80 - 0x80)) * 64 +
            (v / 64 % 0x40 + 0x80 - 0x80)) * 64 + (v % 0x40 + 0x80 - 0x80) = v := by omega
        rw [this]
        simp [ho]

theorem byte_eq {n : Nat} {b : Byte} (h : n = b.toNat) : UInt8.ofNat n = b := by
  subst h
  simp

theorem val_ofNat {v : Nat} (h : v < 0xD800 ∨ (0xDFFF < v ∧ v < 0x110000)) : (Char.ofNat v).val.toNat = v := by
  have hv : v.isValidChar := h
  simp only [Char.ofNat, dif_pos hv, Char.ofNatAux]
  rfl

theorem byte_lt (b : Byte) : b.toNat < 256 := UInt8.toNat_lt b

/-- What the state says about the bytes of the current character. -/
inductive HalfRead : Utf8State → List Byte → Prop
  | ground : HalfRead .ground []
  | two {a : Byte} : 0xC2 ≤ a.toNat → a.toNat ≤ 0xDF → HalfRead ⟨a.toNat - 0xC0, 1, 0x80, 0xBF⟩ [a]
  | three {a : Byte} : 0xE0 ≤ a.toNat → a.toNat ≤ 0xEF →
      HalfRead ⟨a.toNat - 0xE0, 2, if a.toNat = 0xE0 then 0xA0 else 0x80, if a.toNat = 0xED then 0x9F else 0xBF⟩ [a]
  | three' {a b : Byte} : 0xE0 ≤ a.toNat → a.toNat ≤ 0xEF → (if a.toNat = 0xE0 then 0xA0 else 0x80) ≤ b.toNat →
      b.toNat ≤ (if a.toNat = 0xED then 0x9F else 0xBF) →
      HalfRead ⟨(a.toNat - 0xE0) * 64 + (b.toNat - 0x80), 1, 0x80, 0xBF⟩ [a, b]
  | four {a : Byte} : 0xF0 ≤ a.toNat → a.toNat ≤ 0xF4 →
      HalfRead ⟨a.toNat - 0xF0, 3, if a.toNat = 0xF0 then 0x90 else 0x80, if a.toNat = 0xF4 then 0x8F else 0xBF⟩ [a]
  | four' {a b : Byte} : 0xF0 ≤ a.toNat → a.toNat ≤ 0xF4 → (if a.toNat = 0xF0 then 0x90 else 0x80) ≤ b.toNat →
      b.toNat ≤ (if a.toNat = 0xF4 then 0x8F else 0xBF) →
      HalfRead ⟨(a.toNat - 0xF0) * 64 + (b.toNat - 0x80), 2, 0x80, 0xBF⟩ [a, b]
  | four'' {a b c : Byte} : 0xF0 ≤ a.toNat → a.toNat ≤ 0xF4 → (if a.toNat = 0xF0 then 0x90 else 0x80) ≤ b.toNat →
      b.toNat ≤ (if a.toNat = 0xF4 then 0x8F else 0xBF) → 0x80 ≤ c.toNat → c.toNat ≤ 0xBF →
      HalfRead ⟨((a.toNat - 0xF0) * 64 + (b.toNat - 0x80)) * 64 + (c.toNat - 0x80), 1, 0x80, 0xBF⟩ [a, b, c]

theorem encode_one {a : Byte} (h : a.toNat ≤ 0x7F) : String.utf8EncodeChar (Char.ofNat a.toNat) = [a] := by
  simp only [String.utf8EncodeChar, val_ofNat (show a.toNat < 0xD800 ∨ _ by omega)]
  rw [if_pos h, byte_eq rfl]

theorem encode_two {a b : Byte} (h1 : 0xC2 ≤ a.toNat) (h2 : a.toNat ≤ 0xDF) (h3 : 0x80 ≤ b.toNat) (h4 : b.toNat ≤ 0xBF) :
    String.utf8EncodeChar (Char.ofNat ((a.toNat - 0xC0) * 64 + (b.toNat - 0x80))) = [a, b] := by
  simp only [String.utf8EncodeChar, val_ofNat (show (a.toNat - 0xC0) * 64 + (b.toNat - 0x80) < 0xD800 ∨ _ by omega)]
  rw [if_neg (by omega), if_pos (by omega), byte_eq (b := a) (by omega), byte_eq (b := b) (by omega)]

theorem encode_three {a b c : Byte} (h1 : 0xE0 ≤ a.toNat) (h2 : a.toNat ≤ 0xEF)
    (h3 : (if a.toNat = 0xE0 then 0xA0 else 0x80) ≤ b.toNat) (h4 : b.toNat ≤ (if a.toNat = 0xED then 0x9F else 0xBF))
    (h5 : 0x80 ≤ c.toNat) (h6 : c.toNat ≤ 0xBF) :
    String.utf8EncodeChar (Char.ofNat (((a.toNat - 0xE0) * 64 + (b.toNat - 0x80)) * 64 + (c.toNat - 0x80))) = [a, b, c] := by
  have h3' : 0x80 ≤ b.toNat ∧ (a.toNat = 0xE0 → 0xA0 ≤ b.toNat) := by split at h3 <;> omega
  have h4' : b.toNat ≤ 0xBF ∧ (a.toNat = 0xED → b.toNat ≤ 0x9F) := by split at h4 <;> omega
  simp only [String.utf8EncodeChar, val_ofNat (v := ((a.toNat - 0xE0) * 64 + (b.toNat - 0x80)) * 64 + (c.toNat - 0x80))
    (by omega)]
  rw [if_neg (by omega), if_neg (by omega), if_pos (by omega), byte_eq (b := a) (by omega), byte_eq (b := b) (by omega),
    byte_eq (b := c) (by omega)]

theorem encode_four {a b c d : Byte} (h1 : 0xF0 ≤ a.toNat) (h2 : a.toNat ≤ 0xF4)
    (h3 : (if a.toNat = 0xF0 then 0x90 else 0x80) ≤ b.toNat) (h4 : b.toNat ≤ (if a.toNat = 0xF4 then 0x8F else 0xBF))
    (h5 : 0x80 ≤ c.toNat) (h6 : c.toNat ≤ 0xBF) (h7 : 0x80 ≤ d.toNat) (h8 : d.toNat ≤ 0xBF) :
    String.utf8EncodeChar (Char.ofNat ((((a.toNat - 0xF0) * 64 + (b.toNat - 0x80)) * 64 + (c.toNat - 0x80)) * 64 +
      (d.toNat - 0x80))) = [a, b, c, d] := by
  have h3' : 0x80 ≤ b.toNat ∧ (a.toNat = 0xF0 → 0x90 ≤ b.toNat) := by split at h3 <;> omega
  have h4' : b.toNat ≤ 0xBF ∧ (a.toNat = 0xF4 → b.toNat ≤ 0x8F) := by split at h4 <;> omega
  simp only [String.utf8EncodeChar, val_ofNat (v := (((a.toNat - 0xF0) * 64 + (b.toNat - 0x80)) * 64 + (c.toNat - 0x80)) * 64 +
      (d.toNat - 0x80)) (by omega)]
  rw [if_neg (by omega), if_neg (by omega), if_neg (by omega), byte_eq (b := a) (by omega), byte_eq (b := b) (by omega),
    byte_eq (b := c) (by omega), byte_eq (b := d) (by omega)]

/-- A continuation byte that is not malformed. -/
theorem feed_inv {code needed lower upper : Nat} {b : Byte} {st' : Utf8State} {out : Str} (hn : needed ≠ 0)
    (h : utf8Feed ⟨code, needed, lower, upper⟩ b = (st', out, false)) :
    lower ≤ b.toNat ∧ b.toNat ≤ upper ∧
    (needed = 1 → st' = .ground ∧ out = [Char.ofNat (code * 64 + (b.toNat - 0x80))]) ∧
    (needed ≠ 1 → st' = ⟨code * 64 + (b.toNat - 0x80), needed - 1, 0x80, 0xBF⟩ ∧ out = []) := by
  simp only [utf8Feed, if_neg hn] at h
  by_cases h1 : b.toNat < lower ∨ upper < b.toNat
  · rw [if_pos h1] at h
    injection h with _ h
    injection h with _ h
    exact absurd h (by decide)
  · rw [if_neg h1] at h
    refine ⟨by omega, by omega, ?_, ?_⟩
    · intro h2
      rw [if_pos h2] at h
      injection h with h3 h
      injection h with h4 h
      exact ⟨h3.symm, h4.symm⟩
    · intro h2
      rw [if_neg h2] at h
      injection h with h3 h
      injection h with h4 h
      exact ⟨h3.symm, h4.symm⟩

/-- A first byte that is not malformed. -/
theorem first_inv {b : Byte} {st' : Utf8State} {out : Str} (h : utf8First b = (st', out, false)) :
    (out = [] ∧ HalfRead st' [b]) ∨ (out = [Char.ofNat b.toNat] ∧ b.toNat ≤ 0x7F ∧ st' = .ground) := by
  simp only [utf8First] at h
  by_cases h1 : b.toNat ≤ 0x7F
  · rw [if_pos h1] at h
    injection h with h3 h
    injection h with h4 h
    exact .inr ⟨h4.symm, h1, h3.symm⟩
  rw [if_neg h1] at h
  by_cases h2 : 0xC2 ≤ b.toNat ∧ b.toNat ≤ 0xDF
  · rw [if_pos h2] at h
    injection h with h3 h
    injection h with h4 h
    exact .inl ⟨h4.symm, h3 ▸ .two h2.1 h2.2⟩
  rw [if_neg h2] at h
  by_cases h5 : 0xE0 ≤ b.toNat ∧ b.toNat ≤ 0xEF
  · rw [if_pos h5] at h
    injection h with h3 h
    injection h with h4 h
    exact .inl ⟨h4.symm, h3 ▸ .three h5.1 h5.2⟩
  rw [if_neg h5] at h
  by_cases h6 : 0xF0 ≤ b.toNat ∧ b.toNat ≤ 0xF4
  · rw [if_pos h6] at h
    injection h with h3 h
    injection h with h4 h
    exact .inl ⟨h4.symm, h3 ▸ .four h6.1 h6.2⟩
  rw [if_neg h6] at h
  injection h with _ h
  injection h with _ h
  exact absurd h (by decide)

/-- A byte that is not malformed continues the current character, or ends it. -/
theorem pending_step {st st' : Utf8State} {p : List Byte} {b : Byte} {out : Str} (hp : HalfRead st p)
    (h : utf8Feed st b = (st', out, false)) :
    (out = [] ∧ HalfRead st' (p ++ [b])) ∨
    (∃ c, out = [c] ∧ String.utf8EncodeChar c = p ++ [b] ∧ st' = .ground) := by
  cases hp with
  | ground =>
    rw [feed_ground] at h
    rcases first_inv h with h | ⟨h1, h2, h3⟩
    · exact .inl h
    · exact .inr ⟨_, h1, encode_one h2, h3⟩
  | two h1 h2 =>
    obtain ⟨l, u, h3, -⟩ := feed_inv (by decide) h
    obtain ⟨rfl, rfl⟩ := h3 rfl
    exact .inr ⟨_, rfl, encode_two h1 h2 l u, rfl⟩
  | three h1 h2 =>
    obtain ⟨l, u, -, h3⟩ := feed_inv (by decide) h
    obtain ⟨rfl, rfl⟩ := h3 (by decide)
    exact .inl ⟨rfl, .three' h1 h2 l u⟩
  | three' h1 h2 h3 h4 =>
    obtain ⟨l, u, h3, -⟩ := feed_inv (by decide) h
    obtain ⟨rfl, rfl⟩ := h3 rfl
    exact .inr ⟨_, rfl, encode_three h1 h2 ‹_› h4 l u, rfl⟩
  | four h1 h2 =>
    obtain ⟨l, u, -, h3⟩ := feed_inv (by decide) h
    obtain ⟨rfl, rfl⟩ := h3 (by decide)
    exact .inl ⟨rfl, .four' h1 h2 l u⟩
  | four' h1 h2 h3 h4 =>
    obtain ⟨l, u, -, h5⟩ := feed_inv (by decide) h
    obtain ⟨rfl, rfl⟩ := h5 (by decide)
    exact .inl ⟨rfl, .four'' h1 h2 h3 h4 l u⟩
  | four'' h1 h2 h3 h4 h5 h6 =>
    obtain ⟨l, u, h7, -⟩ := feed_inv (by decide) h
    obtain ⟨rfl, rfl⟩ := h7 rfl
    exact .inr ⟨_, rfl, encode_four h1 h2 h3 h4 h5 h6 l u, rfl⟩

/-- Bytes that are not malformed are an encoding of what they are decoded to. -/
theorem encoded_of_clean (bytes : List Byte) (st : Utf8State) (p : List Byte) (hp : HalfRead st p)
    (h : garbled utf8Codec st bytes = false) : p ++ bytes = asBytes (decode utf8Codec st bytes) := by
  induction bytes generalizing st p with
  | nil =>
    cases hp with
    | ground => rfl
    | _ => simp [garbled] at h
  | cons b bs ih =>
    have h' : ((utf8Feed st b).2.2 || garbled utf8Codec (utf8Feed st b).1 bs) = false := h
    rw [Bool.or_eq_false_iff] at h'
    have e : utf8Feed st b = ((utf8Feed st b).1, (utf8Feed st b).2.1, false) := by
      rw [← h'.1]
    show p ++ b :: bs = asBytes ((utf8Feed st b).2.1 ++ decode utf8Codec (utf8Feed st b).1 bs)
    rcases pending_step hp e with ⟨ho, hp'⟩ | ⟨c, ho, hc, hs⟩
    · rw [ho, List.nil_append, ← ih _ _ hp' h'.2]
      simp
    · have := ih _ [] (hs ▸ .ground) h'.2
      rw [ho, List.singleton_append]
      simp only [asBytes, List.flatMap_cons, hc]
      rw [List.nil_append] at this
      rw [List.append_assoc, List.singleton_append]
      congr 2

theorem run_asBytes (text : Str) : utf8Codec.run .ground (asBytes text) = (.ground, text, false) := by
  induction text with
  | nil => rfl
  | cons c cs ih =>
    show utf8Codec.run .ground (String.utf8EncodeChar c ++ asBytes cs) = _
    have := run_append (c := utf8Codec) Utf8State.ground (String.utf8EncodeChar c) (asBytes cs)
    rw [this, utf8_run_char, ih]
    rfl

theorem decode_asBytes (text : Str) : decode utf8Codec .ground (asBytes text) = text := by
  have := decode_eq (c := utf8Codec) Utf8State.ground (asBytes text)
  rw [this, run_asBytes]
  exact List.append_nil text

theorem garbled_asBytes (text : Str) : garbled utf8Codec .ground (asBytes text) = false := by
  have := garbled_eq (c := utf8Codec) Utf8State.ground (asBytes text)
  rw [this, run_asBytes]
  rfl

theorem asBytes_inj {a b : Str} (h : asBytes a = asBytes b) : a = b := by
  rw [← decode_asBytes a, h, decode_asBytes]

/-! ## Byte order marks -/

variable (c : Codec)

theorem run_label (bytes : List Byte) (st : c.State) :
    c.sniffing.run (.label st) bytes = (.label (c.run st bytes).1, (c.run st bytes).2.1, (c.run st bytes).2.2) := by
  induction bytes generalizing st with
  | nil => rfl
  | cons b bs ih =>
    have e : c.sniffing.run (.label st) (b :: bs) =
      ((c.sniffing.run (.label (c.feed st b).1) bs).1, (c.feed st b).2.1 ++ (c.sniffing.run (.label (c.feed st b).1) bs).2.1,
        (c.feed st b).2.2 || (c.sniffing.run (.label (c.feed st b).1) bs).2.2) := rfl
    rw [e, ih]
    rfl

theorem run_utf8 (bytes : List Byte) (st : Utf8State) :
    c.sniffing.run (.utf8 st) bytes =
      (.utf8 (utf8Codec.run st bytes).1, (utf8Codec.run st bytes).2.1, (utf8Codec.run st bytes).2.2) := by
  induction bytes generalizing st with
  | nil => rfl
  | cons b bs ih =>
    have e : c.sniffing.run (.utf8 st) (b :: bs) =
      ((c.sniffing.run (.utf8 (utf8Codec.feed st b).1) bs).1, (utf8Codec.feed st b).2.1 ++ (c.sniffing.run (.utf8 (utf8Codec.feed st b).1) bs).2.1,
        (utf8Codec.feed st b).2.2 || (c.sniffing.run (.utf8 (utf8Codec.feed st b).1) bs).2.2) := rfl
    rw [e, ih]
    rfl

theorem run_utf16 (big : Bool) (bytes : List Byte) (st : Utf16State) :
    c.sniffing.run (.utf16 big st) bytes =
      (.utf16 big ((utf16Codec big).run st bytes).1, ((utf16Codec big).run st bytes).2.1,
        ((utf16Codec big).run st bytes).2.2) := by
  induction bytes generalizing st with
  | nil => rfl
  | cons b bs ih =>
    have e : c.sniffing.run (.utf16 big st) (b :: bs) =
      ((c.sniffing.run (.utf16 big ((utf16Codec big).feed st b).1) bs).1, ((utf16Codec big).feed st b).2.1 ++ (c.sniffing.run (.utf16 big ((utf16Codec big).feed st b).1) bs).2.1,
        ((utf16Codec big).feed st b).2.2 || (c.sniffing.run (.utf16 big ((utf16Codec big).feed st b).1) bs).2.2) := rfl
    rw [e, ih]
    rfl

theorem sniff_start (held : List Byte) (b : Byte) :
    c.sniffing.feed (.start held) b =
      if held ++ [b] = [0xEF, 0xBB, 0xBF] then (.utf8 .ground, [], false)
      else if held ++ [b] = [0xFE, 0xFF] then (.utf16 true ⟨none, none⟩, [], false)
      else if held ++ [b] = [0xFF, 0xFE] then (.utf16 false ⟨none, none⟩, [], false)
      else if held ++ [b] = [0xEF] ∨ held ++ [b] = [0xEF, 0xBB] ∨ held ++ [b] = [0xFE] ∨ held ++ [b] = [0xFF] then
        (.start (held ++ [b]), [], false)
      else (.label (c.run c.init (held ++ [b])).1, (c.run c.init (held ++ [b])).2.1, (c.run c.init (held ++ [b])).2.2) := rfl

theorem decode_unmarked (rest held : List Byte) (h8 : ¬ [0xEF, 0xBB, 0xBF] <+: held ++ rest)
    (h16 : ¬ MarkedUtf16 (held ++ rest)) :
    decode c.sniffing (.start held) rest = decode c c.init (held ++ rest) ∧
    garbled c.sniffing (.start held) rest = garbled c c.init (held ++ rest) := by
  induction rest generalizing held with
  | nil =>
    rw [List.append_nil, decode_eq, garbled_eq, decode_eq, garbled_eq]
    exact ⟨rfl, rfl⟩
  | cons b bs ih =>
    have e : held ++ b :: bs = (held ++ [b]) ++ bs := by simp
    rw [e] at h8 h16 ⊢
    have n1 : held ++ [b] ≠ [0xEF, 0xBB, 0xBF] := fun h => h8 (by rw [h]; exact List.prefix_append _ _)
    have n2 : held ++ [b] ≠ [0xFE, 0xFF] := fun h => h16 (.inl (by rw [h]; exact List.prefix_append _ _))
    have n3 : held ++ [b] ≠ [0xFF, 0xFE] := fun h => h16 (.inr (by rw [h]; exact List.prefix_append _ _))
    simp only [decode, garbled, if_neg n1, if_neg n2, if_neg n3]
    split
    · obtain ⟨i1, i2⟩ := ih _ h8 h16
      simp only [i1, i2, List.nil_append, Bool.false_or, and_self]
    · rw [decode_eq (c := c), garbled_eq (c := c), run_append _ (held ++ [b]) bs]
      simp only [decode_eq, garbled_eq, run_label, Bool.or_assoc]
      simp only [← List.append_assoc, and_self]

theorem decode_marked8 (bytes : List Byte) :
    decode c.sniffing c.sniffing.init (0xEF :: 0xBB :: 0xBF :: bytes) = decode utf8Codec .ground bytes ∧
    garbled c.sniffing c.sniffing.init (0xEF :: 0xBB :: 0xBF :: bytes) = garbled utf8Codec .ground bytes := by
  have h1 : decode c.sniffing c.sniffing.init (0xEF :: 0xBB :: 0xBF :: bytes) =
    decode c.sniffing (.utf8 .ground) bytes := rfl
  have h2 : garbled c.sniffing c.sniffing.init (0xEF :: 0xBB :: 0xBF :: bytes) =
    garbled c.sniffing (.utf8 .ground) bytes := rfl
  rw [h1, h2, decode_eq, garbled_eq, decode_eq, garbled_eq, run_utf8]
  exact ⟨rfl, rfl⟩

theorem decode_marked16 (big : Bool) (bytes : List Byte) :
    decode c.sniffing c.sniffing.init ((if big then [0xFE, 0xFF] else [0xFF, 0xFE]) ++ bytes) =
      decode (utf16Codec big) ⟨none, none⟩ bytes ∧
    garbled c.sniffing c.sniffing.init ((if big then [0xFE, 0xFF] else [0xFF, 0xFE]) ++ bytes) =
      garbled (utf16Codec big) ⟨none, none⟩ bytes := by
  have h1 : decode c.sniffing c.sniffing.init ((if big then [0xFE, 0xFF] else [0xFF, 0xFE]) ++ bytes) =
    decode c.sniffing (.utf16 big ⟨none, none⟩) bytes := by cases big <;> rfl
  have h2 : garbled c.sniffing c.sniffing.init ((if big then [0xFE, 0xFF] else [0xFF, 0xFE]) ++ bytes) =
    garbled c.sniffing (.utf16 big ⟨none, none⟩) bytes := by cases big <;> rfl
  rw [h1, h2, decode_eq, garbled_eq, decode_eq, garbled_eq, run_utf16]
  exact ⟨rfl, rfl⟩

theorem mark_bytes : String.utf8EncodeChar '\uFEFF' = [0xEF, 0xBB, 0xBF] := by decide +kernel

/-- No encoded character starts with one of the bytes of a UTF-16 mark. -/
theorem first_byte (ch : Char) : ∃ b bs, String.utf8EncodeChar ch = b :: bs ∧ b.toNat < 0xF8 := by
  have hv := valid_nat ch
  simp only [String.utf8EncodeChar]
  generalize ch.val.toNat = v at hv
  split
  · exact ⟨_, _, rfl, by rw [byte_toNat] <;> omega⟩
  · split
    · exact ⟨_, _, rfl, by rw [byte_toNat] <;> omega⟩
    · split
      · exact ⟨_, _, rfl, by rw [byte_toNat] <;> omega⟩
      · exact ⟨_, _, rfl, by rw [byte_toNat] <;> omega⟩

theorem asBytes_unmarked16 (text : Str) : ¬ MarkedUtf16 (asBytes text) := by
  cases text with
  | nil =>
    rintro (h | h)
    · exact absurd (List.prefix_nil.mp h) (by decide)
    · exact absurd (List.prefix_nil.mp h) (by decide)
  | cons ch text =>
    obtain ⟨b, bs, e, hb⟩ := first_byte ch
    have : asBytes (ch :: text) = b :: (bs ++ asBytes text) := by
      show String.utf8EncodeChar ch ++ asBytes text = _
      rw [e]
      rfl
    rw [this]
    rintro (h | h)
    · have := (List.cons_prefix_cons.mp h).1
      subst this
      exact absurd hb (by decide)
    · have := (List.cons_prefix_cons.mp h).1
      subst this
      exact absurd hb (by decide)

/-- Encodings that start like the mark are encodings of texts that start with it. -/
theorem marked8_of_prefix {text : Str} (h : [0xEF, 0xBB, 0xBF] <+: asBytes text) : ∃ t, text = '\uFEFF' :: t := by
  obtain ⟨rest, h⟩ := h
  have hg : garbled utf8Codec .ground ([0xEF, 0xBB, 0xBF] ++ rest) = false := by rw [h]; exact garbled_asBytes text
  have hd := decode_asBytes text
  rw [← h] at hd
  have : decode utf8Codec .ground ([0xEF, 0xBB, 0xBF] ++ rest) = '\uFEFF' :: decode utf8Codec .ground rest := rfl
  rw [this] at hd
  exact ⟨_, hd.symm⟩

theorem utf8Decoder_text (text : Str) :
    decode utf8Decoder utf8Decoder.init (asBytes text) = withoutMark text ∧
    garbled utf8Decoder utf8Decoder.init (asBytes text) = false := by
  by_cases hm : ∃ t, text = '\uFEFF' :: t
  · obtain ⟨t, rfl⟩ := hm
    have e : asBytes ('\uFEFF' :: t) = 0xEF :: 0xBB :: 0xBF :: asBytes t := by
      show String.utf8EncodeChar '\uFEFF' ++ asBytes t = _
      rw [mark_bytes]
      rfl
    rw [e]
    obtain ⟨h1, h2⟩ := decode_marked8 utf8Codec (asBytes t)
    refine ⟨h1.trans ?_, h2.trans (garbled_asBytes t)⟩
    rw [decode_asBytes]
    rfl
  · obtain ⟨h1, h2⟩ := decode_unmarked utf8Codec (asBytes text) [] (fun h => hm (marked8_of_prefix h))
      (asBytes_unmarked16 text)
    refine ⟨h1.trans ((decode_asBytes text).trans ?_), h2.trans (garbled_asBytes text)⟩
    cases text with
    | nil => rfl
    | cons ch t =>
      have : ch ≠ '\uFEFF' := fun e => hm ⟨t, by rw [e]⟩
      rw [withoutMark, if_neg this]

/-- Bytes without a mark of UTF-16 that are not malformed are an encoding. -/
theorem utf8Decoder_clean (bytes : List Byte) (h16 : ¬ MarkedUtf16 bytes)
    (hg : garbled utf8Decoder utf8Decoder.init bytes = false) : ∃ text, bytes = asBytes text := by
  by_cases h8 : [0xEF, 0xBB, 0xBF] <+: bytes
  · obtain ⟨rest, rfl⟩ := h8
    have h := encoded_of_clean rest .ground [] .ground ((decode_marked8 utf8Codec rest).2.symm.trans hg)
    refine ⟨'\uFEFF' :: decode utf8Codec .ground rest, ?_⟩
    show _ = String.utf8EncodeChar '\uFEFF' ++ asBytes (decode utf8Codec .ground rest)
    rw [mark_bytes, ← h]
    rfl
  · have h := encoded_of_clean bytes .ground [] .ground ((decode_unmarked utf8Codec bytes [] h8 h16).2.symm.trans hg)
    exact ⟨_, h⟩

theorem cursorReads_flatten (size n : Nat) (hs : 0 < size) (bytes : List Byte) (h : bytes.length ≤ n) :
    (cursorReads size n bytes).flatten = bytes ∧ ∀ x ∈ cursorReads size n bytes, x ≠ [] := by
  induction n generalizing bytes with
  | zero =>
    have : bytes = [] := List.length_eq_zero_iff.mp (by omega)
    subst this
    exact ⟨rfl, by simp [cursorReads]⟩
  | succ n ih =>
    unfold cursorReads
    cases bytes with
    | nil => simp
    | cons b bs =>
      obtain ⟨h1, h2⟩ := ih ((b :: bs).drop size) (by rw [List.length_drop]; omega)
      refine ⟨?_, ?_⟩
      · simp only [List.isEmpty_cons, Bool.false_eq_true, if_false, List.flatten_cons, h1, List.take_append_drop]
      · intro x hx
        simp only [List.isEmpty_cons, Bool.false_eq_true, if_false, List.mem_cons] at hx
        rcases hx with rfl | hx
        · intro e
          rw [List.take_eq_nil_iff] at e
          rcases e with e | e
          · omega
          · cases e
        · exact h2 x hx

/-! ## No piece has more characters than bytes -/

theorem utf8First_clean (b : Byte) : (utf8First b).2.1.length ≤ 1 := by
  unfold utf8First
  simp only
  repeat' split
  all_goals simp

theorem utf8Feed_clean {st : Utf8State} {b : Byte} (h : (utf8Feed st b).2.2 = false) : (utf8Feed st b).2.1.length ≤ 1 := by
  unfold utf8Feed at h ⊢
  by_cases h1 : st.needed = 0
  · rw [if_pos h1]; exact utf8First_clean b
  · rw [if_neg h1] at h ⊢
    by_cases h2 : b.toNat < st.lower ∨ st.upper < b.toNat
    · rw [if_pos h2] at h; cases h
    · rw [if_neg h2]
      by_cases h3 : st.needed = 1
      · simp [h3]
      · simp [h3]

theorem utf16Unit_clean (u : Nat) : (utf16Unit u).2.1.length ≤ 1 := by
  unfold utf16Unit
  repeat' split
  all_goals simp

theorem utf16Feed_clean {big : Bool} {st : Utf16State} {b : Byte} (h : (utf16Feed big st b).2.2 = false) :
    (utf16Feed big st b).2.1.length ≤ 1 := by
  obtain ⟨byte, lead⟩ := st
  cases byte with
  | none => simp [utf16Feed]
  | some a =>
    cases lead with
    | none => exact utf16Unit_clean _
    | some l =>
      unfold utf16Feed at h ⊢
      simp only at h ⊢
      generalize (if big = true then UInt8.toNat a * 256 + UInt8.toNat b else UInt8.toNat b * 256 + UInt8.toNat a) = u at h ⊢
      by_cases h2 : 0xDC00 ≤ u ∧ u ≤ 0xDFFF
      · rw [if_pos h2]; exact Nat.le_refl 1
      · rw [if_neg h2] at h; cases h

/-- What a decoder that looks for a mark can hold back. -/
def HoldsBack : SniffState utf8Codec → Prop
  | .start held => held = [] ∨ held = [0xEF] ∨ held = [0xEF, 0xBB] ∨ held = [0xFE] ∨ held = [0xFF]
  | _ => True

theorem held_clean {held : List Byte} (b : Byte) (h : HoldsBack (.start held))
    (hg : (utf8Codec.run .ground (held ++ [b])).2.2 = false) : (utf8Codec.run .ground (held ++ [b])).2.1.length ≤ 1 := by
  rcases h with rfl | rfl | rfl | rfl | rfl
  · simp only [List.nil_append, Codec.run, List.append_nil, Bool.or_false] at hg ⊢
    exact utf8Feed_clean hg
  · simp only [List.cons_append, List.nil_append, Codec.run, List.append_nil, Bool.or_false, Bool.or_eq_false_iff] at hg ⊢
    have h1 : utf8Feed .ground 0xEF = (⟨15, 2, 0x80, 0xBF⟩, [], false) := by decide +kernel
    rw [h1] at hg ⊢
    exact utf8Feed_clean hg.2
  · simp only [List.cons_append, List.nil_append, Codec.run, List.append_nil, Bool.or_false, Bool.or_eq_false_iff] at hg ⊢
    have h1 : utf8Feed .ground 0xEF = (⟨15, 2, 0x80, 0xBF⟩, [], false) := by decide +kernel
    have h2 : utf8Feed ⟨15, 2, 0x80, 0xBF⟩ 0xBB = (⟨1019, 1, 0x80, 0xBF⟩, [], false) := by decide +kernel
    rw [h1] at hg ⊢
    simp only at hg ⊢
    rw [h2] at hg ⊢
    exact utf8Feed_clean hg.2.2
  · simp only [List.cons_append, List.nil_append, Codec.run, Bool.or_eq_false_iff] at hg
    have h1 : (utf8Feed .ground 0xFE).2.2 = true := by decide +kernel
    rw [h1] at hg
    cases hg.1
  · simp only [List.cons_append, List.nil_append, Codec.run, Bool.or_eq_false_iff] at hg
    have h1 : (utf8Feed .ground 0xFF).2.2 = true := by decide +kernel
    rw [h1] at hg
    cases hg.1

theorem sniff_clean {st : SniffState utf8Codec} (b : Byte) (h : HoldsBack st) :
    HoldsBack (utf8Decoder.feed st b).1 ∧
    ((utf8Decoder.feed st b).2.2 = false → (utf8Decoder.feed st b).2.1.length ≤ 1) := by
  cases st with
  | start held =>
    simp only [utf8Decoder, Codec.sniffing]
    split
    · exact ⟨trivial, fun _ => by simp⟩
    · split
      · exact ⟨trivial, fun _ => by simp⟩
      · split
        · exact ⟨trivial, fun _ => by simp⟩
        · split
          · rename_i h1; exact ⟨.inr h1, fun _ => by simp⟩
          · exact ⟨trivial, fun hg => held_clean b h hg⟩
  | label st => exact ⟨trivial, utf8Feed_clean⟩
  | utf8 st => exact ⟨trivial, utf8Feed_clean⟩
  | utf16 big st => exact ⟨trivial, utf16Feed_clean⟩

theorem sniff_run {st : SniffState utf8Codec} (bytes : List Byte) (h : HoldsBack st) :
    HoldsBack (utf8Decoder.run st bytes).1 ∧
    ((utf8Decoder.run st bytes).2.2 = false → (utf8Decoder.run st bytes).2.1.length ≤ bytes.length) := by
  induction bytes generalizing st with
  | nil => exact ⟨h, fun _ => Nat.le_refl _⟩
  | cons b bs ih =>
    have h1 := sniff_clean b h
    have h2 := ih h1.1
    refine ⟨h2.1, fun hg => ?_⟩
    have hg' : ((utf8Decoder.feed st b).2.2 || (utf8Decoder.run (utf8Decoder.feed st b).1 bs).2.2) = false := hg
    rw [Bool.or_eq_false_iff] at hg'
    have h3 := h1.2 hg'.1
    have h4 := h2.2 hg'.2
    show ((utf8Decoder.feed st b).2.1 ++ (utf8Decoder.run (utf8Decoder.feed st b).1 bs).2.1).length ≤ _
    rw [List.length_append, List.length_cons]
    omega

theorem outputs_short {st : SniffState utf8Codec} (chunks : List (List Byte)) (k : Nat) (hk : ∀ x ∈ chunks, x.length ≤ k)
    (h : HoldsBack st) (hg : (utf8Decoder.run st chunks.flatten).2.2 = false) :
    ∀ p ∈ outputs utf8Decoder st chunks, p.length ≤ k := by
  induction chunks generalizing st with
  | nil => intro p hp; cases hp
  | cons x xs ih =>
    rw [List.flatten_cons, run_append] at hg
    simp only [Bool.or_eq_false_iff] at hg
    intro p hp
    rw [outputs, List.mem_cons] at hp
    rcases hp with rfl | hp
    · rw [decodeOpen_eq]
      exact Nat.le_trans ((sniff_run x h).2 hg.1) (hk x (by simp))
    · exact ih (fun y hy => hk y (by simp [hy])) (sniff_run x h).1 hg.2 p hp

theorem finish_clean {st : SniffState utf8Codec} (h : HoldsBack st) (hg : (utf8Decoder.finish st).2 = false) :
    (utf8Decoder.finish st).1 = [] := by
  cases st with
  | start held =>
    rcases h with rfl | rfl | rfl | rfl | rfl
    · decide +kernel
    all_goals
      exfalso
      revert hg
      decide +kernel
  | label st =>
    simp only at hg ⊢
    split <;> simp_all
  | utf8 st =>
    simp only at hg ⊢
    split <;> simp_all
  | utf16 big st =>
    simp only at hg ⊢
    split <;> simp_all

theorem cursorReads_short (size n : Nat) (bytes : List Byte) : ∀ x ∈ cursorReads size n bytes, x.length ≤ size := by
  induction n generalizing bytes with
  | zero => intro x hx; cases hx
  | succ n ih =>
    intro x hx
    rw [cursorReads] at hx
    split at hx
    · cases hx
    · rw [List.mem_cons] at hx
      rcases hx with rfl | hx
      · simp; omega
      · exact ih _ x hx

end Ebnf
