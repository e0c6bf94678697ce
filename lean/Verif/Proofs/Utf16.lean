import Verif.Spec.Utf16
import Verif.Proofs.Utf8
import Verif.Proofs.Garbled

set_option autoImplicit false

/-! # Lemmas: the UTF-16 decoder inverts the encoder -/

namespace Ebnf

open Spec

/-- What the decoder does with a whole code unit. -/
def unitStep (lead : Option Nat) (u : Nat) : Utf16State × Str × Bool :=
  match lead with
  | none => utf16Unit u
  | some h =>
    if 0xDC00 ≤ u ∧ u ≤ 0xDFFF then (⟨none, none⟩, [Char.ofNat (0x10000 + (h - 0xD800) * 0x400 + (u - 0xDC00))], false)
    else ((utf16Unit u).1, '�' :: (utf16Unit u).2.1, true)

/-- The number two bytes stand for. -/
def unitOf (big : Bool) (a b : Byte) : Nat := if big then a.toNat * 256 + b.toNat else b.toNat * 256 + a.toNat

theorem utf16Feed_two (big : Bool) (lead : Option Nat) (a b : Byte) :
    utf16Feed big ⟨some a, lead⟩ b = unitStep lead (unitOf big a b) := by
  cases lead <;> rfl

theorem unitStep_byte (lead : Option Nat) (u : Nat) : (unitStep lead u).1.byte = none := by
  have h : (utf16Unit u).1.byte = none := by
    unfold utf16Unit
    split
    · rfl
    · split <;> rfl
  cases lead with
  | none => exact h
  | some l =>
    unfold unitStep
    simp only
    split
    · rfl
    · exact h

theorem unitOf_lt (big : Bool) (a b : Byte) : unitOf big a b < 0x10000 := by
  have ha := a.toNat_lt
  have hb := b.toNat_lt
  unfold unitOf
  cases big <;> simp <;> omega

theorem unitBytes_unitOf (big : Bool) (a b : Byte) : unitBytes big (unitOf big a b) = [a, b] := by
  have ha := a.toNat_lt
  have hb := b.toNat_lt
  unfold unitBytes unitOf
  cases big
  · simp only [Bool.false_eq_true, if_false]
    rw [byte_eq (b := a) (by omega), byte_eq (b := b) (by omega)]
  · simp only [if_true]
    rw [byte_eq (b := a) (by omega), byte_eq (b := b) (by omega)]

theorem unitBytes_pair (big : Bool) {u : Nat} (h : u < 0x10000) : ∃ a b, unitBytes big u = [a, b] ∧ unitOf big a b = u := by
  unfold unitBytes unitOf
  cases big
  · refine ⟨_, _, rfl, ?_⟩
    simp only [Bool.false_eq_true, if_false]
    rw [byte_toNat (by omega), byte_toNat (by omega)]
    omega
  · refine ⟨_, _, rfl, ?_⟩
    simp only [if_true]
    rw [byte_toNat (by omega), byte_toNat (by omega)]
    omega

theorem run16_two (big : Bool) (lead : Option Nat) (a b : Byte) (bs : List Byte) :
    (utf16Codec big).run ⟨none, lead⟩ (a :: b :: bs) =
      (((utf16Codec big).run (unitStep lead (unitOf big a b)).1 bs).1,
        (unitStep lead (unitOf big a b)).2.1 ++ ((utf16Codec big).run (unitStep lead (unitOf big a b)).1 bs).2.1,
        (unitStep lead (unitOf big a b)).2.2 || ((utf16Codec big).run (unitStep lead (unitOf big a b)).1 bs).2.2) := by
  rw [← utf16Feed_two]
  rfl

theorem run16_unit (big : Bool) (lead : Option Nat) {u : Nat} (hu : u < 0x10000) (bs : List Byte) :
    (utf16Codec big).run ⟨none, lead⟩ (unitBytes big u ++ bs) =
      (((utf16Codec big).run (unitStep lead u).1 bs).1,
        (unitStep lead u).2.1 ++ ((utf16Codec big).run (unitStep lead u).1 bs).2.1,
        (unitStep lead u).2.2 || ((utf16Codec big).run (unitStep lead u).1 bs).2.2) := by
  obtain ⟨a, b, h1, h2⟩ := unitBytes_pair big hu
  rw [h1]
  have := run16_two big lead a b bs
  rw [h2] at this
  exact this

theorem run16_text (big : Bool) (text : Str) :
    (utf16Codec big).run ⟨none, none⟩ (utf16Bytes big text) = (⟨none, none⟩, text, false) := by
  induction text with
  | nil => rfl
  | cons c cs ih =>
    have hv : c.toNat < 0xD800 ∨ (0xDFFF < c.toNat ∧ c.toNat < 0x110000) := valid_nat c
    have hc : Char.ofNat c.toNat = c := Char.ofNat_toNat c
    have e : utf16Bytes big (c :: cs) = (utf16Units c).flatMap (unitBytes big) ++ utf16Bytes big cs := by
      simp [utf16Bytes, List.flatMap_append]
    rw [e]
    by_cases h : c.toNat < 0x10000
    · have e1 : (utf16Units c).flatMap (unitBytes big) = unitBytes big c.toNat := by simp [utf16Units, h]
      have e2 : unitStep none c.toNat = (⟨none, none⟩, [c], false) := by
        unfold unitStep utf16Unit
        simp only
        rw [if_neg (by omega), if_neg (by omega), hc]
      rw [e1, run16_unit big none h, e2]
      simp only [ih]
      rfl
    · have e1 : (utf16Units c).flatMap (unitBytes big) ++ utf16Bytes big cs =
          unitBytes big (0xD800 + (c.toNat - 0x10000) / 0x400) ++
            (unitBytes big (0xDC00 + (c.toNat - 0x10000) % 0x400) ++ utf16Bytes big cs) := by
        simp [utf16Units, h]
      have e2 : unitStep none (0xD800 + (c.toNat - 0x10000) / 0x400) =
          (⟨none, some (0xD800 + (c.toNat - 0x10000) / 0x400)⟩, [], false) := by
        unfold unitStep utf16Unit
        simp only
        rw [if_pos (by omega)]
      have e3 : unitStep (some (0xD800 + (c.toNat - 0x10000) / 0x400)) (0xDC00 + (c.toNat - 0x10000) % 0x400) =
          (⟨none, none⟩, [c], false) := by
        unfold unitStep
        simp only
        rw [if_pos (by omega)]
        rw [show 0x10000 + (0xD800 + (c.toNat - 0x10000) / 0x400 - 0xD800) * 0x400 +
          (0xDC00 + (c.toNat - 0x10000) % 0x400 - 0xDC00) = c.toNat by omega, hc]
      rw [e1, run16_unit big none (by omega), e2]
      simp only
      rw [run16_unit big _ (by omega), e3]
      simp only [ih]
      rfl

theorem decode16_text (big : Bool) (text : Str) : decode (utf16Codec big) ⟨none, none⟩ (utf16Bytes big text) = text := by
  have := decode_eq (c := utf16Codec big) ⟨none, none⟩ (utf16Bytes big text)
  rw [this, run16_text]
  exact List.append_nil text

theorem garbled16_text (big : Bool) (text : Str) : garbled (utf16Codec big) ⟨none, none⟩ (utf16Bytes big text) = false := by
  have := garbled_eq (c := utf16Codec big) ⟨none, none⟩ (utf16Bytes big text)
  rw [this, run16_text]
  rfl

theorem utf16Bytes_inj {big : Bool} {a b : Str} (h : utf16Bytes big a = utf16Bytes big b) : a = b := by
  rw [← decode16_text big a, h, decode16_text]

/-! ## The other direction -/

theorem decode16_two (big : Bool) (lead : Option Nat) (a b : Byte) (bs : List Byte) :
    decode (utf16Codec big) ⟨none, lead⟩ (a :: b :: bs) =
      (unitStep lead (unitOf big a b)).2.1 ++ decode (utf16Codec big) (unitStep lead (unitOf big a b)).1 bs := by
  rw [← utf16Feed_two]
  rfl

theorem garbled16_two (big : Bool) (lead : Option Nat) (a b : Byte) (bs : List Byte) :
    garbled (utf16Codec big) ⟨none, lead⟩ (a :: b :: bs) =
      ((unitStep lead (unitOf big a b)).2.2 || garbled (utf16Codec big) (unitStep lead (unitOf big a b)).1 bs) := by
  rw [← utf16Feed_two]
  rfl

theorem utf16Units_ofNat {u : Nat} (h : u < 0xD800 ∨ (0xDFFF < u ∧ u < 0x10000)) : utf16Units (Char.ofNat u) = [u] := by
  have hv : (Char.ofNat u).toNat = u := val_ofNat (by omega)
  unfold utf16Units
  rw [hv, if_pos (by omega)]

theorem utf16Units_pair {u v : Nat} (hu : leading u) (hv : trailing v) :
    utf16Units (Char.ofNat (0x10000 + (u - 0xD800) * 0x400 + (v - 0xDC00))) = [u, v] := by
  unfold leading at hu
  unfold trailing at hv
  have e : (Char.ofNat (0x10000 + (u - 0xD800) * 0x400 + (v - 0xDC00))).toNat =
    0x10000 + (u - 0xD800) * 0x400 + (v - 0xDC00) := val_ofNat (by omega)
  unfold utf16Units
  rw [e, if_neg (by omega)]
  have h1 : 0xD800 + (0x10000 + (u - 0xD800) * 0x400 + (v - 0xDC00) - 0x10000) / 0x400 = u := by omega
  have h2 : 0xDC00 + (0x10000 + (u - 0xD800) * 0x400 + (v - 0xDC00) - 0x10000) % 0x400 = v := by omega
  rw [h1, h2]

/-- The bytes of the leading surrogate that waits for its partner. -/
def leadBytes (big : Bool) : Option Nat → List Byte
  | none => []
  | some h => unitBytes big h

/-- Bytes that are not malformed are an encoding of what they are decoded to. -/
theorem encoded16_of_clean (big : Bool) : ∀ (n : Nat) (bytes : List Byte) (lead : Option Nat), bytes.length ≤ n →
    (∀ h, lead = some h → leading h) → garbled (utf16Codec big) ⟨none, lead⟩ bytes = false →
    leadBytes big lead ++ bytes = utf16Bytes big (decode (utf16Codec big) ⟨none, lead⟩ bytes)
  | _, [], none, _, _, _ => rfl
  | _, [], some h, _, _, hg => by cases (show true = false from hg)
  | _, [a], lead, _, _, hg => by cases (show true = false from hg)
  | 0, _ :: _, _, hn, _, _ => by simp at hn
  | n + 1, a :: b :: bs, lead, hn, hl, hg => by
    rw [garbled16_two, Bool.or_eq_false_iff] at hg
    rw [decode16_two]
    have hb := unitBytes_unitOf big a b
    have hlt := unitOf_lt big a b
    generalize unitOf big a b = u at hg hb hlt ⊢
    have hlen : bs.length ≤ n := by simp at hn; omega
    have cons : ∀ (us : List Nat) (c : Char) (text : Str), utf16Units c = us →
        utf16Bytes big ([c] ++ text) = us.flatMap (unitBytes big) ++ utf16Bytes big text := by
      intro us c text h
      simp [utf16Bytes, List.flatMap_append, h]
    cases lead with
    | none =>
      by_cases h1 : 0xD800 ≤ u ∧ u ≤ 0xDBFF
      · have e : unitStep none u = (⟨none, some u⟩, [], false) := by
          unfold unitStep utf16Unit
          simp only
          rw [if_pos h1]
        rw [e] at hg ⊢
        have ih := encoded16_of_clean big n bs (some u) hlen (fun h' e => by cases e; exact ⟨h1.1, by omega⟩) hg.2
        simp only [List.nil_append]
        rw [← ih]
        simp [leadBytes, hb]
      · by_cases h2 : 0xDC00 ≤ u ∧ u ≤ 0xDFFF
        · have e : unitStep none u = (⟨none, none⟩, ['�'], true) := by
            unfold unitStep utf16Unit
            simp only
            rw [if_neg h1, if_pos h2]
          rw [e] at hg
          cases hg.1
        · have e : unitStep none u = (⟨none, none⟩, [Char.ofNat u], false) := by
            unfold unitStep utf16Unit
            simp only
            rw [if_neg h1, if_neg h2]
          rw [e] at hg ⊢
          have ih := encoded16_of_clean big n bs none hlen (fun h' e => by cases e) hg.2
          simp only
          rw [cons [u] _ _ (utf16Units_ofNat (by omega)), ← ih]
          simp [leadBytes, hb]
    | some l =>
      have hl' := hl l rfl
      by_cases h2 : 0xDC00 ≤ u ∧ u ≤ 0xDFFF
      · have e : unitStep (some l) u = (⟨none, none⟩, [Char.ofNat (0x10000 + (l - 0xD800) * 0x400 + (u - 0xDC00))], false) := by
          unfold unitStep
          simp only
          rw [if_pos h2]
        rw [e] at hg ⊢
        have ih := encoded16_of_clean big n bs none hlen (fun h' e => by cases e) hg.2
        simp only
        rw [cons [l, u] _ _ (utf16Units_pair hl' ⟨h2.1, by omega⟩), ← ih]
        simp [leadBytes, hb]
      · have e : (unitStep (some l) u).2.2 = true := by
          unfold unitStep
          simp only
          rw [if_neg h2]
        rw [e] at hg
        cases hg.1

/-! ## Arbitrary bytes -/

/-- Every sequence of bytes is a sequence of code units, and perhaps half of one more. -/
theorem bytes_units (big : Bool) : ∀ (n : Nat) (bytes : List Byte), bytes.length ≤ n →
    ∃ (us : List Nat) (odd : List Byte), bytes = us.flatMap (unitBytes big) ++ odd ∧ (∀ u ∈ us, u < 0x10000) ∧ odd.length ≤ 1
  | _, [], _ => ⟨[], [], rfl, by simp, by simp⟩
  | _, [a], _ => ⟨[], [a], rfl, by simp, by simp⟩
  | 0, _ :: _, h => by simp at h
  | n + 1, a :: b :: bs, h => by
    obtain ⟨us, odd, h1, h2, h3⟩ := bytes_units big n bs (by simp at h; omega)
    refine ⟨unitOf big a b :: us, odd, ?_, ?_, h3⟩
    · rw [List.flatMap_cons, unitBytes_unitOf, h1]
      simp
    · intro u hu
      rcases List.mem_cons.mp hu with rfl | hu
      · exact unitOf_lt big a b
      · exact h2 u hu

theorem decode16_unit (big : Bool) (lead : Option Nat) {u : Nat} (hu : u < 0x10000) (bs : List Byte) :
    decode (utf16Codec big) ⟨none, lead⟩ (unitBytes big u ++ bs) =
      (unitStep lead u).2.1 ++ decode (utf16Codec big) (unitStep lead u).1 bs := by
  obtain ⟨a, b, h1, h2⟩ := unitBytes_pair big hu
  rw [h1]
  have := decode16_two big lead a b bs
  rw [h2] at this
  exact this

theorem step_leading {u : Nat} (h : leading u) : unitStep none u = (⟨none, some u⟩, [], false) := by
  unfold leading at h
  unfold unitStep utf16Unit
  simp only
  rw [if_pos (by omega)]

theorem step_trailing {u : Nat} (h : trailing u) : unitStep none u = (⟨none, none⟩, ['�'], true) := by
  unfold trailing at h
  unfold unitStep utf16Unit
  simp only
  rw [if_neg (by omega), if_pos (by omega)]

theorem step_other {u : Nat} (h1 : ¬ leading u) (h2 : ¬ trailing u) : unitStep none u = (⟨none, none⟩, [Char.ofNat u], false) := by
  unfold leading at h1
  unfold trailing at h2
  unfold unitStep utf16Unit
  simp only
  rw [if_neg (by omega), if_neg (by omega)]

theorem step_pair (l : Nat) {u : Nat} (h : trailing u) :
    unitStep (some l) u = (⟨none, none⟩, [Char.ofNat (0x10000 + (l - 0xD800) * 0x400 + (u - 0xDC00))], false) := by
  unfold trailing at h
  unfold unitStep
  simp only
  rw [if_pos (by omega)]

theorem step_alone (l : Nat) {u : Nat} (h : ¬ trailing u) :
    unitStep (some l) u = ((unitStep none u).1, '�' :: (unitStep none u).2.1, true) := by
  unfold trailing at h
  unfold unitStep
  simp only
  rw [if_neg (by omega)]

/-- What arbitrary bytes are decoded to. -/
theorem decode16_units (big : Bool) (odd : List Byte) (hodd : odd.length ≤ 1) : ∀ (us : List Nat), (∀ u ∈ us, u < 0x10000) →
    decode (utf16Codec big) ⟨none, none⟩ (us.flatMap (unitBytes big) ++ odd) = unitsText (odd ≠ []) us ∧
    ∀ l, leading l → decode (utf16Codec big) ⟨none, some l⟩ (us.flatMap (unitBytes big) ++ odd) = unitsText (odd ≠ []) (l :: us)
  | [], _ => by
    cases odd with
    | nil =>
      refine ⟨rfl, fun l hl => ?_⟩
      simp [unitsText, hl, decode]
    | cons a as =>
      cases as with
      | cons _ _ => simp at hodd
      | nil =>
        refine ⟨rfl, fun l hl => ?_⟩
        simp [unitsText, hl, decode, utf16Feed]
  | u :: us, hus => by
    have hu := hus u (by simp)
    obtain ⟨i1, i2⟩ := decode16_units big odd hodd us (fun v hv => hus v (by simp [hv]))
    have e : (u :: us).flatMap (unitBytes big) ++ odd = unitBytes big u ++ (us.flatMap (unitBytes big) ++ odd) := by simp
    have first : decode (utf16Codec big) ⟨none, none⟩ ((u :: us).flatMap (unitBytes big) ++ odd) = unitsText (odd ≠ []) (u :: us) := by
      rw [e, decode16_unit big none hu]
      by_cases h1 : leading u
      · rw [step_leading h1]
        exact i2 u h1
      · by_cases h2 : trailing u
        · rw [step_trailing h2]
          simp only [i1]
          cases us <;> simp [unitsText, h1, h2]
        · rw [step_other h1 h2]
          simp only [i1]
          cases us <;> simp [unitsText, h1, h2]
    refine ⟨first, fun l hl => ?_⟩
    by_cases h2 : trailing u
    · rw [e, decode16_unit big _ hu, step_pair l h2]
      simp only [i1]
      simp [unitsText, hl, h2]
    · rw [e, decode16_unit big none hu] at first
      rw [e, decode16_unit big _ hu, step_alone l h2]
      have : unitsText (odd ≠ []) (l :: u :: us) = '�' :: unitsText (odd ≠ []) (u :: us) := by
        rw [unitsText]
        rw [if_neg (by simp [h2]), if_pos (.inl hl)]
      rw [this, ← first]
      rfl

end Ebnf
