import Verif.Proofs.Replaced
import Verif.Props.Utf8

set_option autoImplicit false

/-! # C89: what malformed UTF-8 becomes -/

namespace Ebnf.Props

open Ebnf Ebnf.Spec

/-- The decoding of bytes without a mark of UTF-16. -/
private theorem utf8Decoder_replaced (bytes : List Byte) (h16 : ¬ MarkedUtf16 bytes) (text : Str) :
    decode utf8Decoder utf8Decoder.init bytes = text ↔ Replaced (withoutMarkBytes bytes) text := by
  rw [replaced_iff]
  unfold withoutMarkBytes
  by_cases h8 : [0xEF, 0xBB, 0xBF] <+: bytes
  · obtain ⟨rest, rfl⟩ := h8
    rw [if_pos (List.prefix_append _ _)]
    have := (decode_marked8 utf8Codec rest).1
    exact Iff.of_eq (congrArg (· = text) this)
  · rw [if_neg h8]
    have := (decode_unmarked utf8Codec bytes [] h8 h16).1
    exact Iff.of_eq (congrArg (· = text) this)

/-- C89: a UTF-8 decoder that does not stop at malformed sequences makes of any bytes, in any fragments, the characters they encode
and one U+FFFD for each maximal subpart that encodes nothing (bytes that start with a byte order mark of UTF-16 apart; one of UTF-8
is dropped). -/
theorem c89_any_bytes (name : Str) (sched : List (Option Nat)) (fragments : List (List Byte)) (h16 : ¬ MarkedUtf16 fragments.flatten)
    (out : Str) : (pushFragments fragments (Decoder.new utf8Decoder name false sched)).1 = .ok out ↔
      Replaced (withoutMarkBytes fragments.flatten) out := by
  rw [c29_fragmentation, ← utf8Decoder_replaced _ h16]
  exact ⟨fun h => by injection h, fun h => by rw [h]⟩

/-- C89: there is exactly one such text. -/
theorem c89_one_text (bytes : List Byte) : ∃ text, Replaced bytes text ∧ ∀ text', Replaced bytes text' → text' = text :=
  ⟨_, (replaced_iff bytes _).2 rfl, fun _ h => ((replaced_iff bytes _).1 h).symm⟩

/-- C89: a decoder that stops at malformed sequences stops exactly when there is something to replace. -/
theorem c89_stops (name : Str) (sched : List (Option Nat)) (fragments : List (List Byte)) (h16 : ¬ MarkedUtf16 fragments.flatten) :
    (∃ e, (pushFragments fragments (Decoder.new utf8Decoder name true sched)).1 = .err e) ↔
      ∀ text, Replaced (withoutMarkBytes fragments.flatten) text → asBytes text ≠ withoutMarkBytes fragments.flatten := by
  have hm : ∀ text, asBytes (withoutMark text) = withoutMarkBytes (asBytes text) := by
    intro text
    cases text with
    | nil => decide
    | cons c cs =>
      unfold withoutMarkBytes
      by_cases hc : c = '\uFEFF'
      · subst hc
        rw [show withoutMark ('\uFEFF' :: cs) = cs by simp [withoutMark]]
        have h1 : asBytes ('\uFEFF' :: cs) = [0xEF, 0xBB, 0xBF] ++ asBytes cs := by
          show String.utf8EncodeChar '\uFEFF' ++ asBytes cs = _
          rw [mark_bytes]
        rw [h1, if_pos (List.prefix_append _ _)]; rfl
      · rw [show withoutMark (c :: cs) = c :: cs by simp [withoutMark, hc], if_neg]
        intro h
        obtain ⟨t, ht⟩ := marked8_of_prefix h
        injection ht with ht
        exact hc ht
  constructor
  · rintro ⟨e, he⟩ text h1 h2
    have h3 : Replaced (withoutMarkBytes fragments.flatten) text := h1
    by_cases h8 : [0xEF, 0xBB, 0xBF] <+: fragments.flatten
    · have h4 : fragments.flatten = asBytes ('\uFEFF' :: text) := by
        show _ = String.utf8EncodeChar '\uFEFF' ++ asBytes text
        rw [mark_bytes, h2, withoutMarkBytes, if_pos h8]
        obtain ⟨r, hr⟩ := h8
        rw [← hr]; rfl
      rw [c61_text name _ true sched fragments h4] at he
      cases he
    · rw [withoutMarkBytes, if_neg h8] at h2
      rw [c61_text name _ true sched fragments h2.symm] at he
      cases he
  · intro h
    cases hg : garbled utf8Decoder utf8Decoder.init fragments.flatten with
    | true => exact (c29_stop_with_garbled utf8Decoder name sched fragments).2 hg
    | false =>
      exfalso
      obtain ⟨text, ht⟩ := utf8Decoder_clean _ h16 hg
      refine h (withoutMark text) ?_ ?_
      · rw [← utf8Decoder_replaced _ h16, ht]
        exact (utf8Decoder_text text).1
      · rw [hm, ht]

/-- C89: reading rules from any bytes is reading them from the text with the replacements. -/
theorem c89_parse (name : Str) (chunks : List (List Byte)) (hne : ∀ x ∈ chunks, x ≠ []) (h16 : ¬ MarkedUtf16 chunks.flatten)
    (sched : List (Option Nat)) (text : Str) (h : Replaced (withoutMarkBytes chunks.flatten) text) (rules : List SyntaxRule) :
    parse utf8Decoder name (chunks.map .ok) 0 sched = .ok rules ↔ parseStr name text = .ok rules := by
  rw [c31_parse_stream utf8Decoder name chunks hne sched rules, (utf8Decoder_replaced _ h16 text).2 h]

/-- Truncated, overlong and surrogate sequences, and a byte that is never used; the bytes that end a truncated sequence are not lost. -/
example : (pushFragments [[0xE3, 0x81], [97, 0xF0, 0x9F], [0x98], [0xC3, 0xA9], [0xC0, 0x80, 0xED], [0xA0, 0x80, 0xFF], [0xE3]]
      (Decoder.new utf8Decoder [] false [some 0, none])).1 = .ok "�a�é�������".toList ∧
    Replaced [0xE3, 0x81, 97, 0xFF] ['�', 'a', '�'] ∧
    ¬ MarkedUtf16 [0xE3, 0x81, 97, 0xF0] := by
  refine ⟨by decide +kernel, (replaced_iff _ _).2 (by decide +kernel), ?_⟩
  unfold MarkedUtf16; decide

end Ebnf.Props
