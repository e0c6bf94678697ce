import Verif.Proofs.Utf8
import Verif.Proofs.Garbled
import Verif.Props.Decoder

set_option autoImplicit false

/-! # C61–C63: UTF-8, byte order marks, and where malformed bytes are reported

The decoders are those of `Verif/Model/Utf8.lean`; `sched` is an arbitrary choice of how much the underlying decoder
does in each call. -/

namespace Ebnf.Props

open Ebnf Ebnf.Spec

/-! ## C61 -/

/-- `asBytes` is the UTF-8 encoding of Lean's strings. -/
theorem c61_encoding (text : Str) : (String.ofList text).toUTF8.data.toList = asBytes text := by
  simp [String.toUTF8, asBytes, List.utf8Encode]

/-- C61: the UTF-8 bytes of a text, cut into any fragments, are decoded to the text (without a byte order mark at its
start), whether or not the decoder stops at malformed sequences. -/
theorem c61_text (name text : Str) (stop : Bool) (sched : List (Option Nat)) (fragments : List (List Byte))
    (h : fragments.flatten = asBytes text) :
    (pushFragments fragments (Decoder.new utf8Decoder name stop sched)).1 = .ok (withoutMark text) := by
  obtain ⟨h1, h2⟩ := utf8Decoder_text text
  cases stop with
  | false => rw [c29_fragmentation, h]; exact congrArg Res.ok h1
  | true => rw [(c29_stop_with_garbled utf8Decoder name sched fragments).1 (by rw [h]; exact h2), h]; exact congrArg Res.ok h1

example : (pushFragments [[0xE3, 0x81], [0x82, 97, 0xF0], [0x9F, 0x98], [], [0x80]] (Decoder.new utf8Decoder [] true [some 0, none])).1 =
    .ok "あa😀".toList ∧ asBytes "あa😀".toList = [0xE3, 0x81, 0x82, 97, 0xF0, 0x9F, 0x98, 0x80] := by decide +kernel

/-- C61: a decoder that stops at malformed sequences accepts nothing but the UTF-8 encodings of texts (bytes that start
with a byte order mark of UTF-16 apart). -/
theorem c61_only_text (name out : Str) (sched : List (Option Nat)) (fragments : List (List Byte))
    (h16 : ¬ MarkedUtf16 fragments.flatten) :
    (pushFragments fragments (Decoder.new utf8Decoder name true sched)).1 = .ok out ↔
      ∃ text, fragments.flatten = asBytes text ∧ out = withoutMark text := by
  constructor
  · intro h
    cases hg : garbled utf8Decoder utf8Decoder.init fragments.flatten with
    | true =>
      obtain ⟨e, he⟩ := (c29_stop_with_garbled utf8Decoder name sched fragments).2 hg
      rw [he] at h
      cases h
    | false =>
      obtain ⟨text, ht⟩ := utf8Decoder_clean _ h16 hg
      refine ⟨text, ht, ?_⟩
      rw [c61_text name text true sched fragments ht] at h
      injection h with h
      exact h.symm
  · rintro ⟨text, ht, rfl⟩
    exact c61_text name text true sched fragments ht

example : ¬ MarkedUtf16 [[0xE3, 0x81], [0x82]].flatten ∧ ¬ MarkedUtf16 [0xC0, 0x80] ∧
    ∃ e, (pushFragments [[0xC0, 0x80]] (Decoder.new utf8Decoder [] true [])).1 = .err e := by
  refine ⟨by unfold MarkedUtf16; decide, by unfold MarkedUtf16; decide, (c29_stop_with_garbled utf8Decoder [] [] [[0xC0, 0x80]]).2 (by decide +kernel)⟩

/-- C61: no two texts have the same bytes. -/
theorem c61_faithful (a b : Str) : asBytes a = asBytes b ↔ a = b := ⟨asBytes_inj, congrArg _⟩

/-- C61: a byte order mark decides the encoding whatever the label says; without a mark the label decides. -/
theorem c61_mark_decides (c : Codec) (name : Str) (sched : List (Option Nat)) (fragments : List (List Byte)) (rest : List Byte) :
    (fragments.flatten = [0xEF, 0xBB, 0xBF] ++ rest →
      (pushFragments fragments (Decoder.new c.sniffing name false sched)).1 = .ok (decode utf8Codec utf8Codec.init rest)) ∧
    (fragments.flatten = [0xFE, 0xFF] ++ rest →
      (pushFragments fragments (Decoder.new c.sniffing name false sched)).1 = .ok (decode (utf16Codec true) (utf16Codec true).init rest)) ∧
    (fragments.flatten = [0xFF, 0xFE] ++ rest →
      (pushFragments fragments (Decoder.new c.sniffing name false sched)).1 = .ok (decode (utf16Codec false) (utf16Codec false).init rest)) ∧
    (¬ [0xEF, 0xBB, 0xBF] <+: fragments.flatten → ¬ MarkedUtf16 fragments.flatten →
      (pushFragments fragments (Decoder.new c.sniffing name false sched)).1 = .ok (decode c c.init fragments.flatten)) := by
  rw [c29_fragmentation]
  refine ⟨fun h => ?_, fun h => ?_, fun h => ?_, fun h8 h16 => ?_⟩
  · rw [h]; exact congrArg Res.ok (decode_marked8 c rest).1
  · rw [h]; exact congrArg Res.ok (decode_marked16 c true rest).1
  · rw [h]; exact congrArg Res.ok (decode_marked16 c false rest).1
  · exact congrArg Res.ok (decode_unmarked c fragments.flatten [] h8 h16).1

example : (pushFragments [[0xFE], [0xFF, 0x30, 0x42], [0xD8, 0x3D, 0xDE], [0x00]] (Decoder.new utf8Decoder [] true [])).1 =
    .ok "あ😀".toList := by decide +kernel

/-- C61: a `CharDecodeReader` over the UTF-8 bytes of a text, in any chunks, delivers the text. -/
theorem c61_reader (name text : Str) (chunks : List (List Byte)) (hne : ∀ x ∈ chunks, x ≠ []) (h : chunks.flatten = asBytes text)
    (sched : List (Option Nat)) (sizes : List Nat) (hs : ∀ n ∈ sizes, 0 < n) (out : Str)
    (hr : (readSizes sizes (charDecodeReader utf8Decoder name (chunks.map .ok) sched)).1 = .ok (out, true)) :
    out = withoutMark text := by
  obtain ⟨h1, h2⟩ := utf8Decoder_text text
  have hf : (utf8Decoder.finish (utf8Decoder.run utf8Decoder.init chunks.flatten).1).1 = [] := by
    rw [h]
    refine finish_clean (sniff_run (st := .start []) (asBytes text) (Or.inl rfl)).1 ?_
    rw [garbled_eq, Bool.or_eq_false_iff] at h2
    exact h2.2
  rw [c30_complete_partial utf8Decoder name chunks hne hf sched sizes hs out hr, h]
  exact h1

example : (readSizes [2, 1, 5] (charDecodeReader utf8Decoder [] ([[0xE3], [0x81, 0x82, 97], [98]].map .ok) [none, some 0])).1 =
    .ok ("あab".toList, true) := by decide +kernel

/-! ## C62 -/

/-- C62, false for texts that start with a byte order mark: `parse_str` reads the mark as a character, which is not
allowed in a syntax; `read_from_str` drops it. -/
theorem c62_mark_dropped : ∃ syn, Syntax.readFromStr [] ('\uFEFF' :: "a='x';".toList) 0 [] = .ok syn ∧
    ∃ e, Syntax.ofStr [] ('\uFEFF' :: "a='x';".toList) = .err e := by
  refine ⟨⟨_, _, _⟩, rfl, _, rfl⟩

/-- C62: `read_from_str` without limit succeeds exactly when parsing the text (without a byte order mark at its start)
does, with the same syntax, for texts of every length: the 4096 byte chunks may cut characters. -/
theorem c62_read_from_str (name text : Str) (sched : List (Option Nat)) (syn : Syntax) :
    Syntax.readFromStr name text 0 sched = .ok syn ↔ Syntax.ofStr name (withoutMark text) = .ok syn := by
  obtain ⟨h1, h2⟩ := cursorReads_flatten 4096 _ (by decide) (asBytes text) (Nat.le_refl _)
  rw [Syntax.readFromStr, Syntax.readFromUtf8, c31_read_syntax _ _ _ h2, h1]
  rw [show decode utf8Decoder utf8Decoder.init (asBytes text) = withoutMark text from (utf8Decoder_text text).1]
  exact Res.bind_eq_ok.symm

/-- C62: if the text has no lexical error, then errors (and panics) are the same, too. -/
theorem c62_outcome (name text : Str) (sched : List (Option Nat)) (ts : List Token)
    (hlex : Lexes (Location.new name) (withoutMark text) ts) :
    Syntax.readFromStr name text 0 sched = Syntax.ofStr name (withoutMark text) := by
  obtain ⟨h1, h2⟩ := cursorReads_flatten 4096 _ (by decide) (asBytes text) (Nat.le_refl _)
  have hd : decode utf8Decoder utf8Decoder.init (asBytes text) = withoutMark text := (utf8Decoder_text text).1
  have := c31_parse_stream_outcome utf8Decoder name _ h2 sched ts (by rw [h1, hd]; exact hlex)
  rw [h1, hd] at this
  rw [Syntax.readFromStr, Syntax.readFromUtf8, Syntax.readFrom, this]
  rfl

/-- C62: `read_from_utf8` over the bytes of the text in any chunks. -/
theorem c62_read_from_utf8 (name text : Str) (chunks : List (List Byte)) (hne : ∀ x ∈ chunks, x ≠ [])
    (h : chunks.flatten = asBytes text) (sched : List (Option Nat)) (syn : Syntax) :
    Syntax.readFromUtf8 name (chunks.map .ok) 0 sched = .ok syn ↔ Syntax.ofStr name (withoutMark text) = .ok syn := by
  rw [Syntax.readFromUtf8, c31_read_syntax _ _ _ hne, h]
  rw [show decode utf8Decoder utf8Decoder.init (asBytes text) = withoutMark text from (utf8Decoder_text text).1]
  exact Res.bind_eq_ok.symm

example : ∃ syn, Syntax.readFromStr ['n'] "a='x',b;b=\"y\";".toList 0 [] = .ok syn ∧ syn.syntaxRules.length = 2 ∧
    Syntax.readFromUtf8 ['n'] ([[97, 61], [39, 120, 39, 59]].map .ok) 0 [] = Syntax.ofStr ['n'] "a='x';".toList :=
  ⟨_, rfl, rfl, rfl⟩

/-! ## C63 -/

/-- C63, false in general: a U+FFFD of the text itself can be taken for the malformed sequence, depending on the
fragments in which the bytes arrive.  The malformed byte is the third character. -/
theorem c63_genuine_replacement :
    ∃ e1 e2, (pushFragments [[0xEF, 0xBF, 0xBD, 97, 0xFF]] (Decoder.new utf8Decoder [] true [])).1 = .err e1 ∧
      (pushFragments [[0xEF, 0xBF, 0xBD], [97, 0xFF]] (Decoder.new utf8Decoder [] true [])).1 = .err e2 ∧
      e1.location = ⟨[], 1, 2⟩ ∧ e2.location = ⟨[], 1, 4⟩ := by
  refine ⟨_, _, rfl, rfl, ?_, ?_⟩ <;> decide +kernel

/-- C63, after the error: the bytes stay in the decoder and are decoded again by the next call, so that well-formed bytes are
reported as malformed, and at a place that the text never reaches. -/
theorem c63_decoded_again :
    ∃ e1 e2 d1 d2, Decoder.push [97, 0xFF] (Decoder.new utf8Decoder [] true []) = (.err e1, d1) ∧ e1.location = ⟨[], 1, 3⟩ ∧
      Decoder.push [98] d1 = (.err e2, d2) ∧ e2.location = ⟨[], 1, 5⟩ ∧
      decode utf8Decoder utf8Decoder.init [97, 0xFF, 98] = ['a', '\uFFFD', 'b'] := by
  refine ⟨_, _, _, _, rfl, ?_, rfl, ?_, ?_⟩ <;> decide +kernel

/-- C63 for bytes without a U+FFFD before the malformed sequence: a decoder that stops at malformed sequences reports the
place behind the replacement of the first one, for every fragmentation and schedule.  Missing: bytes with a U+FFFD before it
(`c63_genuine_replacement`). -/
theorem c63_place_partial (c : Codec) (hc : ReplacesMalformed c) (name : Str) (sched : List (Option Nat)) (fragments : List (List Byte))
    (hg : garbled c c.init fragments.flatten = true) (hw : '\uFFFD' ∉ cleanPrefix c c.init fragments.flatten) :
    ∃ e, (pushFragments fragments (Decoder.new c name true sched)).1 = .err e ∧
      e.location = lineColumn (Location.new name) (upToReplacement (decode c c.init fragments.flatten)) := by
  obtain ⟨e, h1, h2⟩ := pushFragments_bad hc fragments (new_ready c name true sched) hg hw
  exact ⟨e, h1, by rw [h2, Location.pushStr_eq_lineColumn]; rfl⟩

/-- C63, exactly: let `before` be the fragments in front of the one (or of the end of the stream, if `after` is empty) in which
something is malformed, and `o` what is decoded of that one until the decoder stops.  The error is placed behind the first
U+FFFD in `o`, and its message gives the places where `o` begins and ends. -/
theorem c63_message (c : Codec) (hc : ReplacesMalformed c) (name : Str) (sched : List (Option Nat)) (fragments : List (List Byte))
    (hg : garbled c c.init fragments.flatten = true) :
    ∃ e before after o, fragments = before ++ after ∧ (c.run c.init before.flatten).2.2 = false ∧ '\uFFFD' ∈ o ∧
      ((∃ f rest, after = f :: rest ∧ (c.run (c.run c.init before.flatten).1 f).2.2 = true ∧
          o <+: decodeOpen c (c.run c.init before.flatten).1 f) ∨
        (after = [] ∧ o <+: (c.finish (c.run c.init before.flatten).1).1)) ∧
      (pushFragments fragments (Decoder.new c name true sched)).1 = .err e ∧
      e.location = lineColumn (Location.new name) (decodeOpen c c.init before.flatten ++ upToReplacement o) ∧
      e.msg = .garbled (lineColumn (Location.new name) (decodeOpen c c.init before.flatten)).lines
        (lineColumn (Location.new name) (decodeOpen c c.init before.flatten)).columns
        (lineColumn (Location.new name) (decodeOpen c c.init before.flatten ++ o)).lines
        (lineColumn (Location.new name) (decodeOpen c c.init before.flatten ++ o)).columns := by
  obtain ⟨e, before, after, o, h1, h2, h3, h4, h5, h6, h7⟩ := pushFragments_message hc fragments (new_ready c name true sched) hg
  refine ⟨e, before, after, o, h1, h2, h3, h4, h5, ?_, ?_⟩
  · rw [h6, Location.pushStr_eq_lineColumn]; rfl
  · rw [h7, Location.pushStr_eq_lineColumn, Location.pushStr_eq_lineColumn]; rfl

example : ∃ e, (pushFragments [[97, 10, 98], [99, 0xFF, 10, 100]] (Decoder.new utf8Decoder ['n'] true [])).1 = .err e ∧
    e.location = ⟨['n'], 2, 4⟩ ∧ e.msg = .garbled 2 2 3 2 := by
  refine ⟨_, rfl, ?_, ?_⟩ <;> decide +kernel

/-- The decoders of UTF-8 and UTF-16 are such encodings, also when they look for a byte order mark. -/
theorem c63_decoders : ReplacesMalformed utf8Codec ∧ (∀ big, ReplacesMalformed (utf16Codec big)) ∧
    ∀ c, ReplacesMalformed c → ReplacesMalformed c.sniffing :=
  ⟨utf8_replaces, utf16_replaces, fun _ h => sniffing_replaces h⟩

example : garbled utf8Decoder utf8Decoder.init [97, 10, 0xE3, 0x81, 98] = true ∧
    '\uFFFD' ∉ cleanPrefix utf8Decoder utf8Decoder.init [97, 10, 0xE3, 0x81, 98] ∧
    upToReplacement (decode utf8Decoder utf8Decoder.init [97, 10, 0xE3, 0x81, 98]) = ['a', '\n', '\uFFFD'] ∧
    lineColumn (Location.new []) ['a', '\n', '\uFFFD'] = ⟨[], 2, 2⟩ := by decide +kernel

end Ebnf.Props
