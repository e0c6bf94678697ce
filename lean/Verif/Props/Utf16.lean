import Verif.Proofs.Utf16
import Verif.Props.Utf8

set_option autoImplicit false

/-! # C88: UTF-16

`c.sniffing` is the decoder of an arbitrary label, `(utf16Codec big).sniffing` that of the labels `utf-16be` and `utf-16le`;
`sched` is an arbitrary choice of how much the underlying decoder does in each call. -/

namespace Ebnf.Props

open Ebnf Ebnf.Spec

theorem mark_cases (big : Bool) : utf16Mark big = if big then [0xFE, 0xFF] else [0xFF, 0xFE] := by cases big <;> decide

theorem sniffing_marked (c : Codec) (big : Bool) (bytes : List Byte) :
    decode c.sniffing c.sniffing.init (utf16Mark big ++ bytes) = decode (utf16Codec big) (utf16Codec big).init bytes ∧
    garbled c.sniffing c.sniffing.init (utf16Mark big ++ bytes) = garbled (utf16Codec big) (utf16Codec big).init bytes := by
  rw [mark_cases]
  exact decode_marked16 c big bytes

theorem markedUtf16_iff (big : Bool) (bytes : List Byte) :
    MarkedUtf16 bytes ↔ utf16Mark big <+: bytes ∨ utf16Mark (!big) <+: bytes := by
  rw [mark_cases, mark_cases]
  cases big
  · exact Or.comm
  · exact Iff.rfl

/-- What a decoder returns for bytes that are not malformed. -/
theorem clean_fragments (c : Codec) (name : Str) (stop : Bool) (sched : List (Option Nat)) (fragments : List (List Byte))
    (h : garbled c c.init fragments.flatten = false) :
    (pushFragments fragments (Decoder.new c name stop sched)).1 = .ok (decode c c.init fragments.flatten) := by
  cases stop with
  | false => exact c29_fragmentation c name sched fragments
  | true => exact (c29_stop_with_garbled c name sched fragments).1 h

theorem accepted_clean (c : Codec) (name out : Str) (sched : List (Option Nat)) (fragments : List (List Byte))
    (h : (pushFragments fragments (Decoder.new c name true sched)).1 = .ok out) :
    garbled c c.init fragments.flatten = false ∧ decode c c.init fragments.flatten = out := by
  cases hg : garbled c c.init fragments.flatten with
  | true =>
    obtain ⟨e, he⟩ := (c29_stop_with_garbled c name sched fragments).2 hg
    rw [he] at h
    cases h
  | false =>
    rw [(c29_stop_with_garbled c name sched fragments).1 hg] at h
    injection h with h
    exact ⟨rfl, h⟩

/-- C88: the UTF-16 bytes of a text after the matching byte order mark, cut into any fragments, are decoded to the text,
whatever the label, and whether or not the decoder stops at malformed sequences. -/
theorem c88_marked_text (c : Codec) (big : Bool) (name text : Str) (stop : Bool) (sched : List (Option Nat))
    (fragments : List (List Byte)) (h : fragments.flatten = utf16Mark big ++ utf16Bytes big text) :
    (pushFragments fragments (Decoder.new c.sniffing name stop sched)).1 = .ok text := by
  obtain ⟨h1, h2⟩ := sniffing_marked c big (utf16Bytes big text)
  rw [clean_fragments, h, h1]
  · exact congrArg Res.ok (decode16_text big text)
  · rw [h, h2]
    exact garbled16_text big text

example : utf16Mark false ++ utf16Bytes false "あ😀".toList = [0xFF, 0xFE, 0x42, 0x30, 0x3D, 0xD8, 0x00, 0xDE] ∧
    (pushFragments [[0xFF], [0xFE, 0x42, 0x30, 0x3D], [], [0xD8, 0x00], [0xDE]] (Decoder.new utf8Decoder [] true [some 0])).1 =
      .ok "あ😀".toList := by decide +kernel

/-- C88: after the byte order mark, a decoder that stops at malformed sequences accepts nothing but the UTF-16 encodings of
texts. -/
theorem c88_marked_only (c : Codec) (big : Bool) (name out : Str) (sched : List (Option Nat)) (fragments : List (List Byte))
    (rest : List Byte) (h : fragments.flatten = utf16Mark big ++ rest) :
    (pushFragments fragments (Decoder.new c.sniffing name true sched)).1 = .ok out ↔ rest = utf16Bytes big out := by
  constructor
  · intro ho
    obtain ⟨hg, hd⟩ := accepted_clean _ _ _ _ _ ho
    obtain ⟨h1, h2⟩ := sniffing_marked c big rest
    rw [h, h2] at hg
    rw [h, h1] at hd
    have := encoded16_of_clean big _ rest none (Nat.le_refl _) (fun _ e => by cases e) hg
    rw [← hd]
    exact this
  · rintro rfl
    exact c88_marked_text c big name out true sched fragments h

example : ∃ e, (pushFragments [[0xFE, 0xFF, 0xDC, 0x00], [0x00, 0x61]] (Decoder.new utf8Decoder [] true [])).1 = .err e :=
  (c29_stop_with_garbled utf8Decoder [] [] _).2 (by decide +kernel)

/-- Without a foreign mark the labels `utf-16be` and `utf-16le` decode what is left after the mark, or everything. -/
theorem label_text (big : Bool) (text : Str) (h8 : ¬ [0xEF, 0xBB, 0xBF] <+: utf16Bytes big text)
    (h16 : ¬ utf16Mark (!big) <+: utf16Bytes big text) :
    decode (utf16Codec big).sniffing (utf16Codec big).sniffing.init (utf16Bytes big text) = withoutMark text ∧
    garbled (utf16Codec big).sniffing (utf16Codec big).sniffing.init (utf16Bytes big text) = false := by
  by_cases hm : utf16Mark big <+: utf16Bytes big text
  · obtain ⟨rest, hr⟩ := hm
    obtain ⟨h1, h2⟩ := sniffing_marked (utf16Codec big) big rest
    rw [← hr, h1, h2]
    have hd := decode16_text big text
    have hg := garbled16_text big text
    have e1 : decode (utf16Codec big) ⟨none, none⟩ (utf16Mark big ++ rest) = '\uFEFF' :: decode (utf16Codec big) ⟨none, none⟩ rest := by
      cases big <;> rfl
    have e2 : garbled (utf16Codec big) ⟨none, none⟩ (utf16Mark big ++ rest) = garbled (utf16Codec big) ⟨none, none⟩ rest := by
      cases big <;> rfl
    rw [← hr, e1] at hd
    rw [← hr, e2] at hg
    refine ⟨?_, hg⟩
    rw [← hd]
    rfl
  · have hn : ¬ MarkedUtf16 (utf16Bytes big text) := by
      rw [markedUtf16_iff big]
      rintro (h | h)
      · exact hm h
      · exact h16 h
    obtain ⟨h1, h2⟩ := decode_unmarked (utf16Codec big) (utf16Bytes big text) [] h8 hn
    refine ⟨h1.trans ((decode16_text big text).trans ?_), h2.trans (garbled16_text big text)⟩
    cases text with
    | nil => rfl
    | cons ch t =>
      have : ch ≠ '\uFEFF' := by
        rintro rfl
        refine hm ⟨utf16Bytes big t, ?_⟩
        simp [utf16Bytes, utf16Mark, utf16Units]
      rw [withoutMark, if_neg this]

/-- C88: under the labels `utf-16be` and `utf-16le` no mark is needed.  A mark at the start of the text is dropped. -/
theorem c88_label_text (big : Bool) (name text : Str) (stop : Bool) (sched : List (Option Nat))
    (fragments : List (List Byte)) (h : fragments.flatten = utf16Bytes big text)
    (h8 : ¬ [0xEF, 0xBB, 0xBF] <+: fragments.flatten) (h16 : ¬ utf16Mark (!big) <+: fragments.flatten) :
    (pushFragments fragments (Decoder.new (utf16Codec big).sniffing name stop sched)).1 = .ok (withoutMark text) := by
  rw [h] at h8 h16
  obtain ⟨h1, h2⟩ := label_text big text h8 h16
  rw [clean_fragments, h]
  · exact congrArg Res.ok h1
  · rw [h]
    exact h2

/-- C88: and nothing else is accepted by a decoder that stops at malformed sequences. -/
theorem c88_label_only (big : Bool) (name out : Str) (sched : List (Option Nat)) (fragments : List (List Byte))
    (h8 : ¬ [0xEF, 0xBB, 0xBF] <+: fragments.flatten) (h16 : ¬ utf16Mark (!big) <+: fragments.flatten) :
    (pushFragments fragments (Decoder.new (utf16Codec big).sniffing name true sched)).1 = .ok out ↔
      ∃ text, fragments.flatten = utf16Bytes big text ∧ out = withoutMark text := by
  constructor
  · intro ho
    obtain ⟨hg, hd⟩ := accepted_clean _ _ _ _ _ ho
    have hclean : garbled (utf16Codec big) ⟨none, none⟩ fragments.flatten = false := by
      by_cases hm : utf16Mark big <+: fragments.flatten
      · obtain ⟨rest, hr⟩ := hm
        rw [← hr] at hg ⊢
        rw [(sniffing_marked (utf16Codec big) big rest).2] at hg
        refine Eq.trans ?_ hg
        cases big <;> rfl
      · refine (decode_unmarked (utf16Codec big) fragments.flatten [] h8 ?_).2.symm.trans hg
        rw [markedUtf16_iff big]
        rintro (h | h)
        · exact hm h
        · exact h16 h
    have he := encoded16_of_clean big _ fragments.flatten none (Nat.le_refl _) (fun _ e => by cases e) hclean
    refine ⟨decode (utf16Codec big) ⟨none, none⟩ fragments.flatten, he, ?_⟩
    have := c88_label_text big name _ true sched fragments he h8 h16
    rw [ho] at this
    injection this
  · rintro ⟨text, ht, rfl⟩
    exact c88_label_text big name text true sched fragments ht h8 h16

example : ¬ [0xEF, 0xBB, 0xBF] <+: utf16Bytes true "あ😀".toList ∧ ¬ utf16Mark false <+: utf16Bytes true "あ😀".toList ∧
    (pushFragments [[0x30], [0x42, 0xD8, 0x3D, 0xDE], [0x00]] (Decoder.new (utf16Codec true).sniffing [] true [])).1 =
      .ok "あ😀".toList := by decide +kernel

/-- C88: a foreign mark does decide, so that the conditions cannot be dropped: U+FFFE is the mark of the other byte order. -/
theorem c88_foreign_mark (big : Bool) (text : Str) : utf16Mark (!big) <+: utf16Bytes big ('\uFFFE' :: text) := by
  refine ⟨utf16Bytes big text, ?_⟩
  cases big <;> simp [utf16Bytes, utf16Mark, utf16Units, unitBytes]

/-- C88: what a decoder that does not stop makes of arbitrary bytes after the mark: every surrogate without a partner, and half a
code unit at the end, is replaced by U+FFFD. -/
theorem c88_replaced (c : Codec) (big : Bool) (name : Str) (sched : List (Option Nat)) (fragments : List (List Byte))
    (units : List Nat) (odd : List Byte) (hu : ∀ u ∈ units, u < 0x10000) (ho : odd.length ≤ 1)
    (h : fragments.flatten = utf16Mark big ++ (units.flatMap (unitBytes big) ++ odd)) :
    (pushFragments fragments (Decoder.new c.sniffing name false sched)).1 = .ok (unitsText (odd ≠ []) units) := by
  rw [c29_fragmentation, h, (sniffing_marked c big _).1]
  exact congrArg Res.ok (decode16_units big odd ho units hu).1

/-- C88: all bytes are of that form. -/
theorem c88_all_bytes (big : Bool) (bytes : List Byte) : ∃ (units : List Nat) (odd : List Byte),
    bytes = units.flatMap (unitBytes big) ++ odd ∧ (∀ u ∈ units, u < 0x10000) ∧ odd.length ≤ 1 :=
  bytes_units big _ bytes (Nat.le_refl _)

example : unitsText true [0x61, 0xDC00, 0xD83D, 0xDE00, 0xD83D, 0x62, 0xD83D] = "a�😀�b�".toList ∧
    unitsText true [0x62] = "b�".toList ∧ unitsText false [0xD83D] = "�".toList := by decide +kernel

/-- C88: no two texts have the same bytes. -/
theorem c88_faithful (big : Bool) (a b : Str) : utf16Bytes big a = utf16Bytes big b ↔ a = b := ⟨utf16Bytes_inj, congrArg _⟩

/-- C88: a `CharDecodeReader` over such bytes, in any chunks, delivers the text. -/
theorem c88_reader (c : Codec) (big : Bool) (name text : Str) (chunks : List (List Byte)) (hne : ∀ x ∈ chunks, x ≠ [])
    (h : chunks.flatten = utf16Mark big ++ utf16Bytes big text)
    (sched : List (Option Nat)) (sizes : List Nat) (hs : ∀ n ∈ sizes, 0 < n) (out : Str)
    (hr : (readSizes sizes (charDecodeReader c.sniffing name (chunks.map .ok) sched)).1 = .ok (out, true)) :
    out = text := by
  have hrun : (c.sniffing.run c.sniffing.init (utf16Mark big ++ utf16Bytes big text)).1 = .utf16 big ⟨none, none⟩ := by
    have e : (c.sniffing.run c.sniffing.init (utf16Mark big ++ utf16Bytes big text)).1 =
        (c.sniffing.run (.utf16 big ⟨none, none⟩) (utf16Bytes big text)).1 := by
      rw [mark_cases]
      cases big <;> rfl
    rw [e, run_utf16, run16_text]
  rw [c30_complete_partial c.sniffing name chunks hne (by rw [h, hrun]; rfl) sched sizes hs out hr, h,
    (sniffing_marked c big _).1]
  exact decode16_text big text

example : (readSizes [2, 1, 5] (charDecodeReader utf8Decoder [] ([[0xFE, 0xFF, 0xD8], [0x3D, 0xDE, 0x00, 0x00], [0x61]].map .ok)
    [none, some 0])).1 = .ok ("😀a".toList, true) := by decide +kernel

/-- C88: so a grammar can be read from UTF-16 under any label. -/
theorem c88_read_syntax (c : Codec) (big : Bool) (name text : Str) (chunks : List (List Byte)) (hne : ∀ x ∈ chunks, x ≠ [])
    (h : chunks.flatten = utf16Mark big ++ utf16Bytes big text) (sched : List (Option Nat)) (syn : Syntax) :
    Syntax.readFrom c.sniffing name (chunks.map .ok) 0 sched = .ok syn ↔ Syntax.ofStr name text = .ok syn := by
  rw [c31_read_syntax _ _ _ hne, h, (sniffing_marked c big _).1]
  rw [show decode (utf16Codec big) (utf16Codec big).init (utf16Bytes big text) = text from decode16_text big text]
  exact Res.bind_eq_ok.symm

example : ∃ syn, Syntax.readFrom utf8Decoder ['n'] ([utf16Mark true, utf16Bytes true ['a', '=', '\'', 'x', '\'', ';']].map .ok) 0 [] = .ok syn ∧
    syn.syntaxRules.length = 1 := by
  have h : ∃ syn, Syntax.ofStr ['n'] ['a', '=', '\'', 'x', '\'', ';'] = .ok syn ∧ syn.syntaxRules.length = 1 := by
    refine ⟨_, by rfl, ?_⟩
    decide +kernel
  obtain ⟨syn, h1, h2⟩ := h
  exact ⟨syn, (c88_read_syntax utf8Codec true _ ['a', '=', '\'', 'x', '\'', ';'] _ (by decide) (by decide +kernel) [] _).mpr h1, h2⟩

end Ebnf.Props
