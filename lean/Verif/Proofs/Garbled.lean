import Verif.Proofs.Decoder
import Verif.Proofs.Text
import Verif.Proofs.Utf8

set_option autoImplicit false

/-! # Lemmas: where a decoder that stops says the malformed sequence is -/

namespace Ebnf

open Spec

variable {c : Codec}

theorem clean_of_run {st : c.State} {a : List Byte} (h : (c.run st a).2.2 = false) (b : List Byte) :
    cleanPrefix c st (a ++ b) = (c.run st a).2.1 ++ cleanPrefix c (c.run st a).1 b := by
  induction a generalizing st with
  | nil => rfl
  | cons x xs ih =>
    have h' : ((c.feed st x).2.2 || (c.run (c.feed st x).1 xs).2.2) = false := h
    rw [Bool.or_eq_false_iff] at h'
    show cleanPrefix c st (x :: (xs ++ b)) = ((c.feed st x).2.1 ++ (c.run (c.feed st x).1 xs).2.1) ++ _
    rw [cleanPrefix, h'.1, ih h'.2, List.append_assoc]
    rfl

theorem clean_of_bad (hc : ReplacesMalformed c) {st : c.State} {a : List Byte} (h : (c.run st a).2.2 = true) (b : List Byte) :
    cleanPrefix c st (a ++ b) = cleanPrefix c st a ∧ '\uFFFD' ∈ (c.run st a).2.1 := by
  induction a generalizing st with
  | nil => cases h
  | cons x xs ih =>
    have h' : ((c.feed st x).2.2 || (c.run (c.feed st x).1 xs).2.2) = true := h
    show cleanPrefix c st (x :: (xs ++ b)) = _ ∧ '\uFFFD' ∈ (c.feed st x).2.1 ++ (c.run (c.feed st x).1 xs).2.1
    cases hx : (c.feed st x).2.2 with
    | true =>
      simp only [cleanPrefix, hx, if_true, true_and]
      exact List.mem_append_left _ (hc.feed st x hx)
    | false =>
      rw [hx, Bool.false_or] at h'
      obtain ⟨h1, h2⟩ := ih h'
      simp only [cleanPrefix, hx, Bool.false_eq_true, if_false]
      rw [h1]
      exact ⟨rfl, List.mem_append_right _ h2⟩

/-- What is output when something is malformed. -/
theorem bad_output (hc : ReplacesMalformed c) (flush : Bool) {st : c.State} {a : List Byte} (h : bad c flush st a = true) :
    '\uFFFD' ∈ outOf c flush st a := by
  cases hr : (c.run st a).2.2 with
  | true => exact List.mem_append_left _ (clean_of_bad hc hr []).2
  | false =>
    rw [bad, hr, Bool.false_or, Bool.and_eq_true] at h
    obtain ⟨h1, h2⟩ := h
    subst h1
    exact List.mem_append_right _ (hc.finish _ h2)

theorem convertLoop_bad (hc : ReplacesMalformed c) (flush : Bool) : ∀ (fuel : Nat) (st : c.State) (sched : List (Option Nat))
    (rest : List Byte) (position : Nat) (output : Str), rest.length < fuel → bad c flush st rest = true →
    ∃ i p o st' sched', Decoder.convertLoop c flush true fuel st sched rest position output =
      .ok (true, i, p, output ++ o, st', sched') ∧ '\uFFFD' ∈ o ∧ o <+: outOf c flush st rest := by
  intro fuel
  induction fuel with
  | zero => intro st sched rest position output h; omega
  | succ fuel ih =>
    intro st sched rest position output h hb
    rcases decodeToString_spec (c := c) st rest flush sched.head?.join with hd | ⟨a, b, rfl, ha, hd⟩
    · simp only [Decoder.convertLoop, hd, hb, Bool.and_true, if_true]
      exact ⟨_, _, _, _, _, rfl, bad_output hc flush hb, List.prefix_refl _⟩
    · have hrun := run_append (c := c) st a b
      have hal : 0 < a.length := List.length_pos_iff.mpr ha
      have hbad : bad c flush st (a ++ b) = ((c.run st a).2.2 || bad c flush (c.run st a).1 b) := by
        simp only [bad, hrun, Bool.or_assoc]
      have hout : outOf c flush st (a ++ b) = (c.run st a).2.1 ++ outOf c flush (c.run st a).1 b := by
        simp only [outOf, hrun, List.append_assoc]
      have hnb : (a.length == 0) = false := by simp [ha]
      simp only [Decoder.convertLoop, hd, Bool.false_or, hnb, Bool.false_eq_true, if_false, List.drop_left, Bool.and_true]
      rw [hout]
      cases hg : (c.run st a).2.2 with
      | true =>
        simp only [if_true]
        exact ⟨_, _, _, _, _, rfl, (clean_of_bad hc hg b).2, List.prefix_append _ _⟩
      | false =>
        rw [hbad, hg, Bool.false_or] at hb
        obtain ⟨i, p, o, st', s', hs, h1, h2⟩ := ih (c.run st a).1 sched.tail b (position + a.length) (output ++ (c.run st a).2.1)
          (by rw [List.length_append] at h; omega) hb
        simp only [Bool.false_eq_true, if_false]
        exact ⟨i, p, _, st', s', by rw [hs, List.append_assoc], List.mem_append_right _ h1,
          (List.prefix_append_right_inj _).mpr h2⟩

/-- The first U+FFFD does not depend on what follows it. -/
theorem upTo_append {w : Str} (h : '\uFFFD' ∈ w) (t : Str) : upToReplacement (w ++ t) = upToReplacement w := by
  induction w with
  | nil => cases h
  | cons x xs ih =>
    by_cases hx : x = '\uFFFD'
    · subst hx
      simp [upToReplacement]
    · have := ih ((List.mem_cons.mp h).resolve_left (fun e => hx e.symm))
      simp only [upToReplacement] at this ⊢
      simp only [List.cons_append, List.takeWhile_cons, ne_eq, hx, not_false_eq_true, decide_true, if_true]
      rw [this]

theorem upTo_skip {w : Str} (h : '\uFFFD' ∉ w) (t : Str) : upToReplacement (w ++ t) = w ++ upToReplacement t := by
  induction w with
  | nil => rfl
  | cons x xs ih =>
    have hx : x ≠ '\uFFFD' := fun e => h (by rw [e]; simp)
    have := ih (fun hm => h (List.mem_cons_of_mem _ hm))
    simp only [upToReplacement] at this ⊢
    simp only [List.cons_append, List.takeWhile_cons, ne_eq, hx, not_false_eq_true, decide_true, if_true]
    rw [this]

theorem take_mark (w : Str) (h : '\uFFFD' ∈ w) :
    w.take (((w.findIdx? (· == '\uFFFD')).getD 0) + 1) = upToReplacement w := by
  induction w with
  | nil => cases h
  | cons x xs ih =>
    by_cases hx : x = '\uFFFD'
    · subst hx
      simp [upToReplacement, List.findIdx?_cons]
    · have hm := (List.mem_cons.mp h).resolve_left (fun e => hx e.symm)
      have hs := ih hm
      cases hf : xs.findIdx? (· == '\uFFFD') with
      | none =>
        rw [List.findIdx?_eq_none_iff] at hf
        exact absurd (hf _ hm) (by simp)
      | some i =>
        rw [hf] at hs
        simp only [Option.getD_some] at hs
        have : (x :: xs).findIdx? (· == '\uFFFD') = some (i + 1) := by
          rw [List.findIdx?_cons, hf]
          simp [hx]
        rw [this, Option.getD_some, List.take_succ_cons, hs]
        simp [upToReplacement, hx]

theorem convert_bad_message (hc : ReplacesMalformed c) {d : Decoder c} {st : c.State} (h : Ready d st true) (bytes : List Byte)
    (flush : Bool) (hb : bad c flush st bytes = true) :
    ∃ e d' o, Decoder.convert bytes flush d = (.err e, d') ∧ '\uFFFD' ∈ o ∧ o <+: outOf c flush st bytes ∧
      e.location = d.location.pushStr (upToReplacement o) ∧
      e.msg = .garbled d.location.lines d.location.columns (d.location.pushStr o).lines (d.location.pushStr o).columns := by
  obtain ⟨rfl, h2, h3, hl⟩ := h
  obtain ⟨i, p, o, st', s', hs, h4, h5⟩ := convertLoop_bad hc flush (bytes.length + 1) d.state d.sched bytes 0 [] (by omega) hb
  refine ⟨_, _, o, by simp only [Decoder.convert, h2, h3, List.nil_append, hs, if_neg hl]; rfl, h4, h5, ?_, rfl⟩
  rw [← take_mark o h4]

theorem convert_bad (hc : ReplacesMalformed c) {d : Decoder c} {st : c.State} (h : Ready d st true) (bytes : List Byte)
    (flush : Bool) (hb : bad c flush st bytes = true) :
    ∃ e d', Decoder.convert bytes flush d = (.err e, d') ∧
      e.location = d.location.pushStr (upToReplacement (outOf c flush st bytes)) := by
  obtain ⟨e, d', o, h1, h2, ⟨t, h3⟩, h4, -⟩ := convert_bad_message hc h bytes flush hb
  exact ⟨e, d', h1, by rw [h4, ← h3, upTo_append h2]⟩

theorem convert_location {d : Decoder c} {st : c.State} {stop : Bool} (h : Ready d st stop) (bytes : List Byte) (flush : Bool)
    (hb : (stop && bad c flush st bytes) = false) :
    ∃ d', Decoder.convert bytes flush d = (.ok (outOf c flush st bytes), d') ∧ (flush = false → Ready d' (c.run st bytes).1 stop) ∧
      d'.location = d.location.pushStr (outOf c flush st bytes) := by
  obtain ⟨rfl, h2, rfl, hl⟩ := h
  obtain ⟨s', hs⟩ := (convertLoop_spec (c := c) flush d.stopWithGarbled (bytes.length + 1) d.state d.sched bytes 0 []
    (by omega)).1 hb
  have hc : Decoder.convert bytes flush d = (.ok (outOf c flush d.state bytes),
      { d with state := (c.run d.state bytes).1, sched := s', location := d.location.pushStr (outOf c flush d.state bytes),
               life := Decoder.lived d.life bytes flush true, buffer := bytes.drop (0 + bytes.length) }) := by
    simp only [Decoder.convert, h2, List.nil_append, hs, if_neg hl]
  exact ⟨_, hc, fun hf => ⟨rfl, by simp, rfl, by subst hf; exact lived_open _ _ _⟩, rfl⟩

theorem pushFragments_bad (hc : ReplacesMalformed c) (fs : List (List Byte)) {d : Decoder c} {st : c.State}
    (h : Ready d st true) (hg : garbled c st fs.flatten = true) (hw : '\uFFFD' ∉ cleanPrefix c st fs.flatten) :
    ∃ e, (pushFragments fs d).1 = .err e ∧
      e.location = d.location.pushStr (upToReplacement (decode c st fs.flatten)) := by
  induction fs generalizing d st with
  | nil =>
    have hb : bad c true st [] = garbled c st [] := by simp [bad, garbled, Codec.run]
    obtain ⟨e, d', h1, h2⟩ := convert_bad hc h [] true (hb.trans hg)
    exact ⟨e, by simp [pushFragments, Decoder.flush, h1], h2⟩
  | cons f fs ih =>
    have hb : bad c false st f = (c.run st f).2.2 := by simp [bad]
    have hg' : garbled c st (f :: fs).flatten = ((c.run st f).2.2 || garbled c (c.run st f).1 fs.flatten) := by
      rw [List.flatten_cons, garbled_eq, garbled_eq, run_append]; simp [Bool.or_assoc]
    have hd : decode c st (f :: fs).flatten = (c.run st f).2.1 ++ decode c (c.run st f).1 fs.flatten := by
      rw [List.flatten_cons, decode_eq, decode_eq, run_append]; simp
    have ho : outOf c false st f = (c.run st f).2.1 := by simp [outOf]
    simp only [pushFragments, RM.bind_run, Decoder.push]
    rw [hd]
    rw [List.flatten_cons] at hw
    cases hs : (c.run st f).2.2 with
    | true =>
      obtain ⟨e, d', h1, h2⟩ := convert_bad hc h f false (hb.trans hs)
      rw [ho] at h2
      exact ⟨e, by rw [h1], by rw [h2, upTo_append (clean_of_bad hc hs []).2]⟩
    | false =>
      rw [hg', hs, Bool.false_or] at hg
      rw [clean_of_run hs] at hw
      obtain ⟨d', h1, h2, h3⟩ := convert_location h f false (by rw [hb, hs]; rfl)
      obtain ⟨e, h4, h5⟩ := ih (h2 rfl) hg (fun hm => hw (List.mem_append_right _ hm))
      rw [h1]
      simp only
      rw [show pushFragments fs d' = (.err e, (pushFragments fs d').2) from Prod.ext h4 rfl]
      refine ⟨e, rfl, ?_⟩
      rw [h5, h3, ho, upTo_skip (fun hm => hw (List.mem_append_left _ hm))]
      simp only [Location.pushStr, ← List.foldl_append]

theorem run_decodeOpen (st : c.State) (bytes : List Byte) : (c.run st bytes).2.1 = decodeOpen c st bytes := by
  induction bytes generalizing st with
  | nil => rfl
  | cons b bs ih =>
    show (c.feed st b).2.1 ++ (c.run (c.feed st b).1 bs).2.1 = _
    rw [ih]
    rfl

/-- The error names the first U+FFFD of the fragment in which something is malformed. -/
theorem pushFragments_message (hc : ReplacesMalformed c) (fs : List (List Byte)) {d : Decoder c} {st : c.State}
    (h : Ready d st true) (hg : garbled c st fs.flatten = true) :
    ∃ e before after o, fs = before ++ after ∧ (c.run st before.flatten).2.2 = false ∧ '\uFFFD' ∈ o ∧
      ((∃ f rest, after = f :: rest ∧ (c.run (c.run st before.flatten).1 f).2.2 = true ∧
          o <+: decodeOpen c (c.run st before.flatten).1 f) ∨
        (after = [] ∧ o <+: (c.finish (c.run st before.flatten).1).1)) ∧
      (pushFragments fs d).1 = .err e ∧
      e.location = d.location.pushStr (decodeOpen c st before.flatten ++ upToReplacement o) ∧
      e.msg = .garbled (d.location.pushStr (decodeOpen c st before.flatten)).lines
        (d.location.pushStr (decodeOpen c st before.flatten)).columns
        (d.location.pushStr (decodeOpen c st before.flatten ++ o)).lines
        (d.location.pushStr (decodeOpen c st before.flatten ++ o)).columns := by
  induction fs generalizing d st with
  | nil =>
    have hb : bad c true st [] = garbled c st [] := by simp [bad, garbled, Codec.run]
    obtain ⟨e, d', o, h1, h2, h3, h4, h5⟩ := convert_bad_message hc h [] true (hb.trans hg)
    refine ⟨e, [], [], o, rfl, rfl, h2, .inr ⟨rfl, ?_⟩, by simp [pushFragments, Decoder.flush, h1], h4, h5⟩
    simpa [outOf, Codec.run] using h3
  | cons f fs ih =>
    have hb : bad c false st f = (c.run st f).2.2 := by simp [bad]
    have hg' : garbled c st (f :: fs).flatten = ((c.run st f).2.2 || garbled c (c.run st f).1 fs.flatten) := by
      rw [List.flatten_cons, garbled_eq, garbled_eq, run_append]; simp [Bool.or_assoc]
    have ho : outOf c false st f = (c.run st f).2.1 := by simp [outOf]
    simp only [pushFragments, RM.bind_run, Decoder.push]
    cases hs : (c.run st f).2.2 with
    | true =>
      obtain ⟨e, d', o, h1, h2, h3, h4, h5⟩ := convert_bad_message hc h f false (hb.trans hs)
      rw [ho, run_decodeOpen] at h3
      exact ⟨e, [], f :: fs, o, rfl, rfl, h2, .inl ⟨f, fs, rfl, hs, h3⟩, by rw [h1], h4, h5⟩
    | false =>
      rw [hg', hs, Bool.false_or] at hg
      obtain ⟨d', h1, h2, h3⟩ := convert_location h f false (by rw [hb, hs]; rfl)
      obtain ⟨e, before, after, o, h4, h5, h6, h7, h8, h9, h10⟩ := ih (h2 rfl) hg
      rw [h1]
      simp only
      rw [show pushFragments fs d' = (.err e, (pushFragments fs d').2) from Prod.ext h8 rfl]
      have e1 : c.run st (f :: before).flatten = ((c.run (c.run st f).1 before.flatten).1,
          (c.run st f).2.1 ++ (c.run (c.run st f).1 before.flatten).2.1,
          (c.run st f).2.2 || (c.run (c.run st f).1 before.flatten).2.2) := by
        rw [List.flatten_cons, run_append]
      have e2 : ∀ t, d.location.pushStr (decodeOpen c st (f :: before).flatten ++ t) =
          d'.location.pushStr (decodeOpen c (c.run st f).1 before.flatten ++ t) := by
        intro t
        rw [h3, ho, ← run_decodeOpen, ← run_decodeOpen, e1]
        simp only [Location.pushStr, ← List.foldl_append, List.append_assoc]
      have e3 := e2 []
      rw [List.append_nil, List.append_nil] at e3
      refine ⟨e, f :: before, after, o, by rw [h4]; rfl, by rw [e1, hs, h5]; rfl, h6, by rw [e1]; exact h7, rfl, by rw [e2, h9], ?_⟩
      rw [e2, e3, h10]

theorem utf8First_replaces (b : Byte) (h : (utf8First b).2.2 = true) : (utf8First b).2.1 = ['�'] := by
  simp only [utf8First] at h ⊢
  repeat' split at h
  all_goals first
    | cases h
    | skip
  rename_i h1 h2 h3 h4
  rw [if_neg h1, if_neg h2, if_neg h3, if_neg h4]

theorem utf8_replaces : ReplacesMalformed utf8Codec where
  feed st b h := by
    change (utf8Feed st b).2.2 = true at h
    change _ ∈ (utf8Feed st b).2.1
    unfold utf8Feed at h ⊢
    by_cases h1 : st.needed = 0
    · rw [if_pos h1] at h ⊢
      rw [utf8First_replaces b h]
      simp
    · rw [if_neg h1] at h ⊢
      by_cases h2 : b.toNat < st.lower ∨ st.upper < b.toNat
      · rw [if_pos h2]
        simp
      · rw [if_neg h2] at h
        by_cases h3 : st.needed = 1
        · simp only [if_pos h3] at h
          cases h
        · simp only [if_neg h3] at h
          cases h
  finish st h := by
    change (if st.needed = 0 then (([], false) : Str × Bool) else (['\uFFFD'], true)).2 = true at h
    change _ ∈ (if st.needed = 0 then (([], false) : Str × Bool) else (['\uFFFD'], true)).1
    by_cases h1 : st.needed = 0
    · rw [if_pos h1] at h
      cases h
    · rw [if_neg h1]
      simp

theorem utf16Unit_replaces (u : Nat) (h : (utf16Unit u).2.2 = true) : (utf16Unit u).2.1 = ['�'] := by
  unfold utf16Unit at h ⊢
  by_cases h1 : 0xD800 ≤ u ∧ u ≤ 0xDBFF
  · rw [if_pos h1] at h
    cases h
  · rw [if_neg h1] at h ⊢
    by_cases h2 : 0xDC00 ≤ u ∧ u ≤ 0xDFFF
    · rw [if_pos h2]
    · rw [if_neg h2] at h
      cases h

theorem utf16_replaces (big : Bool) : ReplacesMalformed (utf16Codec big) where
  feed st b h := by
    change (utf16Feed big st b).2.2 = true at h
    change _ ∈ (utf16Feed big st b).2.1
    obtain ⟨byte, lead⟩ := st
    unfold utf16Feed at h ⊢
    cases byte with
    | none => cases h
    | some a =>
      cases lead with
      | none =>
        simp only at h ⊢
        rw [utf16Unit_replaces _ h]
        simp
      | some l =>
        simp only at h ⊢
        generalize (if big = true then a.toNat * 256 + b.toNat else b.toNat * 256 + a.toNat) = u at h ⊢
        by_cases h2 : 0xDC00 ≤ u ∧ u ≤ 0xDFFF
        · rw [if_pos h2] at h
          cases h
        · rw [if_neg h2]
          simp
  finish st h := by
    obtain ⟨byte, lead⟩ := st
    cases byte <;> cases lead <;> simp at h ⊢

/-- A decoder that looks for byte order marks replaces malformed sequences when the decoder of the label does. -/
theorem sniffing_replaces {c : Codec} (hc : ReplacesMalformed c) : ReplacesMalformed c.sniffing where
  feed st b h := by
    cases st with
    | start held =>
      rw [sniff_start] at h ⊢
      by_cases h1 : held ++ [b] = [0xEF, 0xBB, 0xBF]
      · rw [if_pos h1] at h; cases h
      rw [if_neg h1] at h ⊢
      by_cases h2 : held ++ [b] = [0xFE, 0xFF]
      · rw [if_pos h2] at h; cases h
      rw [if_neg h2] at h ⊢
      by_cases h3 : held ++ [b] = [0xFF, 0xFE]
      · rw [if_pos h3] at h; cases h
      rw [if_neg h3] at h ⊢
      by_cases h4 : held ++ [b] = [0xEF] ∨ held ++ [b] = [0xEF, 0xBB] ∨ held ++ [b] = [0xFE] ∨ held ++ [b] = [0xFF]
      · rw [if_pos h4] at h; cases h
      rw [if_neg h4] at h ⊢
      exact (clean_of_bad hc h []).2
    | label st => exact hc.feed st b h
    | utf8 st => exact utf8_replaces.feed st b h
    | utf16 big st => exact (utf16_replaces big).feed st b h
  finish st h := by
    cases st with
    | start held =>
      have h' : ((c.run c.init held).2.2 || (c.finish (c.run c.init held).1).2) = true := h
      show _ ∈ (c.run c.init held).2.1 ++ (c.finish (c.run c.init held).1).1
      rw [Bool.or_eq_true] at h'
      rcases h' with h' | h'
      · exact List.mem_append_left _ (clean_of_bad hc h' []).2
      · exact List.mem_append_right _ (hc.finish _ h')
    | label st => exact hc.finish st h
    | utf8 st => exact utf8_replaces.finish st h
    | utf16 big st => exact (utf16_replaces big).finish st h

end Ebnf
