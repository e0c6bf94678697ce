import Verif.Proofs.History
import Verif.Proofs.Relocate
import Verif.Proofs.Garbled
import Verif.Spec.Exact

set_option autoImplicit false

/-! # What the tokenizer has read of a text, and where malformed bytes are reported -/

namespace Ebnf

open Spec

theorem readNext_closed {tk : Token} {s : Str} (hsp : Spelled tk s) (hend : ∀ c, Ends tk (some c)) :
    readNext (positionOf tk) s false = .ok (some (tk, s.length)) := by
  rcases readNext_complete hsp [] (ends_none tk) with h | ⟨_, h, _⟩
  · simpa using h
  · exfalso
    cases hsp with
    | repetition l => exact hend ')' rfl
    | except l => simp [readNext] at h
    | concatenate l => simp [readNext] at h
    | separator l c hc =>
      simp only [List.mem_cons, List.not_mem_nil, or_false] at hc
      rcases hc with rfl | rfl | rfl
      · simp [readNext] at h
      · exact hend ')' rfl
      · simp [readNext] at h
    | defining l => simp [readNext] at h
    | terminator l c hc =>
      simp only [List.mem_cons, List.not_mem_nil, or_false] at hc
      rcases hc with rfl | rfl <;> simp [readNext] at h
    | startOption l s hs =>
      simp only [List.mem_cons, List.not_mem_nil, or_false] at hs
      rcases hs with rfl | rfl <;> simp [readNext] at h
    | endOption l s hs =>
      simp only [List.mem_cons, List.not_mem_nil, or_false] at hs
      rcases hs with rfl | rfl <;> simp [readNext] at h
    | startRepeat l s hs =>
      simp only [List.mem_cons, List.not_mem_nil, or_false] at hs
      rcases hs with rfl | rfl <;> simp [readNext] at h
    | endRepeat l s hs =>
      simp only [List.mem_cons, List.not_mem_nil, or_false] at hs
      rcases hs with rfl | rfl <;> simp [readNext] at h
    | startGroup l => exact (hend '*').1 rfl
    | endGroup l => simp [readNext] at h
    | metaIdentifier l c s hc hs => exact (hend 'a').1 (by decide)
    | integer l c s hc hs => exact hend '0' (by decide)
    | gapSeparator l c s hc hs => exact hend ' ' (by decide)
    | terminalString l s q hq hne hs =>
      have hsc := scanQuoted_complete q isTerminalChar s []
        (fun c hc => ⟨(isTerminalChar_iff c).mpr (hs c hc).1, (hs c hc).2⟩)
      simp only [List.mem_cons, List.not_mem_nil, or_false] at hq
      rcases hq with rfl | rfl <;> simp [readNext, terminalString, hsc, hne] at h
    | comment l s hs =>
      have hb := commentBody_of_text s hs
      have hl := commentLoop_complete (l.pushStr ['(', '*']) 0 '*' (s ++ ['*']) [] hb
      have hh := commentText_head s hs
      have hh' : s.head?.getD '*' ≠ ')' := by
        cases s with
        | nil => simp
        | cons c s => simpa using hh
      rw [List.append_assoc, List.singleton_append] at hl
      simp at hl
      simp [readNext, positionOf, commentToken, hh', hl] at h
    | specialSequence l s hs =>
      have hsc := scanQuoted_complete '?' isSpecialSequenceChar s []
        (fun c hc => ⟨(isSpecialSequenceChar_iff c).mpr (hs c hc), (hs c hc).2⟩)
      simp [readNext, specialSequence, hsc] at h

/-- What the tokenizer has read is certain. -/
theorem tokLoop_certain {loc loc' : Location} {text rest : Str} {tks : List Token}
    (h : tokLoop loc text = (.ok tks, loc', rest)) (c : Char) (t : Token) (ht : tks.getLast? = some t) :
    Ends t (rest ++ [c]).head? := by
  induction loc, text using tokLoop_induct generalizing tks loc' rest with
  | hnone loc text hn =>
    rw [tokLoop_none hn] at h
    simp at h; obtain ⟨rfl, rfl, rfl⟩ := h
    simp at ht
  | hsome loc text tk n hs ih =>
    have hr := readNext_sound _ _ _ _ _ hs
    rw [tokLoop_some hs] at h
    generalize hx : tokLoop (loc.pushStr (text.take n)) (text.drop n) = x at h
    obtain ⟨r, l, s⟩ := x
    cases r with
    | ok ts =>
      simp [consTok] at h
      obtain ⟨rfl, rfl, rfl⟩ := h
      cases ts with
      | nil =>
        simp at ht; subst ht
        obtain ⟨used, h1, h2⟩ := tokLoop_lexes hx
        have hu : used = [] := by cases h2; rfl
        subst hu
        rw [List.nil_append] at h1
        cases s with
        | nil => exact hr.closed rfl h1 _
        | cons a s => have := hr.ends rfl; rw [h1] at this; exact this
      | cons t2 ts => exact ih hx (by simpa using ht)
    | err e => simp [consTok] at h
    | panic p => simp [consTok] at h
    | diverge => simp [consTok] at h
  | herr loc text e he => rw [tokLoop_err he] at h; simp at h

/-- What is certain is read. -/
theorem tokLoop_of_certain {start : Location} {used rest : Str} {ts : List Token} (h : Lexes start used ts)
    (he : ∀ t c, ts.getLast? = some t → Ends t (rest ++ [c]).head?) :
    tokLoop start (used ++ rest) = prependTok ts (tokLoop (start.pushStr used) rest) := by
  induction h with
  | nil start => rw [List.nil_append, prependTok_nil]; rfl
  | @cons start tk s more tks hsp hpos hend hl ih =>
    have hread : readNext start (s ++ (more ++ rest)) false = .ok (some (tk, s.length)) := by
      subst hpos
      by_cases hm : more = []
      · subst hm
        have : tks = [] := lexes_end hl
        subst this
        have he' := fun c => he tk c rfl
        rw [List.nil_append]
        cases rest with
        | nil => rw [List.append_nil]; exact readNext_closed hsp he'
        | cons a r =>
          rcases readNext_complete hsp (a :: r) (he' 'a') with h | ⟨h, _⟩
          · exact h
          · cases h
      · have hh : (more ++ rest).head? = more.head? := by cases more <;> simp_all
        rcases readNext_complete hsp (more ++ rest) (by rw [hh]; exact hend) with h | ⟨h, _⟩
        · exact h
        · exact absurd (List.append_eq_nil_iff.mp h).1 hm
    rw [List.append_assoc, tokLoop_some hread, List.take_left, List.drop_left]
    have hlc : start.pushStr s = lineColumn start s := Location.pushStr_eq_lineColumn _ _
    rw [hlc, ih ?_, prependTok_cons, ← hlc, ← Location.pushStr_append]
    intro t c ht
    refine he t c ?_
    cases tks with
    | nil => simp at ht
    | cons t2 ts => simpa using ht

theorem tokLoop_mostCertain {loc loc' : Location} {text rest : Str} {tks : List Token}
    (h : tokLoop loc text = (.ok tks, loc', rest)) : ∃ used, text = used ++ rest ∧ loc' = loc.pushStr used ∧ MostCertain loc text used := by
  obtain ⟨used, h1, h2⟩ := tokLoop_lexes h
  obtain ⟨_, used', h3, h4⟩ := tokLoop_ok h
  have : used = used' := List.append_cancel_right (h1.symm.trans h3)
  subst this
  refine ⟨used, h1, h4, ⟨rest, tks, h1, h2, fun t c ht => tokLoop_certain h c t ht⟩, ?_⟩
  rintro other ⟨r, ts, h5, h6, h7⟩
  have h8 := tokLoop_of_certain h6 h7
  rw [← h5, h] at h8
  generalize hx : tokLoop (loc.pushStr other) r = x at h8
  obtain ⟨y, l, s⟩ := x
  cases y with
  | ok us =>
    simp only [prependTok, Prod.mk.injEq] at h8
    obtain ⟨_, _, rfl⟩ := h8
    obtain ⟨_, v, h9, _⟩ := tokLoop_ok hx
    have e1 := congrArg List.length h5
    have e2 := congrArg List.length h1
    rw [h9] at e1
    simp at e1 e2
    omega
  | err e => simp [prependTok] at h8
  | panic p => simp [prependTok] at h8
  | diverge => simp [prependTok] at h8

theorem pushAll_tokLoop {chunks : List Str} {l l' : Lexer} {rs : List SyntaxRule} (hi : LexInv l)
    (h : pushAll chunks l = (.ok rs, l')) :
    l'.tokenizer.maxBufferSize = l.tokenizer.maxBufferSize ∧
    ∃ tks, tokLoop l.tokenizer.location (l.tokenizer.buffer ++ chunks.flatten) =
      (.ok tks, l'.tokenizer.location, l'.tokenizer.buffer) := by
  induction chunks generalizing l rs with
  | nil =>
    simp only [pushAll, RM.pure_run, Prod.mk.injEq] at h
    obtain ⟨_, rfl⟩ := h
    exact ⟨rfl, [], by rw [List.flatten_nil, List.append_nil]; exact tokLoop_none hi⟩
  | cons c cs ih =>
    rw [pushAll, rm_bind_ok] at h
    obtain ⟨r1, l1, h1, h⟩ := h
    rw [rm_bind_ok] at h
    obtain ⟨r2, l2, h2, h⟩ := h
    simp only [RM.pure_run, Prod.mk.injEq] at h
    obtain ⟨_, rfl⟩ := h
    obtain ⟨t1, ht1, _, hm⟩ := pushStr_ok h1
    obtain ⟨hm2, t2, ht2⟩ := ih (pushStr_inv h1) h2
    refine ⟨hm2.trans hm, t1 ++ t2, ?_⟩
    rw [List.flatten_cons, ← List.append_assoc, tokLoop_append ht1, ht2]
    rfl

/-! ## Failing at the first prefix that fails -/

/-- One more piece fails exactly as everything so far in one piece. -/
theorem pushStr_next {l l1 : Lexer} {a b : Str} {r1 : List SyntaxRule} (hu : Unlimited l)
    (h1 : Lexer.pushStr a l = (.ok r1, l1)) :
    (Lexer.pushStr (a ++ b) l).1 = following r1 (Lexer.pushStr b l1).1 := by
  obtain ⟨t1, ht1, ha1, hm1⟩ := pushStr_ok h1
  have hu1 : Unlimited l1 := pushStr_unlimited hu h1
  rw [lexer_pushStr_eq _ _ (unlimited_cap hu _), lexer_pushStr_eq _ _ (unlimited_cap hu1 _), ← List.append_assoc,
    tokLoop_append ht1]
  rcases tokLoop l1.tokenizer.location (l1.tokenizer.buffer ++ b) with ⟨r, l2, rest⟩
  cases r with
  | ok t2 =>
    simp only [prependTok, append_append, thenAppend, ha1]
    rcases Lexer.append l1.tokens t2 with ⟨r, t⟩
    cases r <;> rfl
  | _ => rfl

theorem following_not_ok {rs : List SyntaxRule} {x : Res (List SyntaxRule)} (h : ∀ r, x ≠ .ok r) : following rs x = x := by
  cases x with
  | ok r => exact absurd rfl (h r)
  | _ => rfl

theorem feedAll_first {chunks : List Str} {l : Lexer} (hu : Unlimited l) (hi : LexInv l) :
    (∃ k, k < chunks.length ∧ (∀ j, j ≤ k → ∃ rs, (Lexer.pushStr (chunks.take j).flatten l).1 = .ok rs) ∧
      (∀ rs, (Lexer.pushStr (chunks.take (k + 1)).flatten l).1 ≠ .ok rs) ∧
      (feedAll chunks l).1 = (Lexer.pushStr (chunks.take (k + 1)).flatten l).1) ∨
    (∀ j, ∃ rs, (Lexer.pushStr (chunks.take j).flatten l).1 = .ok rs) ∧ (feedAll chunks l).1 = (feedAll [chunks.flatten] l).1 := by
  have key : ∀ n, n ≤ chunks.length → (∃ rs l', pushAll (chunks.take n) l = (.ok rs, l')) ∨
      ∃ k, k < n ∧ (∃ rs l', pushAll (chunks.take k) l = (.ok rs, l')) ∧
        ∀ rs, (Lexer.pushStr (chunks.take (k + 1)).flatten l).1 ≠ .ok rs := by
    intro n
    induction n with
    | zero => intro _; exact .inl ⟨[], l, rfl⟩
    | succ n ih =>
      intro hn
      rcases ih (by omega) with ⟨rs, l', h⟩ | ⟨k, hk, h⟩
      · by_cases hx : ∃ r, (Lexer.pushStr (chunks.take (n + 1)).flatten l).1 = .ok r
        · obtain ⟨r, hx⟩ := hx
          left
          exact ⟨r, _, (pushAll_flatten hu hi).mpr (Prod.ext hx rfl)⟩
        · exact .inr ⟨n, by omega, ⟨rs, l', h⟩, fun r hr => hx ⟨r, hr⟩⟩
      · exact .inr ⟨k, by omega, h⟩
  have prefixes : ∀ n rs l', pushAll (chunks.take n) l = (.ok rs, l') → ∀ j, j ≤ n →
      ∃ rs, (Lexer.pushStr (chunks.take j).flatten l).1 = .ok rs := by
    intro n rs l' h j hj
    have e : chunks.take n = chunks.take j ++ (chunks.take n).drop j := by
      have := (List.take_append_drop j (chunks.take n)).symm
      rwa [List.take_take, Nat.min_eq_left hj] at this
    rw [e, pushAll_append] at h
    generalize hx : pushAll (chunks.take j) l = x at h
    obtain ⟨r, l1⟩ := x
    cases r with
    | ok r => exact ⟨r, congrArg Prod.fst ((pushAll_flatten hu hi).mp hx)⟩
    | err e => simp at h
    | panic e => simp at h
    | diverge => simp at h
  rcases key chunks.length (Nat.le_refl _) with ⟨rs, l', h⟩ | ⟨k, hk, ⟨rs, l', h⟩, hn⟩
  · right
    rw [List.take_length] at h
    refine ⟨fun j => ?_, ?_⟩
    · by_cases hj : j ≤ chunks.length
      · exact prefixes chunks.length rs l' (by rw [List.take_length]; exact h) j hj
      · exact prefixes chunks.length rs l' (by rw [List.take_length]; exact h) chunks.length (Nat.le_refl _) |>.imp fun r hr => by
          rw [List.take_of_length_le (by omega)]; rwa [List.take_length] at hr
    · have h2 := (pushAll_flatten hu hi).mp h
      have h3 : pushAll [chunks.flatten] l = (.ok rs, l') := by
        simp only [pushAll, RM.bind_run, h2, RM.pure_run, List.append_nil]
      simp only [feedAll, RM.bind_run, h, h3]
  · left
    refine ⟨k, hk, prefixes k rs l' h, hn, ?_⟩
    have h2 := (pushAll_flatten hu hi).mp h
    have e : chunks = chunks.take k ++ (chunks[k] :: chunks.drop (k + 1)) := by
      rw [List.getElem_cons_drop, List.take_append_drop]
    have e2 : (chunks.take (k + 1)).flatten = (chunks.take k).flatten ++ chunks[k] := by
      have := congrArg List.flatten (List.take_append_getElem hk)
      rw [← this]; simp only [List.flatten_append, List.flatten_cons, List.flatten_nil, List.append_nil]
    have h4 := pushStr_next (b := chunks[k]) hu h2
    rw [e2] at hn ⊢
    have h5 : ∀ r, (Lexer.pushStr chunks[k] l').1 ≠ .ok r := by
      intro r hr
      exact hn (rs ++ r) (by rw [h4, hr]; rfl)
    rw [following_not_ok h5] at h4
    rw [h4]
    have h6 : feedAll chunks l = feedAll (chunks.take k ++ (chunks[k] :: chunks.drop (k + 1))) l := by rw [← e]
    rw [h6]
    simp only [feedAll, RM.bind_run, pushAll_append, h, pushAll]
    generalize hy : Lexer.pushStr chunks[k] l' = y at h5
    obtain ⟨r, l2⟩ := y
    cases r with
    | ok r => exact absurd rfl (h5 r)
    | _ => rfl

/-! ## The place of malformed bytes -/

section
variable {c : Codec}

theorem garbledSoFar_eq (st : c.State) (bs : List Byte) : garbledSoFar c st bs = (c.run st bs).2.2 := by
  induction bs generalizing st with
  | nil => rfl
  | cons b bs ih => simp [garbledSoFar, Codec.run, ih]

theorem pushFragments_where (hc : ReplacesMalformed c) (fs : List (List Byte)) {d : Decoder c} {st : c.State}
    (h : Ready d st true) (hg : garbled c st fs.flatten = true) :
    ∃ e, (pushFragments fs d).1 = .err e ∧
      ((∃ before f after piece, fs = before ++ f :: after ∧ garbledSoFar c st before.flatten = false ∧
          garbledSoFar c st (before.flatten ++ f) = true ∧
          decodeOpen c st (before.flatten ++ f) = decodeOpen c st before.flatten ++ piece ∧
          e.location = d.location.pushStr (decodeOpen c st before.flatten ++ upToReplacement piece)) ∨
        (garbledSoFar c st fs.flatten = false ∧ ∃ piece, decode c st fs.flatten = decodeOpen c st fs.flatten ++ piece ∧
          e.location = d.location.pushStr (decodeOpen c st fs.flatten ++ upToReplacement piece))) := by
  induction fs generalizing d st with
  | nil =>
    have hb : bad c true st [] = garbled c st [] := by simp [bad, garbled, Codec.run]
    obtain ⟨e, d', h1, h2⟩ := convert_bad hc h [] true (hb.trans hg)
    exact ⟨e, by simp [pushFragments, Decoder.flush, h1], .inr ⟨rfl, (c.finish st).1, rfl, by
      rw [h2]; simp [outOf, decodeOpen, Codec.run]⟩⟩
  | cons f fs ih =>
    have hb : bad c false st f = (c.run st f).2.2 := by simp [bad]
    have ho : outOf c false st f = (c.run st f).2.1 := by simp [outOf]
    simp only [pushFragments, RM.bind_run, Decoder.push]
    cases hs : (c.run st f).2.2 with
    | true =>
      obtain ⟨e, d', h1, h2⟩ := convert_bad hc h f false (hb.trans hs)
      rw [ho] at h2
      refine ⟨e, by rw [h1], .inl ⟨[], f, fs, (c.run st f).2.1, rfl, rfl, ?_, ?_, ?_⟩⟩
      · rw [garbledSoFar_eq]; exact hs
      · rw [decodeOpen_eq]; rfl
      · rw [h2]; rfl
    | false =>
      have hg' : garbled c st (f :: fs).flatten = ((c.run st f).2.2 || garbled c (c.run st f).1 fs.flatten) := by
        rw [List.flatten_cons, garbled_eq, garbled_eq, run_append]; simp [Bool.or_assoc]
      rw [hg', hs, Bool.false_or] at hg
      obtain ⟨d', h1, h2, h3⟩ := convert_location h f false (by rw [hb, hs]; rfl)
      obtain ⟨e, h4, h5⟩ := ih (h2 rfl) hg
      rw [ho] at h3
      have push2 : ∀ x y : Str, (d.location.pushStr x).pushStr y = d.location.pushStr (x ++ y) := by
        intro x y; rw [Location.pushStr_append]
      have o1 : ∀ bs, decodeOpen c st (f ++ bs) = (c.run st f).2.1 ++ decodeOpen c (c.run st f).1 bs := by
        intro bs; rw [decodeOpen_eq, decodeOpen_eq, run_append]
      have g1 : ∀ bs, garbledSoFar c st (f ++ bs) = garbledSoFar c (c.run st f).1 bs := by
        intro bs; rw [garbledSoFar_eq, garbledSoFar_eq, run_append, hs]; simp
      rw [h1]
      simp only
      rw [show pushFragments fs d' = (.err e, (pushFragments fs d').2) from Prod.ext h4 rfl]
      refine ⟨e, rfl, ?_⟩
      rcases h5 with ⟨before, g, after, piece, e1, e2, e3, e4, e5⟩ | ⟨e1, piece, e2, e3⟩
      · refine .inl ⟨f :: before, g, after, piece, by rw [e1]; rfl, ?_, ?_, ?_, ?_⟩
        · rw [List.flatten_cons, g1]; exact e2
        · rw [List.flatten_cons, List.append_assoc, g1]; exact e3
        · rw [List.flatten_cons, List.append_assoc, o1, o1, e4, List.append_assoc]
        · rw [e5, h3, push2, List.flatten_cons, o1, List.append_assoc]
      · refine .inr ⟨?_, piece, ?_, ?_⟩
        · rw [List.flatten_cons, g1]; exact e1
        · rw [List.flatten_cons, o1, List.append_assoc, ← e2, decode_eq, decode_eq, run_append]; simp
        · rw [e3, h3, push2, List.flatten_cons, o1, List.append_assoc]

end

end Ebnf
