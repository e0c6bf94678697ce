import Verif.Proofs.FaultText
import Verif.Proofs.FaultSound
import Verif.Proofs.Relocate

set_option autoImplicit false

/-! # Exactly which error a text is answered with -/

namespace Ebnf

open Spec

theorem lexes_genuine {start : Location} {text : Str} {ts : List Token} (h : Lexes start text ts) : Genuine ts :=
  fun t ht => .inl (lexes_spelled h t ht)

theorem lexes_eof_genuine {start l : Location} {text : Str} {ts : List Token} (h : Lexes start text ts) :
    Genuine (ts ++ [.eof l]) := by
  intro t ht
  rcases List.mem_append.mp ht with ht | ht
  · exact .inl (lexes_spelled h t ht)
  · simp at ht; exact .inr ⟨_, ht⟩

/-- The tokens found are those of beginnings of the text, as far as rules are complete. -/
theorem malformed_found {start loc : Location} {text rest : Str} {tks : List Token}
    (h : tokLoop start text = (.ok tks, loc, rest)) (e : Error) :
    (Lexer.append [] tks).1 = .err e ↔ ∃ pre ts, pre <+: text ∧ Lexes start pre ts ∧ Malformed ts e := by
  obtain ⟨used, hused, hl⟩ := tokLoop_lexes h
  rw [append_err_iff (lexes_genuine hl)]
  constructor
  · rintro ⟨us, vs, rfl, hm⟩
    obtain ⟨pre, h1, h2⟩ := lexes_prefix hl
    exact ⟨pre, us, h1.trans ⟨rest, hused.symm⟩, h2, hm⟩
  · rintro ⟨pre, ts, hpre, hlp, hm⟩
    have hm' := hm
    obtain ⟨us, rs, vs, t, rfl, _, _, htm, _⟩ := hm'
    have htt : t.isTerminator = true := by
      have := lexes_no_eof hlp
      revert htm this
      cases t <;> simp [IsTerminator, Token.isTerminator]
    rw [← List.append_assoc] at hlp
    obtain ⟨loc1, h1⟩ := tokLoop_terminated hlp htt
    obtain ⟨post, rfl⟩ := hpre
    have h2 := tokLoop_append h1 post
    rw [h] at h2
    have : ∃ ws, tks = us ++ (vs ++ [t]) ++ ws := by
      revert h2
      rcases tokLoop loc1 ([] ++ post) with ⟨r, l, s⟩
      cases r <;> simp [prependTok]
      intro h _ _
      exact ⟨_, h⟩
    obtain ⟨ws, hws⟩ := this
    exact ⟨_, ws, hws, hm⟩

theorem pushStr_new (name text : Str) :
    (Lexer.pushStr text (Lexer.new name)).1 =
      match tokLoop (Location.new name) text with
      | (.ok tks, _, _) => (Lexer.append [] tks).1
      | (.err e, _, _) => .err e
      | (.panic p, _, _) => .panic p
      | (.diverge, _, _) => .diverge := by
  rw [lexer_pushStr_eq _ _ (unlimited_cap (new_unlimited name) _)]
  change (match tokLoop (Location.new name) text with
    | (.ok tks, loc, rest) => _ | (.err e, loc, _) => _ | (.panic p, loc, _) => _ | (.diverge, loc, _) => _ : Res _ × Lexer).1 = _
  rcases tokLoop (Location.new name) text with ⟨r, loc, rest⟩
  cases r <;> rfl

theorem pushStr_err_iff (name text : Str) (e : Error) :
    (Lexer.pushStr text (Lexer.new name)).1 = .err e ↔
      (∃ ts there rest, BeginsWith (Location.new name) text ts there rest ∧ Fault there rest e) ∨
      ((Completable (Location.new name) text ∨ StrayLast (Location.new name) text) ∧
        ∃ pre ts, pre <+: text ∧ Lexes (Location.new name) pre ts ∧ Malformed ts e) := by
  rw [pushStr_new, ← tokLoop_err_iff, ← tokLoop_ok_iff]
  have hs := tokLoop_settled (Location.new name) text
  cases hx : tokLoop (Location.new name) text with
  | mk r x =>
    obtain ⟨loc, rest⟩ := x
    rw [hx] at hs
    rcases hs with ⟨tks, h⟩ | ⟨e', h⟩
    · simp only at h; subst h
      simp only [malformed_found hx, reduceCtorEq, false_or, Res.ok.injEq, exists_eq', true_and]
    · simp only at h; subst h
      simp

theorem parseStr_err_iff (name text : Str) (e : Error) :
    parseStr name text = .err e ↔
      (∃ ts there rest, BeginsWith (Location.new name) text ts there rest ∧ Fault there rest e) ∨
      ((Completable (Location.new name) text ∨ StrayLast (Location.new name) text) ∧
        ∃ pre ts, pre <+: text ∧ Lexes (Location.new name) pre ts ∧ Malformed ts e) ∨
      (∃ us rs vs there rest, BeginsWith (Location.new name) text (us ++ vs) there rest ∧ FaultAtEnd there rest e ∧
        RulesG us rs ∧ ∀ x ∈ vs, ¬ IsTerminator x) ∨
      (∃ ts, Lexes (Location.new name) text ts ∧ Malformed (ts ++ [.eof (lineColumn (Location.new name) text)]) e) := by
  have hu := new_unlimited name
  have hi := new_inv name
  have hflat : (Lexer.new name).tokenizer.buffer ++ [text].flatten = text := by
    simp [Lexer.new, Tokenizer.new, Tokenizer.withCapacity]
  constructor
  · intro h
    rw [parseStr_eq_feedAll] at h
    rcases scanAll_settled (Location.new name) text with ⟨all, hs⟩ | ⟨e', hs⟩
    · have hs' : scanAll (Lexer.new name).tokenizer.location ((Lexer.new name).tokenizer.buffer ++ [text].flatten) = .ok all := by
        rw [hflat]; exact hs
      rw [feedAll_scan hu hi hs'] at h
      obtain ⟨ts, hl, rfl⟩ := scanAll_sound _ _ _ hs
      obtain ⟨us, vs, he, hm⟩ := (append_err_iff (lexes_eof_genuine hl) e).mp h
      rcases List.eq_nil_or_concat vs with rfl | ⟨vs', v, rfl⟩
      · right; right; right
        refine ⟨ts, hl, ?_⟩
        rw [← Location.pushStr_eq_lineColumn, he, List.append_nil]
        exact hm
      · right; left
        rw [List.concat_eq_append, ← List.append_assoc] at he
        have he := List.append_inj_left' he rfl
        subst he
        obtain ⟨pre, h3, h4⟩ := lexes_prefix hl
        exact ⟨.inl ⟨[], us ++ vs', by rw [List.append_nil]; exact hl⟩, pre, us, h3, h4, hm⟩
    · have hset := tokLoop_settled (Location.new name) text
      cases hx : tokLoop (Location.new name) text with
      | mk r x =>
        obtain ⟨loc, rest⟩ := x
        rw [hx] at hset
        rcases hset with ⟨tks, hr⟩ | ⟨e2, hr⟩
        · simp only at hr; subst hr
          have hx' : tokLoop (Lexer.new name).tokenizer.location ((Lexer.new name).tokenizer.buffer ++ [text].flatten) =
              (.ok tks, loc, rest) := by rw [hflat]; exact hx
          rw [feedAll_tokens hu hi hx'] at h
          change (match Lexer.append [] tks with
            | (.ok rs, toks) => _ | (.err e, _) => _ | (.panic p, _) => _ | (.diverge, _) => _ : Res _) = _ at h
          obtain ⟨used, _, hl⟩ := tokLoop_lexes hx
          cases ha : Lexer.append [] tks with
          | mk ra toks =>
            rw [ha] at h
            cases ra with
            | ok rs =>
              simp only at h
              have hp := (tokLoop_ok hx).1
              rcases flush_eq ⟨⟨(Lexer.new name).tokenizer.maxBufferSize, rest, loc⟩, toks⟩ hp with ⟨us, h1, h2⟩ | ⟨e3, h1, h2⟩
              · simp [scanAll, hx, h1, Res.bind] at hs
              · rw [h2] at h
                simp only [Res.err.injEq] at h
                subst h
                have hf := (flushTok_err_iff hp _).mp h1
                right; right; left
                obtain ⟨us, h3, h4⟩ := append_sound noTerm_nil (by simpa using (lexes_genuine hl).named) ha
                rw [List.nil_append] at h3
                have hno := append_noTerm noTerm_nil ha
                exact ⟨us, rs, toks, loc, rest, h3 ▸ begins_of_tokLoop hx (faultAtEnd_ne_nil hf), hf, h4, (noTerm_iff _).mp hno⟩
            | err e3 =>
              simp only [Res.err.injEq] at h
              subst h
              right; left
              exact ⟨(tokLoop_ok_iff _ _).mp ⟨tks, by rw [hx]⟩, (malformed_found hx _).mp (by rw [ha])⟩
            | panic p => simp at h
            | diverge => simp at h
        · simp only at hr; subst hr
          have := (tokLoop_err_iff (Location.new name) text e2).mp (by rw [hx])
          have hp := pushStr_new name text
          rw [hx] at hp
          rw [feedAll_one] at h
          rcases hq : Lexer.pushStr text (Lexer.new name) with ⟨r, l⟩
          rw [hq] at hp h
          simp only at hp
          subst hp
          simp only [Res.err.injEq] at h
          subst h
          exact .inl this
  · rintro (h | h | ⟨us, rs, vs, there, rest, hb, hf, hr, hv⟩ | ⟨ts, hl, hm⟩)
    · have := (pushStr_err_iff name text e).mpr (.inl h)
      rw [parseStr_eq_feedAll, feedAll_one]
      revert this
      rcases Lexer.pushStr text (Lexer.new name) with ⟨r, l⟩
      rintro rfl
      rfl
    · have := (pushStr_err_iff name text e).mpr (.inr h)
      rw [parseStr_eq_feedAll, feedAll_one]
      revert this
      rcases Lexer.pushStr text (Lexer.new name) with ⟨r, l⟩
      rintro rfl
      rfl
    · have hne := faultAtEnd_ne_nil hf
      have hp := ((readNext_flush_err_iff _ _ _).mpr hf).1
      have hx : tokLoop (Location.new name) text = (.ok (us ++ vs), there, rest) := by
        rw [tokLoop_begins hb hne, tokLoop_none hp]
        simp [prependTok]
      have hx' : tokLoop (Lexer.new name).tokenizer.location ((Lexer.new name).tokenizer.buffer ++ [text].flatten) =
          (.ok (us ++ vs), there, rest) := by rw [hflat]; exact hx
      obtain ⟨used, _, hl⟩ := tokLoop_lexes hx
      have hn : NamedOk us := (lexes_genuine hl).named.left
      obtain ⟨rs', ha, _⟩ := append_complete hr hn
      have hall : Lexer.append [] (us ++ vs) = (.ok rs', vs) := by
        rw [append_append, ha]
        have := append_seg (toks := []) (rest := []) ((noTerm_iff _).mpr hv)
        simp only [List.append_nil, List.nil_append] at this
        simp [thenAppend, this, Lexer.append]
      rw [parseStr_eq_feedAll, feedAll_tokens hu hi hx']
      change (match Lexer.append [] (us ++ vs) with
            | (.ok rs, toks) => _ | (.err e, _) => _ | (.panic p, _) => _ | (.diverge, _) => _ : Res _) = _
      rw [hall]
      simp only
      rcases flush_eq ⟨⟨(Lexer.new name).tokenizer.maxBufferSize, rest, there⟩, vs⟩ hp with ⟨us, h1, h2⟩ | ⟨e3, h1, h2⟩
      · rw [(flushTok_err_iff hp e).mpr hf] at h1
        cases h1
      · rw [(flushTok_err_iff hp e).mpr hf] at h1
        cases h1
        rw [h2]
    · rw [parseStr_eq_feedAll]
      have hs : scanAll (Lexer.new name).tokenizer.location ((Lexer.new name).tokenizer.buffer ++ [text].flatten) =
          .ok (ts ++ [.eof ((Location.new name).pushStr text)]) := by
        rw [hflat]; exact scanAll_complete hl
      rw [feedAll_scan hu hi hs]
      refine (append_err_iff (lexes_eof_genuine hl) e).mpr ⟨_, [], (List.append_nil _).symm, ?_⟩
      rw [Location.pushStr_eq_lineColumn]
      exact hm

end Ebnf
