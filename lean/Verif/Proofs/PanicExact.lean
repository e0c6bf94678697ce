import Verif.Proofs.Hopeless
import Verif.Proofs.Hanging

set_option autoImplicit false

/-! # Exactly when reading a text panics, and exactly when it is rejected at the level of characters -/

namespace Ebnf

open Spec

theorem pushAll_panic_append {a b : List Str} {l : Lexer} {p : Panic} (h : (pushAll a l).1 = .panic p) :
    (pushAll (a ++ b) l).1 = .panic p := by
  induction a generalizing l with
  | nil => simp [pushAll, RM.pure_run] at h
  | cons c cs ih =>
    simp only [List.cons_append, pushAll, RM.bind_run] at h ⊢
    rcases hx : Lexer.pushStr c l with ⟨r, l1⟩
    rw [hx] at h
    cases r with
    | ok r =>
      simp only at h ⊢
      have : (pushAll cs l1).1 = .panic p := by
        revert h
        rcases pushAll cs l1 with ⟨r2, l2⟩
        cases r2 <;> simp [RM.pure_run]
      have := ih this
      revert this
      rcases pushAll (cs ++ b) l1 with ⟨r2, l2⟩
      simp only
      rintro rfl
      rfl
    | err e => simp at h
    | panic q => exact h
    | diverge => simp at h

/-- A push panics in the call that completes the tokens on which the token parser panics. -/
theorem pushAll_panic_iff {chunks : List Str} {l : Lexer} {p : Panic} (hu : Unlimited l) (hi : LexInv l) :
    (pushAll chunks l).1 = .panic p ↔ ∃ k tks loc rest,
      tokLoop l.tokenizer.location (l.tokenizer.buffer ++ (chunks.take k).flatten) = (.ok tks, loc, rest) ∧
        (Lexer.append l.tokens tks).1 = .panic p := by
  constructor
  · intro h
    induction chunks generalizing l with
    | nil => simp [pushAll, RM.pure_run] at h
    | cons c cs ih =>
      have hs := tokLoop_settled l.tokenizer.location (l.tokenizer.buffer ++ c)
      generalize hx : tokLoop l.tokenizer.location (l.tokenizer.buffer ++ c) = x at hs
      obtain ⟨r, loc, rest⟩ := x
      have hpu := lexer_pushStr_eq l c (unlimited_cap hu _)
      rw [hx] at hpu
      rcases hs with ⟨t1, h1⟩ | ⟨e', he⟩
      · simp only at h1; subst h1
        simp only at hpu
        simp only [pushAll, RM.bind_run, hpu] at h
        cases ha : (Lexer.append l.tokens t1).1 with
        | ok rs =>
          rw [ha] at h hpu
          simp only at h
          have : (pushAll cs ⟨⟨l.tokenizer.maxBufferSize, rest, loc⟩, (Lexer.append l.tokens t1).2⟩).1 = .panic p := by
            revert h
            rcases pushAll cs ⟨⟨l.tokenizer.maxBufferSize, rest, loc⟩, (Lexer.append l.tokens t1).2⟩ with ⟨r2, l2⟩
            cases r2 <;> simp [RM.pure_run]
          obtain ⟨k, tks, loc2, rest2, h3, h4⟩ := ih (pushStr_unlimited hu hpu) (pushStr_inv hpu) this
          refine ⟨k + 1, t1 ++ tks, loc2, rest2, ?_, ?_⟩
          · rw [List.take_succ_cons, List.flatten_cons, ← List.append_assoc, tokLoop_append hx, h3]
            rfl
          · rw [append_append]
            revert ha h4
            rcases Lexer.append l.tokens t1 with ⟨r, toks⟩
            rintro rfl
            simp only [thenAppend]
            rcases Lexer.append toks tks with ⟨r2, toks2⟩
            rintro rfl
            rfl
        | panic q =>
          rw [ha] at h
          simp only [Res.panic.injEq] at h
          subst h
          exact ⟨1, t1, loc, rest, by simpa using hx, ha⟩
        | err e => rw [ha] at h; simp at h
        | diverge => rw [ha] at h; simp at h
      · simp only at he; subst he
        simp [pushAll, RM.bind_run, hpu] at h
  · rintro ⟨k, tks, loc, rest, h1, h2⟩
    have := (pushAll_tokens hu hi h1).1
    rw [h2] at this
    have := pushAll_panic_append (b := chunks.drop k) this
    rwa [List.take_append_drop] at this

theorem lexes_prefix {start : Location} {text : Str} {us vs : List Token} (h : Lexes start text (us ++ vs)) :
    ∃ pre, pre <+: text ∧ Lexes start pre us := by
  induction us generalizing start text with
  | nil => exact ⟨[], List.nil_prefix, .nil _⟩
  | cons u us ih =>
    cases h with
    | @cons _ _ s rest _ hsp hp hend hl =>
      obtain ⟨pre, h1, h2⟩ := ih hl
      refine ⟨s ++ pre, List.prefix_append_right_inj s |>.mpr h1, .cons hsp hp ?_ h2⟩
      obtain ⟨q, rfl⟩ := h1
      cases pre with
      | nil => exact ends_none _
      | cons a b => simpa using hend

/-- Tokens that end in a terminator are all found at once. -/
theorem tokLoop_terminated {start : Location} {pre : Str} {ts : List Token} {t : Token}
    (h : Lexes start pre (ts ++ [t])) (ht : t.isTerminator = true) :
    ∃ loc, tokLoop start pre = (.ok (ts ++ [t]), loc, []) := by
  have hs := scanAll_complete h
  rcases tokLoop_settled start pre with ⟨tks, h1⟩ | ⟨e, h1⟩
  · have hx : tokLoop start pre = (.ok tks, (tokLoop start pre).2.1, (tokLoop start pre).2.2) := by rw [← h1]
    generalize (tokLoop start pre).2.1 = loc at hx
    generalize (tokLoop start pre).2.2 = rest at hx
    simp only [scanAll, hx] at hs
    cases hf : flushTok loc rest with
    | ok us =>
      rw [hf] at hs
      simp only [Res.bind, Res.ok.injEq] at hs
      have hc := hs
      obtain ⟨ws, rfl, hw, hlen⟩ := flushTok_ends hf
      rw [← List.append_assoc] at hs
      have hs2 := List.append_inj_left' hs rfl
      by_cases hr : rest = []
      · subst hr
        have := hw.mpr rfl
        subst this
        rw [List.append_nil] at hs2
        rw [← hs2]
        exact ⟨loc, hx⟩
      · exfalso
        have hn : ws ≠ [] := fun h => hr (hw.mp h)
        match ws, hn, hlen with
        | [w], _, _ =>
          have h3 : [w] = [t] := List.append_inj_right' hs2 rfl
          have := flushTok_count (tokLoop_ok hx).1 hf
          simp only [List.cons.injEq, and_true] at h3
          subst h3
          rw [List.cons_append, List.nil_append, List.countP_cons_of_pos ht, List.countP_cons_of_pos rfl] at this
          omega
        | _ :: _ :: _, _, hlen => simp at hlen
    | err e => rw [hf] at hs; simp [Res.bind] at hs
    | panic p => rw [hf] at hs; simp [Res.bind] at hs
    | diverge => rw [hf] at hs; simp [Res.bind] at hs
  · have := scanAll_append_err h1 []
    rw [List.append_nil, hs] at this
    cases this

/-- Exactly when feeding pieces panics. -/
theorem feedAll_panic_iff {name : Str} {chunks : List Str} {p : Panic} :
    (feedAll chunks (Lexer.new name)).1 = .panic p ↔ p = .indexOutOfBounds ∧
      ((∃ k pre ts, pre <+: (chunks.take k).flatten ∧ Lexes (Location.new name) pre ts ∧ Hanging ts ∧
          (Completable (Location.new name) (chunks.take k).flatten ∨
            StrayLast (Location.new name) (chunks.take k).flatten)) ∨
        ∃ ts, Lexes (Location.new name) chunks.flatten ts ∧
          Hanging (ts ++ [.eof (lineColumn (Location.new name) chunks.flatten)])) := by
  have hu := new_unlimited name
  have hi := new_inv name
  have named : ∀ {pre : Str} {ts : List Token}, Lexes (Location.new name) pre ts → NamedOk ts :=
    fun hl => spelled_named fun t ht => .inl (lexes_spelled hl t ht)
  -- a panic of the token parser on the tokens of some of the pieces
  have early : ∀ {k : Nat} {tks : List Token} {loc : Location} {rest : Str} {us vs : List Token},
      tokLoop (Location.new name) (chunks.take k).flatten = (.ok tks, loc, rest) → tks = us ++ vs → Hanging us →
      ∃ k pre ts, pre <+: (chunks.take k).flatten ∧ Lexes (Location.new name) pre ts ∧ Hanging ts ∧
          (Completable (Location.new name) (chunks.take k).flatten ∨
            StrayLast (Location.new name) (chunks.take k).flatten) := by
    intro k tks loc rest us vs ht he hh
    obtain ⟨used, hused, hl⟩ := tokLoop_lexes ht
    subst he
    obtain ⟨pre, h1, h2⟩ := lexes_prefix hl
    exact ⟨k, pre, us, h1.trans ⟨rest, hused.symm⟩, h2, hh, (tokLoop_ok_iff _ _).mp ⟨_, by rw [ht]⟩⟩
  constructor
  · intro h
    cases hp : (pushAll chunks (Lexer.new name)).1 with
    | panic q =>
      have hq : q = p := by
        revert h hp
        simp only [feedAll, RM.bind_run]
        rcases pushAll chunks (Lexer.new name) with ⟨r, l1⟩
        rintro h rfl
        simpa using h
      subst hq
      obtain ⟨k, tks, loc, rest, h1, h2⟩ := (pushAll_panic_iff hu hi).mp hp
      change tokLoop (Location.new name) (chunks.take k).flatten = _ at h1
      change (Lexer.append [] tks).1 = _ at h2
      obtain ⟨used, hused, hl⟩ := tokLoop_lexes h1
      obtain ⟨rfl, us, vs, he, hh⟩ := (append_panics_iff (named hl) _).mp h2
      exact ⟨rfl, .inl (early h1 he hh)⟩
    | ok rs =>
      have hok : pushAll chunks (Lexer.new name) = (.ok rs, (pushAll chunks (Lexer.new name)).2) := by rw [← hp]
      generalize (pushAll chunks (Lexer.new name)).2 = l1 at hok
      obtain ⟨tks, h1, h2, _⟩ := pushStr_ok ((pushAll_flatten hu hi).mp hok)
      change tokLoop (Location.new name) chunks.flatten = _ at h1
      rcases scanAll_settled (Location.new name) chunks.flatten with ⟨all, hs⟩ | ⟨e, hs⟩
      · rw [feedAll_scan hu hi hs] at h
        obtain ⟨ts, hl, rfl⟩ := scanAll_sound _ _ _ hs
        change (Lexer.append [] _).1 = _ at h
        obtain ⟨rfl, us, vs, he, hh⟩ := (append_panics_iff (lexes_named hl) _).mp h
        refine ⟨rfl, ?_⟩
        rcases List.eq_nil_or_concat vs with rfl | ⟨vs', v, rfl⟩
        · right
          refine ⟨ts, hl, ?_⟩
          rw [← Location.pushStr_eq_lineColumn, he, List.append_nil]
          exact hh
        · left
          rw [List.concat_eq_append, ← List.append_assoc] at he
          have he := List.append_inj_left' he rfl
          subst he
          obtain ⟨pre, h3, h4⟩ := lexes_prefix hl
          refine ⟨chunks.length, pre, us, ?_, h4, hh, ?_⟩
          · rw [List.take_length]; exact h3
          · rw [List.take_length]
            exact .inl ⟨[], us ++ vs', by rw [List.append_nil]; exact hl⟩
      · exfalso
        rw [feedAll_tokens hu hi h1, ] at h
        revert h
        generalize hz : Lexer.append (Lexer.new name).tokens tks = z at h2
        obtain ⟨r, toks⟩ := z
        simp only [Prod.mk.injEq] at h2
        obtain ⟨rfl, _⟩ := h2
        simp only
        have hpend := (tokLoop_ok h1).1
        rcases flush_eq ⟨⟨(Lexer.new name).tokenizer.maxBufferSize, l1.tokenizer.buffer, l1.tokenizer.location⟩, toks⟩ hpend with
          ⟨us, h1', h2'⟩ | ⟨e', h1', h2'⟩
        · simp only at h1'
          simp [scanAll, h1, h1', Res.bind] at hs
        · rw [h2']; simp
    | err e =>
      exfalso
      revert h hp
      simp only [feedAll, RM.bind_run]
      rcases pushAll chunks (Lexer.new name) with ⟨r, l1⟩
      rintro h rfl
      simp at h
    | diverge =>
      exfalso
      revert h hp
      simp only [feedAll, RM.bind_run]
      rcases pushAll chunks (Lexer.new name) with ⟨r, l1⟩
      rintro h rfl
      simp at h
  · rintro ⟨rfl, ⟨k, pre, ts, hpre, hl, hh, hok⟩ | ⟨ts, hl, hh⟩⟩
    · obtain ⟨tks, ht⟩ := (tokLoop_ok_iff _ _).mpr hok
      have hx : tokLoop (Location.new name) (chunks.take k).flatten = (.ok tks, (tokLoop (Location.new name) (chunks.take k).flatten).2.1,
        (tokLoop (Location.new name) (chunks.take k).flatten).2.2) := by rw [← ht]
      generalize (tokLoop (Location.new name) (chunks.take k).flatten).2.1 = loc at hx
      generalize (tokLoop (Location.new name) (chunks.take k).flatten).2.2 = rest at hx
      have hpan : (Lexer.append [] tks).1 = .panic .indexOutOfBounds := by
        have hh' := hh
        obtain ⟨us, rs, vs, t, rfl, _, _, htm, _⟩ := hh'
        have htt : t.isTerminator = true := by
          have := lexes_no_eof hl
          revert htm this
          cases t <;> simp [IsTerminator, Token.isTerminator]
        rw [← List.append_assoc] at hl
        obtain ⟨loc1, h1⟩ := tokLoop_terminated hl htt
        obtain ⟨post, hpost⟩ := hpre
        have h2 := tokLoop_append h1 post
        rw [hpost, hx] at h2
        obtain ⟨used, _, hlu⟩ := tokLoop_lexes hx
        have : ∃ ws, tks = us ++ (vs ++ [t]) ++ ws := by
          revert h2
          rcases tokLoop loc1 ([] ++ post) with ⟨r, l, s⟩
          cases r <;> simp [prependTok]
          intro h _ _
          exact ⟨_, h⟩
        obtain ⟨ws, hws⟩ := this
        exact (append_panics_iff (named hlu) _).mpr ⟨rfl, _, ws, hws, hh⟩
      have := (pushAll_panic_iff (chunks := chunks) hu hi).mpr ⟨k, tks, loc, rest, hx, hpan⟩
      revert this
      simp only [feedAll, RM.bind_run]
      rcases pushAll chunks (Lexer.new name) with ⟨r, l1⟩
      rintro rfl
      rfl
    · rw [feedAll_scan hu hi (scanAll_complete hl)]
      refine (append_panics_iff (lexes_named hl) _).mpr ⟨rfl, _, [], (List.append_nil _).symm, ?_⟩
      rw [Location.pushStr_eq_lineColumn]
      exact hh

/-! ### Rejection at the level of characters -/

/-- After accepted pieces a push is rejected by the tokenizer exactly when all the text so far is hopeless. -/
theorem push_rejects_iff {name : Str} {chunks : List Str} {rs : List SyntaxRule} {l : Lexer}
    (h : pushAll chunks (Lexer.new name) = (.ok rs, l)) (s : Str) :
    (∃ e, (Lexer.pushStr s l).1 = .err e ∧ e.msg.ofTokenizer = true) ↔
      ¬ Completable (Location.new name) (chunks.flatten ++ s) ∧ ¬ StrayLast (Location.new name) (chunks.flatten ++ s) := by
  have hp := (pushAll_flatten (new_unlimited name) (new_inv name)).mp h
  obtain ⟨tks, h1, _, _⟩ := pushStr_ok hp
  change tokLoop (Location.new name) chunks.flatten = _ at h1
  have hcap := unlimited_cap (pushStr_unlimited (new_unlimited name) hp) s
  rw [← not_or, ← tokLoop_ok_iff, tokLoop_append h1, lexer_pushStr_eq _ _ hcap]
  have hf := tokLoop_facts l.tokenizer.location l.tokenizer.location [] (l.tokenizer.buffer ++ s) rfl
  have hset := tokLoop_settled l.tokenizer.location (l.tokenizer.buffer ++ s)
  revert hf hset
  rcases tokLoop l.tokenizer.location (l.tokenizer.buffer ++ s) with ⟨r, loc, rest⟩
  intro hf hset
  rcases hset with ⟨t, ht⟩ | ⟨e, he⟩
  · simp only at ht; subst ht
    constructor
    · rintro ⟨e, h2, h3⟩
      have := append_sat l.tokens t
      simp only at h2
      rw [h2] at this
      have h4 := this.2
      revert h3 h4
      cases e.msg <;> simp [Msg.ofTokenizer, Msg.ofParser]
    · intro h2
      exact absurd ⟨_, rfl⟩ h2
  · simp only at he; subst he
    constructor
    · rintro _ ⟨_, h2⟩
      simp [prependTok] at h2
    · intro _
      exact ⟨e, rfl, hf.2⟩

/-- After accepted pieces, flush is rejected by the tokenizer exactly when the text is no sequence of tokens. -/
theorem flush_rejects_iff {name : Str} {chunks : List Str} {rs : List SyntaxRule} {l : Lexer}
    (h : pushAll chunks (Lexer.new name) = (.ok rs, l)) :
    (∃ e, (Lexer.flush l).1 = .err e ∧ e.msg.ofTokenizer = true) ↔
      ¬ ∃ ts, Lexes (Location.new name) chunks.flatten ts := by
  have hp := (pushAll_flatten (new_unlimited name) (new_inv name)).mp h
  obtain ⟨tks, h1, _, _⟩ := pushStr_ok hp
  change tokLoop (Location.new name) chunks.flatten = _ at h1
  have hpend : LexInv l := pushStr_inv hp
  rcases flush_eq l hpend with ⟨us, h2, h3⟩ | ⟨e, h2, h3⟩
  · constructor
    · rintro ⟨e, h4, h5⟩
      exfalso
      rw [h3] at h4
      have := append_sat l.tokens us
      revert h4 this
      simp only
      cases (Lexer.append l.tokens us).1 with
      | ok r => simp [headRes]
      | err e' =>
        simp only [headRes, Res.err.injEq]
        rintro rfl h6
        have h6 := h6.2
        revert h5 h6
        cases e'.msg <;> simp [Msg.ofTokenizer, Msg.ofParser]
      | panic p => simp [headRes]
      | diverge => simp [headRes]
    · intro hn
      exfalso
      have hs : scanAll (Location.new name) chunks.flatten = .ok (tks ++ us) := by simp [scanAll, h1, h2, Res.bind]
      obtain ⟨ts, h4, _⟩ := scanAll_sound _ _ _ hs
      exact hn ⟨ts, h4⟩
  · constructor
    · rintro _ ⟨ts, hl⟩
      have hs := scanAll_complete hl
      simp [scanAll, h1, h2, Res.bind] at hs
    · intro _
      refine ⟨e, by rw [h3], ?_⟩
      unfold flushTok at h2
      split at h2
      · cases h2
      · split at h2
        · cases h2
        · rename_i e' he
          simp only [Res.err.injEq] at h2
          subst h2
          have := readNext_lexSat l.tokenizer.location l.tokenizer.buffer true
          rw [he] at this
          exact this.2
        · cases h2

/-- Text that cannot be completed is rejected at the latest with the next character. -/
theorem hopeless_extend {start : Location} {text : Str} (h : ¬ Completable start text) {more : Str} (hm : more ≠ []) :
    ¬ Completable start (text ++ more) ∧ ¬ StrayLast start (text ++ more) := by
  constructor
  · rintro ⟨m, ts, hl⟩
    exact h ⟨more ++ m, ts, by rw [← List.append_assoc]; exact hl⟩
  · rintro ⟨init, c, ts, he, hl, _⟩
    rcases List.eq_nil_or_concat more with rfl | ⟨m, d, rfl⟩
    · exact hm rfl
    · rw [List.concat_eq_append, ← List.append_assoc] at he
      have he := List.append_inj_left' he rfl
      subst he
      exact h ⟨m, ts, hl⟩

/-- A stray last character does make the text hopeless. -/
theorem stray_not_completable {start : Location} {text : Str} (h : StrayLast start text) : ¬ Completable start text := by
  obtain ⟨init, c, ts, rfl, hl, hc⟩ := h
  rintro ⟨more, us, hu⟩
  rw [List.append_assoc, List.cons_append, List.nil_append] at hu
  induction hl generalizing us with
  | nil start =>
    generalize hx : [] ++ c :: more = x at hu
    cases hu with
    | nil => simp at hx
    | @cons _ tk s rest tks hsp hp hend hr =>
      cases s with
      | nil => cases hsp <;> simp at *
      | cons d s =>
        simp only [List.nil_append, List.cons_append, List.cons.injEq] at hx
        obtain ⟨rfl, _⟩ := hx
        exact hc _ _ hsp
  | @cons start tk s rest tks hsp hp hend hr ih =>
    have h1 := readNext_complete hsp (rest ++ c :: more) (by
      cases rest with
      | nil => exact ends_stray hc
      | cons a b => simpa using hend)
    rw [hp] at h1
    have h1 : readNext start (s ++ (rest ++ c :: more)) false = .ok (some (tk, s.length)) := by
      rcases h1 with h1 | ⟨h1, _⟩
      · exact h1
      · simp at h1
    generalize hx : s ++ rest ++ c :: more = x at hu
    rw [List.append_assoc] at hx
    cases hu with
    | nil => simp at hx
    | @cons _ tk' s' rest' tks' hsp' hp' hend' hr' =>
      have h2 := readNext_complete hsp' rest' hend'
      rw [hp'] at h2
      rcases h2 with h2 | ⟨rfl, h2, _⟩
      · rw [← hx, h1] at h2
        simp only [Res.ok.injEq, Option.some.injEq, Prod.mk.injEq] at h2
        obtain ⟨rfl, hlen⟩ := h2
        obtain ⟨rfl, rfl⟩ := List.append_inj hx hlen
        exact ih _ hr'
      · rw [List.append_nil] at hx
        rw [← hx, h1] at h2
        cases h2

end Ebnf
