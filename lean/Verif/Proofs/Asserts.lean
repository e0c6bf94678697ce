import Verif.Spec.Asserts
import Verif.Proofs.Limit

set_option autoImplicit false

/-! # Lemmas: the debug assertions of the lexer -/

namespace Ebnf

open Spec

theorem debug_tokenizeLoop (fuel : Nat) (loc : Location) (rest : Str) :
    Debug.tokenizeLoop fuel loc rest = Tokenizer.tokenizeLoop fuel loc rest := by
  induction fuel generalizing loc rest with
  | zero => rfl
  | succ fuel ih =>
    rw [Debug.tokenizeLoop, Tokenizer.tokenizeLoop]
    cases h : readNext loc rest false with
    | ok o =>
      cases o with
      | none => rfl
      | some x =>
        have h0 : x.2 ≠ 0 := Nat.ne_of_gt (readNext_sound loc rest false x.1 x.2 h).pos
        simp only [if_neg h0, ih]
        rfl
    | _ => rfl

theorem debug_tokenize (t : Tokenizer) : Debug.tokenize t = Tokenizer.tokenize t := by
  simp only [Debug.tokenize, Tokenizer.tokenize, debug_tokenizeLoop]
  rfl

theorem debug_tokenizerPushStr (s : Str) : Debug.tokenizerPushStr s = Tokenizer.pushStr s := by
  funext t
  simp only [Debug.tokenizerPushStr, Tokenizer.pushStr, debug_tokenize]
  rfl

theorem debug_tokenizerFlush : Debug.tokenizerFlush = Tokenizer.flush := by
  funext t
  rw [Debug.tokenizerFlush]
  cases h : readNext t.location t.buffer true with
  | ok o =>
    cases o with
    | none => rfl
    | some x =>
      obtain ⟨tk, n⟩ := x
      have h0 := (readNext_sound _ _ true tk n h).pos
      cases n with
      | zero => exact absurd h0 (by omega)
      | succ n => rfl
  | _ => rfl

/-- The assertion of `build_syntax_rule` holds if only the last token is a terminator. -/
theorem debug_build {toks : List Token} (h : NoTerm toks) {t : Token} (ht : t.isTerminator = true) :
    Debug.buildSyntaxRule (toks ++ [t]) = buildSyntaxRule (toks ++ [t]) := by
  have h1 : toks.filter Token.isTerminator = [] := by
    rw [List.filter_eq_nil_iff]
    intro x hx
    simp [h x hx]
  rw [Debug.buildSyntaxRule, if_pos]
  simp [List.filter_append, h1, ht]

/-- … and fires if there is another one. -/
theorem debug_build_fires {toks : List Token} {x : Token} (hx : x ∈ toks) (hx' : x.isTerminator = true) {t : Token} (ht : t.isTerminator = true) :
    Debug.buildSyntaxRule (toks ++ [t]) = .panic .debugAssert := by
  have h1 : 0 < (toks.filter Token.isTerminator).length := List.length_pos_of_mem (List.mem_filter.mpr ⟨hx, hx'⟩)
  rw [Debug.buildSyntaxRule, if_neg]
  simp only [List.filter_append, List.length_append, ht, List.filter_cons_of_pos, List.filter_nil, List.length_singleton,
    Bool.and_eq_true, beq_iff_eq]
  omega

theorem debug_append {toks : List Token} (h : NoTerm toks) (ts : List Token) : Debug.append toks ts = Lexer.append toks ts := by
  induction ts generalizing toks with
  | nil => rfl
  | cons t ts ih =>
    cases ht : t.isTerminator with
    | true =>
      simp only [Debug.append, Lexer.append, ht, if_true, debug_build h ht, ih (toks := []) (fun _ hx => by cases hx)]
      rfl
    | false =>
      simp only [Debug.append, Lexer.append, ht, Bool.false_eq_true, if_false]
      refine ih (fun x hx => ?_)
      rcases List.mem_append.mp hx with hx | hx
      · exact h x hx
      · rw [List.mem_singleton.mp hx]; exact ht

theorem debug_feed {l : Lexer} (h : NoTerm l.tokens) (m : RM Tokenizer (List Token)) : Debug.feed m l = Lexer.feed m l := by
  simp only [Debug.feed, Lexer.feed]
  generalize m l.tokenizer = x
  obtain ⟨r, tz⟩ := x
  cases r <;> simp only [debug_append h]

/-- A call that does not spoil the lexer keeps its tokens free of terminators. -/
theorem feed_noTerm {l : Lexer} (h : NoTerm l.tokens) (m : RM Tokenizer (List Token)) (hs : spoils (Lexer.feed m l).1 = false) :
    NoTerm (Lexer.feed m l).2.tokens := by
  rw [Lexer.feed] at hs ⊢
  generalize m l.tokenizer = x at hs ⊢
  obtain ⟨r, tz⟩ := x
  cases r with
  | ok tks =>
    simp only at hs ⊢
    have h1 := append_sat l.tokens tks
    cases ha : Lexer.append l.tokens tks with
    | mk r toks =>
      rw [ha] at hs h1
      cases r with
      | ok rs => exact append_noTerm h ha
      | err e => simp only [spoils] at hs; rw [h1.2] at hs; cases hs
      | panic p => cases hs
      | diverge => cases hs
  | err e => exact h
  | panic p => cases hs
  | diverge => cases hs

theorem first_debug (m : RM Lexer (List SyntaxRule)) (l : Lexer) : spoils (Lexer.first m l).1 = spoils (m l).1 ∧ (Lexer.first m l).2 = (m l).2 := by
  rw [first_run]
  generalize m l = x
  obtain ⟨r, l'⟩ := x
  cases r <;> exact ⟨rfl, rfl⟩

theorem first_congr {m m' : RM Lexer (List SyntaxRule)} {l : Lexer} (h : m l = m' l) : Lexer.first m l = Lexer.first m' l := by
  rw [first_run, first_run, h]

/-- One call. -/
theorem debug_op {l : Lexer} (h : NoTerm l.tokens) (op : Op) :
    op.debugAnswer l = op.answer l ∧ op.debugNext l = op.next l ∧ ((op.answer l).spoils = false → NoTerm (op.next l).tokens) := by
  cases op with
  | push c =>
    have : Debug.push c l = Lexer.push c l := first_congr (by rw [debug_feed h, debug_tokenizerPushStr]; rfl)
    refine ⟨by rw [Op.debugAnswer, this]; rfl, by rw [Op.debugNext, this]; rfl, fun hs => ?_⟩
    obtain ⟨h1, h2⟩ := first_debug (Lexer.feed (Tokenizer.push c)) l
    have : (Op.push c).next l = (Lexer.feed (Tokenizer.push c) l).2 := h2
    rw [this]
    exact feed_noTerm h _ (h1.symm.trans hs)
  | pushStr s =>
    have : Debug.pushStr s l = Lexer.pushStr s l := by rw [Debug.pushStr, debug_feed h, debug_tokenizerPushStr]; rfl
    exact ⟨by rw [Op.debugAnswer, this]; rfl, by rw [Op.debugNext, this]; rfl, fun hs => feed_noTerm h _ hs⟩
  | flush =>
    have : Debug.flush l = Lexer.flush l := first_congr (by rw [debug_feed h, debug_tokenizerFlush])
    refine ⟨by rw [Op.debugAnswer, this]; rfl, by rw [Op.debugNext, this]; rfl, fun hs => ?_⟩
    obtain ⟨h1, h2⟩ := first_debug (Lexer.feed Tokenizer.flush) l
    have : Op.flush.next l = (Lexer.feed Tokenizer.flush l).2 := h2
    rw [this]
    exact feed_noTerm h _ (h1.symm.trans hs)
  | reset => exact ⟨rfl, rfl, fun _ x hx => by cases hx⟩

theorem debug_answers (ops : List Op) {l : Lexer} (h : NoTerm l.tokens ∨ ∃ more, ops = .reset :: more) (hc : Careful ops l) :
    debugAnswers ops l = answers ops l := by
  induction ops generalizing l with
  | nil => rfl
  | cons op ops ih =>
    obtain ⟨h1, h2⟩ := hc
    have key : op.debugAnswer l = op.answer l ∧ op.debugNext l = op.next l ∧ ((op.answer l).spoils = false → NoTerm (op.next l).tokens) := by
      rcases h with h | ⟨more, h⟩
      · exact debug_op h op
      · injection h with h _
        subst h
        exact ⟨rfl, rfl, fun _ x hx => by cases hx⟩
    rw [debugAnswers, answers, key.1, key.2.1]
    congr 1
    cases hs : (op.answer l).spoils with
    | false => exact ih (.inl (key.2.2 hs)) h2
    | true =>
      rcases h1 hs with h3 | h3
      · subst h3; rfl
      · exact ih (.inr h3) h2

/-! ## After an error -/

/-- A terminator was left among the tokens. -/
def Spoiled (l : Lexer) : Prop := ∃ x ∈ l.tokens, x.isTerminator = true

theorem append_spoils {toks ts toks' : List Token} {e : Error} (h : Debug.append toks ts = (.err e, toks')) :
    ∃ x ∈ toks', x.isTerminator = true := by
  induction ts generalizing toks with
  | nil => cases h
  | cons t ts ih =>
    cases ht : t.isTerminator with
    | true =>
      simp only [Debug.append, ht, if_true] at h
      cases hb : Debug.buildSyntaxRule (toks ++ [t]) with
      | ok r =>
        rw [hb] at h
        simp only at h
        cases ha : Debug.append [] ts with
        | mk q u =>
          rw [ha] at h
          cases q with
          | ok _ => cases h
          | err e' => cases h; exact ih ha
          | panic _ => cases h
          | diverge => cases h
      | err e' => rw [hb] at h; cases h; exact ⟨t, by simp, ht⟩
      | panic p => rw [hb] at h; cases h
      | diverge => rw [hb] at h; cases h
    | false =>
      simp only [Debug.append, ht, Bool.false_eq_true, if_false] at h
      exact ih h

theorem append_spoiled {toks : List Token} (h : ∃ x ∈ toks, x.isTerminator = true) (ts : List Token) :
    ((Debug.append toks ts).1 = .ok [] ∨ (Debug.append toks ts).1 = .panic .debugAssert) ∧
      ∃ x ∈ (Debug.append toks ts).2, x.isTerminator = true := by
  induction ts generalizing toks with
  | nil => exact ⟨.inl rfl, h⟩
  | cons t ts ih =>
    obtain ⟨x, hx, hx'⟩ := h
    cases ht : t.isTerminator with
    | true =>
      simp only [Debug.append, ht, if_true, debug_build_fires hx hx' ht]
      exact ⟨.inr trivial, x, by simp [hx], hx'⟩
    | false =>
      simp only [Debug.append, ht, Bool.false_eq_true, if_false]
      exact ih ⟨x, by simp [hx], hx'⟩

theorem feed_spoiled {l : Lexer} (h : Spoiled l) (m : RM Tokenizer (List Token)) :
    (∀ rs, (Debug.feed m l).1 = .ok rs → rs = []) ∧ Spoiled (Debug.feed m l).2 := by
  rw [Debug.feed]
  generalize m l.tokenizer = x
  obtain ⟨r, tz⟩ := x
  cases r with
  | ok tks =>
    obtain ⟨h1, h2⟩ := append_spoiled h tks
    refine ⟨fun rs hr => ?_, h2⟩
    simp only at hr
    rcases h1 with h1 | h1
    · rw [h1] at hr; injection hr with hr; exact hr.symm
    · rw [h1] at hr; cases hr
  | _ => exact ⟨(fun rs hr => by cases hr), h⟩

theorem op_spoiled {l : Lexer} (h : Spoiled l) (op : Op) (hr : op ≠ .reset) :
    (op.debugAnswer l).hasRule = false ∧ Spoiled (op.debugNext l) := by
  have key : ∀ m : RM Tokenizer (List Token), (Answer.rule (Lexer.first (Debug.feed m) l).1).hasRule = false ∧
      Spoiled (Lexer.first (Debug.feed m) l).2 := by
    intro m
    obtain ⟨h1, h2⟩ := feed_spoiled h m
    rw [first_run]
    refine ⟨?_, h2⟩
    cases hf : (Debug.feed m l).1 with
    | ok rs => rw [h1 rs hf]; rfl
    | _ => rfl
  cases op with
  | push c => exact key _
  | flush => exact key _
  | pushStr s =>
    obtain ⟨h1, h2⟩ := feed_spoiled h (Debug.tokenizerPushStr s)
    refine ⟨?_, h2⟩
    show (Answer.rules (Debug.feed (Debug.tokenizerPushStr s) l).1).hasRule = false
    cases hf : (Debug.feed (Debug.tokenizerPushStr s) l).1 with
    | ok rs => rw [h1 rs hf]; rfl
    | _ => rfl
  | reset => exact absurd rfl hr

theorem answers_spoiled {l : Lexer} (h : Spoiled l) (ops : List Op) (hr : ∀ op ∈ ops, op ≠ .reset) :
    ∀ a ∈ debugAnswers ops l, a.hasRule = false := by
  induction ops generalizing l with
  | nil => intro a ha; cases ha
  | cons op ops ih =>
    obtain ⟨h1, h2⟩ := op_spoiled h op (hr op (by simp))
    intro a ha
    rcases List.mem_cons.mp ha with rfl | ha
    · exact h1
    · exact ih h2 (fun o ho => hr o (by simp [ho])) a ha

theorem feed_spoils {l : Lexer} {m : RM Tokenizer (List Token)} (hm : ∀ e, (m l.tokenizer).1 = .err e → e.msg.ofParser = false) {e : Error}
    (h : (Debug.feed m l).1 = .err e) (he : e.msg.ofParser = true) : Spoiled (Debug.feed m l).2 := by
  rw [Debug.feed] at h ⊢
  generalize m l.tokenizer = x at h hm ⊢
  obtain ⟨r, tz⟩ := x
  cases r with
  | ok tks =>
    simp only at h ⊢
    cases ha : Debug.append l.tokens tks with
    | mk q u =>
      rw [ha] at h
      simp only at h
      subst h
      exact append_spoils ha
  | err e' =>
    simp only [Res.err.injEq] at h
    subst h
    rw [hm e' rfl] at he
    cases he
  | panic p => cases h
  | diverge => cases h

theorem tokenizer_not_parser {e : Error} (h : e.msg.ofTokenizer = true) : e.msg.ofParser = false := by
  revert h
  cases e.msg <;> simp [Msg.ofTokenizer, Msg.ofParser]

theorem tokenizeLoop_err {fuel : Nat} {loc : Location} {rest : Str} {e : Error} (h : (Tokenizer.tokenizeLoop fuel loc rest).1 = .err e) :
    e.msg.ofParser = false := by
  induction fuel generalizing loc rest with
  | zero => rw [Tokenizer.tokenizeLoop] at h; simp only at h; split at h <;> cases h
  | succ fuel ih =>
    rw [Tokenizer.tokenizeLoop] at h
    by_cases hr : rest.isEmpty = true
    · rw [if_pos hr] at h; cases h
    · rw [if_neg hr] at h
      have hl := readNext_lexSat loc rest false
      cases hn : readNext loc rest false with
      | ok o =>
        rw [hn] at h
        cases o with
        | none => cases h
        | some x =>
          simp only at h
          cases hx : Tokenizer.tokenizeLoop fuel (loc.pushStr (rest.take x.2)) (rest.drop x.2) with
          | mk r y =>
            rw [hx] at h
            cases r with
            | ok _ => cases h
            | err e' => exact ih (by rw [hx]; exact h)
            | panic _ => cases h
            | diverge => cases h
      | err e' =>
        rw [hn] at h hl
        simp only [Res.err.injEq] at h
        subst h
        exact tokenizer_not_parser hl.2
      | panic _ => rw [hn] at h; cases h
      | diverge => rw [hn] at h; cases h

theorem tokenizerPushStr_err {s : Str} {t : Tokenizer} {e : Error} (h : (Tokenizer.pushStr s t).1 = .err e) : e.msg.ofParser = false := by
  rw [Tokenizer.pushStr] at h
  cases hc : t.ensureCapacity s.length with
  | ok u =>
    rw [hc] at h
    simp only [Tokenizer.tokenize] at h
    cases hx : Tokenizer.tokenizeLoop (t.buffer ++ s).length t.location (t.buffer ++ s) with
    | mk r y =>
      rw [hx] at h
      cases r with
      | ok _ => cases h
      | err e' => exact tokenizeLoop_err (by rw [hx]; exact h)
      | panic _ => cases h
      | diverge => cases h
  | err e' =>
    rw [hc] at h
    simp only [Res.err.injEq] at h
    subst h
    rw [Tokenizer.ensureCapacity] at hc
    split at hc
    · simp only [Res.fail, Res.err.injEq] at hc
      rw [← hc]; rfl
    · cases hc
  | panic _ => rw [hc] at h; cases h
  | diverge => rw [hc] at h; cases h

theorem tokenizerFlush_err {t : Tokenizer} {e : Error} (h : (Tokenizer.flush t).1 = .err e) : e.msg.ofParser = false := by
  have hr := readNext_lexSat t.location t.buffer true
  simp only [Tokenizer.flush] at h
  cases hx : readNext t.location t.buffer true with
  | ok o =>
    rw [hx] at h
    cases o with
    | none => simp only at h; split at h <;> cases h
    | some x => simp only at h; split at h <;> cases h
  | err e' =>
    rw [hx] at h hr
    simp only [Res.err.injEq] at h
    subst h
    exact tokenizer_not_parser hr.2
  | panic p => rw [hx] at h; cases h
  | diverge => rw [hx] at h; cases h

/-- An error of the token parser spoils the lexer. -/
theorem op_spoils {l : Lexer} {op : Op} {e : Error} (h : (op.debugAnswer l).error? = some e) (he : e.msg.ofParser = true) :
    Spoiled (op.debugNext l) := by
  have key : ∀ m : RM Tokenizer (List Token), (∀ e, (m l.tokenizer).1 = .err e → e.msg.ofParser = false) →
      (Answer.rule (Lexer.first (Debug.feed m) l).1).error? = some e → Spoiled (Lexer.first (Debug.feed m) l).2 := by
    intro m hm h
    rw [first_run] at h ⊢
    cases hf : (Debug.feed m l).1 with
    | err e' =>
      rw [hf] at h
      simp only [headRes, Answer.error?, Option.some.injEq] at h
      subst h
      exact feed_spoils hm hf he
    | _ => rw [hf] at h; simp [headRes, Answer.error?] at h
  cases op with
  | push c => exact key _ (fun e he => by rw [debug_tokenizerPushStr] at he; exact tokenizerPushStr_err he) h
  | flush => exact key _ (fun e he => by rw [debug_tokenizerFlush] at he; exact tokenizerFlush_err he) h
  | pushStr s =>
    change (Answer.rules (Debug.feed (Debug.tokenizerPushStr s) l).1).error? = some e at h
    cases hf : (Debug.feed (Debug.tokenizerPushStr s) l).1 with
    | err e' =>
      rw [hf] at h
      simp only [Answer.error?, Option.some.injEq] at h
      subst h
      exact feed_spoils (fun e he => by rw [debug_tokenizerPushStr] at he; exact tokenizerPushStr_err he) hf he
    | _ => rw [hf] at h; simp [Answer.error?] at h
  | reset => cases h

theorem debugAnswers_append (as bs : List Op) (l : Lexer) : debugAnswers (as ++ bs) l = debugAnswers as l ++ debugAnswers bs (debugAfter as l) := by
  induction as generalizing l with
  | nil => rfl
  | cons a as ih => simp only [List.cons_append, debugAnswers, debugAfter, ih]

/-! ## Any history -/

/-- The tokens of a lexer are spelled, or end markers. -/
def Genuine (ts : List Token) : Prop := ∀ t ∈ ts, (∃ s, Spelled t s) ∨ ∃ l, t = .eof l

theorem append_mem_all (toks ts : List Token) : ∀ t ∈ (Lexer.append toks ts).2, t ∈ toks ++ ts := by
  induction ts generalizing toks with
  | nil => intro t ht; simpa [Lexer.append] using ht
  | cons x ts ih =>
    intro t ht
    by_cases hx : x.isTerminator = true
    · simp only [Lexer.append, hx, if_true] at ht
      have h1 : toks ++ x :: ts = (toks ++ [x]) ++ ts := by simp
      rw [h1]
      cases hb : buildSyntaxRule (toks ++ [x]) with
      | ok r =>
        rw [hb] at ht
        simp only at ht
        have h2 : t ∈ (Lexer.append [] ts).2 := by
          revert ht
          generalize Lexer.append [] ts = y
          obtain ⟨q, u⟩ := y
          cases q <;> exact id
        exact List.mem_append_right _ (by simpa using ih [] t h2)
      | err e => rw [hb] at ht; exact List.mem_append_left _ ht
      | panic e => rw [hb] at ht; exact List.mem_append_left _ ht
      | diverge => rw [hb] at ht; exact List.mem_append_left _ ht
    · simp only [Lexer.append, hx, Bool.false_eq_true, if_false] at ht
      simpa using ih (toks ++ [x]) t ht

/-- What a tokenizer method may return, whatever is in its buffer. -/
abbrev TokSat (r : Res (List Token)) : Prop := r.Sat Genuine (fun _ => True) (fun p => p = .flushNotEmpty)

theorem tokenizerPushStr_sat (s : Str) (t : Tokenizer) : TokSat (Tokenizer.pushStr s t).1 := by
  rw [Tokenizer.pushStr]
  cases hc : t.ensureCapacity s.length with
  | ok u =>
    have := tokLoop_facts t.location t.location [] (t.buffer ++ s) rfl
    simp only [tokenizer_tokenize]
    revert this
    generalize tokLoop t.location (t.buffer ++ s) = x
    obtain ⟨r, l, u⟩ := x
    intro h
    cases r with
    | ok tks => exact fun t ht => let ⟨_, s, _, _, h⟩ := h t ht; .inl ⟨s, h⟩
    | err e => trivial
    | panic p => exact h.elim
    | diverge => exact h
  | err e => trivial
  | panic p => rw [Tokenizer.ensureCapacity] at hc; split at hc <;> cases hc
  | diverge => rw [Tokenizer.ensureCapacity] at hc; split at hc <;> cases hc

theorem tokenizerFlush_sat (t : Tokenizer) : TokSat (Tokenizer.flush t).1 := by
  simp only [Tokenizer.flush]
  have hr := readNext_settled t.location t.buffer true
  cases hx : readNext t.location t.buffer true with
  | ok o =>
    cases o with
    | none =>
      simp only
      split
      · intro u hu
        exact .inr ⟨_, by simpa using hu⟩
      · rfl
    | some x =>
      obtain ⟨tk, n⟩ := x
      have h1 := (readNext_sound _ _ _ _ _ hx).spelled
      simp only
      split
      · intro u hu
        rcases List.mem_cons.mp hu with rfl | hu
        · exact .inl ⟨_, h1⟩
        · exact .inr ⟨_, by simpa using hu⟩
      · rfl
  | err e => trivial
  | panic p => rw [hx] at hr; rcases hr with ⟨_, h⟩ | ⟨_, h⟩ <;> cases h
  | diverge => rw [hx] at hr; rcases hr with ⟨_, h⟩ | ⟨_, h⟩ <;> cases h

theorem feed_genuine {l : Lexer} (h : Genuine l.tokens) {m : RM Tokenizer (List Token)} (hm : TokSat (m l.tokenizer).1) :
    (Lexer.feed m l).1.Sat (fun _ => True) (fun _ => True) (fun p => p = .flushNotEmpty ∨ p = .indexOutOfBounds) ∧
    Genuine (Lexer.feed m l).2.tokens := by
  rw [Lexer.feed]
  generalize m l.tokenizer = x at hm
  obtain ⟨r, tz⟩ := x
  cases r with
  | ok tks =>
    have h1 := append_sat l.tokens tks
    have hg : Genuine (l.tokens ++ tks) := fun t ht => (List.mem_append.mp ht).elim (h t) (hm t)
    refine ⟨?_, fun t ht => hg t (append_mem_all _ _ t ht)⟩
    simp only
    cases ha : (Lexer.append l.tokens tks).1 with
    | ok _ => trivial
    | err _ => trivial
    | panic p => rw [ha] at h1; exact .inr (h1 (spelled_named hg)).1
    | diverge => rw [ha] at h1; exact h1
  | err e => exact ⟨trivial, h⟩
  | panic p => exact ⟨.inl hm, h⟩
  | diverge => exact ⟨hm, h⟩

theorem op_any {l : Lexer} (h : Genuine l.tokens) (op : Op) :
    (op.answer l).hangs = false ∧ (∀ p, (op.answer l).panic? = some p → p = .flushNotEmpty ∨ p = .indexOutOfBounds) ∧ Genuine (op.next l).tokens := by
  have key : ∀ m : RM Tokenizer (List Token), TokSat (m l.tokenizer).1 → (Answer.rule (Lexer.first (Lexer.feed m) l).1).hangs = false ∧
      (∀ p, (Answer.rule (Lexer.first (Lexer.feed m) l).1).panic? = some p → p = .flushNotEmpty ∨ p = .indexOutOfBounds) ∧
      Genuine (Lexer.first (Lexer.feed m) l).2.tokens := by
    intro m hm
    obtain ⟨h1, h2⟩ := feed_genuine h hm
    rw [first_run]
    refine ⟨?_, ?_, h2⟩
    · cases hf : (Lexer.feed m l).1 with
      | diverge => rw [hf] at h1; exact h1.elim
      | _ => rfl
    · intro p hp
      cases hf : (Lexer.feed m l).1 with
      | panic q => rw [hf] at hp h1; injection hp with hp; subst hp; exact h1
      | _ => rw [hf] at hp; cases hp
  cases op with
  | push c => exact key _ (tokenizerPushStr_sat [c] _)
  | flush => exact key _ (tokenizerFlush_sat _)
  | pushStr s =>
    obtain ⟨h1, h2⟩ := feed_genuine h (tokenizerPushStr_sat s l.tokenizer)
    refine ⟨?_, ?_, h2⟩
    · show (Answer.rules (Lexer.feed (Tokenizer.pushStr s) l).1).hangs = false
      cases hf : (Lexer.feed (Tokenizer.pushStr s) l).1 with
      | diverge => rw [hf] at h1; exact h1.elim
      | _ => rfl
    · intro p hp
      change (Answer.rules (Lexer.feed (Tokenizer.pushStr s) l).1).panic? = some p at hp
      cases hf : (Lexer.feed (Tokenizer.pushStr s) l).1 with
      | panic q => rw [hf] at hp h1; injection hp with hp; subst hp; exact h1
      | _ => rw [hf] at hp; cases hp
  | reset => exact ⟨rfl, (fun p hp => by cases hp), fun t ht => by cases ht⟩

theorem answers_any (ops : List Op) {l : Lexer} (h : Genuine l.tokens) :
    ∀ a ∈ answers ops l, a.hangs = false ∧ ∀ p, a.panic? = some p → p = .flushNotEmpty ∨ p = .indexOutOfBounds := by
  induction ops generalizing l with
  | nil => intro a ha; cases ha
  | cons op ops ih =>
    obtain ⟨h1, h2, h3⟩ := op_any h op
    intro a ha
    rcases List.mem_cons.mp ha with rfl | ha
    · exact ⟨h1, h2⟩
    · exact ih h3 a ha

end Ebnf
