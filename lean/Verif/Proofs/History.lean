import Verif.Proofs.Outcome

set_option autoImplicit false

/-! # Histories of lexer calls: buffer limit, reset, positions of errors -/

namespace Ebnf

open Spec

/-- A lexical error that points into `rest`, which starts at `loc`. -/
def LexErr (loc : Location) (rest : Str) (e : Error) : Prop :=
  (∃ pre, pre <+: rest ∧ e.location = loc.pushStr pre) ∧ e.msg.ofTokenizer = true

/-- Outcome with lexical errors only. -/
abbrev LexSat (loc : Location) (rest : Str) {α : Type} (r : Res α) : Prop :=
  r.Sat (fun _ => True) (LexErr loc rest) (fun _ => False)

theorem LexErr.here {α : Type} {loc : Location} {rest : Str} {m : Msg} (hm : m.ofTokenizer = true) :
    LexSat loc rest (.fail loc m : Res α) :=
  ⟨⟨[], List.nil_prefix, rfl⟩, hm⟩

theorem terminalString_lexSat (loc : Location) (q : Char) (rest full : Str) (flush : Bool) :
    LexSat loc full (terminalString loc q rest flush) := by
  unfold terminalString
  split
  · exact LexErr.here rfl
  · exact Res.Sat.ite (fun _ => Res.Sat.ite (fun _ => LexErr.here rfl) fun _ => trivial)
      fun _ => Res.Sat.ite (fun _ => LexErr.here rfl) fun _ => trivial

theorem specialSequence_lexSat (loc : Location) (rest full : Str) (flush : Bool) :
    LexSat loc full (specialSequence loc rest flush) := by
  unfold specialSequence
  split
  · exact LexErr.here rfl
  · exact Res.Sat.ite (fun _ => Res.Sat.ite (fun _ => LexErr.here rfl) fun _ => trivial)
      fun _ => trivial

theorem commentLoop_bad {loc : Location} {depth : Nat} {prev : Char} {rest : Str} {l : Location} {c : Char}
    (h : commentLoop loc depth prev rest = .bad l c) : ∃ pre, pre <+: rest ∧ l = loc.pushStr pre := by
  induction rest generalizing loc depth prev with
  | nil => simp [commentLoop] at h
  | cons a as ih =>
    have step : ∀ d, (match commentLoop (loc.push a) d a as with
        | .closed n => .closed (n + 1)
        | r => r) = CommentScan.bad l c → ∃ pre, pre <+: a :: as ∧ l = loc.pushStr pre := by
      intro d h
      cases hx : commentLoop (loc.push a) d a as with
      | «open» => rw [hx] at h; simp at h
      | closed n => rw [hx] at h; simp at h
      | bad l' c' =>
        rw [hx] at h; simp at h
        obtain ⟨rfl, rfl⟩ := h
        obtain ⟨pre, hp, rfl⟩ := ih hx
        exact ⟨a :: pre, by simpa using hp, by rw [Location.pushStr_cons]⟩
    rw [commentLoop] at h
    simp only at h
    split at h
    · split at h
      · simp at h
      · exact step _ h
    · split at h
      · exact step _ h
      · split at h
        · simp at h; exact ⟨[], List.nil_prefix, by rw [Location.pushStr_nil, h.1]⟩
        · exact step _ h

theorem commentToken_lexSat (loc : Location) (rest : Str) (flush : Bool) :
    LexSat loc ('(' :: '*' :: rest) (commentToken loc rest flush) := by
  unfold commentToken
  cases h : commentLoop (loc.pushStr ['(', '*']) 0 '*' rest with
  | «open» => exact Res.Sat.ite (fun _ => LexErr.here rfl) fun _ => trivial
  | closed n => trivial
  | bad l c =>
    obtain ⟨pre, hp, rfl⟩ := commentLoop_bad h
    exact ⟨⟨'(' :: '*' :: pre, by simpa using hp, by rw [← Location.pushStr_append]; rfl⟩, rfl⟩

theorem readNext_lexSat (loc : Location) (rest : Str) (flush : Bool) :
    LexSat loc rest (readNext loc rest flush) := by
  unfold readNext
  split
  · trivial
  · rename_i c cs
    repeat' (first | (refine Res.Sat.ite (fun _ => ?_) (fun _ => ?_)))
    all_goals first
      | trivial
      | exact LexErr.here rfl
      | exact terminalString_lexSat _ _ _ _ _
      | exact specialSequence_lexSat _ _ _ _
      | skip
    rename_i hc
    subst hc
    split
    · trivial
    · rename_i d ds
      refine Res.Sat.ite (fun hd => ?_) (fun _ => ?_)
      · subst hd
        exact Res.Sat.ite (fun _ => LexErr.here rfl) fun _ => commentToken_lexSat _ _ _
      · exact Res.Sat.ite (fun _ => trivial) fun _ => Res.Sat.ite (fun _ => trivial) fun _ => trivial

/-- Tokens that are spelled out in a text, at positions of that text. -/
def TokensIn (start : Location) (text : Str) (ts : List Token) : Prop :=
  ∀ t ∈ ts, ∃ pre s, pre ++ s <+: text ∧ positionOf t = start.pushStr pre ∧
    (Spelled t s ∨ (t = .eof (start.pushStr pre) ∧ pre = text))

theorem tokLoop_facts (start loc : Location) (done rest : Str) (hl : loc = start.pushStr done) :
    (tokLoop loc rest).1.Sat (fun tks => ∀ t ∈ tks, ∃ pre s, pre ++ s <+: done ++ rest ∧
        positionOf t = start.pushStr pre ∧ Spelled t s)
      (LexErr start (done ++ rest)) (fun _ => False) := by
  induction loc, rest using tokLoop_induct generalizing done with
  | hnone loc rest hn => rw [tokLoop_none hn]; intro t ht; simp at ht
  | hsome loc rest tk n hs ih =>
    rw [tokLoop_some hs]
    have hr := readNext_sound _ _ _ _ _ hs
    have ih := ih (done ++ rest.take n) (by rw [hl, Location.pushStr_append])
    rw [List.append_assoc, List.take_append_drop] at ih
    revert ih
    rcases tokLoop (loc.pushStr (rest.take n)) (rest.drop n) with ⟨r, l, s⟩
    intro ih
    cases r with
    | ok ts =>
      intro t ht
      rcases List.mem_cons.mp ht with rfl | ht
      · exact ⟨done, rest.take n, by simpa using List.take_prefix n rest, by rw [hr.position, hl], hr.spelled⟩
      · exact ih t ht
    | err e => exact ih
    | panic p => exact ih
    | diverge => exact ih
  | herr loc rest e he =>
    rw [tokLoop_err he]
    have := readNext_lexSat loc rest false
    rw [he] at this
    obtain ⟨⟨pre, hp, h1⟩, h2⟩ := this
    exact ⟨⟨done ++ pre, by simpa using hp, by rw [h1, hl, Location.pushStr_append]⟩, h2⟩

theorem spelled_named {ts : List Token} (h : ∀ t ∈ ts, (∃ s, Spelled t s) ∨ ∃ l, t = .eof l) : NamedOk ts := by
  intro l s hm
  rcases h _ hm with ⟨u, hu⟩ | ⟨l', h'⟩
  · cases hu with
    | metaIdentifier _ c s hc hs =>
      refine ⟨by simp, ?_⟩
      intro d hd h
      subst h
      rcases List.mem_cons.mp hd with rfl | hd
      · revert hc; decide
      · rcases hs _ hd with h | h <;> revert h <;> decide
  · simp at h'

/-! ### Invariants over all histories -/

theorem tokLoop_state (loc : Location) (rest : Str) :
    (tokLoop loc rest).2.1.name = loc.name ∧ (tokLoop loc rest).2.2.length ≤ rest.length := by
  induction loc, rest using tokLoop_induct with
  | hnone loc rest hn => rw [tokLoop_none hn]; exact ⟨rfl, Nat.le_refl _⟩
  | hsome loc rest tk n hs ih =>
    rw [tokLoop_some hs]
    revert ih
    rcases tokLoop (loc.pushStr (rest.take n)) (rest.drop n) with ⟨r, l, s⟩
    intro ih
    simp at ih
    cases r <;> simp [consTok] <;> exact ⟨ih.1, by omega⟩
  | herr loc rest e he => rw [tokLoop_err he]; exact ⟨rfl, Nat.le_refl _⟩

theorem pushStr_state (s : Str) (l : Lexer) :
    (Lexer.pushStr s l).2.tokenizer.maxBufferSize = l.tokenizer.maxBufferSize ∧
    (Lexer.pushStr s l).2.tokenizer.location.name = l.tokenizer.location.name ∧
    ((Lexer.pushStr s l).2.tokenizer.buffer.length ≤ l.tokenizer.buffer.length + s.length) ∧
    (l.tokenizer.maxBufferSize > 0 → l.tokenizer.buffer.length ≤ l.tokenizer.maxBufferSize →
      (Lexer.pushStr s l).2.tokenizer.buffer.length ≤ l.tokenizer.maxBufferSize) := by
  by_cases hc : (l.tokenizer.maxBufferSize > 0 ∧
      l.tokenizer.buffer.length + s.length > l.tokenizer.maxBufferSize)
  · have : Lexer.pushStr s l = (.err ⟨l.tokenizer.location,
        .tooLong l.tokenizer.buffer.length s.length l.tokenizer.maxBufferSize⟩, l) := by
      simp [Lexer.pushStr, Lexer.feed, Tokenizer.pushStr, Tokenizer.ensureCapacity, hc, Res.fail]
    rw [this]
    exact ⟨rfl, rfl, Nat.le_add_right _ _, fun _ h => h⟩
  · rw [lexer_pushStr_eq _ _ hc]
    have hn := tokLoop_state l.tokenizer.location (l.tokenizer.buffer ++ s)
    revert hn
    rcases tokLoop l.tokenizer.location (l.tokenizer.buffer ++ s) with ⟨r, loc, rest⟩
    intro hn
    simp at hn
    cases r <;> simp <;> refine ⟨hn.1, ?_⟩ <;> omega

theorem flush_state (l : Lexer) :
    (Lexer.flush l).2.tokenizer.maxBufferSize = l.tokenizer.maxBufferSize ∧
    (Lexer.flush l).2.tokenizer.location.name = l.tokenizer.location.name ∧
    (Lexer.flush l).2.tokenizer.buffer.length ≤ l.tokenizer.buffer.length := by
  have h : (Tokenizer.flush l.tokenizer).2.maxBufferSize = l.tokenizer.maxBufferSize ∧
      (Tokenizer.flush l.tokenizer).2.location.name = l.tokenizer.location.name ∧
      (Tokenizer.flush l.tokenizer).2.buffer.length ≤ l.tokenizer.buffer.length := by
    unfold Tokenizer.flush
    split
    · split <;> simp
    · simp only
      split <;> simp
    · simp
    · simp
    · simp
  simp only [Lexer.flush, first_run, Lexer.feed]
  revert h
  rcases Tokenizer.flush l.tokenizer with ⟨r, t⟩
  intro h
  cases r <;> exact h

/-- What every call keeps. -/
structure Keeps (name : Str) (limit : Nat) (l : Lexer) : Prop where
  limit_eq : l.tokenizer.maxBufferSize = limit
  name_eq : l.tokenizer.location.name = name
  bounded : limit > 0 → l.tokenizer.buffer.length ≤ limit

theorem Keeps.pushStr {name : Str} {limit : Nat} {l : Lexer} (h : Keeps name limit l) (s : Str) :
    Keeps name limit (Lexer.pushStr s l).2 := by
  obtain ⟨h1, h2, _, h4⟩ := pushStr_state s l
  exact ⟨h1.trans h.limit_eq, h2.trans h.name_eq, fun hp => by
    have := h4 (by rw [h.limit_eq]; exact hp) (by rw [h.limit_eq]; exact h.bounded hp)
    rw [h.limit_eq] at this; exact this⟩

theorem push_snd (c : Char) (l : Lexer) : (Lexer.push c l).2 = (Lexer.pushStr [c] l).2 := by
  rw [lexer_push_eq, first_run]

theorem Keeps.next {name : Str} {limit : Nat} {l : Lexer} (h : Keeps name limit l) (op : Op) :
    Keeps name limit (op.next l) := by
  cases op with
  | push c => simp only [Op.next, push_snd]; exact h.pushStr _
  | pushStr s => exact h.pushStr s
  | flush =>
    obtain ⟨h1, h2, h3⟩ := flush_state l
    exact ⟨h1.trans h.limit_eq, h2.trans h.name_eq, fun hp => Nat.le_trans h3 (h.bounded hp)⟩
  | reset => exact ⟨h.limit_eq, h.name_eq, fun _ => Nat.zero_le _⟩

theorem keeps_after (name : Str) (limit : Nat) (ops : List Op) :
    Keeps name limit (after ops (Lexer.withCapacity name limit)) := by
  have h : Keeps name limit (Lexer.withCapacity name limit) := ⟨rfl, rfl, fun _ => Nat.zero_le _⟩
  generalize Lexer.withCapacity name limit = l at h
  induction ops generalizing l with
  | nil => exact h
  | cons op ops ih => exact ih _ (h.next op)

theorem reset_eq_new {name : Str} {limit : Nat} {l : Lexer} (h : Keeps name limit l) :
    l.reset = Lexer.withCapacity name limit := by
  obtain ⟨⟨m, b, ⟨n, li, co⟩⟩, toks⟩ := l
  have h1 := h.limit_eq
  have h2 := h.name_eq
  simp at h1 h2
  subst h1; subst h2
  rfl

/-- A push fails with "too long" exactly when the limit would be exceeded. -/
theorem pushStr_tooLong_iff (l : Lexer) (s : Str) :
    (∃ e b a m, (Lexer.pushStr s l).1 = .err e ∧ e.msg = .tooLong b a m) ↔
      (l.tokenizer.maxBufferSize > 0 ∧ l.tokenizer.buffer.length + s.length > l.tokenizer.maxBufferSize) := by
  constructor
  · rintro ⟨e, b, a, m, h, hm⟩
    apply Classical.byContradiction
    intro hc
    rw [lexer_pushStr_eq _ _ hc] at h
    have hf := tokLoop_facts l.tokenizer.location l.tokenizer.location [] (l.tokenizer.buffer ++ s) rfl
    revert h hf
    rcases tokLoop l.tokenizer.location (l.tokenizer.buffer ++ s) with ⟨r, loc, rest⟩
    intro h hf
    cases r with
    | ok tks =>
      have := append_sat l.tokens tks
      simp only at h
      rw [h] at this
      have := this.2
      rw [hm] at this; simp [Msg.ofParser] at this
    | err e' =>
      simp at h; subst h
      have := hf.2
      rw [hm] at this; simp [Msg.ofTokenizer] at this
    | panic p => simp at h
    | diverge => simp at h
  · intro hc
    exact ⟨_, _, _, _, by simp [Lexer.pushStr, Lexer.feed, Tokenizer.pushStr, Tokenizer.ensureCapacity, hc, Res.fail]; rfl, rfl⟩

theorem push_fst_err (c : Char) (l : Lexer) (e : Error) :
    (Lexer.push c l).1 = .err e ↔ (Lexer.pushStr [c] l).1 = .err e := by
  rw [lexer_push_eq, first_run]
  cases (Lexer.pushStr [c] l).1 <;> simp [headRes]

/-! ### Positions: everything the lexer holds comes from the text fed so far -/

/-- `l` is the state after `text` was fed successfully. -/
structure At (name : Str) (text : Str) (l : Lexer) : Prop where
  pending : LexInv l
  used : ∃ used, text = used ++ l.tokenizer.buffer ∧ l.tokenizer.location = (Location.new name).pushStr used
  tokens : ∀ t ∈ l.tokens, ∃ pre s, pre ++ s <+: text ∧ positionOf t = (Location.new name).pushStr pre ∧ Spelled t s
  noTerm : NoTerm l.tokens

/-- An error that points into a text. -/
def PointsInto (name : Str) (text : Str) (e : Error) : Prop :=
  ∃ pre, pre <+: text ∧ e.location = (Location.new name).pushStr pre

theorem At.new (name : Str) (limit : Nat) : At name [] (Lexer.withCapacity name limit) :=
  ⟨pending_nil _, ⟨[], rfl, rfl⟩, by intro t ht; simp [Lexer.withCapacity] at ht,
    by intro t ht; simp [Lexer.withCapacity] at ht⟩

theorem append_mem {toks ts toks' : List Token} {rs : List SyntaxRule}
    (h : Lexer.append toks ts = (.ok rs, toks')) : ∀ t ∈ toks', t ∈ toks ++ ts := by
  induction ts generalizing toks rs with
  | nil => simp [Lexer.append] at h; rw [← h.2]; simp
  | cons t ts ih =>
    by_cases ht : t.isTerminator = true
    · rw [append_cons_term ht] at h
      cases hb : buildSyntaxRule (toks ++ [t]) with
      | ok r =>
        rw [hb] at h
        simp only at h
        generalize hx : Lexer.append [] ts = x at h
        obtain ⟨r1, t1⟩ := x
        cases r1 with
        | ok r1 =>
          simp only [Prod.mk.injEq] at h
          obtain ⟨_, rfl⟩ := h
          intro u hu
          have := ih hx u hu
          simp at this; simp [this]
        | err e => simp at h
        | panic p => simp at h
        | diverge => simp at h
      | err e => rw [hb] at h; simp at h
      | panic p => rw [hb] at h; simp at h
      | diverge => rw [hb] at h; simp at h
    · have ht : t.isTerminator = false := by simpa using ht
      rw [append_cons_other ht] at h
      intro u hu
      have := ih h u hu
      simpa using this

theorem At.loop {name text : Str} {l : Lexer} (h : At name text l) (s : Str) :
    (tokLoop l.tokenizer.location (l.tokenizer.buffer ++ s)).1.Sat
      (fun tks => ∀ t ∈ tks, ∃ pre u, pre ++ u <+: text ++ s ∧
        positionOf t = (Location.new name).pushStr pre ∧ Spelled t u)
      (LexErr (Location.new name) (text ++ s)) (fun _ => False) := by
  obtain ⟨used, h1, h2⟩ := h.used
  have := tokLoop_facts (Location.new name) l.tokenizer.location used (l.tokenizer.buffer ++ s) h2
  rw [← List.append_assoc, ← h1] at this
  exact this

theorem At.pushStr {name text : Str} {l l' : Lexer} {s : Str} {r : List SyntaxRule} (h : At name text l)
    (hp : Lexer.pushStr s l = (.ok r, l')) : At name (text ++ s) l' := by
  obtain ⟨tks, h1, h2, _⟩ := pushStr_ok hp
  have hloop := h.loop s
  rw [h1] at hloop
  obtain ⟨used, hu1, hu2⟩ := h.used
  obtain ⟨_, used2, hv1, hv2⟩ := tokLoop_ok h1
  refine ⟨pushStr_inv hp, ⟨used ++ used2, ?_, ?_⟩, ?_, append_noTerm h.noTerm h2⟩
  · rw [hu1, List.append_assoc, hv1]; simp
  · rw [hv2, hu2, Location.pushStr_append]
  · intro t ht
    rcases List.mem_append.mp (append_mem h2 t ht) with ht | ht
    · obtain ⟨pre, u, hp, h3, h4⟩ := h.tokens t ht
      exact ⟨pre, u, hp.trans (List.prefix_append _ _), h3, h4⟩
    · exact hloop t ht

theorem At.pushStr_sat {name text : Str} {l : Lexer} (h : At name text l) (s : Str) :
    (Lexer.pushStr s l).1.Sat (fun _ => True) (PointsInto name (text ++ s))
      (fun p => p = .indexOutOfBounds) := by
  by_cases hc : (l.tokenizer.maxBufferSize > 0 ∧
      l.tokenizer.buffer.length + s.length > l.tokenizer.maxBufferSize)
  · have : Lexer.pushStr s l = (.err ⟨l.tokenizer.location,
        .tooLong l.tokenizer.buffer.length s.length l.tokenizer.maxBufferSize⟩, l) := by
      simp [Lexer.pushStr, Lexer.feed, Tokenizer.pushStr, Tokenizer.ensureCapacity, hc, Res.fail]
    rw [this]
    obtain ⟨used, h1, h2⟩ := h.used
    exact ⟨used, by rw [h1, List.append_assoc]; exact List.prefix_append _ _, h2⟩
  · rw [lexer_pushStr_eq _ _ hc]
    have hloop := h.loop s
    revert hloop
    rcases tokLoop l.tokenizer.location (l.tokenizer.buffer ++ s) with ⟨r, loc, rest⟩
    intro hloop
    cases r with
    | ok tks =>
      have hall : ∀ t ∈ l.tokens ++ tks, ∃ pre u, pre ++ u <+: text ++ s ∧
          positionOf t = (Location.new name).pushStr pre ∧ Spelled t u := by
        intro t ht
        rcases List.mem_append.mp ht with ht | ht
        · obtain ⟨pre, u, hp, h3, h4⟩ := h.tokens t ht
          exact ⟨pre, u, hp.trans (List.prefix_append _ _), h3, h4⟩
        · exact hloop t ht
      refine (append_sat l.tokens tks).mono (fun _ h => h) ?_ ?_
      · rintro e ⟨⟨t, ht, he⟩, _⟩
        obtain ⟨pre, u, hp, h3, _⟩ := hall t ht
        exact ⟨pre, (List.prefix_append _ _).trans hp, he.trans h3⟩
      · intro p hp
        exact (hp (spelled_named fun t ht => by
          obtain ⟨_, u, _, _, hu⟩ := hall t ht; exact .inl ⟨u, hu⟩)).1
    | err e => exact hloop.1
    | panic p => exact hloop.elim
    | diverge => exact hloop

theorem At.flush_sat {name text : Str} {l : Lexer} (h : At name text l) :
    (Lexer.flush l).1.Sat (fun _ => True) (PointsInto name text) (fun p => p = .indexOutOfBounds) := by
  obtain ⟨used, h1, h2⟩ := h.used
  rcases flush_eq l h.pending with ⟨tks, h3, h4⟩ | ⟨e, h3, h4⟩
  · rw [h4]
    have htk : ∀ t ∈ tks, (∃ pre, pre <+: text ∧ positionOf t = (Location.new name).pushStr pre) ∧
        ((∃ s, Spelled t s) ∨ ∃ l, t = .eof l) := by
      unfold flushTok at h3
      split at h3
      · rename_i hb
        simp at h3; subst h3
        intro t ht
        simp at ht; subst ht
        refine ⟨⟨used, by rw [h1]; exact List.prefix_append _ _, h2⟩, .inr ⟨_, rfl⟩⟩
      · split at h3
        · rename_i tk n hr
          simp at h3; subst h3
          have hro := readNext_sound _ _ _ _ _ hr
          intro t ht
          simp at ht
          rcases ht with rfl | rfl
          · exact ⟨⟨used, by rw [h1]; exact List.prefix_append _ _, by rw [hro.position, h2]⟩, .inl ⟨_, hro.spelled⟩⟩
          · exact ⟨⟨text, List.prefix_refl _, by rw [h2, ← Location.pushStr_append, ← h1]; rfl⟩, .inr ⟨_, rfl⟩⟩
        · simp at h3
        · simp at h3
    have hall : ∀ t ∈ l.tokens ++ tks, (∃ pre, pre <+: text ∧ positionOf t = (Location.new name).pushStr pre) ∧
        ((∃ s, Spelled t s) ∨ ∃ l, t = .eof l) := by
      intro t ht
      rcases List.mem_append.mp ht with ht | ht
      · obtain ⟨pre, u, hp, h5, h6⟩ := h.tokens t ht
        exact ⟨⟨pre, (List.prefix_append _ _).trans hp, h5⟩, .inl ⟨u, h6⟩⟩
      · exact htk t ht
    have := (append_sat l.tokens tks).mono (Q' := fun _ => True) (E' := PointsInto name text)
      (P' := fun p => p = .indexOutOfBounds) (fun _ h => h)
      (by rintro e ⟨⟨t, ht, he⟩, _⟩
          obtain ⟨⟨pre, hp, h5⟩, _⟩ := hall t ht
          exact ⟨pre, hp, he.trans h5⟩)
      (by intro p hp; exact (hp (spelled_named fun t ht => (hall t ht).2)).1)
    revert this
    generalize (Lexer.append l.tokens tks).1 = r
    cases r <;> exact fun h => h
  · rw [h4]
    unfold flushTok at h3
    split at h3
    · simp at h3
    · split at h3
      · simp at h3
      · rename_i e' hr
        simp at h3; subst h3
        have := readNext_lexSat l.tokenizer.location l.tokenizer.buffer true
        rw [hr] at this
        obtain ⟨⟨pre, hp, h5⟩, _⟩ := this
        obtain ⟨q, hq⟩ := hp
        exact ⟨used ++ pre, ⟨q, by rw [h1, ← hq]; simp⟩, by rw [h5, h2, Location.pushStr_append]⟩
      · simp at h3

theorem At.flush {name text : Str} {l l' : Lexer} {r : Option SyntaxRule} (h : At name text l)
    (hf : Lexer.flush l = (.ok r, l')) : At name text l' := by
  obtain ⟨_, _, _, _, h1, _, _, h2⟩ := flush_ok h.pending hf
  obtain ⟨used, hu1, hu2⟩ := h.used
  refine ⟨by rw [LexInv, h2]; exact pending_nil _, ⟨text, by rw [h2]; simp, ?_⟩, by simp [h1], by simp [h1, NoTerm]⟩
  rw [h2]; simp only; rw [hu2, ← Location.pushStr_append, ← hu1]

theorem accepted_at {name : Str} {limit : Nat} {l : Lexer} (h : Accepted name limit l) :
    ∃ text, At name text l := by
  induction h with
  | new => exact ⟨[], At.new name limit⟩
  | push _ h ih => obtain ⟨r, h1, _⟩ := push_ok h; exact ⟨_, ih.choose_spec.pushStr h1⟩
  | pushStr _ h ih => exact ⟨_, ih.choose_spec.pushStr h⟩
  | flush _ h ih => exact ⟨_, ih.choose_spec.flush h⟩

theorem At.feedAll_sat {name text : Str} {l : Lexer} (h : At name text l) (chunks : List Str) :
    (feedAll chunks l).1.Sat (fun _ => True) (PointsInto name (text ++ chunks.flatten))
      (fun p => p = .indexOutOfBounds) := by
  unfold feedAll
  suffices hs : ∀ chunks : List Str, (pushAll chunks l).1.Sat
      (fun _ => ∃ l', (pushAll chunks l).2 = l' ∧ At name (text ++ chunks.flatten) l')
      (PointsInto name (text ++ chunks.flatten)) (fun p => p = .indexOutOfBounds) by
    have := hs chunks
    simp only [RM.bind_run]
    revert this
    rcases pushAll chunks l with ⟨r, l1⟩
    intro this
    cases r with
    | ok rs =>
      obtain ⟨l', h1, h2⟩ := this
      simp only at h1; subst h1
      have h3 := h2.flush_sat
      revert h3
      simp only
      rcases Lexer.flush l1 with ⟨r, l2⟩
      cases r <;> exact fun h => h
    | err e => exact this
    | panic p => exact this
    | diverge => exact this
  intro chunks
  induction chunks generalizing l text with
  | nil => exact ⟨l, rfl, by simpa using h⟩
  | cons c cs ih =>
    have h1 := h.pushStr_sat c
    simp only [pushAll, RM.bind_run, List.flatten_cons]
    generalize hx : Lexer.pushStr c l = x at h1
    obtain ⟨r, l1⟩ := x
    cases r with
    | ok rs =>
      have h2 := ih (h.pushStr hx)
      rw [List.append_assoc] at h2
      revert h2
      simp only
      rcases pushAll cs l1 with ⟨r2, l2⟩
      intro h2
      cases r2 <;> exact h2
    | err e =>
      obtain ⟨pre, hp, he⟩ := h1
      exact ⟨pre, by rw [← List.append_assoc]; exact hp.trans (List.prefix_append _ _), he⟩
    | panic p => exact h1
    | diverge => exact h1

theorem lexes_spelled {loc : Location} {text : Str} {ts : List Token} (hl : Lexes loc text ts) :
    ∀ t ∈ ts, ∃ s, Spelled t s := by
  induction hl with
  | nil => simp
  | cons hsp _ _ _ ih =>
    intro t ht
    rcases List.mem_cons.mp ht with rfl | ht
    · exact ⟨_, hsp⟩
    · exact ih t ht

/-- A panic while feeding a text means an integer before a closing bracket. -/
theorem parseStr_panic {name text : Str} {ts : List Token} (hl : Lexes (Location.new name) text ts)
    (hd : ¬ IntegerBeforeClosing ts) (p : Panic) : parseStr name text ≠ .panic p := by
  rw [parseStr_of_lexes hl]
  intro h
  have := append_sat [] (ts ++ [.eof ((Location.new name).pushStr text)])
  rw [h] at this
  have hn : NamedOk ([] ++ (ts ++ [Token.eof ((Location.new name).pushStr text)])) := by
    apply spelled_named
    intro t ht
    rw [List.nil_append] at ht
    rcases List.mem_append.mp ht with ht | ht
    · exact .inl (lexes_spelled hl t ht)
    · right; simp at ht; exact ⟨_, ht⟩
  obtain ⟨_, pre, l, d, g, c, post, h1, h2, h3⟩ := this hn
  apply hd
  rw [List.nil_append] at h1
  -- the closing bracket is not the end of input
  have : post ≠ [] := by
    intro hp
    subst hp
    have hl := congrArg List.getLast? h1
    rw [List.getLast?_concat] at hl
    simp [List.getLast?_append, List.getLast?_cons] at hl
    subst hl
    exact h3
  obtain ⟨post', x, rfl⟩ : ∃ p' x, post = p' ++ [x] :=
    ⟨post.dropLast, post.getLast this, (List.dropLast_concat_getLast this).symm⟩
  refine ⟨pre, l, d, g, c, post', ?_, h2, h3⟩
  have h1' : ts ++ [Token.eof ((Location.new name).pushStr text)] =
      (pre ++ Token.integer l d :: (g ++ c :: post')) ++ [x] := by rw [h1]; simp
  exact (List.append_inj' h1' rfl).1

/-- A lexical error of the whole text is what any cut reports, unless the parser stops earlier. -/
theorem feedAll_lexical {chunks : List Str} {l : Lexer} {e : Error} (hu : Unlimited l) (hi : LexInv l)
    (h : scanAll l.tokenizer.location (l.tokenizer.buffer ++ chunks.flatten) = .err e) :
    (feedAll chunks l).1 = .err e ∨ (∃ e', (feedAll chunks l).1 = .err e' ∧ e'.msg.ofParser = true) ∨
      ∃ p, (feedAll chunks l).1 = .panic p := by
  have push : ∀ (l : Lexer) (s : Str) r loc rest, Unlimited l →
      tokLoop l.tokenizer.location (l.tokenizer.buffer ++ s) = (.ok r, loc, rest) →
      (∃ rs, (Lexer.pushStr s l) = (.ok rs, ⟨⟨l.tokenizer.maxBufferSize, rest, loc⟩, (Lexer.append l.tokens r).2⟩)) ∨
      (∃ e', (Lexer.pushStr s l).1 = .err e' ∧ e'.msg.ofParser = true) ∨ ∃ p, (Lexer.pushStr s l).1 = .panic p := by
    intro l s r loc rest hu h
    rw [lexer_pushStr_eq _ _ (unlimited_cap hu _), h]
    have := append_sat l.tokens r
    revert this
    simp only
    cases (Lexer.append l.tokens r).1 with
    | ok rs => exact fun _ => .inl ⟨rs, rfl⟩
    | err e => exact fun h => .inr (.inl ⟨e, rfl, h.2⟩)
    | panic p => exact fun h => .inr (.inr ⟨p, rfl⟩)
    | diverge => exact fun h => h.elim
  induction chunks generalizing l with
  | nil =>
    simp only [List.flatten_nil, List.append_nil] at h
    rw [scanAll_none hi] at h
    left
    rcases flush_eq l hi with ⟨tks, h1, h2⟩ | ⟨e', h1, h2⟩
    · rw [h1] at h; simp at h
    · rw [h1] at h; simp at h; subst h
      simp [feedAll, pushAll, RM.bind_run, h2]
  | cons c cs ih =>
    have hfe : (feedAll (c :: cs) l).1 = match Lexer.pushStr c l with
        | (.ok r, l1) => (match (feedAll cs l1).1 with
          | .ok rs => .ok (r ++ rs)
          | .err e => .err e
          | .panic p => .panic p
          | .diverge => .diverge)
        | (.err e, _) => .err e
        | (.panic p, _) => .panic p
        | (.diverge, _) => .diverge := by
      simp only [feedAll, pushAll, RM.bind_run]
      rcases Lexer.pushStr c l with ⟨r, l1⟩
      cases r with
      | ok r =>
        simp only
        rcases pushAll cs l1 with ⟨r2, l2⟩
        cases r2 with
        | ok r2 =>
          simp only [RM.pure_run]
          rcases Lexer.flush l2 with ⟨r3, l3⟩
          cases r3 <;> simp
        | err e => rfl
        | panic p => rfl
        | diverge => rfl
      | err e => rfl
      | panic p => rfl
      | diverge => rfl
    rw [List.flatten_cons, ← List.append_assoc] at h
    have hs := tokLoop_settled l.tokenizer.location (l.tokenizer.buffer ++ c)
    generalize hx : tokLoop l.tokenizer.location (l.tokenizer.buffer ++ c) = x at hs
    obtain ⟨r, loc, rest⟩ := x
    rcases hs with ⟨t1, h1⟩ | ⟨e', he⟩
    · simp only at h1; subst h1
      rw [scanAll_append hx] at h
      have h' : scanAll loc (rest ++ cs.flatten) = .err e := by
        revert h; cases scanAll loc (rest ++ cs.flatten) <;> simp [Res.bind]
      rcases push l c _ _ _ hu hx with ⟨rs, h2⟩ | ⟨e', h2, h3⟩ | ⟨p, h2⟩
      · have := ih (l := ⟨⟨l.tokenizer.maxBufferSize, rest, loc⟩, (Lexer.append l.tokens t1).2⟩)
          hu (tokLoop_ok hx).1 h'
        rw [hfe, h2]
        simp only
        rcases this with h | ⟨e', h, h'⟩ | ⟨p, h⟩ <;> rw [h]
        · exact .inl rfl
        · exact .inr (.inl ⟨e', rfl, h'⟩)
        · exact .inr (.inr ⟨p, rfl⟩)
      · rw [hfe]
        revert h2
        rcases Lexer.pushStr c l with ⟨r, l1⟩
        rintro rfl
        exact .inr (.inl ⟨e', rfl, h3⟩)
      · rw [hfe]
        revert h2
        rcases Lexer.pushStr c l with ⟨r, l1⟩
        rintro rfl
        exact .inr (.inr ⟨p, rfl⟩)
    · simp only at he; subst he
      rw [scanAll_append_err (e := e') (by rw [hx])] at h
      simp at h; subst h
      left
      rw [hfe, lexer_pushStr_eq _ _ (unlimited_cap hu _), hx]

theorem ends_none (tk : Token) : Ends tk none := by cases tk <;> simp [Ends]

theorem tokLoop_lexes {loc loc' : Location} {rest rest' : Str} {tks : List Token}
    (h : tokLoop loc rest = (.ok tks, loc', rest')) : ∃ used, rest = used ++ rest' ∧ Lexes loc used tks := by
  induction loc, rest using tokLoop_induct generalizing tks loc' rest' with
  | hnone loc rest hn =>
    rw [tokLoop_none hn] at h
    simp at h; obtain ⟨rfl, rfl, rfl⟩ := h
    exact ⟨[], rfl, .nil _⟩
  | hsome loc rest tk n hs ih =>
    have hr := readNext_sound _ _ _ _ _ hs
    rw [tokLoop_some hs] at h
    generalize hx : tokLoop (loc.pushStr (rest.take n)) (rest.drop n) = x at h
    obtain ⟨r, l, s⟩ := x
    cases r with
    | ok ts =>
      simp [consTok] at h
      obtain ⟨rfl, rfl, rfl⟩ := h
      obtain ⟨used, h1, h2⟩ := ih hx
      refine ⟨rest.take n ++ used, ?_, .cons hr.spelled hr.position ?_ ?_⟩
      · rw [List.append_assoc, ← h1, List.take_append_drop]
      · have := hr.ends rfl
        rw [h1] at this
        cases used with
        | nil => exact ends_none _
        | cons a b => simpa using this
      · rw [← Location.pushStr_eq_lineColumn]; exact h2
    | err e => simp [consTok] at h
    | panic p => simp [consTok] at h
    | diverge => simp [consTok] at h
  | herr loc rest e he => rw [tokLoop_err he] at h; simp at h

/-- A panic of a single push on a new lexer comes from a prefix of the text. -/
theorem append_panic {loc : Location} {text : Str} {ts : List Token} (hl : Lexes loc text ts) {p : Panic}
    (h : (Lexer.append [] ts).1 = .panic p) : IntegerBeforeClosing ts := by
  have := append_sat [] ts
  rw [h] at this
  exact (this (spelled_named fun t ht => .inl (lexes_spelled hl t ht))).2

theorem feedAll_panic {name : Str} {chunks : List Str} {p : Panic}
    (h : (feedAll chunks (Lexer.new name)).1 = .panic p) :
    ∃ pre ts, pre <+: chunks.flatten ∧ Lexes (Location.new name) pre ts ∧ IntegerBeforeClosing ts := by
  -- the pieces up to the one that panics
  have key : ∀ cs : List Str, cs.flatten <+: chunks.flatten →
      (∃ tks loc rest, tokLoop (Location.new name) cs.flatten = (.ok tks, loc, rest)) →
      (feedAll cs (Lexer.new name)).1 = .panic p →
      ∃ pre ts, pre <+: chunks.flatten ∧ Lexes (Location.new name) pre ts ∧ IntegerBeforeClosing ts := by
    rintro cs hcs ⟨tks, loc, rest, ht⟩ hp
    obtain ⟨used, hu, hl⟩ := tokLoop_lexes ht
    cases ha : (Lexer.append [] tks).1 with
    | panic q => exact ⟨used, tks, .trans ⟨rest, hu.symm⟩ hcs, hl, append_panic hl ha⟩
    | ok rs =>
      rcases scanAll_settled (Location.new name) cs.flatten with ⟨all, hs⟩ | ⟨e, hs⟩
      · obtain ⟨ts, h1, h2⟩ := scanAll_sound _ _ _ hs
        refine ⟨cs.flatten, ts, hcs, h1, ?_⟩
        apply Classical.byContradiction
        intro hn
        refine parseStr_panic h1 hn p ?_
        have hf := feedAll_scan (chunks := cs) (new_unlimited name) (new_inv name) hs
        rw [hp] at hf
        rw [parseStr_of_lexes h1, ← h2]
        exact hf.symm
      · exfalso
        rw [feedAll_tokens (new_unlimited name) (new_inv name) ht] at hp
        revert hp
        change (Lexer.append (Lexer.new name).tokens tks).1 = _ at ha
        revert ha
        rcases Lexer.append (Lexer.new name).tokens tks with ⟨r, toks⟩
        rintro rfl
        simp only
        have hp := (tokLoop_ok ht).1
        rcases flush_eq ⟨⟨(Lexer.new name).tokenizer.maxBufferSize, rest, loc⟩, toks⟩ hp with
          ⟨us, h1, h2⟩ | ⟨e', h1, h2⟩
        · simp only at h1
          simp [scanAll, ht, h1, Res.bind] at hs
        · rw [h2]; simp
    | err e =>
      rw [feedAll_tokens (new_unlimited name) (new_inv name) ht] at hp
      revert hp
      change (Lexer.append (Lexer.new name).tokens tks).1 = _ at ha
      revert ha
      rcases Lexer.append (Lexer.new name).tokens tks with ⟨r, toks⟩
      rintro rfl
      simp
    | diverge =>
      have := append_sat [] tks
      rw [ha] at this; exact this.elim
  -- find such a prefix of the pieces
  have split : ∀ (cs : List Str) (l : Lexer), Unlimited l → LexInv l → (feedAll cs l).1 = .panic p →
      ∃ k, (feedAll (cs.take k) l).1 = .panic p ∧ ∃ tks loc rest,
        tokLoop l.tokenizer.location (l.tokenizer.buffer ++ (cs.take k).flatten) = (.ok tks, loc, rest) := by
    intro cs
    induction cs with
    | nil =>
      intro l _ hi h
      exact ⟨0, h, _, _, _, by rw [List.take_nil, List.flatten_nil, List.append_nil]; exact tokLoop_none hi⟩
    | cons c cs ih =>
      intro l hu hi h
      have hs := tokLoop_settled l.tokenizer.location (l.tokenizer.buffer ++ c)
      generalize hx : tokLoop l.tokenizer.location (l.tokenizer.buffer ++ c) = x at hs
      obtain ⟨r, loc, rest⟩ := x
      rcases hs with ⟨t1, h1⟩ | ⟨e', he⟩
      · simp only at h1; subst h1
        cases hpu : Lexer.pushStr c l with
        | mk r1 l1 =>
        cases r1 with
        | ok rs =>
          obtain ⟨_, hy, _, hm⟩ := pushStr_ok hpu
          rw [hx] at hy
          simp only [Prod.mk.injEq, Res.ok.injEq] at hy
          obtain ⟨rfl, rfl, rfl⟩ := hy
          have hcons : ∀ cs : List Str, (feedAll (c :: cs) l).1 = .panic p ↔ (feedAll cs l1).1 = .panic p := by
            intro cs
            simp only [feedAll, pushAll, RM.bind_run, hpu]
            rcases pushAll cs l1 with ⟨r2, l2⟩
            cases r2 with
            | ok r2 =>
              simp only [RM.pure_run]
              rcases Lexer.flush l2 with ⟨r3, l3⟩
              cases r3 <;> simp
            | err e => rfl
            | panic p => rfl
            | diverge => rfl
          obtain ⟨k, h2, tks, loc2, rest2, h3⟩ := ih l1 (pushStr_unlimited hu hpu) (pushStr_inv hpu) ((hcons cs).mp h)
          refine ⟨k + 1, by rw [List.take_succ_cons]; exact (hcons _).mpr h2, t1 ++ tks, loc2, rest2, ?_⟩
          rw [List.take_succ_cons, List.flatten_cons, ← List.append_assoc, tokLoop_append hx, h3]
          rfl
        | panic q =>
          refine ⟨1, ?_, t1, loc, rest, by simpa using hx⟩
          simp only [feedAll, pushAll, RM.bind_run, hpu] at h
          simp only [List.take_succ_cons, feedAll, pushAll, RM.bind_run, hpu]
          exact h
        | err e => simp [feedAll, pushAll, RM.bind_run, hpu] at h
        | diverge => simp [feedAll, pushAll, RM.bind_run, hpu] at h
      · simp only at he; subst he
        have hp : (Lexer.pushStr c l).1 = .err e' := by
          rw [lexer_pushStr_eq _ _ (unlimited_cap hu _), hx]
        revert hp h
        simp only [feedAll, pushAll, RM.bind_run]
        rcases Lexer.pushStr c l with ⟨r1, l1⟩
        intro h hp
        simp only at hp; subst hp
        simp at h
  obtain ⟨k, h1, h2⟩ := split chunks _ (new_unlimited name) (new_inv name) h
  refine key (chunks.take k) ?_ h2 h1
  refine ⟨(chunks.drop k).flatten, ?_⟩
  rw [← List.flatten_append, List.take_append_drop]

end Ebnf
