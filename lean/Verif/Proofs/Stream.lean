import Verif.Proofs.Tokenize
import Verif.Spec.Driver

set_option autoImplicit false

/-! # Lemmas about the streaming lexer -/

namespace Ebnf

open Spec

/-! ### `append` -/

theorem append_cons_term {toks : List Token} {t : Token} {ts : List Token} (ht : t.isTerminator = true) :
    Lexer.append toks (t :: ts) =
      match buildSyntaxRule (toks ++ [t]) with
      | .ok r =>
        match Lexer.append [] ts with
        | (.ok rules, tokens') => (.ok (r.toList ++ rules), tokens')
        | (e, tokens') => (e, tokens')
      | .err e => (.err e, toks ++ [t])
      | .panic p => (.panic p, toks ++ [t])
      | .diverge => (.diverge, toks ++ [t]) := by
  rw [Lexer.append]; simp only [ht, if_true]
  all_goals cases buildSyntaxRule (toks ++ [t]) <;> rfl

theorem append_cons_other {toks : List Token} {t : Token} {ts : List Token} (ht : t.isTerminator = false) :
    Lexer.append toks (t :: ts) = Lexer.append (toks ++ [t]) ts := by
  rw [Lexer.append]; simp [ht]

/-- Sequencing of two `append`s. -/
def thenAppend (x : Res (List SyntaxRule) × List Token) (ys : List Token) :
    Res (List SyntaxRule) × List Token :=
  match x with
  | (.ok r1, t1) =>
    match Lexer.append t1 ys with
    | (.ok r2, t2) => (.ok (r1 ++ r2), t2)
    | r => r
  | r => r

theorem append_append (toks xs ys : List Token) :
    Lexer.append toks (xs ++ ys) = thenAppend (Lexer.append toks xs) ys := by
  induction xs generalizing toks with
  | nil =>
    simp only [List.nil_append, Lexer.append, thenAppend]
    rcases Lexer.append toks ys with ⟨r, t⟩
    cases r <;> rfl
  | cons x xs ih =>
    by_cases hx : x.isTerminator = true
    · rw [List.cons_append, append_cons_term hx, append_cons_term hx]
      cases buildSyntaxRule (toks ++ [x]) with
      | ok r =>
        simp only
        rw [ih]
        rcases Lexer.append [] xs with ⟨r1, t1⟩
        cases r1 with
        | ok rs =>
          simp only [thenAppend]
          rcases Lexer.append t1 ys with ⟨r2, t2⟩
          cases r2 <;> simp
        | err e => rfl
        | panic p => rfl
        | diverge => rfl
      | err e => rfl
      | panic p => rfl
      | diverge => rfl
    · have hx : x.isTerminator = false := by simpa using hx
      rw [List.cons_append, append_cons_other hx, append_cons_other hx, ih]

/-- The number of rules is at most the number of terminators. -/
theorem append_count {toks ts : List Token} {rs : List SyntaxRule} {toks' : List Token}
    (h : Lexer.append toks ts = (.ok rs, toks')) : rs.length ≤ ts.countP Token.isTerminator := by
  induction ts generalizing toks rs with
  | nil => simp [Lexer.append] at h; simp [← h.1]
  | cons t ts ih =>
    by_cases ht : t.isTerminator = true
    · rw [append_cons_term ht] at h
      cases hb : buildSyntaxRule (toks ++ [t]) with
      | ok r =>
        rw [hb] at h
        simp only at h
        revert h
        generalize hx : Lexer.append [] ts = x
        obtain ⟨r1, t1⟩ := x
        cases r1 with
        | ok r1 =>
          simp only [Prod.mk.injEq, Res.ok.injEq, and_imp]
          rintro rfl rfl
          have := ih hx
          rw [List.countP_cons_of_pos ht]
          cases r <;> simp <;> omega
        | err e => simp
        | panic p => simp
        | diverge => simp
      | err e => rw [hb] at h; simp at h
      | panic p => rw [hb] at h; simp at h
      | diverge => rw [hb] at h; simp at h
    · have ht : t.isTerminator = false := by simpa using ht
      rw [append_cons_other ht] at h
      have := ih h
      rw [List.countP_cons_of_neg (by simp [ht])]; exact this

/-- After a successful `append` of tokens ending in a terminator, no tokens are left. -/
theorem append_ends_term {toks ts : List Token} {t : Token} {rs : List SyntaxRule} {toks' : List Token}
    (ht : t.isTerminator = true) (h : Lexer.append toks (ts ++ [t]) = (.ok rs, toks')) : toks' = [] := by
  rw [append_append] at h
  revert h
  rcases Lexer.append toks ts with ⟨r1, t1⟩
  cases r1 with
  | ok r1 =>
    simp only [thenAppend]
    rw [append_cons_term ht]
    cases buildSyntaxRule (t1 ++ [t]) with
    | ok r => simp only [Lexer.append, Prod.mk.injEq, and_imp]; rintro _ rfl; rfl
    | err e => simp
    | panic p => simp
    | diverge => simp
  | err e => simp [thenAppend]
  | panic p => simp [thenAppend]
  | diverge => simp [thenAppend]

/-! ### `pushStr` of the tokenizer and the lexer -/

theorem tokenizer_tokenize (t : Tokenizer) :
    Tokenizer.tokenize t = match tokLoop t.location t.buffer with
      | (.ok tks, loc, rest) => (.ok tks, { t with location := loc, buffer := rest })
      | (r, loc, _) => (r, { t with location := loc }) := rfl

/-- The result of a push that is not rejected for its length, in terms of the loop. -/
theorem lexer_pushStr_eq (l : Lexer) (s : Str)
    (hc : ¬ (l.tokenizer.maxBufferSize > 0 ∧
      l.tokenizer.buffer.length + s.length > l.tokenizer.maxBufferSize)) :
    Lexer.pushStr s l =
      match tokLoop l.tokenizer.location (l.tokenizer.buffer ++ s) with
      | (.ok tks, loc, rest) =>
        ((Lexer.append l.tokens tks).1,
          ⟨⟨l.tokenizer.maxBufferSize, rest, loc⟩, (Lexer.append l.tokens tks).2⟩)
      | (.err e, loc, _) => (.err e, ⟨⟨l.tokenizer.maxBufferSize, l.tokenizer.buffer ++ s, loc⟩, l.tokens⟩)
      | (.panic p, loc, _) => (.panic p, ⟨⟨l.tokenizer.maxBufferSize, l.tokenizer.buffer ++ s, loc⟩, l.tokens⟩)
      | (.diverge, loc, _) => (.diverge, ⟨⟨l.tokenizer.maxBufferSize, l.tokenizer.buffer ++ s, loc⟩, l.tokens⟩) := by
  simp only [Lexer.pushStr, Lexer.feed, Tokenizer.pushStr, Tokenizer.ensureCapacity]
  rw [if_neg hc]
  simp only [tokenizer_tokenize]
  rcases tokLoop l.tokenizer.location (l.tokenizer.buffer ++ s) with ⟨r, loc, rest⟩
  cases r <;> rfl

theorem lexer_push_eq (l : Lexer) (c : Char) : Lexer.push c l = Lexer.first (Lexer.pushStr [c]) l := rfl

/-- A lexer without buffer limit. -/
def Unlimited (l : Lexer) : Prop := l.tokenizer.maxBufferSize = 0

theorem unlimited_cap {l : Lexer} (h : Unlimited l) (s : Str) :
    ¬ (l.tokenizer.maxBufferSize > 0 ∧
      l.tokenizer.buffer.length + s.length > l.tokenizer.maxBufferSize) := by
  unfold Unlimited at h; omega

/-- The state kept by `Lexer` between successful pushes. -/
def LexInv (l : Lexer) : Prop := Pending l.tokenizer.location l.tokenizer.buffer

theorem pushStr_ok_cap {l l' : Lexer} {s : Str} {r : List SyntaxRule}
    (h : Lexer.pushStr s l = (.ok r, l')) :
    ¬ (l.tokenizer.maxBufferSize > 0 ∧
      l.tokenizer.buffer.length + s.length > l.tokenizer.maxBufferSize) := by
  intro hc
  simp [Lexer.pushStr, Lexer.feed, Tokenizer.pushStr, Tokenizer.ensureCapacity, hc, Res.fail] at h

/-- Everything about a successful push. -/
theorem pushStr_ok {l l' : Lexer} {s : Str} {r : List SyntaxRule} (h : Lexer.pushStr s l = (.ok r, l')) :
    ∃ tks, tokLoop l.tokenizer.location (l.tokenizer.buffer ++ s) =
        (.ok tks, l'.tokenizer.location, l'.tokenizer.buffer) ∧
      Lexer.append l.tokens tks = (.ok r, l'.tokens) ∧
      l'.tokenizer.maxBufferSize = l.tokenizer.maxBufferSize := by
  rw [lexer_pushStr_eq _ _ (pushStr_ok_cap h)] at h
  generalize hx : tokLoop l.tokenizer.location (l.tokenizer.buffer ++ s) = x at h
  obtain ⟨r0, loc, rest⟩ := x
  cases r0 with
  | ok tks =>
    simp only [Prod.mk.injEq] at h
    obtain ⟨h1, rfl⟩ := h
    exact ⟨tks, rfl, by rw [← h1], rfl⟩
  | err e => simp at h
  | panic p => simp at h
  | diverge => simp at h

theorem pushStr_ok_of {l : Lexer} {s : Str} {r : List SyntaxRule} {tks toks : List Token} {loc : Location}
    {rest : Str} (hc : ¬ (l.tokenizer.maxBufferSize > 0 ∧
      l.tokenizer.buffer.length + s.length > l.tokenizer.maxBufferSize))
    (h : tokLoop l.tokenizer.location (l.tokenizer.buffer ++ s) = (.ok tks, loc, rest))
    (ha : Lexer.append l.tokens tks = (.ok r, toks)) :
    Lexer.pushStr s l = (.ok r, ⟨⟨l.tokenizer.maxBufferSize, rest, loc⟩, toks⟩) := by
  rw [lexer_pushStr_eq _ _ hc, h]; simp [ha]

theorem pushStr_inv {l l' : Lexer} {s : Str} {r : List SyntaxRule} (h : Lexer.pushStr s l = (.ok r, l')) :
    LexInv l' := by
  obtain ⟨tks, h1, _, _⟩ := pushStr_ok h
  exact (tokLoop_ok h1).1

theorem push_ok {l l' : Lexer} {c : Char} {o : Option SyntaxRule} (h : Lexer.push c l = (.ok o, l')) :
    ∃ r, Lexer.pushStr [c] l = (.ok r, l') ∧ o = r.head? := by
  rw [lexer_push_eq] at h
  simp only [Lexer.first, RM.bind_run] at h
  generalize hx : Lexer.pushStr [c] l = x at h
  obtain ⟨r0, l0⟩ := x
  cases r0 with
  | ok r =>
    simp only [RM.pure_run, Prod.mk.injEq, Res.ok.injEq] at h
    exact ⟨r, by rw [h.2], h.1.symm⟩
  | err e => simp at h
  | panic p => simp at h
  | diverge => simp at h

/-! ### Chunk independence -/

theorem pushStr_two {l l1 l2 : Lexer} {a b : Str} {r1 r2 : List SyntaxRule} (hu : Unlimited l)
    (h1 : Lexer.pushStr a l = (.ok r1, l1)) (h2 : Lexer.pushStr b l1 = (.ok r2, l2)) :
    Lexer.pushStr (a ++ b) l = (.ok (r1 ++ r2), l2) := by
  obtain ⟨t1, ht1, ha1, hm1⟩ := pushStr_ok h1
  obtain ⟨t2, ht2, ha2, hm2⟩ := pushStr_ok h2
  have := tokLoop_append ht1 b
  rw [ht2] at this
  have := pushStr_ok_of (s := a ++ b) (unlimited_cap hu _) (by rw [← List.append_assoc]; exact this)
    (r := r1 ++ r2) (toks := l2.tokens) (by rw [append_append, ha1]; simp [thenAppend, ha2])
  rw [this, ← hm1, ← hm2]

theorem pushStr_split {l l2 : Lexer} {a b : Str} {r : List SyntaxRule} (hu : Unlimited l)
    (h : Lexer.pushStr (a ++ b) l = (.ok r, l2)) :
    ∃ r1 r2 l1, Lexer.pushStr a l = (.ok r1, l1) ∧ Lexer.pushStr b l1 = (.ok r2, l2) ∧ r = r1 ++ r2 := by
  obtain ⟨t, ht, ha, hm⟩ := pushStr_ok h
  rw [← List.append_assoc] at ht
  have hs := tokLoop_settled l.tokenizer.location (l.tokenizer.buffer ++ a)
  generalize hx : tokLoop l.tokenizer.location (l.tokenizer.buffer ++ a) = x at hs
  obtain ⟨r0, loc, rest⟩ := x
  rcases hs with ⟨t1, h1⟩ | ⟨e, he⟩
  · simp only at h1; subst h1
    have h2 := tokLoop_append hx b
    rw [ht] at h2
    generalize hy : tokLoop loc (rest ++ b) = y at h2
    obtain ⟨r3, loc3, rest3⟩ := y
    cases r3 with
    | ok t2 =>
      simp only [prependTok, Prod.mk.injEq, Res.ok.injEq] at h2
      obtain ⟨rfl, rfl, rfl⟩ := h2
      rw [append_append] at ha
      generalize hz : Lexer.append l.tokens t1 = z at ha
      obtain ⟨r4, toks⟩ := z
      cases r4 with
      | ok r1 =>
        simp only [thenAppend] at ha
        generalize hw : Lexer.append toks t2 = w at ha
        obtain ⟨r5, toks2⟩ := w
        cases r5 with
        | ok r2 =>
          simp only [Prod.mk.injEq, Res.ok.injEq] at ha
          obtain ⟨rfl, rfl⟩ := ha
          refine ⟨r1, r2, ⟨⟨l.tokenizer.maxBufferSize, rest, loc⟩, toks⟩, pushStr_ok_of (unlimited_cap hu _) hx hz, ?_, rfl⟩
          have hu1 : Unlimited ⟨⟨l.tokenizer.maxBufferSize, rest, loc⟩, toks⟩ := hu
          rw [pushStr_ok_of (unlimited_cap hu1 _) hy hw]
          simp only [← hm]
        | err e => simp at ha
        | panic p => simp at ha
        | diverge => simp at ha
      | err e => simp [thenAppend] at ha
      | panic p => simp [thenAppend] at ha
      | diverge => simp [thenAppend] at ha
    | err e => simp [prependTok] at h2
    | panic p => simp [prependTok] at h2
    | diverge => simp [prependTok] at h2
  · simp only at he; subst he
    have := tokLoop_append_err (e := e) (by rw [hx]) b
    rw [ht] at this; simp at this

theorem rm_bind_ok {σ α β : Type} {x : RM σ α} {f : α → RM σ β} {s s' : σ} {b : β} :
    (x >>= f) s = (.ok b, s') ↔ ∃ a s1, x s = (.ok a, s1) ∧ f a s1 = (.ok b, s') := by
  rw [RM.bind_run]
  generalize x s = y
  obtain ⟨r, s1⟩ := y
  cases r with
  | ok a =>
    simp only [Prod.mk.injEq, Res.ok.injEq]
    exact ⟨fun h => ⟨a, s1, ⟨rfl, rfl⟩, h⟩, by rintro ⟨_, _, ⟨rfl, rfl⟩, h⟩; exact h⟩
  | err e => simp
  | panic p => simp
  | diverge => simp

theorem pushStr_unlimited {l l' : Lexer} {s : Str} {r : List SyntaxRule} (hu : Unlimited l)
    (h : Lexer.pushStr s l = (.ok r, l')) : Unlimited l' := by
  obtain ⟨_, _, _, hm⟩ := pushStr_ok h
  unfold Unlimited at *; omega

theorem pushStr_nil {l : Lexer} (hu : Unlimited l) (hi : LexInv l) : Lexer.pushStr [] l = (.ok [], l) := by
  have h : tokLoop l.tokenizer.location (l.tokenizer.buffer ++ []) =
      (.ok [], l.tokenizer.location, l.tokenizer.buffer) := by rw [List.append_nil]; exact tokLoop_none hi
  rw [pushStr_ok_of (unlimited_cap hu _) h (by rw [Lexer.append])]

theorem pushAll_flatten {chunks : List Str} {l l' : Lexer} {rs : List SyntaxRule} (hu : Unlimited l)
    (hi : LexInv l) :
    pushAll chunks l = (.ok rs, l') ↔ Lexer.pushStr chunks.flatten l = (.ok rs, l') := by
  induction chunks generalizing l rs with
  | nil =>
    simp only [pushAll, RM.pure_run, List.flatten_nil, pushStr_nil hu hi]
  | cons c cs ih =>
    simp only [pushAll, List.flatten_cons]
    rw [rm_bind_ok]
    constructor
    · rintro ⟨r1, l1, h1, h2⟩
      rw [rm_bind_ok] at h2
      obtain ⟨r2, l2, h2, h3⟩ := h2
      simp only [RM.pure_run, Prod.mk.injEq, Res.ok.injEq] at h3
      obtain ⟨rfl, rfl⟩ := h3
      rw [ih (pushStr_unlimited hu h1) (pushStr_inv h1)] at h2
      exact pushStr_two hu h1 h2
    · intro h
      obtain ⟨r1, r2, l1, h1, h2, rfl⟩ := pushStr_split hu h
      refine ⟨r1, l1, h1, ?_⟩
      rw [rm_bind_ok]
      exact ⟨r2, l', (ih (pushStr_unlimited hu h1) (pushStr_inv h1)).mpr h2, rfl⟩

theorem feedAll_flatten {chunks : List Str} {l l' : Lexer} {rs : List SyntaxRule} (hu : Unlimited l)
    (hi : LexInv l) :
    feedAll chunks l = (.ok rs, l') ↔ feedAll [chunks.flatten] l = (.ok rs, l') := by
  unfold feedAll
  rw [rm_bind_ok, rm_bind_ok]
  have hn : ∀ r l1, pushAll [chunks.flatten] l = (.ok r, l1) ↔ pushAll chunks l = (.ok r, l1) := by
    intro r l1
    rw [pushAll_flatten hu hi, pushAll_flatten hu hi]; simp
  constructor
  · rintro ⟨a, s1, h1, h2⟩; exact ⟨a, s1, (hn _ _).mpr h1, h2⟩
  · rintro ⟨a, s1, h1, h2⟩; exact ⟨a, s1, (hn _ _).mp h1, h2⟩

theorem parseStr_eq_feedAll (name s : Str) : parseStr name s = (feedAll [s] (Lexer.new name)).1 := by
  simp only [parseStr, feedAll, pushAll]
  simp only [RM.bind_run]
  rcases Lexer.pushStr s (Lexer.new name) with ⟨r, l⟩
  cases r with
  | ok r => simp [RM.pure_run]
  | err e => rfl
  | panic p => rfl
  | diverge => rfl

theorem new_inv (name : Str) : LexInv (Lexer.new name) := pending_nil _
theorem new_unlimited (name : Str) : Unlimited (Lexer.new name) := rfl

/-! ### Character-wise push -/

theorem pending_not_terminator {loc : Location} {buf : Str} {c : Char} (hp : Pending loc buf)
    {tks : List Token} {loc' : Location} {rest : Str}
    (h : tokLoop loc (buf ++ [c]) = (.ok tks, loc', rest)) : tks.countP Token.isTerminator ≤ 1 := by
  by_cases hb : buf = []
  · subst hb
    rcases readNext_settled loc [c] false with ⟨o, ho⟩ | ⟨e, he⟩
    · cases o with
      | none => rw [List.nil_append, tokLoop_none ho] at h; simp at h; rw [h.1]; simp
      | some x =>
        obtain ⟨tk, n⟩ := x
        have hr := readNext_sound _ _ _ _ _ ho
        have hn : n = 1 := by have := hr.pos; have := hr.le; simp at this; omega
        subst hn
        rw [List.nil_append, tokLoop_some ho] at h
        simp [tokLoop_nil, consTok] at h
        obtain ⟨rfl, _⟩ := h
        rw [List.countP_cons]; simp; split <;> omega
    · rw [List.nil_append, tokLoop_err he] at h; simp at h
  · rcases readNext_settled loc (buf ++ [c]) false with ⟨o, ho⟩ | ⟨e, he⟩
    · cases o with
      | none => rw [tokLoop_none ho] at h; simp at h; rw [h.1]; simp
      | some x =>
        obtain ⟨tk, n⟩ := x
        have hr := readNext_sound _ _ _ _ _ ho
        have hle := hr.le
        simp at hle
        -- the first token covers the pending buffer
        have hn : buf.length ≤ n := by
          apply Classical.byContradiction
          intro hlt
          have hlt : n < buf.length := by omega
          have hsp := hr.spelled
          have hend := hr.ends rfl
          rw [List.take_append_of_le_length (by omega)] at hsp
          rw [List.drop_append_of_le_length (by omega)] at hend
          have hd : buf.drop n ≠ [] := by simp; omega
          have hend' : Ends tk (buf.drop n).head? := by
            cases hx : buf.drop n with
            | nil => exact absurd hx hd
            | cons a b => rw [hx] at hend; simpa using hend
          have := readNext_complete hsp _ hend'
          rw [hr.position, ReadsAs, List.take_append_drop] at this
          rcases this with h1 | ⟨h1, _⟩
          · unfold Pending at hp; rw [hp] at h1; simp at h1
          · exact hd h1
        -- and is not a terminator
        have hnt : tk.isTerminator = false := by
          rw [Bool.eq_false_iff]
          intro ht
          have hsp := hr.spelled
          generalize hs : (buf ++ [c]).take n = s at hsp
          cases hsp <;> simp [Token.isTerminator] at ht
          rename_i l d hd
          have hl := congrArg List.length hs
          simp at hl
          have hb1 : buf.length = 1 := by
            have := List.length_pos_iff.mpr hb
            omega
          obtain ⟨b, rfl⟩ := List.length_eq_one_iff.mp hb1
          have : n = 1 := by omega
          subst this
          simp at hs; subst hs
          unfold Pending at hp
          simp at hd
          rcases hd with rfl | rfl <;> simp [readNext] at hp
        rw [tokLoop_some ho] at h
        generalize hx : tokLoop (loc.pushStr ((buf ++ [c]).take n)) ((buf ++ [c]).drop n) = x at h
        obtain ⟨r, l, s⟩ := x
        cases r with
        | ok ts =>
          simp [consTok] at h
          obtain ⟨rfl, _⟩ := h
          rw [List.countP_cons_of_neg (by simp [hnt])]
          -- at most one more character is left
          have hlen : ((buf ++ [c]).drop n).length ≤ 1 := by simp; omega
          generalize (buf ++ [c]).drop n = rest' at hx hlen
          generalize loc.pushStr ((buf ++ [c]).take n) = loc1 at hx
          rcases readNext_settled loc1 rest' false with ⟨o, ho⟩ | ⟨e, he⟩
          · cases o with
            | none => rw [tokLoop_none ho] at hx; simp at hx; rw [hx.1]; simp
            | some x =>
              obtain ⟨tk, n⟩ := x
              have hr := readNext_sound _ _ _ _ _ ho
              rw [tokLoop_some ho] at hx
              have hd : rest'.drop n = [] := by
                have := hr.pos; simp; omega
              rw [hd, tokLoop_nil] at hx
              simp [consTok] at hx
              obtain ⟨rfl, _⟩ := hx
              rw [List.countP_cons]; simp; split <;> omega
          · rw [tokLoop_err he] at hx; simp at hx
        | err e => simp [consTok] at h
        | panic p => simp [consTok] at h
        | diverge => simp [consTok] at h
    · rw [tokLoop_err he] at h; simp at h

theorem head_toList_of_le_one {α : Type} (l : List α) (h : l.length ≤ 1) : l.head?.toList = l := by
  match l, h with
  | [], _ => rfl
  | [a], _ => rfl

/-- A single push completes at most one rule. -/
theorem pushStr_char_le_one {l l' : Lexer} {c : Char} {r : List SyntaxRule} (hi : LexInv l)
    (h : Lexer.pushStr [c] l = (.ok r, l')) : r.length ≤ 1 := by
  obtain ⟨tks, h1, h2, _⟩ := pushStr_ok h
  exact Nat.le_trans (append_count h2) (pending_not_terminator hi h1)

/-- `push` with its rules as a list is `push_str` of the character, on states kept by the lexer. -/
theorem push_eq_pushStr {l : Lexer} {c : Char} (hi : LexInv l) :
    (do let r ← Lexer.push c; pure r.toList : RM Lexer (List SyntaxRule)) l = Lexer.pushStr [c] l := by
  simp only [RM.bind_run, lexer_push_eq, Lexer.first]
  generalize hx : Lexer.pushStr [c] l = x
  obtain ⟨r, l'⟩ := x
  cases r with
  | ok r =>
    have := pushStr_char_le_one hi hx
    simp only [RM.pure_run, head_toList_of_le_one _ this]
  | err e => rfl
  | panic p => rfl
  | diverge => rfl

theorem pushChars_eq {text : Str} {l : Lexer} (hi : LexInv l) :
    pushChars text l = pushAll (text.map fun c => [c]) l := by
  induction text generalizing l with
  | nil => rfl
  | cons c cs ih =>
    have h1 : pushChars (c :: cs) l =
        ((do let r ← Lexer.push c; pure r.toList : RM Lexer (List SyntaxRule)) >>= fun r => do
          let rs ← pushChars cs
          pure (r ++ rs)) l := by
      simp only [pushChars, RM.bind_run]
      rcases Lexer.push c l with ⟨r, l1⟩
      cases r <;> rfl
    rw [h1]
    simp only [List.map_cons, pushAll]
    rw [RM.bind_run, push_eq_pushStr hi, RM.bind_run]
    generalize hx : Lexer.pushStr [c] l = x
    obtain ⟨r, l1⟩ := x
    cases r with
    | ok r =>
      simp only [RM.bind_run]
      rw [ih (pushStr_inv hx)]
    | err e => rfl
    | panic p => rfl
    | diverge => rfl

theorem feedChars_eq {text : Str} {l : Lexer} (hi : LexInv l) :
    feedChars text l = feedAll (text.map fun c => [c]) l := by
  unfold feedChars feedAll
  rw [RM.bind_run, pushChars_eq hi, ← RM.bind_run]

/-! ### Flush -/

/-- Keep the first rule of a list of rules. -/
def headRes : Res (List SyntaxRule) → Res (Option SyntaxRule)
  | .ok r => .ok r.head?
  | .err e => .err e
  | .panic p => .panic p
  | .diverge => .diverge

theorem first_run (m : RM Lexer (List SyntaxRule)) (l : Lexer) :
    Lexer.first m l = (headRes (m l).1, (m l).2) := by
  simp only [Lexer.first, RM.bind_run]
  rcases m l with ⟨r, l'⟩
  cases r <;> rfl

theorem flush_eq (l : Lexer) (hi : LexInv l) :
    (∃ tks, flushTok l.tokenizer.location l.tokenizer.buffer = .ok tks ∧
      Lexer.flush l = (headRes (Lexer.append l.tokens tks).1,
        ⟨⟨l.tokenizer.maxBufferSize, [], l.tokenizer.location.pushStr l.tokenizer.buffer⟩,
          (Lexer.append l.tokens tks).2⟩)) ∨
    (∃ e, flushTok l.tokenizer.location l.tokenizer.buffer = .err e ∧ Lexer.flush l = (.err e, l)) := by
  rcases tokenizer_flush l.tokenizer hi with ⟨tks, h1, h2⟩ | ⟨e, h1, h2⟩
  · left
    exact ⟨tks, h1, by simp only [Lexer.flush, first_run, Lexer.feed, h2]⟩
  · right
    exact ⟨e, h1, by simp only [Lexer.flush, first_run, Lexer.feed, h2, headRes]⟩

/-- A flush completes at most one rule. -/
theorem flushTok_count {loc : Location} {buf : Str} {tks : List Token} (hp : Pending loc buf)
    (h : flushTok loc buf = .ok tks) : tks.countP Token.isTerminator ≤ 1 := by
  by_cases hb : buf = []
  · simp [flushTok, hb] at h; subst h; simp [Token.isTerminator]
  · rcases pending_flush hp hb with ⟨tk, ht⟩ | ⟨e, he⟩
    · simp [flushTok, hb, ht] at h; subst h
      have hnt : tk.isTerminator = false := by
        rw [Bool.eq_false_iff]
        intro htm
        have hr := readNext_sound _ _ _ _ _ ht
        have hsp := hr.spelled
        rw [List.take_length] at hsp
        cases hsp <;> simp [Token.isTerminator] at htm
        rename_i l d hd
        unfold Pending at hp
        simp at hd
        rcases hd with rfl | rfl <;> simp [readNext] at hp
      rw [List.countP_cons_of_neg (by simp [hnt]), List.countP_cons]; simp; split <;> omega
    · simp [flushTok, hb, he] at h

theorem flushTok_ends {loc : Location} {buf : Str} {tks : List Token}
    (h : flushTok loc buf = .ok tks) : ∃ ts, tks = ts ++ [.eof (loc.pushStr buf)] ∧
      (ts = [] ↔ buf = []) ∧ ts.length ≤ 1 := by
  unfold flushTok at h
  split at h
  · rename_i hb; simp at h; subst h; subst hb; exact ⟨[], by simp⟩
  · rename_i hb
    split at h
    · rename_i tk _ _; simp at h; subst h; exact ⟨[tk], by simp [hb]⟩
    · simp at h
    · simp at h

theorem flush_ok {l l' : Lexer} {o : Option SyntaxRule} (hi : LexInv l)
    (h : Lexer.flush l = (.ok o, l')) :
    ∃ tks rs, flushTok l.tokenizer.location l.tokenizer.buffer = .ok tks ∧
      Lexer.append l.tokens tks = (.ok rs, l'.tokens) ∧ l'.tokens = [] ∧ o = rs.head? ∧ rs.length ≤ 1 ∧
      l'.tokenizer = ⟨l.tokenizer.maxBufferSize, [], l.tokenizer.location.pushStr l.tokenizer.buffer⟩ := by
  rcases flush_eq l hi with ⟨tks, h1, h2⟩ | ⟨e, h1, h2⟩
  · rw [h2] at h
    generalize hx : Lexer.append l.tokens tks = x at h
    obtain ⟨r, toks⟩ := x
    cases r with
    | ok rs =>
      simp only [headRes, Prod.mk.injEq, Res.ok.injEq] at h
      obtain ⟨rfl, rfl⟩ := h
      obtain ⟨ts, rfl, _, _⟩ := flushTok_ends h1
      exact ⟨_, rs, h1, hx, append_ends_term rfl hx, rfl,
        Nat.le_trans (append_count hx) (flushTok_count hi h1), rfl⟩
    | err e => simp [headRes] at h
    | panic p => simp [headRes] at h
    | diverge => simp [headRes] at h
  · rw [h2] at h; simp at h

theorem accepted_inv {name : Str} {limit : Nat} {l : Lexer} (h : Accepted name limit l) : LexInv l := by
  induction h with
  | new => exact pending_nil _
  | push _ h _ => obtain ⟨r, h1, _⟩ := push_ok h; exact pushStr_inv h1
  | pushStr _ h _ => exact pushStr_inv h
  | flush _ h ih =>
    obtain ⟨_, _, _, _, _, _, _, h2⟩ := flush_ok ih h
    rw [LexInv, h2]; exact pending_nil _

/-! ### The tokenizer fed in pieces -/

theorem tokenizer_pushStr_eq (t : Tokenizer) (s : Str) (hu : t.maxBufferSize = 0) :
    Tokenizer.pushStr s t = Tokenizer.tokenize { t with buffer := t.buffer ++ s } := by
  simp [Tokenizer.pushStr, Tokenizer.ensureCapacity, hu]

theorem scanAll_append {loc : Location} {a : Str} {tks : List Token} {loc' : Location} {a' : Str}
    (h : tokLoop loc a = (.ok tks, loc', a')) (b : Str) :
    scanAll loc (a ++ b) = (scanAll loc' (a' ++ b)).bind fun ts => .ok (tks ++ ts) := by
  simp only [scanAll, tokLoop_append h b]
  rcases tokLoop loc' (a' ++ b) with ⟨r, l, s⟩
  cases r with
  | ok ts =>
    simp only [prependTok]
    cases flushTok l s <;> simp [Res.bind]
  | err e => rfl
  | panic p => rfl
  | diverge => rfl

theorem scanAll_append_err {loc : Location} {a : Str} {e : Error} (h : (tokLoop loc a).1 = .err e) (b : Str) :
    scanAll loc (a ++ b) = .err e := by
  have := tokLoop_append_err h b
  simp only [scanAll]
  generalize hx : tokLoop loc (a ++ b) = x at this
  obtain ⟨r, l, s⟩ := x
  simp at this; subst this; rfl

theorem tokenizeAll_eq (chunks : List Str) (t : Tokenizer) (hu : t.maxBufferSize = 0)
    (hp : Pending t.location t.buffer) :
    (tokenizeAll chunks t).1 = scanAll t.location (t.buffer ++ chunks.flatten) := by
  induction chunks generalizing t with
  | nil =>
    simp only [tokenizeAll, List.flatten_nil, List.append_nil]
    rw [scanAll_none hp]
    rcases tokenizer_flush t hp with ⟨tks, h1, h2⟩ | ⟨e, h1, h2⟩ <;> rw [h1, h2]
  | cons c cs ih =>
    simp only [tokenizeAll, List.flatten_cons, RM.bind_run, tokenizer_pushStr_eq t c hu, tokenizer_tokenize]
    rw [← List.append_assoc]
    have hs := tokLoop_settled t.location (t.buffer ++ c)
    generalize hx : tokLoop t.location (t.buffer ++ c) = x at hs
    obtain ⟨r, loc, rest⟩ := x
    rcases hs with ⟨t1, h1⟩ | ⟨e, he⟩
    · simp only at h1; subst h1
      rw [scanAll_append hx]
      have := ih ⟨t.maxBufferSize, rest, loc⟩ hu (tokLoop_ok hx).1
      simp only at this
      rw [← this]
      simp only
      rcases tokenizeAll cs ⟨t.maxBufferSize, rest, loc⟩ with ⟨r, t'⟩
      cases r <;> rfl
    · simp only at he; subst he
      rw [scanAll_append_err (e := e) (by rw [hx])]

/-! ### Feeding a text that lexes -/

/-- The tokens of a text are fed to `append` independently of the cuts. -/
theorem pushAll_tokens {chunks : List Str} {l : Lexer} {tks : List Token} {loc : Location} {rest : Str}
    (hu : Unlimited l) (hi : LexInv l)
    (h : tokLoop l.tokenizer.location (l.tokenizer.buffer ++ chunks.flatten) = (.ok tks, loc, rest)) :
    (pushAll chunks l).1 = (Lexer.append l.tokens tks).1 ∧
    ((∃ rs, (pushAll chunks l).1 = .ok rs) → (pushAll chunks l).2 =
      ⟨⟨l.tokenizer.maxBufferSize, rest, loc⟩, (Lexer.append l.tokens tks).2⟩) := by
  induction chunks generalizing l tks with
  | nil =>
    simp only [List.flatten_nil, List.append_nil] at h
    rw [tokLoop_none hi] at h
    simp only [Prod.mk.injEq, Res.ok.injEq] at h
    obtain ⟨rfl, rfl, rfl⟩ := h
    simp [pushAll, Lexer.append]
  | cons c cs ih =>
    rw [List.flatten_cons, ← List.append_assoc] at h
    have hs := tokLoop_settled l.tokenizer.location (l.tokenizer.buffer ++ c)
    generalize hx : tokLoop l.tokenizer.location (l.tokenizer.buffer ++ c) = x at hs
    obtain ⟨r, loc1, rest1⟩ := x
    rcases hs with ⟨t1, h1⟩ | ⟨e, he⟩
    · simp only at h1; subst h1
      rw [tokLoop_append hx] at h
      generalize hy : tokLoop loc1 (rest1 ++ cs.flatten) = y at h
      obtain ⟨r2, loc2, rest2⟩ := y
      cases r2 with
      | ok t2 =>
        simp only [prependTok, Prod.mk.injEq, Res.ok.injEq] at h
        obtain ⟨rfl, rfl, rfl⟩ := h
        simp only [pushAll, RM.bind_run]
        rw [append_append, lexer_pushStr_eq _ _ (unlimited_cap hu _), hx]
        simp only
        generalize hz : Lexer.append l.tokens t1 = z
        obtain ⟨r3, toks⟩ := z
        cases r3 with
        | ok rs =>
          have := ih (l := ⟨⟨l.tokenizer.maxBufferSize, rest1, loc1⟩, toks⟩) hu (tokLoop_ok hx).1 hy
          simp only [thenAppend]
          simp only at this
          obtain ⟨i1, i2⟩ := this
          revert i1 i2
          rcases pushAll cs ⟨⟨l.tokenizer.maxBufferSize, rest1, loc1⟩, toks⟩ with ⟨q, l1⟩
          rcases Lexer.append toks t2 with ⟨q2, toks2⟩
          intro i1 i2
          simp only at i1; subst i1
          cases q with
          | ok q => simp at i2 ⊢; exact i2
          | err e => simp
          | panic p => simp
          | diverge => simp
        | err e => simp [thenAppend]
        | panic p => simp [thenAppend]
        | diverge => simp [thenAppend]
      | err e => simp [prependTok] at h
      | panic p => simp [prependTok] at h
      | diverge => simp [prependTok] at h
    · simp only at he; subst he
      have := tokLoop_append_err (e := e) (by rw [hx]) cs.flatten
      rw [h] at this; simp at this

/-- When no piece contains a lexical error, the whole outcome is independent of the cuts. -/
theorem feedAll_tokens {chunks : List Str} {l : Lexer} {tks : List Token} {loc : Location} {rest : Str}
    (hu : Unlimited l) (hi : LexInv l)
    (h : tokLoop l.tokenizer.location (l.tokenizer.buffer ++ chunks.flatten) = (.ok tks, loc, rest)) :
    (feedAll chunks l).1 = match Lexer.append l.tokens tks with
      | (.ok rs, toks) =>
        (match Lexer.flush ⟨⟨l.tokenizer.maxBufferSize, rest, loc⟩, toks⟩ with
        | (.ok r, _) => .ok (rs ++ r.toList)
        | (.err e, _) => .err e
        | (.panic p, _) => .panic p
        | (.diverge, _) => .diverge)
      | (.err e, _) => .err e
      | (.panic p, _) => .panic p
      | (.diverge, _) => .diverge := by
  obtain ⟨h1, h2⟩ := pushAll_tokens hu hi h
  simp only [feedAll, RM.bind_run]
  revert h1 h2
  rcases pushAll chunks l with ⟨q, l1⟩
  rcases Lexer.append l.tokens tks with ⟨q2, toks⟩
  intro h1 h2
  simp only at h1; subst h1
  cases q with
  | ok q =>
    simp at h2; subst h2
    simp only
    rcases Lexer.flush _ with ⟨r, _⟩
    cases r <;> rfl
  | err e => rfl
  | panic p => rfl
  | diverge => rfl

/-- `parse_str` in terms of the tokens of the whole text. -/
theorem feedAll_scan {chunks : List Str} {l : Lexer} {tks : List Token} (hu : Unlimited l) (hi : LexInv l)
    (h : scanAll l.tokenizer.location (l.tokenizer.buffer ++ chunks.flatten) = .ok tks) :
    (feedAll chunks l).1 = (Lexer.append l.tokens tks).1 := by
  have hs := tokLoop_settled l.tokenizer.location (l.tokenizer.buffer ++ chunks.flatten)
  generalize hx : tokLoop l.tokenizer.location (l.tokenizer.buffer ++ chunks.flatten) = x at hs
  obtain ⟨r, loc, rest⟩ := x
  rcases hs with ⟨t1, h1⟩ | ⟨e, he⟩
  · simp only at h1; subst h1
    rw [feedAll_tokens hu hi hx]
    simp only [scanAll, hx] at h
    have hp := (tokLoop_ok hx).1
    cases hf : flushTok loc rest with
    | ok ts =>
      rw [hf] at h
      simp only [Res.bind, Res.ok.injEq] at h
      subst h
      rw [append_append]
      rcases Lexer.append l.tokens t1 with ⟨r, toks⟩
      cases r with
      | ok rs =>
        simp only [thenAppend]
        rcases flush_eq ⟨⟨l.tokenizer.maxBufferSize, rest, loc⟩, toks⟩ hp with ⟨us, h1, h2⟩ | ⟨e, h1, h2⟩
        · simp only at h1
          rw [hf] at h1; simp at h1; subst h1
          rw [h2]
          have hcount := flushTok_count hp hf
          generalize hz : Lexer.append toks ts = z
          obtain ⟨r, toks2⟩ := z
          cases r with
          | ok r =>
            simp only [headRes]
            rw [head_toList_of_le_one _ (Nat.le_trans (append_count hz) hcount)]
          | err e => rfl
          | panic p => rfl
          | diverge => rfl
        · simp only at h1; rw [hf] at h1; simp at h1
      | err e => rfl
      | panic p => rfl
      | diverge => rfl
    | err e => rw [hf] at h; simp [Res.bind] at h
    | panic e => rw [hf] at h; simp [Res.bind] at h
    | diverge => rw [hf] at h; simp [Res.bind] at h
  · simp only at he; subst he
    simp [scanAll, hx] at h

/-- Success of the whole run means that the text lexes. -/
theorem feedAll_ok_scan {chunks : List Str} {l : Lexer} {rs : List SyntaxRule} (hu : Unlimited l)
    (hi : LexInv l) (h : (feedAll chunks l).1 = .ok rs) :
    ∃ tks, scanAll l.tokenizer.location (l.tokenizer.buffer ++ chunks.flatten) = .ok tks := by
  have h' : (feedAll [chunks.flatten] l).1 = .ok rs := by
    generalize hx : feedAll chunks l = x at h
    obtain ⟨r, l'⟩ := x
    simp only at h; subst h
    rw [(feedAll_flatten hu hi).mp hx]
  clear h
  generalize hx : feedAll [chunks.flatten] l = x at h'
  obtain ⟨r, l'⟩ := x
  simp only at h'; subst h'
  unfold feedAll at hx
  rw [rm_bind_ok] at hx
  obtain ⟨rs1, l1, h1, h2⟩ := hx
  rw [rm_bind_ok] at h2
  obtain ⟨o, l2, h2, _⟩ := h2
  rw [pushAll_flatten hu hi] at h1
  simp only [List.flatten_cons, List.flatten_nil, List.append_nil] at h1
  obtain ⟨t1, ht1, _, _⟩ := pushStr_ok h1
  obtain ⟨t2, _, ht2, _⟩ := flush_ok (pushStr_inv h1) h2
  exact ⟨t1 ++ t2, by simp [scanAll, ht1, ht2, Res.bind]⟩

/-- `parse_str` succeeds iff the text lexes and its tokens parse. -/
theorem parseStr_ok_iff (name text : Str) (rs : List SyntaxRule) :
    parseStr name text = .ok rs ↔ ∃ ts, Lexes (Location.new name) text ts ∧
      (Lexer.append [] (ts ++ [.eof ((Location.new name).pushStr text)])).1 = .ok rs := by
  rw [parseStr_eq_feedAll]
  have hsc : ∀ tks, scanAll (Location.new name) text = .ok tks →
      (feedAll [text] (Lexer.new name)).1 = (Lexer.append [] tks).1 := by
    intro tks h
    exact feedAll_scan (new_unlimited name) (new_inv name) (by simpa [Lexer.new, Tokenizer.new, Tokenizer.withCapacity] using h)
  constructor
  · intro h
    obtain ⟨tks, ht⟩ := feedAll_ok_scan (new_unlimited name) (new_inv name) h
    simp [Lexer.new, Tokenizer.new, Tokenizer.withCapacity] at ht
    obtain ⟨ts, h1, rfl⟩ := scanAll_sound _ _ _ ht
    exact ⟨ts, h1, by rw [← hsc _ ht, h]⟩
  · rintro ⟨ts, h1, h2⟩
    rw [hsc _ (scanAll_complete h1), h2]

/-- `parse_str` on a text that lexes. -/
theorem parseStr_of_lexes {name text : Str} {ts : List Token} (h : Lexes (Location.new name) text ts) :
    parseStr name text = (Lexer.append [] (ts ++ [.eof ((Location.new name).pushStr text)])).1 := by
  rw [parseStr_eq_feedAll]
  exact feedAll_scan (new_unlimited name) (new_inv name)
    (by simpa [Lexer.new, Tokenizer.new, Tokenizer.withCapacity] using scanAll_complete h)

end Ebnf
