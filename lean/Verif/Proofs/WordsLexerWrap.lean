import Verif.Proofs.WordsLexer

set_option autoImplicit false

/-! # The lexer with the integers of the code: where they make a difference -/

namespace Ebnf.WordLex

open Ebnf Ebnf.Spec

theorem times_succ (n : Nat) (s : Str) : times (n + 1) s = s ++ times n s := by
  simp [times, List.replicate_succ]

theorem times_length (n : Nat) (s : Str) : (times n s).length = n * s.length := by
  induction n with
  | zero => simp [times]
  | succ n ih => rw [times_succ, List.length_append, ih, Nat.succ_mul]; omega

/-- The value of an `i32` after arithmetic that wraps around. -/
def wrap (x : Int) : Int := (x + 2147483648) % 4294967296 - 2147483648

theorem inc_wrap (x : Int) : inc false (wrap x) = .ok (wrap (x + 1)) := by
  unfold inc wrap
  by_cases h : (x + 2147483648) % 4294967296 - 2147483648 < i32Max
  · rw [if_pos h]
    congr 1
    have h : (x + 2147483648) % 4294967296 - 2147483648 < 2147483647 := h
    omega
  · rw [if_neg h]
    have h : ¬ (x + 2147483648) % 4294967296 - 2147483648 < 2147483647 := h
    show Res.ok (-2147483648) = _
    congr 1
    omega

theorem wrap_turn {n : Nat} (h : n % 2 ^ 32 = 0) : wrap n = 0 := by
  unfold wrap
  omega

theorem push_wraps (l : Location) (c : Char) : ∃ l', Word.push false l c = .ok l' := by
  unfold Word.push Word.add
  by_cases hc : c = '\n'
  · rw [if_pos hc]
    by_cases h : l.lines + 1 < Word.u64Size
    · rw [if_pos h]; exact ⟨_, rfl⟩
    · rw [if_neg h]; exact ⟨_, rfl⟩
  · rw [if_neg hc]
    by_cases h : l.columns + 1 < Word.u64Size
    · rw [if_pos h]; exact ⟨_, rfl⟩
    · rw [if_neg h]; exact ⟨_, rfl⟩

theorem pushStr_wraps (s : Str) : ∀ l : Location, ∃ l', Word.pushStr false l s = .ok l' := by
  induction s with
  | nil => intro l; exact ⟨l, rfl⟩
  | cons c s ih =>
    intro l
    obtain ⟨l1, h1⟩ := push_wraps l c
    obtain ⟨l2, h2⟩ := ih l1
    refine ⟨l2, ?_⟩
    rw [Word.pushStr, h1]
    exact h2

/-- `n` more characters in the comment. -/
def more : Nat → CommentScan → CommentScan
  | n, .closed k => .closed (k + n)
  | _, r => r

theorem oneMore_more (n : Nat) (r : CommentScan) : oneMore (more n r) = more (n + 1) r := by
  cases r <;> rfl

theorem loop_step {checks : Bool} {loc loc' : Location} {d : Int} {prev c : Char} {cs : Str} (h1 : ¬ (prev = '*' ∧ c = ')'))
    (h2 : ¬ (prev = '(' ∧ c = '*')) (h3 : (!isGapChar c && !isTerminalChar c) = false) (hp : Word.push checks loc c = .ok loc') :
    commentLoop checks loc d prev (c :: cs) = (commentLoop checks loc' d c cs >>= fun r => pure (oneMore r)) := by
  rw [commentLoop, if_neg h1, if_neg h2, h3, hp]
  rfl

theorem loop_open {checks : Bool} {loc loc' : Location} {d d' : Int} {cs : Str} (hd : inc checks d = .ok d')
    (hp : Word.push checks loc '*' = .ok loc') :
    commentLoop checks loc d '(' ('*' :: cs) = (commentLoop checks loc' d' '*' cs >>= fun r => pure (oneMore r)) := by
  rw [commentLoop, if_neg (by decide), if_pos (by decide), hd, hp]
  rfl

/-- Opening brackets of comments, in a release build. -/
theorem opens_wrap (tail : Str) : ∀ (n : Nat) (loc : Location) (x : Int), ∃ loc',
    commentLoop false loc (wrap x) '*' (times n ['(', '*'] ++ tail) =
      (commentLoop false loc' (wrap (x + n)) '*' tail >>= fun r => pure (more (2 * n) r)) := by
  intro n
  induction n with
  | zero =>
    intro loc x
    refine ⟨loc, ?_⟩
    show commentLoop false loc (wrap x) '*' tail = _
    rw [show x + ((0 : Nat) : Int) = x by omega]
    cases commentLoop false loc (wrap x) '*' tail with
    | ok r => cases r <;> rfl
    | err e => rfl
    | panic p => rfl
    | diverge => rfl
  | succ n ih =>
    intro loc x
    obtain ⟨l1, h1⟩ := push_wraps loc '('
    obtain ⟨l2, h2⟩ := push_wraps l1 '*'
    obtain ⟨l3, h3⟩ := ih l2 (x + 1)
    refine ⟨l3, ?_⟩
    rw [times_succ]
    show commentLoop false loc (wrap x) '*' ('(' :: '*' :: (times n ['(', '*'] ++ tail)) = _
    rw [loop_step (by decide) (by decide) (by decide) h1, loop_open (inc_wrap x) h2, h3,
      show x + 1 + (n : Int) = x + ((n + 1 : Nat) : Int) by omega]
    cases commentLoop false l3 (wrap (x + ((n + 1 : Nat) : Int))) '*' tail with
    | ok r =>
      show Res.ok (oneMore (oneMore (more (2 * n) r))) = Res.ok (more (2 * (n + 1)) r)
      rw [oneMore_more, oneMore_more]
      rfl
    | err e => rfl
    | panic p => rfl
    | diverge => rfl

theorem comment_wraps {n : Nat} (hn : n % 2 ^ 32 = 0) (loc : Location) :
    commentLoop false loc 0 '*' (times n ['(', '*'] ++ ['*', ')']) = .ok (.closed (2 * n + 1)) := by
  obtain ⟨l1, h1⟩ := opens_wrap ['*', ')'] n loc 0
  rw [show wrap 0 = 0 by decide, show (0 : Int) + (n : Int) = n by omega, wrap_turn hn] at h1
  rw [h1]
  obtain ⟨l2, h2⟩ := push_wraps l1 '*'
  rw [loop_step (by decide) (by decide) (by decide) h2]
  show Res.ok (more (2 * n) (oneMore (.closed 0))) = _
  show Res.ok (CommentScan.closed (1 + 2 * n)) = _
  rw [Nat.add_comm]

/-- In the other model each one has to be closed. -/
theorem comment_stays_open : ∀ (n d : Nat) (loc : Location), 0 < n + d →
    Ebnf.commentLoop loc d '*' (times n ['(', '*'] ++ ['*', ')']) = .open := by
  intro n
  induction n with
  | zero =>
    intro d loc h
    show Ebnf.commentLoop loc d '*' ['*', ')'] = .open
    rw [comment_cons, if_neg (by decide), if_neg (by decide), if_neg (by decide), comment_cons, if_pos (by decide), if_neg (by omega)]
    rfl
  | succ n ih =>
    intro d loc h
    rw [times_succ]
    show Ebnf.commentLoop loc d '*' ('(' :: '*' :: (times n ['(', '*'] ++ ['*', ')'])) = .open
    rw [comment_cons, if_neg (by decide), if_neg (by decide), if_neg (by decide), comment_cons, if_neg (by decide), if_pos (by decide),
      ih (d + 1) _ (by omega)]
    rfl

/-- With overflow checks, the counter or the location gives out. -/
theorem comment_panics (tail : Str) : ∀ (m : Nat) (d : Int) (loc : Location), d + m = i32Max →
    commentLoop true loc d '*' (times (m + 1) ['(', '*'] ++ tail) = .panic .overflow := by
  have stops : ∀ (loc : Location) (c : Char), (∃ l, Word.push true loc c = .ok l) ∨ Word.push true loc c = .panic .overflow := by
    intro l c
    unfold Word.push Word.add
    by_cases hc : c = '\n'
    · rw [if_pos hc]
      by_cases h : l.lines + 1 < Word.u64Size
      · rw [if_pos h]; exact .inl ⟨_, rfl⟩
      · rw [if_neg h]; exact .inr rfl
    · rw [if_neg hc]
      by_cases h : l.columns + 1 < Word.u64Size
      · rw [if_pos h]; exact .inl ⟨_, rfl⟩
      · rw [if_neg h]; exact .inr rfl
  have here : ∀ (d : Int) (loc : Location) (cs : Str), Word.push true loc '(' = .panic .overflow →
      commentLoop true loc d '*' ('(' :: cs) = .panic .overflow := by
    intro d loc cs h
    rw [commentLoop, if_neg (by decide), if_neg (by decide), if_neg (by decide), h]
    rfl
  intro m
  induction m with
  | zero =>
    intro d loc h
    show commentLoop true loc d '*' ('(' :: '*' :: tail) = _
    cases stops loc '(' with
    | inr hp => exact here d loc _ hp
    | inl hp =>
      obtain ⟨l1, h1⟩ := hp
      rw [loop_step (by decide) (by decide) (by decide) h1, commentLoop, if_neg (by decide), if_pos (by decide)]
      have hd : inc true d = .panic .overflow := by
        unfold inc
        rw [if_neg (by have h : d + ((0 : Nat) : Int) = 2147483647 := h; show ¬ d < 2147483647; omega)]
        rfl
      rw [hd]
      rfl
  | succ m ih =>
    intro d loc h
    have h : d + ((m + 1 : Nat) : Int) = 2147483647 := h
    rw [times_succ]
    show commentLoop true loc d '*' ('(' :: '*' :: (times (m + 1) ['(', '*'] ++ tail)) = _
    cases stops loc '(' with
    | inr hp => exact here d loc _ hp
    | inl hp =>
      obtain ⟨l1, h1⟩ := hp
      have hd : inc true d = .ok (d + 1) := by
        unfold inc
        rw [if_pos (by show d < 2147483647; omega)]
      rw [loop_step (by decide) (by decide) (by decide) h1]
      cases stops l1 '*' with
      | inr hp =>
        rw [commentLoop, if_neg (by decide), if_pos (by decide), hd, hp]
        rfl
      | inl hp =>
        obtain ⟨l2, h2⟩ := hp
        rw [loop_open hd h2, ih (d + 1) l2 (by show d + 1 + (m : Int) = 2147483647; omega)]
        rfl

/-! ## Whole texts -/

theorem parse_eq (checks : Bool) (name s : Str) : parseStr checks name s =
    match pushStr checks s (Lexer.new name) with
    | (.ok rules, l) =>
      (match flush checks l with
      | (.ok rule, _) => .ok (rules ++ rule.toList)
      | (.err e, _) => .err e
      | (.panic p, _) => .panic p
      | (.diverge, _) => .diverge)
    | (.err e, _) => .err e
    | (.panic p, _) => .panic p
    | (.diverge, _) => .diverge := by
  have e : parseStr checks name s = (RM.bind (pushStr checks s) (fun rs => RM.bind (flush checks) fun r => RM.pure (rs ++ r.toList)) (Lexer.new name)).1 := rfl
  rw [e]
  unfold RM.bind
  cases pushStr checks s (Lexer.new name) with
  | mk r l =>
    cases r with
    | ok rules =>
      simp only
      cases flush checks l with
      | mk r2 l2 => cases r2 <;> rfl
    | err e => rfl
    | panic p => rfl
    | diverge => rfl

theorem new_pushStr (checks : Bool) (name s : Str) : pushStr checks s (Lexer.new name) =
    match tokenizeLoop checks s.length (Location.new name) s with
    | (.ok tks, loc, rest) =>
      (match append checks [] tks with
      | (r, tokens) => (r, ⟨⟨0, rest, loc⟩, tokens⟩))
    | (.err e, loc, _) => (.err e, ⟨⟨0, s, loc⟩, []⟩)
    | (.panic p, loc, _) => (.panic p, ⟨⟨0, s, loc⟩, []⟩)
    | (.diverge, loc, _) => (.diverge, ⟨⟨0, s, loc⟩, []⟩) := by
  have hc : (Tokenizer.new name).ensureCapacity s.length = .ok () := by
    unfold Tokenizer.ensureCapacity
    rw [if_neg (by intro h; exact absurd h.1 (Nat.lt_irrefl 0))]
  show feed checks (tokenizerPush checks s) (Lexer.new name) = _
  unfold feed
  show (match tokenizerPush checks s (Tokenizer.new name) with
    | (.ok tks, tz) => match append checks [] tks with
      | (r, tokens) => (r, ⟨tz, tokens⟩)
    | (.err e, tz) => (.err e, ⟨tz, []⟩)
    | (.panic p, tz) => (.panic p, ⟨tz, []⟩)
    | (.diverge, tz) => (.diverge, ⟨tz, []⟩) : Res (List SyntaxRule) × Lexer) = _
  unfold tokenizerPush
  rw [hc]
  show (match tokenize checks ⟨0, s, Location.new name⟩ with
    | (.ok tks, tz) => match append checks [] tks with
      | (r, tokens) => (r, ⟨tz, tokens⟩)
    | (.err e, tz) => (.err e, ⟨tz, []⟩)
    | (.panic p, tz) => (.panic p, ⟨tz, []⟩)
    | (.diverge, tz) => (.diverge, ⟨tz, []⟩) : Res (List SyntaxRule) × Lexer) = _
  unfold tokenize
  simp only
  generalize tokenizeLoop checks s.length (Location.new name) s = x
  obtain ⟨r, loc, rest⟩ := x
  cases r with
  | ok tks =>
    simp only
  | err e => rfl
  | panic p => rfl
  | diverge => rfl

/-- A text of opening brackets of comments and one closing bracket. -/
def opening (n : Nat) : Str := times (n + 1) ['(', '*'] ++ ['*', ')']

theorem parse_wraps {n : Nat} (hn : n % 2 ^ 32 = 0) (hpos : 0 < n) (name : Str) : parseStr false name (opening n) = .ok [] := by
  have e1 : opening n = '(' :: '*' :: (times n ['(', '*'] ++ ['*', ')']) := by rw [opening, times_succ]; rfl
  have hh : (times n ['(', '*'] ++ ['*', ')']).head? = some '(' := by
    cases n with
    | zero => omega
    | succ n => rw [times_succ]; rfl
  have hl : (times n ['(', '*'] ++ ['*', ')']).length = 2 * n + 2 := by
    rw [List.length_append, times_length]; simp; omega
  generalize hds : times n ['(', '*'] ++ ['*', ')'] = ds at e1 hh hl
  obtain ⟨l1, h1⟩ := pushStr_wraps ['(', '*'] (Location.new name)
  have hc := comment_wraps hn l1
  rw [hds] at hc
  have hr : readNext false (Location.new name) (opening n) false =
      .ok (some (.comment (Location.new name) (ds.take (2 * n + 1 - 1)), 2 * n + 1 + 3)) := by
    rw [e1, readNext, if_neg (by rw [hh]; decide), commentToken, h1]
    show (commentLoop false l1 0 '*' ds >>= _) = _
    rw [hc]
    rfl
  have hlen : (opening n).length = 2 * n + 4 := by rw [e1]; simp [hl]
  obtain ⟨l2, h2⟩ := pushStr_wraps ((opening n).take (2 * n + 4)) (Location.new name)
  have ht : readToken false (Location.new name) (opening n) false =
      .ok (some (.comment (Location.new name) (ds.take (2 * n)), l2, [])) := by
    rw [readToken, hr]
    show (Word.pushStr false (Location.new name) ((opening n).take (2 * n + 4)) >>= _) = _
    rw [h2]
    show Res.ok (some (_, l2, (opening n).drop (2 * n + 4))) = _
    rw [List.drop_of_length_le (by omega)]
    rfl
  have hne : (opening n).isEmpty = false := by rw [e1]; rfl
  have hloop : tokenizeLoop false (opening n).length (Location.new name) (opening n) =
      (.ok [.comment (Location.new name) (ds.take (2 * n))], l2, []) := by
    rw [hlen, tokenizeLoop, hne, ht]
    rfl
  rw [parse_eq, new_pushStr, hloop]
  generalize ds.take (2 * n) = text
  generalize Location.new name = start
  rfl

theorem parse_open {n : Nat} (hpos : 0 < n) (name : Str) :
    Ebnf.parseStr name (opening n) = .err ⟨Location.new name, .commentNotClosed⟩ := by
  have e1 : opening n = '(' :: '*' :: (times n ['(', '*'] ++ ['*', ')']) := by rw [opening, times_succ]; rfl
  have hh : (times n ['(', '*'] ++ ['*', ')']).head? = some '(' := by
    cases n with
    | zero => omega
    | succ n => rw [times_succ]; rfl
  have hc := fun loc => comment_stays_open n 0 loc (by omega)
  generalize hds : times n ['(', '*'] ++ ['*', ')'] = ds at e1 hh hc
  have hr : ∀ flush, Ebnf.readNext (Location.new name) (opening n) flush =
      if flush then .fail (Location.new name) .commentNotClosed else .ok none := by
    intro flush
    rw [e1]
    have e2 : Ebnf.readNext (Location.new name) ('(' :: '*' :: ds) flush =
        if ds.head? = some ')' then .fail (Location.new name) (.ambiguousComment ['(', '*', ')'])
        else Ebnf.commentToken (Location.new name) ds flush := by simp [Ebnf.readNext]
    rw [e2, hh, if_neg (by decide), Ebnf.commentToken, hc]
  have h0 := hr false
  have h1 := hr true
  rw [if_neg (by decide)] at h0
  rw [if_pos rfl] at h1
  have hp : Lexer.pushStr (opening n) (Lexer.new name) = (.ok [], ⟨⟨0, opening n, Location.new name⟩, []⟩) := by
    have hk : (Tokenizer.new name).ensureCapacity (opening n).length = .ok () := by
      unfold Tokenizer.ensureCapacity
      rw [if_neg (by intro h; exact absurd h.1 (Nat.lt_irrefl 0))]
    have ht : Tokenizer.pushStr (opening n) (Tokenizer.new name) = (.ok [], ⟨0, opening n, Location.new name⟩) := by
      unfold Tokenizer.pushStr
      rw [hk]
      show Tokenizer.tokenize ⟨0, opening n, Location.new name⟩ = _
      unfold Tokenizer.tokenize
      simp only
      have hl : (opening n).length = ds.length + 1 + 1 := by rw [e1]; rfl
      rw [hl, Tokenizer.tokenizeLoop, h0, show (opening n).isEmpty = false by rw [e1]; rfl]
      rfl
    show Lexer.feed (Tokenizer.pushStr (opening n)) (Lexer.new name) = _
    unfold Lexer.feed
    show (match Tokenizer.pushStr (opening n) (Tokenizer.new name) with
      | (.ok tks, tz) => match Lexer.append [] tks with
        | (r, tokens) => (r, ⟨tz, tokens⟩)
      | (.err e, tz) => (.err e, ⟨tz, []⟩)
      | (.panic p, tz) => (.panic p, ⟨tz, []⟩)
      | (.diverge, tz) => (.diverge, ⟨tz, []⟩) : Res (List SyntaxRule) × Lexer) = _
    rw [ht]
    rfl
  have hf : Lexer.flush ⟨⟨0, opening n, Location.new name⟩, []⟩ =
      (.err ⟨Location.new name, .commentNotClosed⟩, ⟨⟨0, opening n, Location.new name⟩, []⟩) := by
    have ht : Tokenizer.flush ⟨0, opening n, Location.new name⟩ =
        (.err ⟨Location.new name, .commentNotClosed⟩, ⟨0, opening n, Location.new name⟩) := by
      unfold Tokenizer.flush
      rw [h1]
      rfl
    show RM.bind (Lexer.feed Tokenizer.flush) _ _ = _
    unfold RM.bind Lexer.feed
    simp only
    rw [ht]
  have e : Ebnf.parseStr name (opening n) =
      (RM.bind (Lexer.pushStr (opening n)) (fun rs => RM.bind Lexer.flush fun r => RM.pure (rs ++ r.toList)) (Lexer.new name)).1 := rfl
  rw [e]
  unfold RM.bind
  rw [hp]
  simp only
  rw [hf]

theorem parse_panics {n : Nat} (hn : 2 ^ 31 ≤ n) (name tail : Str) :
    parseStr true name (times (n + 1) ['(', '*'] ++ tail) = .panic .overflow := by
  obtain ⟨m, hm⟩ : ∃ m : Nat, m = 2147483647 := ⟨_, rfl⟩
  obtain ⟨k, rfl⟩ : ∃ k, n = m + 1 + k := ⟨n - (m + 1), by omega⟩
  have split : ∀ (a b : Nat), times (a + b) ['(', '*'] = times a ['(', '*'] ++ times b ['(', '*'] := by
    intro a b
    induction a with
    | zero => rw [Nat.zero_add]; rfl
    | succ a ih => rw [Nat.succ_add, times_succ, ih, times_succ, List.append_assoc]
  have e1 : times (m + 1 + k + 1) ['(', '*'] ++ tail =
      '(' :: '*' :: (times (m + 1) ['(', '*'] ++ (times k ['(', '*'] ++ tail)) := by
    rw [times_succ, split, List.append_assoc, List.append_assoc]; rfl
  have hh : (times (m + 1) ['(', '*'] ++ (times k ['(', '*'] ++ tail)).head? = some '(' := by
    rw [times_succ]; rfl
  obtain ⟨h1, h2⟩ := Word.pushStr_fits (checks := true) (s := ['(', '*']) (l := Location.new name) (n := 0) (by
    unfold Fits
    simp [Location.new, Location.withLocation])
  have hc := comment_panics (times k ['(', '*'] ++ tail) m 0 ((Location.new name).pushStr ['(', '*']) (by rw [hm]; rfl)
  generalize times (m + 1) ['(', '*'] ++ (times k ['(', '*'] ++ tail) = ds at e1 hh hc
  rw [e1]
  have hr : readNext true (Location.new name) ('(' :: '*' :: ds) false = .panic .overflow := by
    rw [readNext, if_neg (by rw [hh]; decide), commentToken, h1]
    show (commentLoop true _ 0 '*' ds >>= _) = _
    rw [hc]
    rfl
  have hloop : tokenizeLoop true ('(' :: '*' :: ds).length (Location.new name) ('(' :: '*' :: ds) =
      (.panic .overflow, Location.new name, '(' :: '*' :: ds) := by
    show tokenizeLoop true (ds.length + 1 + 1) _ _ = _
    rw [tokenizeLoop, readToken, hr]
    rfl
  rw [parse_eq, new_pushStr, hloop]

/-! ## Brackets of a rule -/

theorem find_panics {o c : Token → Bool} : ∀ (ts tail : List Token) (d : Int), (∀ t ∈ ts, o t = true) → d ≤ 2147483647 →
    2147483647 < d + ts.length → findClose true o c d (ts ++ tail) = .panic .overflow := by
  intro ts
  induction ts with
  | nil => intro tail d _ h1 h2; simp at h2; omega
  | cons t ts ih =>
    intro tail d ho h1 h2
    rw [List.cons_append, findClose, if_pos (ho t (by simp))]
    by_cases hd : d < 2147483647
    · have hi : inc true d = .ok (d + 1) := by unfold inc; rw [if_pos hd]
      rw [hi]
      show (findClose true o c (d + 1) (ts ++ tail) >>= _) = _
      rw [ih tail (d + 1) (fun t ht => ho t (by simp [ht])) (by omega) (by simp only [List.length_cons] at h2; omega)]
      rfl
    · have hi : inc true d = .panic .overflow := by unfold inc; rw [if_neg hd]; rfl
      rw [hi]
      rfl

theorem readToken_ok {checks flush : Bool} {loc loc' : Location} {rest : Str} {tk : Token} {n : Nat}
    (h : readNext checks loc rest flush = .ok (some (tk, n))) (hp : Word.pushStr checks loc (rest.take n) = .ok loc') :
    readToken checks loc rest flush = .ok (some (tk, loc', rest.drop n)) := by
  rw [readToken, h]
  show (Word.pushStr checks loc (rest.take n) >>= _) = _
  rw [hp]
  rfl

theorem loop_cons {checks : Bool} {loc loc' l : Location} {rest rest' r : Str} {tk : Token} {tks : List Token} {fuel : Nat}
    (hne : rest.isEmpty = false) (h : readToken checks loc rest false = .ok (some (tk, loc', rest')))
    (ht : tokenizeLoop checks fuel loc' rest' = (.ok tks, l, r)) :
    tokenizeLoop checks (fuel + 1) loc rest = (.ok (tk :: tks), l, r) := by
  rw [tokenizeLoop, hne, h, if_neg (by decide)]
  simp only
  rw [ht]

theorem brackets {checks : Bool} (tail : Str) : ∀ (n fuel : Nat) (loc : Location), Fits loc (n + tail.length) → ∃ ts loc',
    ts.length = n ∧ (∀ t ∈ ts, ∃ l, t = .startOptionSymbol l ['[']) ∧ Fits loc' tail.length ∧
    ∀ tks l rest, tokenizeLoop checks fuel loc' tail = (.ok tks, l, rest) →
      tokenizeLoop checks (n + fuel) loc (List.replicate n '[' ++ tail) = (.ok (ts ++ tks), l, rest) := by
  intro n
  induction n with
  | zero =>
    intro fuel loc hf
    exact ⟨[], loc, rfl, by simp, by simpa using hf, fun tks l rest h => by simpa using h⟩
  | succ n ih =>
    intro fuel loc hf
    obtain ⟨h1, h2⟩ := Word.pushStr_fits (checks := checks) (s := ['[']) (n := n + tail.length) (hf.mono (by simp; omega))
    obtain ⟨ts, loc', h3, h4, h5, h6⟩ := ih fuel _ h2
    refine ⟨.startOptionSymbol loc ['['] :: ts, loc', by simp [h3], ?_, h5, fun tks l rest h => ?_⟩
    · intro t ht
      cases ht with
      | head => exact ⟨loc, rfl⟩
      | tail _ ht => exact h4 t ht
    · have h7 := h6 tks l rest h
      rw [Nat.add_right_comm, tokenizeLoop, List.replicate_succ]
      have hr : readToken checks loc ('[' :: List.replicate n '[' ++ tail) false =
          .ok (some (.startOptionSymbol loc ['['], loc.pushStr ['['], List.replicate n '[' ++ tail)) := by
        have e : readNext checks loc ('[' :: List.replicate n '[' ++ tail) false = .ok (some (.startOptionSymbol loc ['['], 1)) := by
          simp [readNext, Ebnf.readNext]
        rw [readToken, e]
        show (Word.pushStr checks loc ['['] >>= _) = _
        rw [h1]
        rfl
      rw [hr, show ('[' :: List.replicate n '[' ++ tail).isEmpty = false from rfl]
      simp only
      rw [h7]
      rfl

theorem definitions_panic {ts : List Token} (h : ∀ t ∈ ts, ∃ l, t = .startOptionSymbol l ['[']) (hn : 2 ^ 31 < ts.length) (tail : List Token)
    (recur : List Token → Res DefinitionList) (last : Location) (fuel : Nat) :
    readDefinitions true recur last (fuel + 1) (ts ++ tail) = .panic .overflow := by
  cases ts with
  | nil => simp at hn
  | cons t ts =>
    obtain ⟨l, rfl⟩ := h t (by simp)
    have hf : findClose true Token.isStartOptionSymbol Token.isEndOptionSymbol 0 (ts ++ tail) = .panic .overflow := by
      refine find_panics ts _ 0 (fun t ht => ?_) (by omega) (by simp only [List.length_cons] at hn; omega)
      obtain ⟨l, rfl⟩ := h t (by simp [ht])
      rfl
    rw [List.cons_append]
    generalize ts ++ tail = rest at hf
    have hp : readPrimary true recur last (.startOptionSymbol l ['['] :: rest) = .panic .overflow := by
      have e : skipGaps (.startOptionSymbol l ['['] :: rest) = .startOptionSymbol l ['['] :: rest := rfl
      unfold readPrimary
      rw [e]
      simp only
      rw [if_neg (by intro h; exact absurd h.1 (by decide)), readEnclosed, hf]
      rfl
    have hfac : readFactor true recur last (.startOptionSymbol l ['['] :: rest) = .panic .overflow := by
      rw [factor_count]
      show (readPrimary true recur last (.startOptionSymbol l ['['] :: rest) >>= _) = _
      rw [hp]
      rfl
    have hterm : readTerm true recur last (.startOptionSymbol l ['['] :: rest) = .panic .overflow := by
      rw [readTerm, hfac]
      rfl
    rw [definitions_after, single_after, hterm]
    rfl

theorem build_definitions {l0 l1 : Location} {t : Token} {rest : List Token}
    (h : ∀ fuel, readDefinitions true (readDefinitionList true (rest.length + 3)) (lastLocation (.metaIdentifier l0 ['a'] :: .definingSymbol l1 :: t :: rest))
      (fuel + 1) (t :: rest) = .panic .overflow) :
    buildSyntaxRule true (.metaIdentifier l0 ['a'] :: .definingSymbol l1 :: t :: rest) = .panic .overflow := by
  unfold buildSyntaxRule
  have hm : readMetaIdentifier (.metaIdentifier l0 ['a'] :: .definingSymbol l1 :: t :: rest) =
    (['a'], some l0, .definingSymbol l1 :: t :: rest) := rfl
  rw [hm]
  have e : skipGaps (.definingSymbol l1 :: t :: rest) = .definingSymbol l1 :: t :: rest := rfl
  simp only
  rw [e]
  simp only
  rw [show (Token.metaIdentifier l0 ['a'] :: .definingSymbol l1 :: t :: rest).length = rest.length + 3 from rfl, h,
    show (Token.definingSymbol l1).isDefiningSymbol = true from rfl, if_neg (by decide), if_neg (by decide)]
  rfl

theorem build_panics {l0 l1 l2 : Location} {ts : List Token} {c : Char} (h : ∀ t ∈ ts, ∃ l, t = .startOptionSymbol l ['['])
    (hn : 2 ^ 31 < ts.length) :
    buildSyntaxRule true (.metaIdentifier l0 ['a'] :: .definingSymbol l1 :: (ts ++ [.terminatorSymbol l2 c])) = .panic .overflow := by
  have hd := definitions_panic h hn [.terminatorSymbol l2 c]
  generalize ts ++ [.terminatorSymbol l2 c] = us at hd
  cases us with
  | nil =>
    have := hd (fun _ => .diverge) l0 0
    rw [definitions_after, single_after] at this
    cases this
  | cons t rest => exact build_definitions fun fuel => hd _ _ fuel

theorem find_others {ts : List Token} (h : ∀ t ∈ ts, ∃ l, t = .startOptionSymbol l ['[']) (le : Location) (tail : List Token) :
    findClose true Token.isStartGroupSymbol Token.isEndGroupSymbol 0 (ts ++ .endGroupSymbol le :: tail) = .ok (some (ts, tail)) := by
  induction ts with
  | nil => rfl
  | cons t ts ih =>
    obtain ⟨l, rfl⟩ := h t (by simp)
    rw [List.cons_append, findClose, if_neg nofun, if_neg nofun]
    show (findClose true Token.isStartGroupSymbol Token.isEndGroupSymbol 0 (ts ++ .endGroupSymbol le :: tail) >>= _) = _
    rw [ih fun t ht => h t (by simp [ht])]
    rfl

theorem build_inner_panics {l0 l1 lg le l2 : Location} {ts : List Token} {c : Char} (h : ∀ t ∈ ts, ∃ l, t = .startOptionSymbol l ['['])
    (hn : 2 ^ 31 < ts.length) :
    buildSyntaxRule true (.metaIdentifier l0 ['a'] :: .definingSymbol l1 :: .startGroupSymbol lg ::
      (ts ++ [.endGroupSymbol le, .terminatorSymbol l2 c])) = .panic .overflow := by
  have hf := find_others h le [.terminatorSymbol l2 c]
  refine build_definitions fun fuel => ?_
  generalize ts ++ [.endGroupSymbol le, .terminatorSymbol l2 c] = rest at hf
  generalize lastLocation (.metaIdentifier l0 ['a'] :: .definingSymbol l1 :: .startGroupSymbol lg :: rest) = last
  have hi : readDefinitionList true (rest.length + 1 + 2) ts = .panic .overflow := by
    rw [readDefinitionList]
    have := definitions_panic h hn [] (readDefinitionList true (rest.length + 1 + 1)) (lastLocation ts) ts.length
    rwa [List.append_nil] at this
  have hp : readPrimary true (readDefinitionList true (rest.length + 1 + 2)) last (.startGroupSymbol lg :: rest) = .panic .overflow := by
    generalize readDefinitionList true (rest.length + 1 + 2) = recur at hi
    have e : skipGaps (.startGroupSymbol lg :: rest) = .startGroupSymbol lg :: rest := rfl
    unfold readPrimary
    rw [e]
    simp only
    rw [readEnclosed, hf]
    show ((recur ts >>= _) >>= _) = _
    rw [hi]
    rfl
  have e3 : rest.length + 3 = rest.length + 1 + 2 := by omega
  rw [e3]
  have hfac : readFactor true (readDefinitionList true (rest.length + 1 + 2)) last (.startGroupSymbol lg :: rest) = .panic .overflow := by
    rw [factor_count]
    show (readPrimary true _ last (.startGroupSymbol lg :: rest) >>= _) = _
    rw [hp]
    rfl
  have hterm : readTerm true (readDefinitionList true (rest.length + 1 + 2)) last (.startGroupSymbol lg :: rest) = .panic .overflow := by
    rw [readTerm, hfac]
    rfl
  rw [definitions_after, single_after, hterm]
  rfl

theorem append_others {checks : Bool} {t : Token} : ∀ (ts kept : List Token), (∀ u ∈ ts, u.isTerminator = false) →
    append checks kept (ts ++ [t]) = append checks (kept ++ ts) [t] := by
  intro ts
  induction ts with
  | nil => intro kept _; simp
  | cons u ts ih =>
    intro kept h
    rw [List.cons_append, append, if_neg (by rw [h u (by simp)]; decide), ih _ fun v hv => h v (by simp [hv])]
    simp

theorem brackets_panic {n : Nat} (hn : 2 ^ 31 < n) (hle : n < 2 ^ 63) (name : Str) :
    parseStr true name (['a', '='] ++ List.replicate n '[' ++ [';']) = .panic .overflow := by
  have hstart : Fits (Location.new name) (n + 3) := by
    unfold Fits
    simp only [Location.new, Location.withLocation]
    omega
  obtain ⟨h1, h2⟩ := Word.pushStr_fits (checks := true) (s := ['a']) (n := n + 2) (hstart.mono (by simp; omega))
  obtain ⟨h3, h4⟩ := Word.pushStr_fits (checks := true) (s := ['=']) (n := n + 1) (h2.mono (by simp; omega))
  generalize hl1 : (Location.new name).pushStr ['a'] = l1 at h1 h2 h3 h4
  generalize hl2 : l1.pushStr ['='] = l2 at h3 h4
  obtain ⟨ts, l3, h5, h6, h7, h8⟩ := brackets (checks := true) [';'] n 1 l2 (by simpa using h4)
  obtain ⟨h9, _⟩ := Word.pushStr_fits (checks := true) (s := [';']) (n := 0) (l := l3) (by simpa using h7)
  have hlast : tokenizeLoop true 1 l3 [';'] = (.ok [.terminatorSymbol l3 ';'], l3.pushStr [';'], []) := by
    have e : readToken true l3 [';'] false = .ok (some (.terminatorSymbol l3 ';', l3.pushStr [';'], [])) := by
      rw [readToken]
      show (Word.pushStr true l3 [';'] >>= _) = _
      rw [h9]
      rfl
    rw [tokenizeLoop, e]
    rfl
  have h8 := h8 _ _ _ hlast
  obtain ⟨m, rfl⟩ : ∃ m, n = m + 1 := ⟨n - 1, by omega⟩
  have hdef : tokenizeLoop true (m + 1 + 1 + 1) l1 ('=' :: (List.replicate (m + 1) '[' ++ [';'])) =
      (.ok (.definingSymbol l1 :: (ts ++ [.terminatorSymbol l3 ';'])), l3.pushStr [';'], []) := by
    generalize List.replicate (m + 1) '[' ++ [';'] = R at h8
    exact loop_cons rfl (readToken_ok (n := 1) rfl h3) h8
  have hall : tokenizeLoop true (['a', '='] ++ List.replicate (m + 1) '[' ++ [';']).length (Location.new name)
      (['a', '='] ++ List.replicate (m + 1) '[' ++ [';']) =
      (.ok (.metaIdentifier (Location.new name) ['a'] :: .definingSymbol l1 :: (ts ++ [.terminatorSymbol l3 ';'])), l3.pushStr [';'], []) := by
    have hlen : (['a', '='] ++ List.replicate (m + 1) '[' ++ [';']).length = m + 1 + 1 + 1 + 1 := by simp
    rw [hlen, List.append_assoc]
    generalize List.replicate (m + 1) '[' ++ [';'] = R at hdef
    have e2 : readNext true (Location.new name) ('a' :: '=' :: R) false = .ok (some (.metaIdentifier (Location.new name) ['a'], 1)) := by
      generalize Location.new name = start
      simp [readNext, Ebnf.readNext, readWhile, isMetaIdentifierFirstChar, isMetaIdentifierChar, isLetterChar, isDecimalDigitChar]
    exact loop_cons rfl (readToken_ok e2 h1) hdef
  rw [parse_eq, new_pushStr, hall]
  have ha : append true [] (.metaIdentifier (Location.new name) ['a'] :: .definingSymbol l1 :: (ts ++ [.terminatorSymbol l3 ';'])) =
      (.panic .overflow, .metaIdentifier (Location.new name) ['a'] :: .definingSymbol l1 :: (ts ++ [.terminatorSymbol l3 ';'])) := by
    have e := append_others (checks := true) (t := .terminatorSymbol l3 ';')
      (.metaIdentifier (Location.new name) ['a'] :: .definingSymbol l1 :: ts) [] (by
        intro u hu
        cases hu with
        | head => rfl
        | tail _ hu =>
          cases hu with
          | head => rfl
          | tail _ hu => obtain ⟨l, rfl⟩ := h6 u hu; rfl)
    refine e.trans ?_
    rw [append, if_pos (show Token.isTerminator (.terminatorSymbol l3 ';') = true from rfl), List.nil_append, List.cons_append, List.cons_append,
      build_panics h6 (by omega)]
  simp only
  rw [ha]

theorem inner_brackets_panic {n : Nat} (hn : 2 ^ 31 < n) (hle : n < 2 ^ 63) (name : Str) :
    parseStr true name (['a', '=', '('] ++ List.replicate n '[' ++ [')', ';']) = .panic .overflow := by
  have hstart : Fits (Location.new name) (n + 5) := by
    unfold Fits
    simp only [Location.new, Location.withLocation]
    omega
  obtain ⟨h1, h2⟩ := Word.pushStr_fits (checks := true) (s := ['a']) (n := n + 4) (hstart.mono (by simp; omega))
  obtain ⟨h3, h4⟩ := Word.pushStr_fits (checks := true) (s := ['=']) (n := n + 3) (h2.mono (by simp; omega))
  obtain ⟨hg, hg'⟩ := Word.pushStr_fits (checks := true) (s := ['(']) (n := n + 2) (h4.mono (by simp; omega))
  generalize hl1 : (Location.new name).pushStr ['a'] = l1 at h1 h2 h3 h4 hg hg'
  generalize hl2 : l1.pushStr ['='] = l2 at h3 h4 hg hg'
  generalize hl3 : l2.pushStr ['('] = lg at hg hg'
  obtain ⟨ts, l3, h5, h6, h7, h8⟩ := brackets (checks := true) [')', ';'] n 2 lg (by simpa using hg')
  obtain ⟨he, he'⟩ := Word.pushStr_fits (checks := true) (s := [')']) (n := 1) (l := l3) (by simpa using h7)
  obtain ⟨h9, _⟩ := Word.pushStr_fits (checks := true) (s := [';']) (n := 0) (l := l3.pushStr [')']) (by simpa using he')
  generalize hl4 : l3.pushStr [')'] = l4 at he h9
  have hlast : tokenizeLoop true 1 l4 [';'] = (.ok [.terminatorSymbol l4 ';'], l4.pushStr [';'], []) := by
    have e : readToken true l4 [';'] false = .ok (some (.terminatorSymbol l4 ';', l4.pushStr [';'], [])) := by
      rw [readToken]
      show (Word.pushStr true l4 [';'] >>= _) = _
      rw [h9]
      rfl
    rw [tokenizeLoop, e]
    rfl
  have hlast : tokenizeLoop true 2 l3 [')', ';'] = (.ok [.endGroupSymbol l3, .terminatorSymbol l4 ';'], l4.pushStr [';'], []) :=
    loop_cons rfl (readToken_ok (n := 1) rfl he) hlast
  have h8 := h8 _ _ _ hlast
  obtain ⟨m, rfl⟩ : ∃ m, n = m + 1 := ⟨n - 1, by omega⟩
  have hgroup : tokenizeLoop true (m + 1 + 2 + 1) l2 ('(' :: (List.replicate (m + 1) '[' ++ [')', ';'])) =
      (.ok (.startGroupSymbol l2 :: (ts ++ [.endGroupSymbol l3, .terminatorSymbol l4 ';'])), l4.pushStr [';'], []) := by
    rw [List.replicate_succ, List.cons_append] at h8 ⊢
    generalize List.replicate m '[' ++ [')', ';'] = R at h8
    exact loop_cons rfl (readToken_ok (n := 1) rfl hg) h8
  have hdef : tokenizeLoop true (m + 1 + 2 + 1 + 1) l1 ('=' :: '(' :: (List.replicate (m + 1) '[' ++ [')', ';'])) =
      (.ok (.definingSymbol l1 :: .startGroupSymbol l2 :: (ts ++ [.endGroupSymbol l3, .terminatorSymbol l4 ';'])), l4.pushStr [';'], []) := by
    generalize List.replicate (m + 1) '[' ++ [')', ';'] = R at hgroup
    exact loop_cons rfl (readToken_ok (n := 1) rfl h3) hgroup
  have hall : tokenizeLoop true (['a', '=', '('] ++ List.replicate (m + 1) '[' ++ [')', ';']).length (Location.new name)
      (['a', '=', '('] ++ List.replicate (m + 1) '[' ++ [')', ';']) =
      (.ok (.metaIdentifier (Location.new name) ['a'] :: .definingSymbol l1 :: .startGroupSymbol l2 ::
        (ts ++ [.endGroupSymbol l3, .terminatorSymbol l4 ';'])), l4.pushStr [';'], []) := by
    have hlen : (['a', '=', '('] ++ List.replicate (m + 1) '[' ++ [')', ';']).length = m + 1 + 2 + 1 + 1 + 1 := by simp
    rw [hlen, List.append_assoc]
    generalize List.replicate (m + 1) '[' ++ [')', ';'] = R at hdef
    have e2 : readNext true (Location.new name) ('a' :: '=' :: '(' :: R) false = .ok (some (.metaIdentifier (Location.new name) ['a'], 1)) := by
      generalize Location.new name = start
      simp [readNext, Ebnf.readNext, readWhile, isMetaIdentifierFirstChar, isMetaIdentifierChar, isLetterChar, isDecimalDigitChar]
    exact loop_cons rfl (readToken_ok e2 h1) hdef
  rw [parse_eq, new_pushStr, hall]
  have ha : append true [] (.metaIdentifier (Location.new name) ['a'] :: .definingSymbol l1 :: .startGroupSymbol l2 ::
        (ts ++ [.endGroupSymbol l3, .terminatorSymbol l4 ';'])) =
      (.panic .overflow, .metaIdentifier (Location.new name) ['a'] :: .definingSymbol l1 :: .startGroupSymbol l2 ::
        (ts ++ [.endGroupSymbol l3, .terminatorSymbol l4 ';'])) := by
    have e := append_others (checks := true) (t := .terminatorSymbol l4 ';')
      (.metaIdentifier (Location.new name) ['a'] :: .definingSymbol l1 :: .startGroupSymbol l2 :: (ts ++ [.endGroupSymbol l3])) [] (by
        intro u hu
        simp only [List.mem_cons, List.mem_append, List.not_mem_nil, or_false] at hu
        obtain rfl | rfl | rfl | hu | rfl := hu <;> try rfl
        obtain ⟨l, rfl⟩ := h6 u hu; rfl)
    simp only [List.cons_append, List.append_assoc, List.nil_append] at e
    refine e.trans ?_
    rw [append, if_pos (show Token.isTerminator (.terminatorSymbol l4 ';') = true from rfl), List.cons_append, List.cons_append,
      List.cons_append, List.append_assoc, List.cons_append, List.nil_append, build_inner_panics h6 (by omega)]
  simp only
  rw [ha]

end Ebnf.WordLex
