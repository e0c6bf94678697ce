import Verif.Proofs.History

set_option autoImplicit false

/-! # Properties of the streaming lexer: C01–C08, C14, C15, C53 -/

namespace Ebnf.Props

open Ebnf Ebnf.Spec

/-- C01: for every way of cutting a text, feeding the pieces and flushing succeeds with given rules iff
`parse_str` of the text does. -/
theorem c01_chunk_independence (name text : Str) (chunks : List Str) (h : chunks.flatten = text)
    (rs : List SyntaxRule) :
    (feedAll chunks (Lexer.new name)).1 = .ok rs ↔ parseStr name text = .ok rs := by
  rw [parseStr_eq_feedAll, ← h]
  have := fun l' => feedAll_flatten (chunks := chunks) (rs := rs) (l' := l') (new_unlimited name) (new_inv name)
  constructor
  · intro hx
    have h1 := (this (feedAll chunks (Lexer.new name)).2).mp (Prod.ext hx rfl)
    rw [h1]
  · intro hx
    have h1 := (this (feedAll [chunks.flatten] (Lexer.new name)).2).mpr (Prod.ext hx rfl)
    rw [h1]

example : (feedAll ["a= (".toList, [], "*c".toList, "*)'x'".toList, ";".toList] (Lexer.new [])).1
    = parseStr [] "a= (*c*)'x';".toList ∧ ∃ r, parseStr [] "a= (*c*)'x';".toList = .ok [r] := by
  constructor
  · decide +kernel
  · exact ⟨⟨⟨[], 1, 1⟩, ['a'], .cons (.cons (.plain (.mk 1 (.terminalString ⟨[], 1, 9⟩ ['x']))) .nil) .nil⟩,
      by decide +kernel⟩

/-- C01 for the state in the middle of a text: two pushes are one push of the concatenation. -/
theorem c01_push_append (name : Str) (l l2 : Lexer) (hl : Accepted name 0 l) (a b : Str)
    (rs : List SyntaxRule) :
    pushAll [a, b] l = (.ok rs, l2) ↔ Lexer.pushStr (a ++ b) l = (.ok rs, l2) := by
  have hu : Unlimited l := by
    clear rs a b l2
    induction hl with
    | new => rfl
    | push _ h ih => obtain ⟨r, h1, _⟩ := push_ok h; exact pushStr_unlimited ih h1
    | pushStr _ h ih => exact pushStr_unlimited ih h
    | flush hl h ih =>
      obtain ⟨_, _, _, _, _, _, _, h2⟩ := flush_ok (accepted_inv hl) h
      rw [Unlimited, h2]; exact ih
  rw [pushAll_flatten hu (accepted_inv hl)]; simp

example : Accepted [] 0 (Lexer.pushStr "a = '".toList (Lexer.withCapacity [] 0)).2 :=
  .pushStr (s := "a = '".toList) (r := []) .new (by decide +kernel)

/-- C02: a single `push` completes at most one rule, and it returns that rule. -/
theorem c02_push_at_most_one (name : Str) (limit : Nat) (l l' : Lexer) (hl : Accepted name limit l) (c : Char)
    (rs : List SyntaxRule) (h : Lexer.pushStr [c] l = (.ok rs, l')) :
    rs.length ≤ 1 ∧ Lexer.push c l = (.ok rs.head?, l') := by
  refine ⟨pushStr_char_le_one (accepted_inv hl) h, ?_⟩
  rw [lexer_push_eq, first_run, h]; rfl

example : (Lexer.push ';' (Lexer.pushStr "a='x'".toList (Lexer.withCapacity [] 0)).2).1 =
    .ok (some ⟨⟨[], 1, 1⟩, ['a'],
      .cons (.cons (.plain (.mk 1 (.terminalString ⟨[], 1, 3⟩ ['x']))) .nil) .nil⟩) := by decide +kernel

/-- C02: `flush` completes at most one rule (`feed Tokenizer.flush` is `flush` before all but the first
completed rule are discarded), and it returns that rule. -/
theorem c02_flush_at_most_one (name : Str) (limit : Nat) (l l' : Lexer) (hl : Accepted name limit l)
    (rs : List SyntaxRule) (h : Lexer.feed Tokenizer.flush l = (.ok rs, l')) :
    rs.length ≤ 1 ∧ Lexer.flush l = (.ok rs.head?, l') := by
  have hf : Lexer.flush l = (.ok rs.head?, l') := by
    rw [Lexer.flush, first_run, h]; rfl
  refine ⟨?_, hf⟩
  have hi := accepted_inv hl
  rcases tokenizer_flush l.tokenizer hi with ⟨tks, h1, h2⟩ | ⟨e, h1, h2⟩
  · rw [Lexer.feed, h2] at h
    simp only at h
    have ha : Lexer.append l.tokens tks = (.ok rs, (Lexer.append l.tokens tks).2) :=
      Prod.ext (by simpa using congrArg Prod.fst h) rfl
    exact Nat.le_trans (append_count ha) (flushTok_count hi h1)
  · rw [Lexer.feed, h2] at h; simp at h

/-- C02: pushing character by character and collecting every returned rule gives the same rules as
`parse_str`. -/
theorem c02_pushing_characters (name text : Str) (rs : List SyntaxRule) :
    (feedChars text (Lexer.new name)).1 = .ok rs ↔ parseStr name text = .ok rs := by
  rw [feedChars_eq (new_inv name)]
  apply c01_chunk_independence
  induction text with
  | nil => rfl
  | cons c cs ih => simpa using ih

example : (feedChars "a='x';b=a".toList (Lexer.new [])).1 = parseStr [] "a='x';b=a".toList := by decide +kernel

/-- C03, false in general: the same text gives different errors for different cuts. -/
theorem c03_depends_on_cut :
    ∃ (name text : Str) (cut1 cut2 : List Str) (e1 e2 : Error), cut1.flatten = text ∧ cut2.flatten = text ∧
      (feedAll cut1 (Lexer.new name)).1 = .err e1 ∧ (feedAll cut2 (Lexer.new name)).1 = .err e2 ∧
      e1.location ≠ e2.location := by
  refine ⟨[], "= 'x'; :x".toList, ["= 'x'; :x".toList], ["= 'x';".toList, " :x".toList],
    ⟨⟨[], 1, 8⟩, .colonNotAllowed⟩, ⟨⟨[], 1, 1⟩, .metaIdentifierExpected .defining⟩, ?_, ?_, ?_, ?_, ?_⟩
  all_goals decide +kernel

/-- C03 for texts without lexical errors: the whole outcome (rules, error with its location and message,
or panic) is the same for every cut.  Missing: texts with a lexical error, for which it is false
(`c03_depends_on_cut`). -/
theorem c03_error_independence_partial (name text : Str) (ts : List Token)
    (hlex : Lexes (Location.new name) text ts) (chunks : List Str) (h : chunks.flatten = text) :
    (feedAll chunks (Lexer.new name)).1 = parseStr name text := by
  rw [parseStr_eq_feedAll]
  have hs : scanAll (Lexer.new name).tokenizer.location ((Lexer.new name).tokenizer.buffer ++ text) = _ :=
    scanAll_complete hlex
  subst h
  rw [feedAll_scan (new_unlimited name) (new_inv name) hs,
    feedAll_scan (chunks := [chunks.flatten]) (new_unlimited name) (new_inv name)
      (by rw [List.flatten_cons, List.flatten_nil, List.append_nil]; exact hs)]

example : Lexes (Location.new []) "=a".toList [.definingSymbol ⟨[], 1, 1⟩, .metaIdentifier ⟨[], 1, 2⟩ ['a']] ∧
    parseStr [] "=a".toList = .err ⟨⟨[], 1, 1⟩, .metaIdentifierExpected .defining⟩ := by
  constructor
  · exact .cons (s := ['=']) (.defining _) rfl trivial
      (.cons (s := ['a']) (.metaIdentifier _ 'a' [] (by decide) (by simp)) rfl trivial (.nil _))
  · decide +kernel

/-- C03 for texts with a lexical error `e`: fed in any pieces, the outcome is this same error with its
location, unless the parser stopped at a complete rule before the lexical error was met. -/
theorem c03_lexical_error (name : Str) (chunks : List Str) (e : Error)
    (he : (tokenizeAll [chunks.flatten] (Tokenizer.new name)).1 = .err e) :
    (feedAll chunks (Lexer.new name)).1 = .err e ∨
      (∃ e', (feedAll chunks (Lexer.new name)).1 = .err e' ∧ e'.msg.ofParser = true) ∨
      ∃ p, (feedAll chunks (Lexer.new name)).1 = .panic p := by
  rw [tokenizeAll_eq _ _ rfl (pending_nil _)] at he
  exact feedAll_lexical (new_unlimited name) (new_inv name) (by simpa [Lexer.new, Tokenizer.new] using he)

example : (tokenizeAll ["a = 'x'; :x".toList] (Tokenizer.new [])).1 = .err ⟨⟨[], 1, 10⟩, .colonNotAllowed⟩ ∧
    (feedAll ["a = 'x".toList, "'; :".toList, "x".toList] (Lexer.new [])).1 =
      .err ⟨⟨[], 1, 10⟩, .colonNotAllowed⟩ := by decide +kernel

/-- C04: after successful calls `flush` returns Ok or Err, or stops at the index panic of C05; it never
hits the assertion on the buffer.  When it succeeds nothing is left over. -/
theorem c04_flush (name : Str) (limit : Nat) (l : Lexer) (hl : Accepted name limit l) :
    ((∃ r, (Lexer.flush l).1 = .ok r) ∨ (∃ e, (Lexer.flush l).1 = .err e) ∨
      (Lexer.flush l).1 = .panic .indexOutOfBounds) ∧
    ∀ r l', Lexer.flush l = (.ok r, l') → l'.tokenizer.buffer = [] ∧ l'.tokens = [] := by
  obtain ⟨text, h⟩ := accepted_at hl
  constructor
  · have := h.flush_sat
    revert this
    cases (Lexer.flush l).1 with
    | ok r => exact fun _ => .inl ⟨r, rfl⟩
    | err e => exact fun _ => .inr (.inl ⟨e, rfl⟩)
    | panic p => intro h; exact .inr (.inr (by rw [show p = _ from h]))
    | diverge => exact fun h => h.elim
  · intro r l' hf
    obtain ⟨_, _, _, _, h1, _, _, h2⟩ := flush_ok h.pending hf
    rw [h2]; exact ⟨rfl, h1⟩

example : Accepted [] 0 (Lexer.pushStr "a = b, c (* x *)  ".toList (Lexer.withCapacity [] 0)).2 :=
  .pushStr (s := "a = b, c (* x *)  ".toList) (r := []) .new (by decide +kernel)

/-- C05, false in general: an integer right before a closing bracket makes `parse_str` panic. -/
theorem c05_panics : parseStr [] "a=(1);".toList = .panic .indexOutOfBounds := by decide +kernel

/-- C05 for texts in which no integer is directly (up to gaps and comments) followed by a closing
bracket: neither `parse_str` nor feeding in pieces panics.  Missing: the other texts, for which it is
false (`c05_panics`).  (The prefixes of the text are mentioned because a text may stop lexing after the
offending bracket.) -/
theorem c05_no_panic_partial (name text : Str)
    (h : ∀ pre ts, pre <+: text → Lexes (Location.new name) pre ts → ¬ IntegerBeforeClosing ts)
    (chunks : List Str) (hc : chunks.flatten = text) (p : Panic) :
    parseStr name text ≠ .panic p ∧ (feedAll chunks (Lexer.new name)).1 ≠ .panic p := by
  constructor
  · rw [parseStr_eq_feedAll]
    intro hp
    obtain ⟨pre, ts, h1, h2, h3⟩ := feedAll_panic hp
    exact h pre ts (by simpa using h1) h2 h3
  · intro hp
    obtain ⟨pre, ts, h1, h2, h3⟩ := feedAll_panic hp
    exact h pre ts (by rw [← hc]; exact h1) h2 h3

/-- Without digits, there is no integer token at all. -/
example : ∀ pre ts, pre <+: "a=('x'|b),{c};".toList → Lexes (Location.new []) pre ts →
    ¬ IntegerBeforeClosing ts := by
  have key : ∀ loc text ts, Lexes loc text ts → (∀ c ∈ text, ¬ IsDigit c) → ∀ l d, Token.integer l d ∉ ts := by
    intro loc text ts h
    induction h with
    | nil => simp
    | cons hsp _ _ _ ih =>
      intro hd l d hm
      rcases List.mem_cons.mp hm with rfl | hm
      · cases hsp with
        | integer _ c s hc _ => exact hd c (by simp) hc
      · exact ih (fun c hc => hd c (by simp [hc])) l d hm
  rintro pre ts hp hl ⟨p, l, d, g, c, q, rfl, _, _⟩
  refine key _ _ _ hl ?_ l d (by simp)
  intro c hc
  have := hp.subset hc
  clear hc
  revert c
  decide

/-- C05: whatever the text and the cuts, the only panic is the index out of bounds. -/
theorem c05_only_index_panic (name : Str) (limit : Nat) (chunks : List Str) (p : Panic)
    (h : (feedAll chunks (Lexer.withCapacity name limit)).1 = .panic p) : p = .indexOutOfBounds := by
  have := (At.new name limit).feedAll_sat chunks
  rw [h] at this; exact this

/-- C06: `parse_str`, and any sequence of pushes followed by flush, terminates. -/
theorem c06_terminates (name : Str) (limit : Nat) (chunks : List Str) :
    (feedAll chunks (Lexer.withCapacity name limit)).1 ≠ .diverge := by
  intro h
  have := (At.new name limit).feedAll_sat chunks
  rw [h] at this; exact this

theorem c06_parse_str_terminates (name text : Str) : parseStr name text ≠ .diverge := by
  rw [parseStr_eq_feedAll]
  exact c06_terminates name 0 [text]

/-- C07: a text, fed in any pieces, is split into tokens iff it is the concatenation of the spellings of
these tokens with maximal munch; the end marker comes last. -/
theorem c07_lexical_analysis_exact (name text : Str) (chunks : List Str) (h : chunks.flatten = text)
    (tks : List Token) :
    (tokenizeAll chunks (Tokenizer.new name)).1 = .ok tks ↔
      ∃ ts, Lexes (Location.new name) text ts ∧ tks = ts ++ [.eof (lineColumn (Location.new name) text)] := by
  rw [tokenizeAll_eq chunks (Tokenizer.new name) rfl (pending_nil _), h]
  show scanAll (Location.new name) text = _ ↔ _
  rw [← Location.pushStr_eq_lineColumn]
  constructor
  · exact scanAll_sound _ _ _
  · rintro ⟨ts, h1, rfl⟩
    exact scanAll_complete h1

/-- C07: the decomposition of a text into tokens is unique. -/
theorem c07_unique (start : Location) (text : Str) (ts us : List Token) (h : Lexes start text ts)
    (h' : Lexes start text us) : ts = us := lexes_unique h h'

/-- C07: the spellings of the tokens, concatenated, are the text. -/
theorem c07_nothing_lost (start : Location) (text : Str) (ts : List Token) (h : Lexes start text ts) :
    ∃ ss : List Str, text = ss.flatten ∧ ss.length = ts.length ∧
      ∀ (i : Nat) t s, ts[i]? = some t → ss[i]? = some s → Spelled t s := by
  induction h with
  | nil => exact ⟨[], rfl, rfl, by simp⟩
  | cons hsp _ _ _ ih =>
    rename_i tk s _ _ _ _ _
    obtain ⟨ss, h1, h2, h3⟩ := ih
    refine ⟨s :: ss, by rw [h1]; rfl, by simp [h2], ?_⟩
    intro i t u ht hu
    cases i with
    | zero => simp at ht hu; subst ht; subst hu; exact hsp
    | succ i => simp at ht hu; exact h3 i t u ht hu

example : (tokenizeAll ["a1".toList, " (* (* x *) *".toList, ")'y'".toList] (Tokenizer.new [])).1 =
    .ok [.metaIdentifier ⟨[], 1, 1⟩ ['a', '1'], .gapSeparatorSequence ⟨[], 1, 3⟩ [' '],
      .comment ⟨[], 1, 4⟩ " (* x *) ".toList, .terminalString ⟨[], 1, 17⟩ ['y'] '\'', .eof ⟨[], 1, 20⟩] := by
  decide +kernel

/-- C08: every token carries the line and column of its first character. -/
theorem c08_token_positions (name : Str) (chunks : List Str) (tks : List Token)
    (h : (tokenizeAll chunks (Tokenizer.new name)).1 = .ok tks) (t : Token) (ht : t ∈ tks) :
    ∃ pre s post, chunks.flatten = pre ++ s ++ post ∧ positionOf t = lineColumn (Location.new name) pre ∧
      (Spelled t s ∨ (s = [] ∧ post = [] ∧ ∃ l, t = .eof l)) := by
  obtain ⟨ts, h1, rfl⟩ := (c07_lexical_analysis_exact name _ chunks rfl tks).mp h
  rcases List.mem_append.mp ht with ht | ht
  · have : ∀ start text ts, Lexes start text ts → ∀ t ∈ ts,
        ∃ pre s post, text = pre ++ s ++ post ∧ positionOf t = lineColumn start pre ∧ Spelled t s := by
      intro start text ts h
      induction h with
      | nil => simp
      | cons hsp hpos _ _ ih =>
        rename_i start tk s rest tks _ _
        intro t ht
        rcases List.mem_cons.mp ht with rfl | ht
        · exact ⟨[], s, rest, rfl, by rw [hpos, ← Location.pushStr_eq_lineColumn]; rfl, hsp⟩
        · obtain ⟨pre, u, post, h1, h2, h3⟩ := ih t ht
          refine ⟨s ++ pre, u, post, by rw [h1]; simp, ?_, h3⟩
          rw [h2, ← Location.pushStr_eq_lineColumn, ← Location.pushStr_eq_lineColumn,
            ← Location.pushStr_eq_lineColumn, Location.pushStr_append]
    obtain ⟨pre, s, post, h2, h3, h4⟩ := this _ _ _ h1 t ht
    exact ⟨pre, s, post, h2, h3, .inl h4⟩
  · simp at ht; subst ht
    exact ⟨chunks.flatten, [], [], by simp, rfl, .inr ⟨rfl, rfl, _, rfl⟩⟩

/-- C14: in every reachable state, errors included, the buffer respects a non-zero limit. -/
theorem c14_buffer_bounded (name : Str) (limit : Nat) (hl : limit > 0) (ops : List Op) :
    (after ops (Lexer.withCapacity name limit)).tokenizer.buffer.length ≤ limit :=
  (keeps_after name limit ops).bounded hl

/-- C14: in every reachable state, a push is rejected as too long exactly when the pending characters
plus the pushed ones exceed a non-zero limit. -/
theorem c14_rejected_iff (name : Str) (limit : Nat) (ops : List Op) (s : Str) :
    (∃ e b a m, (Lexer.pushStr s (after ops (Lexer.withCapacity name limit))).1 = .err e ∧
      e.msg = .tooLong b a m) ↔
    limit > 0 ∧
      (after ops (Lexer.withCapacity name limit)).tokenizer.buffer.length + s.length > limit := by
  rw [pushStr_tooLong_iff, (keeps_after name limit ops).limit_eq]

/-- C14 for single characters. -/
theorem c14_push_rejected_iff (name : Str) (limit : Nat) (ops : List Op) (c : Char) :
    (∃ e b a m, (Lexer.push c (after ops (Lexer.withCapacity name limit))).1 = .err e ∧
      e.msg = .tooLong b a m) ↔
    limit > 0 ∧
      (after ops (Lexer.withCapacity name limit)).tokenizer.buffer.length + 1 > limit := by
  rw [← show [c].length = 1 from rfl, ← c14_rejected_iff]
  simp only [push_fst_err]

/-- C14: a rejected push changes nothing. -/
theorem c14_rejected_unchanged (l l' : Lexer) (s : Str) (e : Error) (b a m : Nat)
    (h : Lexer.pushStr s l = (.err e, l')) (he : e.msg = .tooLong b a m) : l' = l := by
  have hc := (pushStr_tooLong_iff l s).mp ⟨e, b, a, m, by rw [h], he⟩
  have : (Lexer.pushStr s l).2 = l := by
    simp [Lexer.pushStr, Lexer.feed, Tokenizer.pushStr, Tokenizer.ensureCapacity, hc, Res.fail]
  rw [← this, h]

example : (Lexer.pushStr "bcd".toList (after [.pushStr "a=".toList, .push '\'', .pushStr "ab".toList]
    (Lexer.withCapacity [] 4))).1 = .err ⟨⟨[], 1, 3⟩, .tooLong 3 3 4⟩ := by decide +kernel

/-- C15: after any history, `reset` gives the very state of a new lexer with the same name and limit. -/
theorem c15_reset_is_new (name : Str) (limit : Nat) (ops : List Op) :
    (after ops (Lexer.withCapacity name limit)).reset = Lexer.withCapacity name limit :=
  reset_eq_new (keeps_after name limit ops)

/-- C15: hence every continuation behaves the same. -/
theorem c15_continuation (name : Str) (limit : Nat) (ops : List Op) (chunks : List Str) :
    feedAll chunks (after (ops ++ [.reset]) (Lexer.withCapacity name limit)) =
      feedAll chunks (Lexer.withCapacity name limit) := by
  have : ∀ (ops : List Op) l, after (ops ++ [.reset]) l = (after ops l).reset := by
    intro ops
    induction ops with
    | nil => intro l; rfl
    | cons op ops ih => intro l; exact ih _
  rw [this, c15_reset_is_new]

example : after [.pushStr "a = :x".toList, .push 'b', .flush] (Lexer.withCapacity [] 0) ≠
    Lexer.withCapacity [] 0 := by decide +kernel

/-- C53: every error of the lexer, for any text, cuts and limit, points at a position of the text. -/
theorem c53_errors_point_into_text (name : Str) (limit : Nat) (chunks : List Str) (e : Error)
    (h : (feedAll chunks (Lexer.withCapacity name limit)).1 = .err e) :
    ∃ pre, pre <+: chunks.flatten ∧ e.location = lineColumn (Location.new name) pre := by
  have := (At.new name limit).feedAll_sat chunks
  rw [h] at this
  obtain ⟨pre, h1, h2⟩ := this
  exact ⟨pre, by simpa using h1, by rw [h2, Location.pushStr_eq_lineColumn]⟩

example : (feedAll ["a = b\n".toList, " = c".toList] (Lexer.withCapacity [] 10)).1 =
    .err ⟨⟨[], 2, 2⟩, .separatorExpected .defining⟩ := by decide +kernel

end Ebnf.Props
