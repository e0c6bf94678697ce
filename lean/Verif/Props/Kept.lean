import Verif.Proofs.Exact
import Verif.Proofs.Limit
import Verif.Proofs.Terminator
import Verif.Proofs.FaultParse

set_option autoImplicit false

/-! # C95: what the streaming lexer returns at once, and what it keeps -/

namespace Ebnf.Props

open Ebnf Ebnf.Spec

private theorem lexes_split {start : Location} {text : Str} {ts us : List Token} (h : Lexes start text (ts ++ us)) :
    ∃ a b, text = a ++ b ∧ Lexes start a ts ∧ Lexes (lineColumn start a) b us ∧
      ∀ t, ts.getLast? = some t → Ends t b.head? := by
  induction ts generalizing start text with
  | nil => exact ⟨[], text, rfl, .nil _, by simpa [lineColumn_nil] using h, by simp⟩
  | cons t ts ih =>
    cases h with
    | @cons _ _ s rest _ h1 h2 h3 h4 =>
      obtain ⟨a, b, rfl, h5, h6, h7⟩ := ih h4
      refine ⟨s ++ a, b, by simp, .cons h1 h2 ?_ h5, by rw [← lineColumn_append]; exact h6, ?_⟩
      · cases a with
        | nil => exact ends_none _
        | cons x xs => simpa using h3
      · intro u hu
        cases ts with
        | nil =>
          simp only [List.getLast?_singleton, Option.some.injEq] at hu
          subst hu
          cases h5
          simpa using h3
        | cons v vs => exact h7 u (by simpa [List.getLast?_cons_cons] using hu)

private theorem pushAll_known (name : Str) (limit : Nat) (pieces : List Str) (rules : List SyntaxRule) (l : Lexer)
    (h : pushAll pieces (Lexer.withCapacity name limit) = (.ok rules, l)) :
    ∃ tks, tokLoop (Location.new name) pieces.flatten = (.ok tks, l.tokenizer.location, l.tokenizer.buffer) ∧
      Lexer.append [] tks = (.ok rules, l.tokens) := by
  have h0 : pushAll pieces (Lexer.new name) = (.ok rules, unlimit l) := by
    rcases pushAll_limit pieces (Lexer.withCapacity name limit) with ⟨e, he, _⟩ | he
    · rw [h] at he; cases he
    · rw [h, unlimit_new] at he; exact he
  rw [pushAll_flatten (new_unlimited name) (new_inv name)] at h0
  obtain ⟨tks, h1, h2, _⟩ := pushStr_ok h0
  exact ⟨tks, h1, h2⟩

/-- C95: after any successful pushes, with or without a limit, the rules that have been returned are those of all the
terminator symbols that are certain to be there, and the lexer keeps exactly the text behind the last of them: the tokens
`l.tokens`, which contain no terminator, and the characters `l.tokenizer.buffer` that are not yet certain to be a token. -/
theorem c95_kept (name : Str) (limit : Nat) (pieces : List Str) (rules : List SyntaxRule) (l : Lexer)
    (h : pushAll pieces (Lexer.withCapacity name limit) = (.ok rules, l)) :
    ∃ returned kept done, pieces.flatten = returned ++ kept ++ l.tokenizer.buffer ∧
      MostCertain (Location.new name) pieces.flatten (returned ++ kept) ∧
      Lexes (Location.new name) returned done ∧ RulesG done rules ∧
      Lexes (lineColumn (Location.new name) returned) kept l.tokens ∧ ∀ t ∈ l.tokens, ¬ IsTerminator t := by
  obtain ⟨tks, h1, h2⟩ := pushAll_known name limit pieces rules l h
  obtain ⟨used, h3, h4, h5⟩ := tokLoop_mostCertain h1
  obtain ⟨used', h6, h7⟩ := tokLoop_lexes h1
  have : used' = used := List.append_cancel_right (h6.symm.trans h3)
  subst this
  obtain ⟨us, h8, h9⟩ := append_sound noTerm_nil (by simpa using (lexes_genuine h7).named) h2
  rw [List.nil_append] at h8
  subst h8
  obtain ⟨a, b, rfl, h10, h11, _⟩ := lexes_split h7
  exact ⟨a, b, us, h3, h5, h10, h9, h11, (noTerm_iff _).mp (append_noTerm noTerm_nil h2)⟩

/-- C95: when the pushed text ends in a terminator symbol, the pushes have returned all rules of the text — `flush` is not
needed — and nothing is kept. -/
theorem c95_prompt (name : Str) (pieces : List Str) (ts : List Token) (loc : Location) (c : Char)
    (hl : Lexes (Location.new name) pieces.flatten (ts ++ [.terminatorSymbol loc c])) (rules : List SyntaxRule) :
    parseStr name pieces.flatten = .ok rules ↔
      pushAll pieces (Lexer.new name) = (.ok rules, ⟨⟨0, [], lineColumn (Location.new name) pieces.flatten⟩, []⟩) := by
  have hcert : ∀ t c', (ts ++ [Token.terminatorSymbol loc c]).getLast? = some t → Ends t ([] ++ [c'] : Str).head? := by
    intro t c' ht
    simp at ht
    subst ht
    trivial
  have htl := tokLoop_of_certain hl hcert
  have hnil : tokLoop ((Location.new name).pushStr pieces.flatten) [] =
      (.ok [], (Location.new name).pushStr pieces.flatten, []) := tokLoop_none (by simp [readNext])
  rw [List.append_nil, hnil] at htl
  simp only [prependTok, List.append_nil] at htl
  have hback : ∀ rs l, pushAll pieces (Lexer.new name) = (.ok rs, l) →
      l = ⟨⟨0, [], lineColumn (Location.new name) pieces.flatten⟩, []⟩ := by
    intro rs l h
    have hs := (pushAll_flatten (new_unlimited name) (new_inv name)).mp h
    obtain ⟨tks, h1, h2, h3⟩ := pushStr_ok hs
    change tokLoop (Location.new name) pieces.flatten = _ at h1
    rw [htl] at h1
    simp only [Prod.mk.injEq, Res.ok.injEq] at h1
    obtain ⟨rfl, h4, h5⟩ := h1
    change Lexer.append [] _ = _ at h2
    have h6 : l.tokens = [] := by
      have hno := append_noTerm noTerm_nil h2
      obtain ⟨us, h8, h9⟩ := append_sound noTerm_nil (by simpa using (lexes_genuine hl).named) h2
      rw [List.nil_append] at h8
      rcases List.eq_nil_or_concat l.tokens with hx | ⟨xs, x, hx⟩
      · exact hx
      · rw [hx, List.concat_eq_append, ← List.append_assoc] at h8
        have := (List.append_inj' h8 rfl).2
        simp at this
        have hbad := hno x (by rw [hx]; simp)
        rw [← this] at hbad
        simp [Token.isTerminator] at hbad
    obtain ⟨⟨m, b, lc⟩, tk⟩ := l
    simp only at h3 h4 h5 h6
    subst h4 h5 h6
    rw [Location.pushStr_eq_lineColumn]
    simp only [Lexer.mk.injEq, Tokenizer.mk.injEq, and_true]
    exact h3
  have hflush : ∀ rs l, pushAll pieces (Lexer.new name) = (.ok rs, l) → (Lexer.flush l).1 = .ok none := by
    intro rs l h
    exact flush_after_terminator hl (by simp [Blanks])
      ((pushAll_flatten (new_unlimited name) (new_inv name)).mp h)
  have hfeed : parseStr name pieces.flatten = .ok rules ↔ (feedAll pieces (Lexer.new name)).1 = .ok rules := by
    rw [parseStr_eq_feedAll]
    constructor
    · intro h
      rcases hx : feedAll [pieces.flatten] (Lexer.new name) with ⟨r, l⟩
      rw [hx] at h
      simp only at h
      subst h
      rw [(feedAll_flatten (new_unlimited name) (new_inv name)).mpr hx]
    · intro h
      rcases hx : feedAll pieces (Lexer.new name) with ⟨r, l⟩
      rw [hx] at h
      simp only at h
      subst h
      rw [(feedAll_flatten (new_unlimited name) (new_inv name)).mp hx]
  rw [hfeed]
  unfold feedAll
  rcases hx : pushAll pieces (Lexer.new name) with ⟨r, l⟩
  simp only [RM.bind_run, hx]
  cases r with
  | ok rs =>
    have h1 := hflush rs l hx
    have h2 := hback rs l hx
    simp only
    rcases hy : Lexer.flush l with ⟨r', l'⟩
    rw [hy] at h1
    simp only at h1
    subst h1
    simp only [RM.pure_run]
    rw [← h2]
    simp
  | err e => simp
  | panic p => simp
  | diverge => simp

/-- Reading the rest of a text after its certain beginning. -/
private theorem lexes_after {start : Location} {used rest : Str} {ts us : List Token} (h : Lexes start used ts)
    (he : ∀ t c, ts.getLast? = some t → Ends t (rest ++ [c]).head?) (h' : Lexes start (used ++ rest) us) :
    ∃ vs, us = ts ++ vs ∧ Lexes (lineColumn start used) rest vs := by
  have h1 := scanAll_complete h'
  have h2 := tokLoop_of_certain h he
  unfold scanAll at h1
  rw [h2] at h1
  rcases hx : tokLoop (start.pushStr used) rest with ⟨r, l, s⟩
  rw [hx] at h1
  cases r with
  | ok tks =>
    simp only [prependTok] at h1
    cases hf : flushTok l s with
    | ok fs =>
      rw [hf] at h1
      simp only [Res.bind, Res.ok.injEq] at h1
      have h3 : scanAll (start.pushStr used) rest = .ok (tks ++ fs) := by
        unfold scanAll
        rw [hx]
        simp [hf, Res.bind]
      obtain ⟨vs, h4, h5⟩ := scanAll_sound _ _ _ h3
      rw [Location.pushStr_eq_lineColumn] at h4
      refine ⟨vs, ?_, h4⟩
      rw [List.append_assoc, h5, ← List.append_assoc] at h1
      exact (List.append_inj' h1 rfl).1.symm
    | err e => rw [hf] at h1; simp [Res.bind] at h1
    | panic p => rw [hf] at h1; simp [Res.bind] at h1
    | diverge => rw [hf] at h1; simp [Res.bind] at h1
  | err e => simp [prependTok] at h1
  | panic p => simp [prependTok] at h1
  | diverge => simp [prependTok] at h1

/-- C95: while a text is being pushed, the lexer never keeps more of it than the longest stretch without a terminator
symbol: if no such stretch has more than `n` characters, what is kept has at most `n` characters, however long the text. -/
theorem c95_memory (name : Str) (limit : Nat) (pieces : List Str) (rules : List SyntaxRule) (l : Lexer)
    (h : pushAll pieces (Lexer.withCapacity name limit) = (.ok rules, l)) (later : Str) (ts : List Token)
    (hl : Lexes (Location.new name) (pieces.flatten ++ later) ts) (n : Nat)
    (hn : ∀ before stretch after start s, ts = before ++ stretch ++ after → (∀ t ∈ stretch, ¬ IsTerminator t) →
      Lexes start s stretch → s.length ≤ n) :
    ∃ start kept, Lexes start kept l.tokens ∧ kept.length + l.tokenizer.buffer.length ≤ n := by
  obtain ⟨tks, h1, h2⟩ := pushAll_known name limit pieces rules l h
  obtain ⟨returned, kept, done, h3, _, h4, h5, h6, h7⟩ := c95_kept name limit pieces rules l h
  obtain ⟨used, h8, h9⟩ := tokLoop_lexes h1
  have hu : used = returned ++ kept := List.append_cancel_right (h8.symm.trans h3)
  subst hu
  obtain ⟨us, h10, _⟩ := append_sound noTerm_nil (by simpa using (lexes_genuine h9).named) h2
  rw [List.nil_append] at h10
  subst h10
  have hc : ∀ t c, (us ++ l.tokens).getLast? = some t → Ends t ((l.tokenizer.buffer ++ later) ++ [c]).head? := by
    intro t c ht
    have := tokLoop_certain h1
    cases hb : l.tokenizer.buffer ++ later with
    | nil =>
      rw [(List.append_eq_nil_iff.mp hb).1] at this
      exact this c t ht
    | cons x xs =>
      have h11 := this x t ht
      cases hb' : l.tokenizer.buffer with
      | nil => rw [hb'] at h11; simpa using h11
      | cons y ys => rw [hb'] at h11 hb; simp at hb h11; simpa [hb.1] using h11
  rw [h8, List.append_assoc] at hl
  obtain ⟨vs, rfl, h12⟩ := lexes_after h9 hc hl
  refine ⟨_, kept, h6, ?_⟩
  cases hb : l.tokenizer.buffer with
  | nil =>
    simp only [List.length_nil, Nat.add_zero]
    exact hn us l.tokens vs _ kept (by simp) h7 h6
  | cons x xs =>
    rw [hb] at h12
    have hpend : readNext (lineColumn (Location.new name) (returned ++ kept)) (x :: xs) false = .ok none := by
      have h13 := (tokLoop_ok h1).1
      obtain ⟨_, used', h14, h15⟩ := tokLoop_ok h1
      have hu' : used' = returned ++ kept := List.append_cancel_right (h14.symm.trans h3)
      rw [hu', Location.pushStr_eq_lineColumn] at h15
      rw [hb, h15] at h13
      exact h13
    generalize htx : x :: xs ++ later = tx at h12
    generalize hst : lineColumn (Location.new name) (returned ++ kept) = st at h12 hpend
    cases vs with
    | nil => cases h12; simp at htx
    | cons t vs =>
      cases h12 with
      | @cons _ _ s rest _ hsp hpos hend hrest =>
        -- the token that the buffer begins is at least as long as the buffer
        have hlen : (x :: xs).length ≤ s.length := by
          apply Classical.byContradiction
          intro hlt
          have hlt : s.length < (x :: xs).length := by omega
          have hpre : x :: xs = s ++ (x :: xs).drop s.length := by
            have e := congrArg (List.take s.length) htx
            rw [List.take_append_of_le_length (by omega), List.take_left] at e
            conv => lhs; rw [← List.take_append_drop s.length (x :: xs)]
            rw [e]
          have hhead : ((x :: xs).drop s.length).head? = rest.head? := by
            have e := congrArg (List.drop s.length) htx
            rw [List.drop_append_of_le_length (by omega), List.drop_left] at e
            rw [← e]
            cases hd : (x :: xs).drop s.length with
            | nil =>
              have := congrArg List.length hd
              simp at this hlt
              omega
            | cons y ys => rfl
          rcases readNext_complete hsp ((x :: xs).drop s.length) (by rw [hhead]; exact hend) with h13 | ⟨h13, _⟩
          · rw [← hpre, hpos, hpend] at h13; cases h13
          · have := congrArg List.length h13
            simp at this hlt
            omega
        have hnt : ¬ IsTerminator t := by
          intro ht
          cases hsp with
          | terminator loc c hcc =>
            have hxs : xs = [] := by simpa using hlen
            subst hxs
            have : x = c := by simpa using congrArg List.head? htx
            subst this
            rcases List.mem_cons.mp hcc with rfl | hcc
            · simp [readNext] at hpend
            · rcases List.mem_cons.mp hcc with rfl | hcc
              · simp [readNext] at hpend
              · simp at hcc
          | _ => exact ht
        have hall : Lexes (lineColumn (Location.new name) returned) (kept ++ s) (l.tokens ++ [t]) := by
          refine lexes_append h6 (fun u hu => ?_) ?_
          · have := tokLoop_certain h1 ' ' u (by
              rw [List.getLast?_append, hu]; rfl)
            rw [hb] at this
            have hs : s.head? = some x := by
              have e := congrArg List.head? htx
              cases hs : s with
              | nil => rw [hs] at hlen; simp at hlen
              | cons y ys => rw [hs] at e; simpa using e.symm
            rw [hs]; simpa using this
          · rw [lineColumn_append, hst]
            have := Lexes.cons (rest := []) hsp hpos (ends_none t) (.nil _)
            simpa using this
        have := hn us (l.tokens ++ [t]) vs _ _ (by simp) (by
          intro u hu
          rcases List.mem_append.mp hu with hu | hu
          · exact h7 u hu
          · simp at hu; subst hu; exact hnt) hall
        rw [List.length_append] at this
        omega

/-- `a = 'x';` has been pushed completely, of the next rule two tokens and the beginning of a string. -/
example : pushAll ["a = 'x".toList, "';b='".toList, "y".toList] (Lexer.withCapacity [] 9) =
    (.ok [⟨⟨[], 1, 1⟩, ['a'], .cons (.cons (.plain (.mk 1 (.terminalString ⟨[], 1, 5⟩ ['x']))) .nil) .nil⟩],
      ⟨⟨9, "'y".toList, ⟨[], 1, 11⟩⟩, [.metaIdentifier ⟨[], 1, 9⟩ ['b'], .definingSymbol ⟨[], 1, 10⟩]⟩) := by
  decide +kernel

/-- The tokens of `a=;`. -/
private def three : List Token :=
  [.metaIdentifier ⟨[], 1, 1⟩ ['a'], .definingSymbol ⟨[], 1, 2⟩, .terminatorSymbol ⟨[], 1, 3⟩ ';']

private theorem three_lexes : Lexes (Location.new []) "a=;".toList three :=
  .cons (s := ['a']) (.metaIdentifier _ 'a' [] (by decide) (by simp)) rfl
    (show ¬ IsLetter '=' ∧ ¬ IsDigit '=' by decide)
    (.cons (s := ['=']) (.defining _) rfl trivial
      (.cons (s := [';']) (.terminator _ ';' (by simp)) rfl trivial (.nil _)))

example : ∃ rules, parseStr [] ["a".toList, "=;".toList].flatten = .ok rules ∧ rules ≠ [] ∧
    pushAll ["a".toList, "=;".toList] (Lexer.new []) = (.ok rules, ⟨⟨0, [], ⟨[], 1, 4⟩⟩, []⟩) := by
  refine ⟨[⟨⟨[], 1, 1⟩, ['a'], .cons (.cons (.plain (.mk 1 (.empty ⟨[], 1, 3⟩))) .nil) .nil⟩], by decide +kernel, by simp, ?_⟩
  exact (c95_prompt [] ["a".toList, "=;".toList] [.metaIdentifier ⟨[], 1, 1⟩ ['a'], .definingSymbol ⟨[], 1, 2⟩]
    ⟨[], 1, 3⟩ ';' three_lexes _).mp (by decide +kernel)

/-- `a=` has been pushed and `;` is still to come: no stretch without a terminator has more than two characters. -/
example : ∃ l start kept, pushAll ["a".toList, "=".toList] (Lexer.withCapacity [] 0) = (.ok [], l) ∧
    Lexes start kept l.tokens ∧ kept.length + l.tokenizer.buffer.length ≤ 2 ∧ l.tokens.length = 2 := by
  have h : pushAll ["a".toList, "=".toList] (Lexer.withCapacity [] 0) =
      (.ok [], ⟨⟨0, [], ⟨[], 1, 3⟩⟩, [.metaIdentifier ⟨[], 1, 1⟩ ['a'], .definingSymbol ⟨[], 1, 2⟩]⟩) := by decide +kernel
  obtain ⟨start, kept, h1, h2⟩ := c95_memory [] 0 _ _ _ h ";".toList three three_lexes 2 (by
    intro before stretch after start s he ht hs
    have hone : ∀ (start : Location) (s : Str) (ts : List Token), Lexes start s ts → (∀ t ∈ ts, t ∈ three) →
        s.length = ts.length := by
      intro start s ts hl
      induction hl with
      | nil => intro _; rfl
      | cons hsp _ _ _ ih =>
        intro hm
        have h1 := hm _ (List.mem_cons_self ..)
        have h2 := ih (fun t ht => hm t (List.mem_cons_of_mem _ ht))
        have : ∀ t s, t ∈ three → Spelled t s → s.length = 1 := by
          intro t s ht hs
          simp only [three, List.mem_cons, List.not_mem_nil, or_false] at ht
          rcases ht with rfl | rfl | rfl <;> cases hs <;> rfl
        have h3 := this _ _ h1 hsp
        simp only [List.length_append, List.length_cons, h2, h3]
        omega
    have h3 := hone start s stretch hs (fun t ht => by rw [he]; simp [ht])
    have h4 := congrArg List.length he
    simp only [three, List.length_append, List.length_cons, List.length_nil] at h4
    rw [h3]
    by_cases h5 : stretch.length ≤ 2
    · exact h5
    · have hb : before = [] := List.eq_nil_of_length_eq_zero (by omega)
      have ha : after = [] := List.eq_nil_of_length_eq_zero (by omega)
      subst hb ha
      simp only [List.nil_append, List.append_nil] at he
      exact absurd trivial (ht (.terminatorSymbol ⟨[], 1, 3⟩ ';') (by rw [← he]; simp [three])))
  exact ⟨_, start, kept, h, h1, h2, rfl⟩

end Ebnf.Props
