import Verif.Proofs.ErrorText
import Verif.Proofs.History
import Verif.Model.Syntax
import Verif.Spec.Shape

set_option autoImplicit false

/-! # Which messages the lexer and the validation give -/

namespace Ebnf

open Ebnf.Spec

theorem tokenizer_composed {m : Msg} (h : m.ofTokenizer = true) (n : Str) : Composed m ∧ MentionsOnly n m := by
  cases m <;> first | exact ⟨trivial, trivial⟩ | cases h

theorem parser_composed {m : Msg} (h : m.ofParser = true) (n : Str) : Composed m ∧ MentionsOnly n m := by
  cases m <;> first | exact ⟨trivial, trivial⟩ | cases h

theorem tokenizeLoop_composed {fuel : Nat} {loc : Location} {rest : Str} {e : Error} (n : Str)
    (h : (Tokenizer.tokenizeLoop fuel loc rest).1 = .err e) : Composed e.msg ∧ MentionsOnly n e.msg := by
  induction fuel generalizing loc rest with
  | zero => rw [Tokenizer.tokenizeLoop] at h; simp only at h; split at h <;> cases h
  | succ fuel ih =>
    rw [Tokenizer.tokenizeLoop] at h
    by_cases hr : rest.isEmpty = true
    · rw [if_pos hr] at h; cases h
    · rw [if_neg hr] at h
      have hl := readNext_lexSat loc rest false
      cases hn : readNext loc rest false with
      | ok o =>
        rw [hn] at h
        cases o with
        | none => cases h
        | some x =>
          obtain ⟨tk, k⟩ := x
          simp only at h
          have ih := @ih (loc.pushStr (rest.take k)) (rest.drop k)
          revert ih h
          cases Tokenizer.tokenizeLoop fuel (loc.pushStr (rest.take k)) (rest.drop k) with
          | mk r y =>
            cases r with
            | ok _ => intro h; cases h
            | err e' => intro h ih; exact ih h
            | panic _ => intro h; cases h
            | diverge => intro h; cases h
      | err e' =>
        rw [hn] at h hl
        simp only [Res.err.injEq] at h
        subst h
        exact tokenizer_composed hl.2 n
      | panic _ => rw [hn] at h; cases h
      | diverge => rw [hn] at h; cases h

theorem tokenizerPushStr_composed {s : Str} {t : Tokenizer} {e : Error} (n : Str) (h : (Tokenizer.pushStr s t).1 = .err e) :
    Composed e.msg ∧ MentionsOnly n e.msg := by
  rw [Tokenizer.pushStr] at h
  cases hc : t.ensureCapacity s.length with
  | ok u =>
    rw [hc] at h
    simp only [Tokenizer.tokenize] at h
    cases hx : Tokenizer.tokenizeLoop (t.buffer ++ s).length t.location (t.buffer ++ s) with
    | mk r y =>
      rw [hx] at h
      cases r with
      | ok _ => cases h
      | err e' => exact tokenizeLoop_composed n (by rw [hx]; exact h)
      | panic _ => cases h
      | diverge => cases h
  | err e' =>
    rw [hc] at h
    simp only [Res.err.injEq] at h
    subst h
    rw [Tokenizer.ensureCapacity] at hc
    split at hc
    · simp only [Res.fail, Res.err.injEq] at hc
      rw [← hc]; exact ⟨trivial, trivial⟩
    · cases hc
  | panic _ => rw [hc] at h; cases h
  | diverge => rw [hc] at h; cases h

theorem tokenizerFlush_composed {t : Tokenizer} {e : Error} (n : Str) (h : (Tokenizer.flush t).1 = .err e) :
    Composed e.msg ∧ MentionsOnly n e.msg := by
  have hr := readNext_lexSat t.location t.buffer true
  simp only [Tokenizer.flush] at h
  cases hx : readNext t.location t.buffer true with
  | ok o =>
    rw [hx] at h
    cases o with
    | none => simp only at h; split at h <;> cases h
    | some x => simp only at h; split at h <;> cases h
  | err e' =>
    rw [hx] at h hr
    simp only [Res.err.injEq] at h
    subst h
    exact tokenizer_composed hr.2 n
  | panic p => rw [hx] at h; cases h
  | diverge => rw [hx] at h; cases h

theorem feed_composed {l : Lexer} {m : RM Tokenizer (List Token)} (n : Str)
    (hm : ∀ e, (m l.tokenizer).1 = .err e → Composed e.msg ∧ MentionsOnly n e.msg) {e : Error} (h : (Lexer.feed m l).1 = .err e) :
    Composed e.msg ∧ MentionsOnly n e.msg := by
  rw [Lexer.feed] at h
  generalize m l.tokenizer = x at h hm
  obtain ⟨r, tz⟩ := x
  cases r with
  | ok tks =>
    simp only at h
    have ha := append_sat l.tokens tks
    cases hx : Lexer.append l.tokens tks with
    | mk q u =>
      rw [hx] at h ha
      simp only at h
      subst h
      exact parser_composed ha.2 n
  | err e' =>
    simp only [Res.err.injEq] at h
    subst h
    exact hm e' rfl
  | panic p => cases h
  | diverge => cases h

theorem lexerPushStr_composed {s : Str} {l : Lexer} {e : Error} (n : Str) (h : (Lexer.pushStr s l).1 = .err e) :
    Composed e.msg ∧ MentionsOnly n e.msg :=
  feed_composed n (fun _ => tokenizerPushStr_composed n) h

theorem lexerFlush_composed {l : Lexer} {e : Error} (n : Str) (h : (Lexer.flush l).1 = .err e) :
    Composed e.msg ∧ MentionsOnly n e.msg := by
  refine feed_composed (m := Tokenizer.flush) (l := l) n (fun _ => tokenizerFlush_composed n) ?_
  revert h
  unfold Lexer.flush Lexer.first
  simp only [RM.bind_run]
  cases Lexer.feed Tokenizer.flush l with
  | mk r y => cases r <;> (intro h; cases h) <;> rfl

theorem pushAll_composed {chunks : List Str} {l : Lexer} {e : Error} (n : Str) (h : (pushAll chunks l).1 = .err e) :
    Composed e.msg ∧ MentionsOnly n e.msg := by
  induction chunks generalizing l with
  | nil => cases h
  | cons c cs ih =>
    simp only [pushAll, RM.bind_run] at h
    cases hx : Lexer.pushStr c l with
    | mk r l' =>
      rw [hx] at h
      cases r with
      | ok rs =>
        simp only at h
        cases hy : pushAll cs l' with
        | mk q l'' =>
          rw [hy] at h
          cases q with
          | ok _ => cases h
          | err e' => exact ih (l := l') (by rw [hy]; exact h)
          | panic _ => cases h
          | diverge => cases h
      | err e' => exact lexerPushStr_composed n (by rw [hx]; exact h)
      | panic _ => cases h
      | diverge => cases h

theorem feedAll_composed {chunks : List Str} {l : Lexer} {e : Error} (n : Str) (h : (feedAll chunks l).1 = .err e) :
    Composed e.msg ∧ MentionsOnly n e.msg := by
  simp only [feedAll, RM.bind_run] at h
  cases hx : pushAll chunks l with
  | mk r l' =>
    rw [hx] at h
    cases r with
    | ok rs =>
      simp only at h
      cases hy : Lexer.flush l' with
      | mk q l'' =>
        rw [hy] at h
        cases q with
        | ok _ => cases h
        | err e' =>
          cases h
          exact lexerFlush_composed n (by rw [hy])
        | panic _ => cases h
        | diverge => cases h
    | err e' => exact pushAll_composed n (by rw [hx]; exact h)
    | panic _ => cases h
    | diverge => cases h

/-! ## Validation -/

theorem newSyntaxLoop_err {all : List SyntaxRule} {rs : List SyntaxRule} {i : Nat} {names : Map Str} {rules : Map Nat} {e : Error}
    (h : newSyntaxLoop all i rs names rules = .err e) : ∃ r ∈ rs, e.location = r.location ∧ ∃ a b c, e.msg = .duplicate a b c := by
  induction rs generalizing i names rules with
  | nil => cases h
  | cons r rs ih =>
    rw [newSyntaxLoop] at h
    split at h
    · cases h
    · cases hn : names.get? (keyedMetaIdentifier r.metaIdentifier) with
      | some _ =>
        rw [hn] at h
        simp only at h
        split at h
        · simp only [Res.fail, Res.err.injEq] at h
          subst h
          exact ⟨r, by simp, rfl, _, _, _, rfl⟩
        · cases h
      | none =>
        rw [hn] at h
        obtain ⟨q, hq, h'⟩ := ih h
        exact ⟨q, by simp [hq], h'⟩

theorem isDef_err {defined : Str → Bool} {p : Primary} {e : Error} (h : isDef defined p = .err e) :
    ∃ name, p = .metaIdentifier e.location name ∧ e.msg = .notDefined name := by
  cases p <;> simp only [isDef] at h <;> first | cases h | skip
  split at h
  · cases h
  · simp only [Res.fail, Res.err.injEq] at h
    subst h
    exact ⟨_, rfl, rfl⟩

theorem factor_primary_mem {f : Factor} {l : Location} {n : Str} (h : f.primary = .metaIdentifier l n) :
    Primary.metaIdentifier l n ∈ primariesOfFactor f := by
  obtain ⟨k, p⟩ := f
  simp only [Factor.primary] at h
  subst h
  simp [primariesOfFactor, primariesIn]

theorem bind_err_cases {α β : Type} {x : Res α} {f : α → Res β} {e : Error} (h : (x >>= f) = .err e) :
    x = .err e ∨ ∃ a, x = .ok a ∧ f a = .err e := by
  cases x with
  | ok a => exact .inr ⟨a, rfl, h⟩
  | err e' => rw [Res.bind_err] at h; cases h; exact .inl rfl
  | panic _ => cases h
  | diverge => cases h

theorem isDefinedTerms_err {defined : Str → Bool} : ∀ {d : SingleDefinition} {e : Error}, isDefinedTerms defined d = .err e →
    ∃ name, Primary.metaIdentifier e.location name ∈ primariesOfSingle d ∧ e.msg = .notDefined name
  | .nil, _, h => by cases h
  | .cons (.plain f) r, e, h => by
    rw [isDefinedTerms] at h
    rcases bind_err_cases h with h | ⟨_, _, h⟩
    · obtain ⟨n, h1, h2⟩ := isDef_err h
      exact ⟨n, by simp [primariesOfSingle, primariesOfTerm, factor_primary_mem h1], h2⟩
    · obtain ⟨n, h1, h2⟩ := isDefinedTerms_err h
      exact ⟨n, by simp [primariesOfSingle, h1], h2⟩
  | .cons (.except f x) r, e, h => by
    rw [isDefinedTerms] at h
    rcases bind_err_cases h with h | ⟨_, _, h⟩
    · obtain ⟨n, h1, h2⟩ := isDef_err h
      exact ⟨n, by simp [primariesOfSingle, primariesOfTerm, factor_primary_mem h1], h2⟩
    · rcases bind_err_cases h with h | ⟨_, _, h⟩
      · obtain ⟨n, h1, h2⟩ := isDef_err h
        exact ⟨n, by simp [primariesOfSingle, primariesOfTerm, factor_primary_mem h1], h2⟩
      · obtain ⟨n, h1, h2⟩ := isDefinedTerms_err h
        exact ⟨n, by simp [primariesOfSingle, h1], h2⟩

theorem isDefined_err {defined : Str → Bool} : ∀ {d : DefinitionList} {e : Error}, isDefined defined d = .err e →
    ∃ name, Primary.metaIdentifier e.location name ∈ primariesOfList d ∧ e.msg = .notDefined name
  | .nil, _, h => by cases h
  | .cons d l, e, h => by
    rw [isDefined] at h
    rcases bind_err_cases h with h | ⟨_, _, h⟩
    · obtain ⟨n, h1, h2⟩ := isDefinedTerms_err h
      exact ⟨n, by simp [primariesOfList, h1], h2⟩
    · obtain ⟨n, h1, h2⟩ := isDefined_err h
      exact ⟨n, by simp [primariesOfList, h1], h2⟩

theorem allDefined_err {defined : Str → Bool} : ∀ {rs : List SyntaxRule} {e : Error}, allDefined defined rs = .err e →
    ∃ r ∈ rs, ∃ name, Primary.metaIdentifier e.location name ∈ primariesOfList r.definitionList ∧ e.msg = .notDefined name
  | [], _, h => by cases h
  | r :: rs, e, h => by
    rw [allDefined] at h
    rcases bind_err_cases h with h | ⟨_, _, h⟩
    · exact ⟨r, by simp, isDefined_err h⟩
    · obtain ⟨q, hq, h⟩ := allDefined_err h
      exact ⟨q, by simp [hq], h⟩

theorem newSyntax_err {rs : List SyntaxRule} {e : Error} (h : Syntax.new rs = .err e) :
    (∃ r ∈ rs, e.location = r.location ∧ ∃ a b c, e.msg = .duplicate a b c) ∨
      ∃ r ∈ rs, ∃ name, Primary.metaIdentifier e.location name ∈ primariesOfList r.definitionList ∧ e.msg = .notDefined name := by
  rw [Syntax.new] at h
  rcases bind_err_cases h with h | ⟨x, _, h⟩
  · exact .inl (newSyntaxLoop_err h)
  · obtain ⟨names, rules⟩ := x
    rcases bind_err_cases h with h | ⟨_, _, h⟩
    · exact .inr (allDefined_err h)
    · cases h

end Ebnf
