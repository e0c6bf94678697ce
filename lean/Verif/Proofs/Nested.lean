import Verif.Spec.Nested
import Verif.Proofs.GrammarText
import Verif.Proofs.Display

set_option autoImplicit false

/-! # Reading, printing and compiling with a bounded call stack -/

namespace Ebnf.Nested

open Ebnf.Spec

/-- Gave up: out of fuel, or with a panic. -/
def halt {α : Type} : Option Panic → Res α
  | none => .diverge
  | some p => .panic p

theorem halt_bind {α β : Type} (w : Option Panic) (f : α → Res β) : (halt w >>= f) = halt w := by
  cases w <;> rfl

/-- The same, or gave up. -/
def Deg {α : Type} (w : Option Panic) (x' x : Res α) : Prop := x' = x ∨ x' = halt w

theorem Deg.rfl {α : Type} {w : Option Panic} {x : Res α} : Deg w x x := .inl _root_.rfl

theorem Deg.bind {α β : Type} {w : Option Panic} {x' x : Res α} {f' f : α → Res β} (h : Deg w x' x)
    (hf : ∀ a, Deg w (f' a) (f a)) : Deg w (x' >>= f') (x >>= f) := by
  rcases h with h | h
  · subst h
    cases x' with
    | ok a => exact hf a
    | err e => exact .inl _root_.rfl
    | panic p => exact .inl _root_.rfl
    | diverge => exact .inl _root_.rfl
  · subst h; exact .inr (halt_bind w f')

theorem Deg.ite {α : Type} {w : Option Panic} {c : Prop} [Decidable c] {a' a b' b : Res α} (h1 : Deg w a' a) (h2 : Deg w b' b) :
    Deg w (if c then a' else b') (if c then a else b) := by
  by_cases hc : c
  · rw [if_pos hc, if_pos hc]; exact h1
  · rw [if_neg hc, if_neg hc]; exact h2

section readers

variable {w : Option Panic} {recur' recur : List Token → Res DefinitionList} {last : Location}

theorem readEnclosed_deg (hr : ∀ ts, Deg w (recur' ts) (recur ts)) (t : Token) (ts : List Token) (o c : Token → Bool) :
    Deg w (readEnclosed recur' t ts o c) (readEnclosed recur t ts o c) := by
  unfold readEnclosed
  cases findClose o c 0 ts with
  | none => exact .rfl
  | some x => exact Deg.bind (hr _) fun _ => .rfl

theorem readPrimary_deg (hr : ∀ ts, Deg w (recur' ts) (recur ts)) (ts : List Token) :
    Deg w (readPrimary recur' last ts) (readPrimary recur last ts) := by
  unfold readPrimary
  cases skipGaps ts with
  | nil => exact .rfl
  | cons t rest =>
    cases t with
    | startOptionSymbol l s => exact Deg.ite .rfl (Deg.bind (readEnclosed_deg hr _ _ _ _) fun _ => .rfl)
    | startRepeatSymbol l s => exact Deg.ite .rfl (Deg.bind (readEnclosed_deg hr _ _ _ _) fun _ => .rfl)
    | startGroupSymbol l => exact Deg.bind (readEnclosed_deg hr _ _ _ _) fun _ => .rfl
    | _ => exact .rfl

theorem readFactor_deg (hr : ∀ ts, Deg w (recur' ts) (recur ts)) (ts : List Token) :
    Deg w (readFactor recur' last ts) (readFactor recur last ts) := by
  rw [readFactor_eq, readFactor_eq]
  exact Deg.bind .rfl fun x => Deg.bind (readPrimary_deg hr _) fun _ => .rfl

theorem readTerm_deg (hr : ∀ ts, Deg w (recur' ts) (recur ts)) (ts : List Token) :
    Deg w (readTerm recur' last ts) (readTerm recur last ts) := by
  unfold readTerm
  refine Deg.bind (readFactor_deg hr _) fun x => ?_
  obtain ⟨f, next⟩ := x
  simp only
  cases skipGaps next with
  | nil => exact .rfl
  | cons t rest => exact Deg.ite (Deg.bind (readFactor_deg hr _) fun _ => .rfl) .rfl

theorem readSingle_deg (hr : ∀ ts, Deg w (recur' ts) (recur ts)) (fuel : Nat) (ts : List Token) :
    Deg w (readSingle recur' last fuel ts) (readSingle recur last fuel ts) := by
  induction fuel generalizing ts with
  | zero => exact .rfl
  | succ fuel ih =>
    unfold readSingle
    refine Deg.bind (readTerm_deg hr _) fun x => ?_
    obtain ⟨f, next⟩ := x
    simp only
    cases skipGaps next with
    | nil => exact .rfl
    | cons t rest =>
      cases t with
      | concatenateSymbol l => exact Deg.bind (ih _) fun _ => .rfl
      | _ => exact .rfl

theorem readDefinitions_deg (hr : ∀ ts, Deg w (recur' ts) (recur ts)) (fuel : Nat) (ts : List Token) :
    Deg w (readDefinitions recur' last fuel ts) (readDefinitions recur last fuel ts) := by
  induction fuel generalizing ts with
  | zero => exact .rfl
  | succ fuel ih =>
    unfold readDefinitions
    refine Deg.bind (readSingle_deg hr _ _) fun x => ?_
    obtain ⟨f, next⟩ := x
    simp only
    cases skipGaps next with
    | nil => exact .rfl
    | cons t rest => exact Deg.ite .rfl (Deg.bind (ih _) fun _ => .rfl)

end readers

/-- `build_syntax_rule`, given the reader for what is between brackets. -/
def buildWith (recur : List Token → Res DefinitionList) (tokens : List Token) : Res (Option SyntaxRule) :=
  let (name, location, next) := readMetaIdentifier tokens
  match location, skipGaps next with
  | _, [] => .panic .indexOutOfBounds
  | none, t :: _ =>
    if t.isTerminator then .ok none
    else .fail t.location (.metaIdentifierExpected t.name)
  | some loc, t :: rest =>
    if !t.isDefiningSymbol then .fail t.location (.definingExpected t.name)
    else if name.isEmpty then .panic .emptyMetaIdentifier
    else do
      let list ← readDefinitions recur (lastLocation tokens) (rest.length + 1) rest
      pure (some ⟨loc, name, list⟩)

theorem build_eq (tokens : List Token) :
    Ebnf.buildSyntaxRule tokens = buildWith (Ebnf.readDefinitionList tokens.length) tokens := rfl

theorem buildNested_eq (room : Nat) (tokens : List Token) :
    buildSyntaxRule room tokens = buildWith (readDefinitionList room) tokens := rfl

theorem buildWith_deg {w : Option Panic} {recur' recur : List Token → Res DefinitionList}
    (hr : ∀ ts, Deg w (recur' ts) (recur ts)) (ts : List Token) : Deg w (buildWith recur' ts) (buildWith recur ts) := by
  unfold buildWith
  generalize readMetaIdentifier ts = x
  obtain ⟨name, location, next⟩ := x
  simp only
  cases skipGaps next with
  | nil => cases location <;> exact .rfl
  | cons t rest =>
    cases location with
    | none => exact .rfl
    | some loc => exact Deg.ite .rfl (Deg.ite .rfl (Deg.bind (readDefinitions_deg hr _ _) fun _ => .rfl))

/-! ## The readers of what is between brackets, compared -/

theorem plain_more (k j : Nat) (ts : List Token) : Deg none (Ebnf.readDefinitionList k ts) (Ebnf.readDefinitionList (k + j) ts) := by
  induction k generalizing ts with
  | zero => exact .inr rfl
  | succ k ih =>
    rw [show k + 1 + j = k + j + 1 by omega]
    exact readDefinitions_deg ih _ _

theorem plain_nested (k : Nat) (ts : List Token) : Deg none (Ebnf.readDefinitionList k ts) (readDefinitionList k ts) := by
  induction k generalizing ts with
  | zero => exact .inr rfl
  | succ k ih => exact readDefinitions_deg ih _ _

theorem nested_plain (k j : Nat) (ts : List Token) :
    Deg (some .stackOverflow) (readDefinitionList k ts) (Ebnf.readDefinitionList (k + j) ts) := by
  induction k generalizing ts with
  | zero => exact .inr rfl
  | succ k ih =>
    rw [show k + 1 + j = k + j + 1 by omega]
    exact readDefinitions_deg ih _ _

theorem nested_more (k j : Nat) (ts : List Token) :
    Deg (some .stackOverflow) (readDefinitionList k ts) (readDefinitionList (k + j) ts) := by
  induction k generalizing ts with
  | zero => exact .inr rfl
  | succ k ih =>
    rw [show k + 1 + j = k + j + 1 by omega]
    exact readDefinitions_deg ih _ _

theorem build_settled {ts : List Token} {t : Token} (ht : t.isTerminator = true) : Ebnf.buildSyntaxRule (ts ++ [t]) ≠ .diverge := by
  have := buildSyntaxRule_sat (ts := ts) ht
  intro h
  rw [h] at this
  exact this

/-- With more fuel than tokens, nothing changes. -/
theorem build_plain {ts : List Token} {t : Token} (ht : t.isTerminator = true) {k : Nat} (hk : (ts ++ [t]).length ≤ k) :
    Ebnf.buildSyntaxRule (ts ++ [t]) = buildWith (Ebnf.readDefinitionList k) (ts ++ [t]) := by
  obtain ⟨j, rfl⟩ : ∃ j, k = (ts ++ [t]).length + j := ⟨k - (ts ++ [t]).length, by omega⟩
  rcases buildWith_deg (plain_more (ts ++ [t]).length j) (ts ++ [t]) with h | h
  · rw [build_eq, h]
  · exact absurd h (build_settled ht)

/-- A rule is read as with an unbounded stack, or the stack is exhausted. -/
theorem build_either (room : Nat) {ts : List Token} {t : Token} (ht : t.isTerminator = true) :
    Deg (some .stackOverflow) (buildSyntaxRule room (ts ++ [t])) (Ebnf.buildSyntaxRule (ts ++ [t])) := by
  rw [build_plain ht (k := room + (ts ++ [t]).length) (by omega)]
  exact buildWith_deg (nested_plain room _) _

/-- Room for as many brackets as there are tokens is enough. -/
theorem build_enough {room : Nat} {ts : List Token} {t : Token} (ht : t.isTerminator = true) (h : (ts ++ [t]).length ≤ room) :
    buildSyntaxRule room (ts ++ [t]) = Ebnf.buildSyntaxRule (ts ++ [t]) := by
  have h1 := build_plain ht h
  rcases buildWith_deg (plain_nested room) (ts ++ [t]) with h2 | h2
  · rw [h1, h2]; rfl
  · exact absurd (h1.trans h2) (build_settled ht)

theorem build_more (room j : Nat) (ts : List Token) :
    Deg (some .stackOverflow) (buildSyntaxRule room ts) (buildSyntaxRule (room + j) ts) := buildWith_deg (nested_more room j) ts

/-! ## The lexer -/

/-- The same step, or the stack was exhausted. -/
def DegM {σ α : Type} (m' m : RM σ α) : Prop := ∀ s, (m' s).1 = .panic .stackOverflow ∨ m' s = m s

theorem DegM.rfl {σ α : Type} {m : RM σ α} : DegM m m := fun _ => .inr _root_.rfl

theorem DegM.bind {σ α β : Type} {m' m : RM σ α} {f' f : α → RM σ β} (h : DegM m' m) (hf : ∀ a, DegM (f' a) (f a)) :
    DegM (m' >>= f') (m >>= f) := by
  intro s
  show (RM.bind m' f' s).1 = _ ∨ RM.bind m' f' s = RM.bind m f s
  unfold RM.bind
  rcases h s with h | h
  · left
    generalize m' s = x at h
    obtain ⟨r, s'⟩ := x
    simp only at h
    subst h
    rfl
  · rw [h]
    generalize m s = x
    obtain ⟨r, s'⟩ := x
    cases r with
    | ok a => exact hf a s'
    | err e => exact .inr _root_.rfl
    | panic p => exact .inr _root_.rfl
    | diverge => exact .inr _root_.rfl

theorem append_cons_term' {room : Nat} {toks : List Token} {t : Token} {ts : List Token} (ht : t.isTerminator = true) :
    append room toks (t :: ts) = match buildSyntaxRule room (toks ++ [t]) with
      | .ok r =>
        match append room [] ts with
        | (.ok rules, tokens') => (.ok (r.toList ++ rules), tokens')
        | (e, tokens') => (e, tokens')
      | .err e => (.err e, toks ++ [t])
      | .panic p => (.panic p, toks ++ [t])
      | .diverge => (.diverge, toks ++ [t]) := by
  rw [append]
  simp only [ht, if_true]
  rfl

theorem append_cons_other' {room : Nat} {toks : List Token} {t : Token} {ts : List Token} (ht : t.isTerminator = false) :
    append room toks (t :: ts) = append room (toks ++ [t]) ts := by
  rw [append]
  simp [ht]

theorem append_either (room : Nat) (toks ts : List Token) :
    (append room toks ts).1 = .panic .stackOverflow ∨ append room toks ts = Lexer.append toks ts := by
  induction ts generalizing toks with
  | nil => exact .inr rfl
  | cons t ts ih =>
    by_cases ht : t.isTerminator = true
    · rw [append_cons_term' ht, append_cons_term ht]
      rcases build_either room (ts := toks) ht with h | h
      · rw [h]
        cases Ebnf.buildSyntaxRule (toks ++ [t]) with
        | ok r =>
          simp only
          rcases ih [] with h | h
          · left
            generalize append room [] ts = x at h
            obtain ⟨r1, s'⟩ := x
            simp only at h
            subst h
            rfl
          · rw [h]; exact .inr rfl
        | err e => exact .inr rfl
        | panic e => exact .inr rfl
        | diverge => exact .inr rfl
      · rw [h]; exact .inl rfl
    · have ht : t.isTerminator = false := by simpa using ht
      rw [append_cons_other' ht, append_cons_other ht]
      exact ih _

theorem append_more (room j : Nat) (toks ts : List Token) :
    (append room toks ts).1 = .panic .stackOverflow ∨ append room toks ts = append (room + j) toks ts := by
  induction ts generalizing toks with
  | nil => exact .inr rfl
  | cons t ts ih =>
    by_cases ht : t.isTerminator = true
    · rw [append_cons_term' ht, append_cons_term' ht]
      rcases build_more room j (toks ++ [t]) with h | h
      · rw [h]
        cases buildSyntaxRule (room + j) (toks ++ [t]) with
        | ok r =>
          simp only
          rcases ih [] with h | h
          · left
            generalize append room [] ts = x at h
            obtain ⟨r1, s'⟩ := x
            simp only at h
            subst h
            rfl
          · rw [h]; exact .inr rfl
        | err e => exact .inr rfl
        | panic e => exact .inr rfl
        | diverge => exact .inr rfl
      · rw [h]; exact .inl rfl
    · have ht : t.isTerminator = false := by simpa using ht
      rw [append_cons_other' ht, append_cons_other' ht]
      exact ih _

theorem append_enough {room : Nat} {toks ts : List Token} (h : (toks ++ ts).length ≤ room) :
    append room toks ts = Lexer.append toks ts := by
  induction ts generalizing toks with
  | nil => rfl
  | cons t ts ih =>
    by_cases ht : t.isTerminator = true
    · rw [append_cons_term' ht, append_cons_term ht, build_enough ht (by simp at h ⊢; omega), ih (by simp at h ⊢; omega)]
      cases Ebnf.buildSyntaxRule (toks ++ [t]) <;> rfl
    · have ht : t.isTerminator = false := by simpa using ht
      rw [append_cons_other' ht, append_cons_other ht]
      exact ih (by simpa using h)

theorem feed_either (room : Nat) (m : RM Tokenizer (List Token)) : DegM (feed room m) (Lexer.feed m) := by
  intro l
  unfold feed Lexer.feed
  generalize m l.tokenizer = x
  obtain ⟨r, tz⟩ := x
  cases r with
  | ok tks =>
    simp only
    rcases append_either room l.tokens tks with h | h
    · exact .inl h
    · rw [h]; exact .inr rfl
  | err e => exact .inr rfl
  | panic e => exact .inr rfl
  | diverge => exact .inr rfl

theorem feed_more (room j : Nat) (m : RM Tokenizer (List Token)) : DegM (feed room m) (feed (room + j) m) := by
  intro l
  unfold feed
  generalize m l.tokenizer = x
  obtain ⟨r, tz⟩ := x
  cases r with
  | ok tks =>
    simp only
    rcases append_more room j l.tokens tks with h | h
    · exact .inl h
    · rw [h]; exact .inr rfl
  | err e => exact .inr rfl
  | panic e => exact .inr rfl
  | diverge => exact .inr rfl

theorem DegM.fst {σ α : Type} {m' m : RM σ α} (h : DegM m' m) (s : σ) : (m' s).1 = .panic .stackOverflow ∨ (m' s).1 = (m s).1 := by
  rcases h s with h | h
  · exact .inl h
  · exact .inr (by rw [h])

theorem parseStr_either (room : Nat) (name s : Str) :
    parseStr room name s = .panic .stackOverflow ∨ parseStr room name s = Ebnf.parseStr name s := by
  refine DegM.fst ?_ (Lexer.new name)
  exact DegM.bind (feed_either _ _) fun _ => DegM.bind (DegM.bind (feed_either _ _) fun _ => .rfl) fun _ => .rfl

theorem parseStr_more (room j : Nat) (name s : Str) :
    parseStr room name s = .panic .stackOverflow ∨ parseStr room name s = parseStr (room + j) name s := by
  refine DegM.fst ?_ (Lexer.new name)
  exact DegM.bind (feed_more _ _ _) fun _ => DegM.bind (DegM.bind (feed_more _ _ _) fun _ => .rfl) fun _ => .rfl

theorem tokLoop_count {loc : Location} {rest : Str} {tks : List Token} {loc' : Location} {rest' : Str}
    (h : tokLoop loc rest = (.ok tks, loc', rest')) : tks.length + rest'.length ≤ rest.length := by
  induction loc, rest using tokLoop_induct generalizing tks loc' rest' with
  | hnone loc rest hn =>
    rw [tokLoop_none hn] at h
    simp at h; obtain ⟨rfl, rfl, rfl⟩ := h
    simp
  | hsome loc rest tk n hs ih =>
    rw [tokLoop_some hs] at h
    have hr := readNext_sound _ _ _ _ _ hs
    have h0 := hr.pos
    have h1 := hr.le
    revert ih h
    generalize hx : tokLoop (loc.pushStr (rest.take n)) (rest.drop n) = x
    obtain ⟨r, l, s⟩ := x
    intro ih h
    cases r with
    | ok ts =>
      simp [consTok] at h
      obtain ⟨rfl, rfl, rfl⟩ := h
      have := ih rfl
      simp at this ⊢
      omega
    | err e => simp [consTok] at h
    | panic p => simp [consTok] at h
    | diverge => simp [consTok] at h
  | herr loc rest e he => rw [tokLoop_err he] at h; simp at h

theorem append_kept (toks ts : List Token) : (Lexer.append toks ts).2.length ≤ toks.length + ts.length := by
  induction ts generalizing toks with
  | nil => simp [Lexer.append]
  | cons t ts ih =>
    by_cases ht : t.isTerminator = true
    · rw [append_cons_term ht]
      cases Ebnf.buildSyntaxRule (toks ++ [t]) with
      | ok r =>
        simp only
        have := ih []
        revert this
        generalize Lexer.append [] ts = x
        obtain ⟨r1, s'⟩ := x
        intro this
        cases r1 <;> simp at this ⊢ <;> omega
      | err e => simp
      | panic e => simp
      | diverge => simp
    · have ht : t.isTerminator = false := by simpa using ht
      rw [append_cons_other ht]
      have := ih (toks ++ [t])
      simp at this ⊢
      omega

theorem feed_enough {room : Nat} {m : RM Tokenizer (List Token)} {l : Lexer}
    (h : ∀ tks tz, m l.tokenizer = (.ok tks, tz) → (l.tokens ++ tks).length ≤ room) : feed room m l = Lexer.feed m l := by
  unfold feed Lexer.feed
  cases hx : m l.tokenizer with
  | mk r tz =>
    cases r with
    | ok tks => simp only; rw [append_enough (h tks tz hx)]
    | err e => rfl
    | panic e => rfl
    | diverge => rfl

theorem parseStr_enough {room : Nat} {name s : Str} (h : s.length + 1 ≤ room) :
    parseStr room name s = Ebnf.parseStr name s := by
  have h1 : pushStr room s (Lexer.new name) = Lexer.pushStr s (Lexer.new name) := by
    refine feed_enough fun tks tz ht => ?_
    have ht : Tokenizer.pushStr s (Tokenizer.new name) = (.ok tks, tz) := ht
    rw [tokenizer_pushStr_eq _ _ rfl, tokenizer_tokenize] at ht
    simp only at ht
    generalize hx : tokLoop (Tokenizer.new name).location ((Tokenizer.new name).buffer ++ s) = x at ht
    obtain ⟨r, l, rest⟩ := x
    cases r with
    | ok ts =>
      have h2 := tokLoop_count hx
      simp only [Prod.mk.injEq, Res.ok.injEq] at ht
      obtain ⟨rfl, _⟩ := ht
      have h3 : ((Tokenizer.new name).buffer ++ s).length = s.length := rfl
      have h4 : ((Lexer.new name).tokens ++ ts).length = ts.length := rfl
      omega
    | err e => simp at ht
    | panic e => simp at ht
    | diverge => simp at ht
  unfold parseStr Ebnf.parseStr
  rw [RM.bind_run, RM.bind_run, h1]
  cases hp : Lexer.pushStr s (Lexer.new name) with
  | mk r l =>
    cases r with
    | ok rules =>
      simp only
      rw [RM.bind_run, RM.bind_run]
      have h2 : flush room l = Lexer.flush l := by
        have hinv : LexInv l := pushStr_inv hp
        unfold flush Lexer.flush
        rw [first_run, first_run, feed_enough]
        intro tks tz ht
        rw [lexer_pushStr_eq _ _ (fun hc => absurd hc.1 (Nat.lt_irrefl 0))] at hp
        generalize hx : tokLoop (Lexer.new name).tokenizer.location ((Lexer.new name).tokenizer.buffer ++ s) = x at hp
        obtain ⟨r, loc, rest⟩ := x
        cases r with
        | ok ts =>
          have h2 := tokLoop_count hx
          simp only [Prod.mk.injEq] at hp
          obtain ⟨_, rfl⟩ := hp
          have h3 : ((Lexer.new name).tokenizer.buffer ++ s).length = s.length := rfl
          have h4 := append_kept (Lexer.new name).tokens ts
          have h5 : (Lexer.new name).tokens.length = 0 := rfl
          rcases tokenizer_flush _ hinv with ⟨tks', hf, hf'⟩ | ⟨e, _, hf'⟩
          · rw [hf'] at ht
            simp only [Prod.mk.injEq, Res.ok.injEq] at ht
            obtain ⟨rfl, _⟩ := ht
            obtain ⟨us, rfl, h6, h7⟩ := flushTok_ends hf
            simp only [List.length_append, List.length_cons, List.length_nil] at *
            by_cases hr : rest = []
            · have := h6.mpr hr
              subst this
              simp
              omega
            · have := List.length_pos_iff.mpr hr
              omega
          · rw [hf'] at ht; simp at ht
        | err e => simp at hp
        | panic e => simp at hp
        | diverge => simp at hp
      rw [h2]
    | err e => rfl
    | panic e => rfl
    | diverge => rfl

end Ebnf.Nested
