import Verif.Model.WordsLexer
import Verif.Proofs.Words
import Verif.Spec.WordsLexer
import Verif.Proofs.Nested

set_option autoImplicit false

/-! # The lexer with the integers of the code: where they make no difference -/

namespace Ebnf.WordLex

open Ebnf Ebnf.Spec

theorem inc_small {checks : Bool} {d : Nat} (h : d + 1 < 2 ^ 31) : inc checks (d : Int) = .ok ((d + 1 : Nat) : Int) := by
  unfold inc
  rw [if_pos (by show (d : Int) < 2147483647; omega)]
  rfl

theorem dec_small {checks : Bool} {d : Nat} (h : d ≠ 0) : dec checks (d : Int) = .ok ((d - 1 : Nat) : Int) := by
  unfold dec
  rw [if_pos (by show (d : Int) > -2147483648; omega)]
  congr 1
  omega

/-- The comment loop in terms of `oneMore`. -/
theorem comment_cons (location : Location) (depth : Nat) (prev c : Char) (cs : Str) :
    Ebnf.commentLoop location depth prev (c :: cs) =
      if prev = '*' ∧ c = ')' then
        if depth = 0 then .closed 0 else oneMore (Ebnf.commentLoop (location.push c) (depth - 1) c cs)
      else if prev = '(' ∧ c = '*' then oneMore (Ebnf.commentLoop (location.push c) (depth + 1) c cs)
      else if !isGapChar c && !isTerminalChar c then .bad location c
      else oneMore (Ebnf.commentLoop (location.push c) depth c cs) := rfl

theorem comment_small {checks : Bool} {cs : Str} : ∀ {location : Location} {depth : Nat} {prev : Char},
    Fits location cs.length → depth + cs.length < 2 ^ 31 →
    commentLoop checks location depth prev cs = .ok (Ebnf.commentLoop location depth prev cs) := by
  induction cs with
  | nil => intros; rfl
  | cons c cs ih =>
    intro location depth prev hf hd
    have hd : depth + (cs.length + 1) < 2 ^ 31 := hd
    obtain ⟨h1, h2⟩ := Word.push_fits (checks := checks) (ch := c) (n := cs.length) hf
    have next : ∀ d : Nat, d ≤ depth + 1 → (do
        let location ← Word.push checks location c
        let r ← commentLoop checks location (d : Int) c cs
        pure (oneMore r) : Res CommentScan) = .ok (oneMore (Ebnf.commentLoop (location.push c) d c cs)) := by
      intro d hle
      rw [h1]
      show ((commentLoop checks (location.push c) (d : Int) c cs) >>= fun r => pure (oneMore r) : Res CommentScan) = _
      rw [ih h2 (by omega)]
      rfl
    rw [comment_cons, commentLoop]
    by_cases ha : prev = '*' ∧ c = ')'
    · rw [if_pos ha, if_pos ha]
      by_cases hz : depth = 0
      · subst hz; rfl
      · rw [if_neg (by omega : ¬ (depth : Int) = 0), if_neg hz, dec_small hz]
        exact next _ (by omega)
    · rw [if_neg ha, if_neg ha]
      by_cases hb : prev = '(' ∧ c = '*'
      · rw [if_pos hb, if_pos hb, inc_small (by omega)]
        exact next _ (by omega)
      · rw [if_neg hb, if_neg hb]
        by_cases hx : (!isGapChar c && !isTerminalChar c) = true
        · rw [if_pos hx, if_pos hx]
        · rw [if_neg hx, if_neg hx]
          exact next _ (by omega)

theorem commentToken_small {checks : Bool} {loc : Location} {rest : Str} {flush : Bool} (hf : Fits loc (rest.length + 2))
    (hd : rest.length < 2 ^ 31) : commentToken checks loc rest flush = Ebnf.commentToken loc rest flush := by
  obtain ⟨h1, h2⟩ := Word.pushStr_fits (checks := checks) (s := ['(', '*']) (n := rest.length) (hf.mono (by simp; omega))
  have h3 := comment_small (checks := checks) (depth := 0) (prev := '*') h2 (by omega)
  unfold commentToken Ebnf.commentToken
  rw [h1]
  show (commentLoop checks (loc.pushStr ['(', '*']) ((0 : Nat) : Int) '*' rest >>= _) = _
  rw [h3]
  cases Ebnf.commentLoop (loc.pushStr ['(', '*']) 0 '*' rest <;> rfl

theorem readNext_small {checks : Bool} {loc : Location} {rest : Str} {flush : Bool} (hf : Fits loc rest.length)
    (hd : rest.length < 2 ^ 31) : readNext checks loc rest flush = Ebnf.readNext loc rest flush := by
  unfold readNext
  split
  · rename_i ds
    rw [commentToken_small (hf.mono (by simp)) (by simp at hd; omega)]
    simp [Ebnf.readNext]
  · rfl

theorem readToken_small {checks : Bool} {loc : Location} {rest : Str} {flush : Bool} (hf : Fits loc rest.length)
    (hd : rest.length < 2 ^ 31) : readToken checks loc rest flush =
      (Ebnf.readNext loc rest flush >>= fun x => pure (x.map fun x => (x.1, loc.pushStr (rest.take x.2), rest.drop x.2))) := by
  unfold readToken
  rw [readNext_small hf hd]
  cases hx : Ebnf.readNext loc rest flush with
  | ok o =>
    cases o with
    | none => rfl
    | some x =>
      obtain ⟨tk, n⟩ := x
      obtain ⟨h1, h2⟩ := Word.pushStr_fits (checks := checks) (s := rest.take n) (n := (rest.drop n).length) (hf.mono (by simp; omega))
      show (Word.pushStr checks loc (rest.take n) >>= _) = _
      rw [h1]
      rfl
  | err e => rfl
  | panic p => rfl
  | diverge => rfl

theorem tokenizeLoop_small {checks : Bool} {fuel : Nat} : ∀ {loc : Location} {rest : Str}, Fits loc rest.length → rest.length < 2 ^ 31 →
    tokenizeLoop checks fuel loc rest = Tokenizer.tokenizeLoop fuel loc rest := by
  induction fuel with
  | zero => intros; rfl
  | succ fuel ih =>
    intro loc rest hf hd
    rw [tokenizeLoop, Tokenizer.tokenizeLoop, readToken_small hf hd]
    by_cases he : rest.isEmpty = true
    · rw [if_pos he, if_pos he]
    · rw [if_neg he, if_neg he]
      cases hx : Ebnf.readNext loc rest false with
      | ok o =>
        cases o with
        | none => rfl
        | some x =>
          obtain ⟨tk, n⟩ := x
          obtain ⟨h1, h2⟩ := Word.pushStr_fits (checks := checks) (s := rest.take n) (n := (rest.drop n).length) (hf.mono (by simp; omega))
          have h3 := ih h2 (by simp; omega)
          show (match tokenizeLoop checks fuel (loc.pushStr (rest.take n)) (rest.drop n) with
            | (.ok tks, loc', rest') => (Res.ok (tk :: tks), loc', rest')
            | r => r) = _
          rw [h3]
          rfl
      | err e => rfl
      | panic p => rfl
      | diverge => rfl

/-- What a tokenizer still keeps, followed by `n` more characters, is within the range of the counters. -/
def Ready (t : Tokenizer) (n : Nat) : Prop := Fits t.location (t.buffer.length + n) ∧ t.buffer.length + n < 2 ^ 31

theorem tokenize_small {checks : Bool} {t : Tokenizer} (h : Ready t 0) : tokenize checks t = Tokenizer.tokenize t := by
  unfold tokenize Tokenizer.tokenize
  rw [tokenizeLoop_small h.1 h.2]
  generalize Tokenizer.tokenizeLoop (List.length t.buffer) t.location t.buffer = x
  obtain ⟨r, loc, rest⟩ := x
  cases r <;> rfl

theorem tokenizerPush_small {checks : Bool} {s : Str} {t : Tokenizer} (h : Ready t s.length) :
    tokenizerPush checks s t = Tokenizer.pushStr s t := by
  unfold tokenizerPush Tokenizer.pushStr
  cases t.ensureCapacity s.length with
  | ok u => exact tokenize_small ⟨by simpa using h.1, by simpa using h.2⟩
  | err e => rfl
  | panic p => rfl
  | diverge => rfl

theorem tokenizerFlush_small {checks : Bool} {t : Tokenizer} (h : Ready t 0) : tokenizerFlush checks t = Tokenizer.flush t := by
  unfold tokenizerFlush Tokenizer.flush
  rw [readToken_small h.1 h.2]
  cases Ebnf.readNext t.location t.buffer true with
  | ok o => cases o <;> rfl
  | err e => rfl
  | panic p => rfl
  | diverge => rfl

/-! ## Rules -/

theorem find_cons (o c : Token → Bool) (depth : Nat) (t : Token) (ts : List Token) : Ebnf.findClose o c depth (t :: ts) =
    if o t then (Ebnf.findClose o c (depth + 1) ts).map fun (i, r) => (t :: i, r)
    else if c t then
      if depth = 0 then some ([], ts)
      else (Ebnf.findClose o c (depth - 1) ts).map fun (i, r) => (t :: i, r)
    else (Ebnf.findClose o c depth ts).map fun (i, r) => (t :: i, r) := rfl

theorem find_small {checks : Bool} {o c : Token → Bool} {ts : List Token} : ∀ {depth : Nat}, depth + ts.length < 2 ^ 31 →
    findClose checks o c depth ts = .ok (Ebnf.findClose o c depth ts) := by
  induction ts with
  | nil => intros; rfl
  | cons t ts ih =>
    intro depth hd
    have hd : depth + (ts.length + 1) < 2 ^ 31 := hd
    rw [find_cons, findClose]
    by_cases ha : o t = true
    · rw [if_pos ha, if_pos ha, inc_small (by omega)]
      show (findClose checks o c ((depth + 1 : Nat) : Int) ts >>= _) = _
      rw [ih (by omega)]; rfl
    · rw [if_neg ha, if_neg ha]
      by_cases hb : c t = true
      · rw [if_pos hb, if_pos hb]
        by_cases hz : depth = 0
        · subst hz; rfl
        · rw [if_neg (by omega : ¬ (depth : Int) = 0), if_neg hz, dec_small hz]
          show (findClose checks o c ((depth - 1 : Nat) : Int) ts >>= _) = _
          rw [ih (by omega)]; rfl
      · rw [if_neg hb, if_neg hb]
        show (findClose checks o c (depth : Int) ts >>= _) = _
        rw [ih (by omega)]; rfl

section readers

variable {checks : Bool} {recur recur' : List Token → Res DefinitionList} {last : Location}

theorem readEnclosed_small {start : Token} {ts : List Token} {o c : Token → Bool} (hr : ∀ us, us.length < 2 ^ 31 → recur us = recur' us)
    (h : ts.length < 2 ^ 31) : readEnclosed checks recur start ts o c = Ebnf.readEnclosed recur' start ts o c := by
  unfold readEnclosed Ebnf.readEnclosed
  show (findClose checks o c ((0 : Nat) : Int) ts >>= _) = _
  rw [find_small (by omega)]
  cases hx : Ebnf.findClose o c 0 ts with
  | none => rfl
  | some x =>
    obtain ⟨inner, rest⟩ := x
    obtain ⟨t, ht, _⟩ := findClose_some hx
    have hl := congrArg List.length ht
    simp at hl
    show (recur inner >>= _) = (recur' inner >>= _)
    rw [hr inner (by omega)]

theorem skip_le (ts : List Token) : (skipGaps ts).length ≤ ts.length := (skipGaps_suffix ts).length_le

theorem readPrimary_small (hr : ∀ us, us.length < 2 ^ 31 → recur us = recur' us) {ts : List Token} (h : ts.length < 2 ^ 31) :
    readPrimary checks recur last ts = Ebnf.readPrimary recur' last ts := by
  have hl := skip_le ts
  unfold readPrimary Ebnf.readPrimary
  cases hs : skipGaps ts with
  | nil => rfl
  | cons t rest =>
    rw [hs] at hl
    have hl : rest.length + 1 ≤ ts.length := hl
    cases t with
    | startOptionSymbol l s =>
      dsimp only
      rw [readEnclosed_small hr (by omega)]
    | startRepeatSymbol l s =>
      dsimp only
      rw [readEnclosed_small hr (by omega)]
    | startGroupSymbol l =>
      dsimp only
      rw [readEnclosed_small hr (by omega)]
    | _ => rfl

theorem factor_count (ts : List Token) : readFactor checks recur last ts =
    readCount ts >>= fun x => readPrimary checks recur last x.2 >>= fun y => pure (.mk x.1 y.1, y.2) := by
  unfold readFactor readCount
  cases h : skipGaps ts with
  | nil => rfl
  | cons t rest =>
    cases t with
    | integer l d =>
      simp only
      cases parseU32 d with
      | none => rfl
      | some n =>
        simp only
        cases h' : skipGaps rest with
        | nil => rfl
        | cons t' rest' => by_cases hr : t'.isRepetitionSymbol = true <;> simp [hr] <;> rfl
    | _ => rfl

theorem count_le {ts us : List Token} {n : Nat} (h : readCount ts = .ok (n, us)) : us.length ≤ ts.length := by
  have hl := skip_le ts
  unfold readCount at h
  cases hs : skipGaps ts with
  | nil => rw [hs] at h; cases h; simp
  | cons t rest =>
    rw [hs] at h hl
    have hl : rest.length + 1 ≤ ts.length := hl
    cases t with
    | integer l d =>
      simp only at h
      cases hp : parseU32 d with
      | none => rw [hp] at h; cases h
      | some m =>
        rw [hp] at h
        simp only at h
        have hl2 := skip_le rest
        cases hs' : skipGaps rest with
        | nil => rw [hs'] at h; cases h
        | cons t' rest' =>
          rw [hs'] at h hl2
          have hl2 : rest'.length + 1 ≤ rest.length := hl2
          have hl3 := skip_le rest'
          by_cases hr : t'.isRepetitionSymbol = true
          · simp only [hr, if_true] at h; cases h; omega
          · simp only [hr] at h; cases h
    | _ => cases h; exact hl

theorem primary_le {ts us : List Token} {p : Primary} (h : Ebnf.readPrimary recur last ts = .ok (p, us)) : us.length ≤ ts.length := by
  have hl := skip_le ts
  have enclosed : ∀ {start : Token} {rest : List Token} {o c : Token → Bool} {f : DefinitionList → Primary},
      (Ebnf.readEnclosed recur start rest o c >>= fun x => pure (f x.1, x.2)) = .ok (p, us) → us.length ≤ rest.length := by
    intro start rest o c f h
    unfold Ebnf.readEnclosed at h
    cases hx : Ebnf.findClose o c 0 rest with
    | none => rw [hx] at h; cases h
    | some x =>
      obtain ⟨inner, after⟩ := x
      obtain ⟨t, ht, _⟩ := findClose_some hx
      have hl := congrArg List.length ht
      simp at hl
      rw [hx] at h
      simp only at h
      cases hy : recur inner with
      | ok list => rw [hy] at h; cases h; show after.length ≤ _; omega
      | err e => rw [hy] at h; cases h
      | panic e => rw [hy] at h; cases h
      | diverge => rw [hy] at h; cases h
  unfold Ebnf.readPrimary at h
  cases hs : skipGaps ts with
  | nil => rw [hs] at h; cases h; simp
  | cons t rest =>
    rw [hs] at h hl
    have hl' : rest.length + 1 ≤ ts.length := hl
    cases t with
    | startOptionSymbol l s =>
      simp only at h
      split at h
      · cases h
      · have := enclosed h; omega
    | startRepeatSymbol l s =>
      simp only at h
      split at h
      · cases h
      · have := enclosed h; omega
    | startGroupSymbol l =>
      simp only at h
      have := enclosed h; omega
    | metaIdentifier l s =>
      simp only at h
      cases h
      have := (readMetaIdentifier_suffix (.metaIdentifier l s :: rest)).length_le
      simp only [List.length_cons] at this
      show (readMetaIdentifier (.metaIdentifier l s :: rest)).2.2.length ≤ _
      omega
    | terminalString l s q => simp only at h; cases h; omega
    | specialSequence l s => simp only at h; cases h; omega
    | _ => simp only at h; cases h; exact hl

theorem factor_le {ts us : List Token} {p : Factor} (h : Ebnf.readFactor recur last ts = .ok (p, us)) : us.length ≤ ts.length := by
  rw [readFactor_eq] at h
  cases hc : readCount ts with
  | ok x =>
    obtain ⟨n, vs⟩ := x
    rw [hc] at h
    have h : (Ebnf.readPrimary recur last vs >>= fun y => pure (.mk n y.1, y.2)) = .ok (p, us) := h
    have h1 := count_le hc
    cases hp : Ebnf.readPrimary recur last vs with
    | ok y => rw [hp] at h; cases h; have := primary_le hp; omega
    | err e => rw [hp] at h; cases h
    | panic e => rw [hp] at h; cases h
    | diverge => rw [hp] at h; cases h
  | err e => rw [hc] at h; cases h
  | panic e => rw [hc] at h; cases h
  | diverge => rw [hc] at h; cases h

theorem readFactor_small (hr : ∀ us, us.length < 2 ^ 31 → recur us = recur' us) {ts : List Token} (h : ts.length < 2 ^ 31) :
    readFactor checks recur last ts = Ebnf.readFactor recur' last ts := by
  rw [factor_count, readFactor_eq]
  cases hc : readCount ts with
  | ok x =>
    obtain ⟨n, vs⟩ := x
    show (readPrimary checks recur last vs >>= _) = _
    rw [readPrimary_small hr (Nat.lt_of_le_of_lt (count_le hc) h)]
    rfl
  | err e => rfl
  | panic e => rfl
  | diverge => rfl

theorem term_le {ts us : List Token} {p : Term} (h : Ebnf.readTerm recur last ts = .ok (p, us)) : us.length ≤ ts.length := by
  unfold Ebnf.readTerm at h
  cases hc : Ebnf.readFactor recur last ts with
  | ok x =>
    obtain ⟨f, vs⟩ := x
    have h1 := factor_le hc
    have h2 := skip_le vs
    rw [hc] at h
    have h : (match skipGaps vs with
      | t :: rest => if t.isExceptSymbol then do
          let (exception, next) ← Ebnf.readFactor recur last rest
          pure (.except f exception, next)
        else pure (.plain f, t :: rest)
      | [] => pure (.plain f, []) : Res (Term × List Token)) = .ok (p, us) := h
    cases hs : skipGaps vs with
    | nil => rw [hs] at h; cases h; simp
    | cons t rest =>
      rw [hs] at h h2
      have h3 : rest.length + 1 ≤ vs.length := h2
      simp only at h
      by_cases he : t.isExceptSymbol = true
      · rw [if_pos he] at h
        cases hy : Ebnf.readFactor recur last rest with
        | ok y => rw [hy] at h; cases h; have := factor_le hy; omega
        | err e => rw [hy] at h; cases h
        | panic e => rw [hy] at h; cases h
        | diverge => rw [hy] at h; cases h
      · rw [if_neg he] at h; cases h; simp only [List.length_cons]; omega
  | err e => rw [hc] at h; cases h
  | panic e => rw [hc] at h; cases h
  | diverge => rw [hc] at h; cases h

theorem readTerm_small (hr : ∀ us, us.length < 2 ^ 31 → recur us = recur' us) {ts : List Token} (h : ts.length < 2 ^ 31) :
    readTerm checks recur last ts = Ebnf.readTerm recur' last ts := by
  unfold readTerm Ebnf.readTerm
  rw [readFactor_small hr h]
  cases hc : Ebnf.readFactor recur' last ts with
  | ok x =>
    obtain ⟨f, vs⟩ := x
    have h1 := factor_le hc
    have h2 := skip_le vs
    show (match skipGaps vs with
      | t :: rest => if t.isExceptSymbol then do
          let (exception, next) ← readFactor checks recur last rest
          pure (.except f exception, next)
        else pure (.plain f, t :: rest)
      | [] => pure (.plain f, []) : Res (Term × List Token)) = _
    cases hs : skipGaps vs with
    | nil => show _ = (match skipGaps vs with | t :: rest => _ | [] => _ : Res (Term × List Token)); rw [hs]
    | cons t rest =>
      rw [hs] at h2
      have h3 : rest.length + 1 ≤ vs.length := h2
      dsimp only
      rw [readFactor_small hr (by omega)]
      show _ = (match skipGaps vs with | t :: rest => _ | [] => _ : Res (Term × List Token))
      rw [hs]
  | err e => rfl
  | panic e => rfl
  | diverge => rfl

/-- What follows a term in `read_single_definition`. -/
def afterTerm (again : List Token → Res (SingleDefinition × List Token)) (term : Term) (ts : List Token) :
    Res (SingleDefinition × List Token) :=
  match ts with
  | [] => pure (.cons term .nil, [])
  | .concatenateSymbol _ :: rest => again rest >>= fun x => pure (.cons term x.1, x.2)
  | .definitionSeparatorSymbol l c :: rest => pure (.cons term .nil, .definitionSeparatorSymbol l c :: rest)
  | t :: rest =>
    if t.isTerminator then pure (.cons term .nil, t :: rest)
    else .fail t.location (.separatorExpected t.name)

theorem readSingle_after (fuel : Nat) (ts : List Token) : Ebnf.readSingle recur last (fuel + 1) ts =
    Ebnf.readTerm recur last ts >>= fun x => afterTerm (Ebnf.readSingle recur last fuel) x.1 (skipGaps x.2) := by
  rw [Ebnf.readSingle]
  cases Ebnf.readTerm recur last ts with
  | ok x =>
    obtain ⟨f, vs⟩ := x
    show (match skipGaps vs with | [] => _ | .concatenateSymbol _ :: rest => _ | .definitionSeparatorSymbol l c :: rest => _ | t :: rest => _) =
      afterTerm _ f (skipGaps vs)
    cases skipGaps vs with
    | nil => rfl
    | cons t rest => cases t <;> rfl
  | err e => rfl
  | panic e => rfl
  | diverge => rfl

theorem single_after (fuel : Nat) (ts : List Token) : readSingle checks recur last (fuel + 1) ts =
    readTerm checks recur last ts >>= fun x => afterTerm (readSingle checks recur last fuel) x.1 (skipGaps x.2) := by
  rw [readSingle]
  cases readTerm checks recur last ts with
  | ok x =>
    obtain ⟨f, vs⟩ := x
    show (match skipGaps vs with | [] => _ | .concatenateSymbol _ :: rest => _ | .definitionSeparatorSymbol l c :: rest => _ | t :: rest => _) =
      afterTerm _ f (skipGaps vs)
    cases skipGaps vs with
    | nil => rfl
    | cons t rest => cases t <;> rfl
  | err e => rfl
  | panic e => rfl
  | diverge => rfl

theorem afterTerm_le {again : List Token → Res (SingleDefinition × List Token)} {term : Term} {ts us : List Token} {d : SingleDefinition}
    (ha : ∀ vs ws e, again vs = .ok (e, ws) → ws.length ≤ vs.length) (h : afterTerm again term ts = .ok (d, us)) : us.length ≤ ts.length := by
  cases ts with
  | nil => cases h; simp
  | cons t rest =>
    cases t with
    | concatenateSymbol l =>
      have h : (again rest >>= fun x => pure (.cons term x.1, x.2)) = .ok (d, us) := h
      cases hx : again rest with
      | ok x => rw [hx] at h; cases h; have := ha _ _ _ hx; simp only [List.length_cons]; omega
      | err e => rw [hx] at h; cases h
      | panic e => rw [hx] at h; cases h
      | diverge => rw [hx] at h; cases h
    | _ => cases h <;> exact Nat.le_refl _

theorem single_le {fuel : Nat} : ∀ {ts us : List Token} {d : SingleDefinition}, Ebnf.readSingle recur last fuel ts = .ok (d, us) →
    us.length ≤ ts.length := by
  induction fuel with
  | zero => intro ts us d h; cases h
  | succ fuel ih =>
    intro ts us d h
    rw [readSingle_after] at h
    cases hc : Ebnf.readTerm recur last ts with
    | ok x =>
      obtain ⟨f, vs⟩ := x
      rw [hc] at h
      have h1 := term_le hc
      have h2 := skip_le vs
      have : us.length ≤ (skipGaps vs).length := afterTerm_le (fun vs ws e h => ih h) (h : afterTerm _ f (skipGaps vs) = _)
      omega
    | err e => rw [hc] at h; cases h
    | panic e => rw [hc] at h; cases h
    | diverge => rw [hc] at h; cases h

theorem bind_same {α β : Type} {x : Res α} {f g : α → Res β} (h : ∀ a, x = .ok a → f a = g a) : (x >>= f) = (x >>= g) := by
  cases x with
  | ok a => exact h a rfl
  | err e => rfl
  | panic p => rfl
  | diverge => rfl

theorem afterTerm_congr {again again' : List Token → Res (SingleDefinition × List Token)} {term : Term} {ts : List Token}
    (h : ∀ us, us.length < ts.length → again us = again' us) : afterTerm again term ts = afterTerm again' term ts := by
  cases ts with
  | nil => rfl
  | cons t rest =>
    cases t with
    | concatenateSymbol l =>
      show (again rest >>= _) = (again' rest >>= _)
      rw [h rest (by simp)]
    | _ => rfl

theorem readSingle_small (hr : ∀ us, us.length < 2 ^ 31 → recur us = recur' us) {fuel : Nat} : ∀ {ts : List Token}, ts.length < 2 ^ 31 →
    readSingle checks recur last fuel ts = Ebnf.readSingle recur' last fuel ts := by
  induction fuel with
  | zero => intros; rw [readSingle, Ebnf.readSingle]
  | succ fuel ih =>
    intro ts h
    rw [single_after, readSingle_after, readTerm_small hr h]
    refine bind_same fun x hc => afterTerm_congr fun us hu => ih ?_
    have h1 := term_le (p := x.1) (us := x.2) hc
    have h2 := skip_le x.2
    omega

/-- What follows a definition in `read_definition_list`. -/
def afterSingle (again : List Token → Res DefinitionList) (single : SingleDefinition) (ts : List Token) : Res DefinitionList :=
  match ts with
  | [] => pure (.cons single .nil)
  | t :: rest =>
    if t.isTerminator then pure (.cons single .nil)
    else again (match t with | .definitionSeparatorSymbol _ _ => rest | t => t :: rest) >>= fun more => pure (.cons single more)

theorem readDefinitions_after (fuel : Nat) (ts : List Token) : Ebnf.readDefinitions recur last (fuel + 1) ts =
    Ebnf.readSingle recur last (ts.length + 1) ts >>= fun x => afterSingle (Ebnf.readDefinitions recur last fuel) x.1 (skipGaps x.2) := by
  rw [Ebnf.readDefinitions]
  generalize Ebnf.readDefinitions recur last fuel = f
  generalize Ebnf.readSingle recur last (ts.length + 1) ts = x
  cases x with
  | ok x =>
    obtain ⟨p, vs⟩ := x
    show (match skipGaps vs with | [] => _ | t :: rest => _) = afterSingle f p (skipGaps vs)
    cases skipGaps vs with
    | nil => rfl
    | cons t rest => cases t <;> rfl
  | err e => rfl
  | panic e => rfl
  | diverge => rfl

theorem definitions_after (fuel : Nat) (ts : List Token) : readDefinitions checks recur last (fuel + 1) ts =
    readSingle checks recur last (ts.length + 1) ts >>= fun x => afterSingle (readDefinitions checks recur last fuel) x.1 (skipGaps x.2) := by
  rw [readDefinitions]
  generalize readDefinitions checks recur last fuel = f
  generalize readSingle checks recur last (ts.length + 1) ts = x
  cases x with
  | ok x =>
    obtain ⟨p, vs⟩ := x
    show (match skipGaps vs with | [] => _ | t :: rest => _) = afterSingle f p (skipGaps vs)
    cases skipGaps vs with
    | nil => rfl
    | cons t rest => cases t <;> rfl
  | err e => rfl
  | panic e => rfl
  | diverge => rfl

theorem afterSingle_congr {again again' : List Token → Res DefinitionList} {single : SingleDefinition} {ts : List Token}
    (h : ∀ us, us.length ≤ ts.length → again us = again' us) : afterSingle again single ts = afterSingle again' single ts := by
  cases ts with
  | nil => rfl
  | cons t rest =>
    unfold afterSingle
    simp only
    rw [h _ (by cases t <;> simp)]

theorem readDefinitions_small (hr : ∀ us, us.length < 2 ^ 31 → recur us = recur' us) {fuel : Nat} : ∀ {ts : List Token}, ts.length < 2 ^ 31 →
    readDefinitions checks recur last fuel ts = Ebnf.readDefinitions recur' last fuel ts := by
  induction fuel with
  | zero => intros; rw [readDefinitions, Ebnf.readDefinitions]
  | succ fuel ih =>
    intro ts h
    rw [definitions_after, readDefinitions_after, readSingle_small hr h]
    refine bind_same fun x hc => afterSingle_congr fun us hu => ih ?_
    have h1 := single_le (d := x.1) (us := x.2) hc
    have h2 := skip_le x.2
    omega

end readers

theorem readDefinitionList_small {checks : Bool} {fuel : Nat} : ∀ {ts : List Token}, ts.length < 2 ^ 31 →
    readDefinitionList checks fuel ts = Ebnf.readDefinitionList fuel ts := by
  induction fuel with
  | zero => intros; rw [readDefinitionList, Ebnf.readDefinitionList]
  | succ fuel ih =>
    intro ts h
    rw [readDefinitionList, Ebnf.readDefinitionList, readDefinitions_small (fun us hu => ih hu) h]

theorem build_small {checks : Bool} {ts : List Token} (h : ts.length < 2 ^ 31) : buildSyntaxRule checks ts = Ebnf.buildSyntaxRule ts := by
  have hl := (readMetaIdentifier_suffix ts).length_le
  unfold buildSyntaxRule Ebnf.buildSyntaxRule
  generalize readMetaIdentifier ts = x at hl ⊢
  obtain ⟨name, location, next⟩ := x
  simp only at hl ⊢
  have h2 := skip_le next
  cases hs : skipGaps next with
  | nil => rfl
  | cons t rest =>
    rw [hs] at h2
    have h2 : rest.length + 1 ≤ next.length := h2
    cases location with
    | none => rfl
    | some loc =>
      simp only
      rw [readDefinitions_small (fun us hu => readDefinitionList_small hu) (by omega)]

theorem append_small {checks : Bool} {ts : List Token} : ∀ {tokens : List Token}, tokens.length + ts.length < 2 ^ 31 →
    append checks tokens ts = Lexer.append tokens ts := by
  induction ts with
  | nil => intros; rfl
  | cons t ts ih =>
    intro tokens h
    have h : tokens.length + (ts.length + 1) < 2 ^ 31 := h
    rw [append, Lexer.append]
    by_cases ht : t.isTerminator = true
    · rw [if_pos ht, if_pos ht, build_small (by simp; omega), ih (by simp; omega)]
      cases Ebnf.buildSyntaxRule (tokens ++ [t]) with
      | ok r =>
        simp only
        generalize Lexer.append [] ts = x
        obtain ⟨r, tokens'⟩ := x
        cases r <;> rfl
      | err e => rfl
      | panic p => rfl
      | diverge => rfl
    · rw [if_neg ht, if_neg ht, ih (by simp; omega)]

theorem feed_small {checks : Bool} {m : RM Tokenizer (List Token)} {l : Lexer}
    (h : ∀ tks tz, m l.tokenizer = (.ok tks, tz) → l.tokens.length + tks.length < 2 ^ 31) : feed checks m l = Lexer.feed m l := by
  unfold feed Lexer.feed
  cases hx : m l.tokenizer with
  | mk r tz =>
    cases r with
    | ok tks => simp only; rw [append_small (h tks tz hx)]
    | err e => rfl
    | panic e => rfl
    | diverge => rfl

theorem loop_ok {fuel : Nat} : ∀ {loc : Location} {rest : Str} {k : Nat} {tks : List Token} {loc' : Location} {rest' : Str},
    Fits loc (rest.length + k) → Tokenizer.tokenizeLoop fuel loc rest = (.ok tks, loc', rest') →
    Fits loc' (rest'.length + k) ∧ tks.length + rest'.length ≤ rest.length := by
  induction fuel with
  | zero =>
    intro loc rest k tks loc' rest' hf h
    rw [Tokenizer.tokenizeLoop] at h
    by_cases he : rest.isEmpty = true
    · rw [if_pos he] at h; cases h; exact ⟨hf, by simp⟩
    · rw [if_neg he] at h; cases h
  | succ fuel ih =>
    intro loc rest k tks loc' rest' hf h
    rw [Tokenizer.tokenizeLoop] at h
    by_cases he : rest.isEmpty = true
    · rw [if_pos he] at h; cases h; exact ⟨hf, by simp⟩
    · rw [if_neg he] at h
      cases hx : Ebnf.readNext loc rest false with
      | ok o =>
        rw [hx] at h
        cases o with
        | none => cases h; exact ⟨hf, by simp⟩
        | some x =>
          obtain ⟨tk, n⟩ := x
          simp only at h
          have hr := readNext_sound _ _ _ _ _ hx
          have h0 := hr.pos
          have h1 := hr.le
          have hf2 : Fits (loc.pushStr (rest.take n)) ((rest.drop n).length + k) :=
            (Word.pushStr_fits (checks := true) (hf.mono (by simp; omega))).2
          cases hy : Tokenizer.tokenizeLoop fuel (loc.pushStr (rest.take n)) (rest.drop n) with
          | mk r q =>
            obtain ⟨l, s⟩ := q
            rw [hy] at h
            cases r with
            | ok ts =>
              cases h
              obtain ⟨h2, h3⟩ := ih hf2 hy
              refine ⟨h2, ?_⟩
              simp at h3 ⊢
              omega
            | err e => cases h
            | panic p => cases h
            | diverge => cases h
      | err e => rw [hx] at h; cases h
      | panic p => rw [hx] at h; cases h
      | diverge => rw [hx] at h; cases h

theorem tokenizer_ok {s : Str} {t t' : Tokenizer} {k : Nat} {tks : List Token} (hf : Fits t.location (t.buffer.length + s.length + k))
    (h : Tokenizer.pushStr s t = (.ok tks, t')) :
    Fits t'.location (t'.buffer.length + k) ∧ tks.length + t'.buffer.length ≤ t.buffer.length + s.length := by
  unfold Tokenizer.pushStr at h
  cases hc : t.ensureCapacity s.length with
  | ok u =>
    rw [hc] at h
    simp only [Tokenizer.tokenize] at h
    cases hx : Tokenizer.tokenizeLoop (t.buffer ++ s).length t.location (t.buffer ++ s) with
    | mk r q =>
      obtain ⟨l, rest⟩ := q
      rw [hx] at h
      cases r with
      | ok ts =>
        cases h
        obtain ⟨h1, h2⟩ := loop_ok (k := k) (by simpa using hf) hx
        exact ⟨h1, by simpa using h2⟩
      | err e => cases h
      | panic p => cases h
      | diverge => cases h
  | err e => rw [hc] at h; cases h
  | panic p => rw [hc] at h; cases h
  | diverge => rw [hc] at h; cases h

/-- What a lexer still keeps, followed by `n` more characters, is within the range of the counters. -/
def Within (l : Lexer) (n : Nat) : Prop :=
  Fits l.tokenizer.location (l.tokenizer.buffer.length + n) ∧ l.tokens.length + l.tokenizer.buffer.length + n + 1 < 2 ^ 31

theorem lexer_pushStr {checks : Bool} {s : Str} {l : Lexer} (h : Within l s.length) : pushStr checks s l = Lexer.pushStr s l := by
  have h1 : tokenizerPush checks s l.tokenizer = Tokenizer.pushStr s l.tokenizer := tokenizerPush_small ⟨h.1, by have := h.2; omega⟩
  have h2 : feed checks (tokenizerPush checks s) l = feed checks (Tokenizer.pushStr s) l := by unfold feed; rw [h1]
  show feed checks (tokenizerPush checks s) l = _
  rw [h2]
  refine feed_small fun tks tz ht => ?_
  obtain ⟨_, h3⟩ := tokenizer_ok (k := 0) h.1 ht
  have := h.2
  omega

theorem first_same {m m' : RM Lexer (List SyntaxRule)} {l : Lexer} (h : m l = m' l) : Lexer.first m l = Lexer.first m' l := by
  show RM.bind m _ l = RM.bind m' _ l
  unfold RM.bind
  rw [h]

theorem lexer_push {checks : Bool} {c : Char} {l : Lexer} (h : Within l 1) : push checks c l = Lexer.push c l :=
  first_same (lexer_pushStr (checks := checks) (s := [c]) h)

theorem lexer_flush {checks : Bool} {l : Lexer} (h : Within l 0) : flush checks l = Lexer.flush l := by
  refine first_same ?_
  have h1 : tokenizerFlush checks l.tokenizer = Tokenizer.flush l.tokenizer := tokenizerFlush_small ⟨h.1, by have := h.2; omega⟩
  have h2 : feed checks (tokenizerFlush checks) l = feed checks Tokenizer.flush l := by unfold feed; rw [h1]
  rw [h2]
  refine feed_small fun tks tz ht => ?_
  have h3 : tks.length ≤ l.tokenizer.buffer.length + 1 := by
    unfold Tokenizer.flush at ht
    cases hx : Ebnf.readNext l.tokenizer.location l.tokenizer.buffer true with
    | ok o =>
      rw [hx] at ht
      cases o with
      | none =>
        simp only at ht
        split at ht
        · cases ht; simp
        · cases ht
      | some x =>
        obtain ⟨tk, n⟩ := x
        have hr := readNext_sound _ _ _ _ _ hx
        have h4 := hr.pos
        have h5 := hr.le
        simp only at ht
        split at ht
        · cases ht; simp; omega
        · cases ht
    | err e => rw [hx] at ht; cases ht
    | panic p => rw [hx] at ht; cases ht
    | diverge => rw [hx] at ht; cases ht
  have := h.2
  omega

theorem lexer_ok {s : Str} {l l' : Lexer} {k : Nat} {rs : List SyntaxRule} (h : Within l (s.length + k))
    (hx : Lexer.pushStr s l = (.ok rs, l')) : Within l' k := by
  unfold Lexer.pushStr Lexer.feed at hx
  cases hy : Tokenizer.pushStr s l.tokenizer with
  | mk r tz =>
    rw [hy] at hx
    cases r with
    | ok tks =>
      obtain ⟨h1, h2⟩ := tokenizer_ok (k := k) (h.1.mono (by omega)) hy
      simp only at hx
      have h3 := Nested.append_kept l.tokens tks
      generalize Lexer.append l.tokens tks = x at hx h3
      obtain ⟨r, tokens⟩ := x
      cases hx
      refine ⟨h1, ?_⟩
      have := h.2
      simp only at h3 ⊢
      omega
    | err e => cases hx
    | panic p => cases hx
    | diverge => cases hx

theorem pushAll_small {checks : Bool} {chunks : List Str} : ∀ {l : Lexer} {k : Nat}, Within l (chunks.flatten.length + k) →
    wordPushAll checks chunks l = pushAll chunks l ∧ ∀ rs l', pushAll chunks l = (.ok rs, l') → Within l' k := by
  induction chunks with
  | nil => intro l k h; exact ⟨rfl, fun rs l' hx => by cases hx; simpa using h⟩
  | cons c cs ih =>
    intro l k h
    have h : Within l (c.length + (cs.flatten.length + k)) := by
      simp only [List.flatten_cons, List.length_append] at h
      exact ⟨h.1.mono (by omega), by have := h.2; omega⟩
    have h1 := lexer_pushStr (checks := checks) (s := c) (l := l) ⟨h.1.mono (by omega), by have := h.2; omega⟩
    have e1 : wordPushAll checks (c :: cs) l = RM.bind (pushStr checks c) (fun r => RM.bind (wordPushAll checks cs) fun rs => RM.pure (r ++ rs)) l := rfl
    have e2 : pushAll (c :: cs) l = RM.bind (Lexer.pushStr c) (fun r => RM.bind (pushAll cs) fun rs => RM.pure (r ++ rs)) l := rfl
    rw [e1, e2]
    unfold RM.bind
    rw [h1]
    cases hx : Lexer.pushStr c l with
    | mk r l1 =>
      cases r with
      | ok rs1 =>
        obtain ⟨h2, h3⟩ := ih (lexer_ok h hx)
        simp only
        rw [h2]
        refine ⟨rfl, fun rs l' hy => ?_⟩
        cases hz : pushAll cs l1 with
        | mk r2 l2 =>
          rw [hz] at hy
          cases r2 with
          | ok rs2 => cases hy; exact h3 _ _ hz
          | err e => cases hy
          | panic e => cases hy
          | diverge => cases hy
      | err e => exact ⟨rfl, fun rs l' hy => by cases hy⟩
      | panic e => exact ⟨rfl, fun rs l' hy => by cases hy⟩
      | diverge => exact ⟨rfl, fun rs l' hy => by cases hy⟩

theorem feedAll_small {checks : Bool} {chunks : List Str} {l : Lexer} (h : Within l chunks.flatten.length) :
    wordFeedAll checks chunks l = feedAll chunks l := by
  obtain ⟨h1, h2⟩ := pushAll_small (checks := checks) (k := 0) (l := l) (by simpa using h)
  have e1 : wordFeedAll checks chunks l = RM.bind (wordPushAll checks chunks) (fun rs => RM.bind (flush checks) fun r => RM.pure (rs ++ r.toList)) l := rfl
  have e2 : feedAll chunks l = RM.bind (pushAll chunks) (fun rs => RM.bind Lexer.flush fun r => RM.pure (rs ++ r.toList)) l := rfl
  rw [e1, e2]
  unfold RM.bind
  rw [h1]
  cases hx : pushAll chunks l with
  | mk r l1 =>
    cases r with
    | ok rs1 =>
      simp only
      rw [lexer_flush (h2 _ _ hx)]
    | err e => rfl
    | panic e => rfl
    | diverge => rfl

theorem new_within {name : Str} {limit n : Nat} (h : n + 1 < 2 ^ 31) : Within (Lexer.withCapacity name limit) n := by
  refine ⟨?_, ?_⟩
  · show Fits (Location.new name) (0 + n)
    unfold Fits
    simp only [Location.new, Location.withLocation]
    omega
  · show 0 + 0 + n + 1 < 2 ^ 31
    omega

theorem parse_small {checks : Bool} {name text : Str} (h : text.length + 1 < 2 ^ 31) : parseStr checks name text = Ebnf.parseStr name text := by
  have h1 := feedAll_small (checks := checks) (chunks := [text]) (l := Lexer.new name) (new_within (limit := 0) (by simpa using h))
  have h2 : ∀ (m m' : RM Lexer (List SyntaxRule)) (l : Lexer),
      (RM.bind (RM.bind m fun r => RM.bind (RM.pure []) fun rs => RM.pure (r ++ rs)) fun rs => RM.bind Lexer.flush fun r => RM.pure (rs ++ r.toList)) l =
        (RM.bind m fun rs => RM.bind Lexer.flush fun r => RM.pure (rs ++ r.toList)) l := by
    intro m _ l
    unfold RM.bind RM.pure
    cases m l with
    | mk r l1 => cases r <;> simp
  have h3 : ∀ (m m' : RM Lexer (List SyntaxRule)) (l : Lexer),
      (RM.bind (RM.bind m fun r => RM.bind (RM.pure []) fun rs => RM.pure (r ++ rs)) fun rs => RM.bind (flush checks) fun r => RM.pure (rs ++ r.toList)) l =
        (RM.bind m fun rs => RM.bind (flush checks) fun r => RM.pure (rs ++ r.toList)) l := by
    intro m _ l
    unfold RM.bind RM.pure
    cases m l with
    | mk r l1 => cases r <;> simp
  have h4 := (h3 (pushStr checks text) (pushStr checks text) (Lexer.new name)).symm.trans
    (h1.trans (h2 (Lexer.pushStr text) (Lexer.pushStr text) (Lexer.new name)))
  exact congrArg Prod.fst h4

end Ebnf.WordLex
