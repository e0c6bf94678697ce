import Verif.Proofs.Blanks

set_option autoImplicit false

/-! # A terminator symbol and the end of the text are interchangeable -/

namespace Ebnf

open Spec

/-- Terminator symbols replaced by an end marker. -/
def stop : Token → Token
  | .terminatorSymbol l _ => .eof l
  | t => t

/-- The value of a successful result. -/
def okay {α : Type} : Res α → Option α
  | .ok a => some a
  | _ => none

theorem okay_bind {α β : Type} (x : Res α) (f : α → Res β) : okay (x >>= f) = (okay x).bind fun a => okay (f a) := by
  cases x <;> rfl

theorem okay_pure {α : Type} (a : α) : okay (pure a : Res α) = some a := rfl
theorem okay_ok {α : Type} (a : α) : okay (.ok a : Res α) = some a := rfl
theorem okay_fail {α : Type} (l : Location) (m : Msg) : okay (.fail l m : Res α) = none := rfl
theorem okay_panic {α : Type} (p : Panic) : okay (.panic p : Res α) = none := rfl

theorem okay_iff {α : Type} {x : Res α} {a : α} : okay x = some a ↔ x = .ok a := by
  cases x <;> simp [okay]

theorem stop_location (t : Token) : (stop t).location = t.location := by cases t <;> rfl
theorem stop_isTerminator (t : Token) : (stop t).isTerminator = t.isTerminator := by cases t <;> rfl
theorem stop_isSkippable (t : Token) : (stop t).isSkippable = t.isSkippable := by cases t <;> rfl
theorem stop_isDefiningSymbol (t : Token) : (stop t).isDefiningSymbol = t.isDefiningSymbol := by cases t <;> rfl
theorem stop_isRepetitionSymbol (t : Token) : (stop t).isRepetitionSymbol = t.isRepetitionSymbol := by cases t <;> rfl
theorem stop_isExceptSymbol (t : Token) : (stop t).isExceptSymbol = t.isExceptSymbol := by cases t <;> rfl
theorem stop_isEndGroupSymbol (t : Token) : (stop t).isEndGroupSymbol = t.isEndGroupSymbol := by cases t <;> rfl

theorem skipGaps_stop (ts : List Token) : skipGaps (ts.map stop) = (skipGaps ts).map stop := by
  induction ts with
  | nil => rfl
  | cons t ts ih =>
    simp only [skipGaps, List.map_cons, List.dropWhile_cons, stop_isSkippable] at ih ⊢
    split
    · exact ih
    · rfl

theorem lastLocation_stop (ts : List Token) : lastLocation (ts.map stop) = lastLocation ts := by
  unfold lastLocation
  rw [List.getLast?_map]
  cases ts.getLast? <;> simp [stop_location]

theorem readMetaLoop_stop (ts : List Token) (acc : Str) (loc : Option Location) :
    readMetaLoop (ts.map stop) acc loc =
      ((readMetaLoop ts acc loc).1, (readMetaLoop ts acc loc).2.1, (readMetaLoop ts acc loc).2.2.map stop) := by
  induction ts generalizing acc loc with
  | nil => rfl
  | cons t ts ih =>
    cases t
    case metaIdentifier => simp only [List.map_cons, stop, readMetaLoop]; exact ih _ _
    case gapSeparatorSequence => simp only [List.map_cons, stop, readMetaLoop]; exact ih _ _
    all_goals rfl

theorem readMetaIdentifier_stop (ts : List Token) :
    readMetaIdentifier (ts.map stop) =
      ((readMetaIdentifier ts).1, (readMetaIdentifier ts).2.1, (readMetaIdentifier ts).2.2.map stop) := by
  unfold readMetaIdentifier
  rw [skipGaps_stop, readMetaLoop_stop]

theorem findClose_stop {o c : Token → Bool} (ho : ∀ t, o (stop t) = o t) (hc : ∀ t, c (stop t) = c t) (n : Nat)
    (ts : List Token) :
    findClose o c n (ts.map stop) = (findClose o c n ts).map fun x => (x.1.map stop, x.2.map stop) := by
  induction ts generalizing n with
  | nil => rfl
  | cons t ts ih =>
    simp only [List.map_cons, findClose, ho, hc]
    split
    · rw [ih]; cases findClose o c (n + 1) ts <;> rfl
    · split
      · split
        · rfl
        · rw [ih]; cases findClose o c (n - 1) ts <;> rfl
      · rw [ih]; cases findClose o c n ts <;> rfl

section
variable {recur : List Token → Res DefinitionList} {last : Location}

theorem readEnclosed_stop (hr : ∀ ts, okay (recur (ts.map stop)) = okay (recur ts)) {t : Token} {ts : List Token}
    {o c : Token → Bool} (ho : ∀ t, o (stop t) = o t) (hc : ∀ t, c (stop t) = c t) :
    okay (readEnclosed recur t (ts.map stop) o c) =
      (okay (readEnclosed recur t ts o c)).map fun x => (x.1, x.2.map stop) := by
  unfold readEnclosed
  rw [findClose_stop ho hc]
  cases findClose o c 0 ts with
  | none => rfl
  | some x =>
    obtain ⟨i, r⟩ := x
    simp only [Option.map_some, okay_bind, hr, okay_pure]
    cases okay (recur i) <;> rfl

theorem head_endGroup (r : List Token) :
    ((r.map stop).head?.map Token.isEndGroupSymbol).getD false = (r.head?.map Token.isEndGroupSymbol).getD false := by
  cases r with
  | nil => rfl
  | cons t r => simp [stop_isEndGroupSymbol]

theorem readPrimary_stop (hr : ∀ ts, okay (recur (ts.map stop)) = okay (recur ts)) (ts : List Token) :
    okay (readPrimary recur last (ts.map stop)) =
      (okay (readPrimary recur last ts)).map fun x => (x.1, x.2.map stop) := by
  unfold readPrimary
  rw [skipGaps_stop]
  cases hs : skipGaps ts with
  | nil => rfl
  | cons t r =>
    cases t
    case startOptionSymbol l s =>
      simp only [List.map_cons, stop, head_endGroup]
      split
      · rfl
      · simp only [okay_bind]
        rw [readEnclosed_stop hr (by intro t; cases t <;> rfl) (by intro t; cases t <;> rfl)]
        cases okay (readEnclosed recur (.startOptionSymbol l s) r _ _) <;> rfl
    case startRepeatSymbol l s =>
      simp only [List.map_cons, stop, head_endGroup]
      split
      · rfl
      · simp only [okay_bind]
        rw [readEnclosed_stop hr (by intro t; cases t <;> rfl) (by intro t; cases t <;> rfl)]
        cases okay (readEnclosed recur (.startRepeatSymbol l s) r _ _) <;> rfl
    case startGroupSymbol l =>
      simp only [List.map_cons, stop]
      simp only [okay_bind]
      rw [readEnclosed_stop hr (by intro t; cases t <;> rfl) (by intro t; cases t <;> rfl)]
      cases okay (readEnclosed recur (.startGroupSymbol l) r _ _) <;> rfl
    case metaIdentifier l s =>
      have := readMetaIdentifier_stop (.metaIdentifier l s :: r)
      simp only [List.map_cons, stop] at this ⊢
      rw [this]
      rfl
    all_goals rfl

theorem readFactor_stop (hr : ∀ ts, okay (recur (ts.map stop)) = okay (recur ts)) (ts : List Token) :
    okay (readFactor recur last (ts.map stop)) =
      (okay (readFactor recur last ts)).map fun x => (x.1, x.2.map stop) := by
  rw [readFactor_eq, readFactor_eq]
  have hc : okay (readCount (ts.map stop)) = (okay (readCount ts)).map fun x => (x.1, x.2.map stop) := by
    unfold readCount
    rw [skipGaps_stop]
    cases hs : skipGaps ts with
    | nil => rfl
    | cons t r =>
      cases t
      case integer l d =>
        simp only [List.map_cons, stop]
        cases parseU32 d with
        | none => rfl
        | some n =>
          simp only
          rw [skipGaps_stop]
          cases skipGaps r with
          | nil => rfl
          | cons t' r' =>
            simp only [List.map_cons, stop_isRepetitionSymbol]
            split
            · rw [skipGaps_stop]; rfl
            · rfl
      all_goals rfl
  rw [okay_bind, hc, okay_bind]
  cases okay (readCount ts) with
  | none => rfl
  | some x =>
    simp only [Option.map_some, Option.bind_some, okay_bind, readPrimary_stop hr]
    cases okay (readPrimary recur last x.2) <;> rfl

theorem readTerm_stop (hr : ∀ ts, okay (recur (ts.map stop)) = okay (recur ts)) (ts : List Token) :
    okay (readTerm recur last (ts.map stop)) =
      (okay (readTerm recur last ts)).map fun x => (x.1, x.2.map stop) := by
  unfold readTerm
  rw [okay_bind, okay_bind, readFactor_stop hr]
  cases okay (readFactor recur last ts) with
  | none => rfl
  | some x =>
    simp only [Option.map_some, Option.bind_some, skipGaps_stop]
    cases skipGaps x.2 with
    | nil => rfl
    | cons t r =>
      simp only [List.map_cons, stop_isExceptSymbol]
      split
      · rw [okay_bind, okay_bind, readFactor_stop hr]
        cases okay (readFactor recur last r) <;> rfl
      · rfl

theorem readSingle_stop (hr : ∀ ts, okay (recur (ts.map stop)) = okay (recur ts)) (fuel : Nat) (ts : List Token) :
    okay (readSingle recur last fuel (ts.map stop)) =
      (okay (readSingle recur last fuel ts)).map fun x => (x.1, x.2.map stop) := by
  induction fuel generalizing ts with
  | zero => rfl
  | succ fuel ih =>
    unfold readSingle
    rw [okay_bind, okay_bind, readTerm_stop hr]
    cases okay (readTerm recur last ts) with
    | none => rfl
    | some x =>
      simp only [Option.map_some, Option.bind_some, skipGaps_stop]
      cases skipGaps x.2 with
      | nil => rfl
      | cons t r =>
        cases t
        case concatenateSymbol l =>
          simp only [List.map_cons, stop, okay_bind, ih]
          cases okay (readSingle recur last fuel r) <;> rfl
        all_goals rfl

theorem readDefinitions_stop (hr : ∀ ts, okay (recur (ts.map stop)) = okay (recur ts)) (fuel : Nat) (ts : List Token) :
    okay (readDefinitions recur last fuel (ts.map stop)) = okay (readDefinitions recur last fuel ts) := by
  induction fuel generalizing ts with
  | zero => rfl
  | succ fuel ih =>
    unfold readDefinitions
    rw [okay_bind, okay_bind, List.length_map, readSingle_stop hr]
    cases okay (readSingle recur last (ts.length + 1) ts) with
    | none => rfl
    | some x =>
      simp only [Option.map_some, Option.bind_some, skipGaps_stop]
      cases skipGaps x.2 with
      | nil => rfl
      | cons t r =>
        simp only [List.map_cons, stop_isTerminator]
        split
        · rfl
        · have h := ih (match t with | .definitionSeparatorSymbol _ _ => r | t => t :: r)
          cases t <;> simp only [List.map_cons, okay_bind] at h ⊢ <;> first | rw [← h]; rfl | rfl
end

theorem readDefinitionList_stop (fuel : Nat) (ts : List Token) :
    okay (readDefinitionList fuel (ts.map stop)) = okay (readDefinitionList fuel ts) := by
  induction fuel generalizing ts with
  | zero => rfl
  | succ fuel ih =>
    unfold readDefinitionList
    rw [lastLocation_stop, List.length_map, readDefinitions_stop ih]

theorem buildSyntaxRule_stop (ts : List Token) :
    okay (buildSyntaxRule (ts.map stop)) = okay (buildSyntaxRule ts) := by
  unfold buildSyntaxRule
  rw [readMetaIdentifier_stop]
  generalize readMetaIdentifier ts = x
  obtain ⟨n, loc, nx⟩ := x
  simp only [skipGaps_stop]
  cases skipGaps nx with
  | nil => cases loc <;> rfl
  | cons t r =>
    cases loc with
    | none =>
      simp only [List.map_cons, stop_isTerminator]
      split <;> rfl
    | some l =>
      simp only [List.map_cons, stop_isDefiningSymbol]
      split
      · rfl
      · split
        · rfl
        · rw [okay_bind, okay_bind, lastLocation_stop, List.length_map, List.length_map,
            readDefinitions_stop (readDefinitionList_stop _)]

/-- Only the kind and the place of the terminator matter. -/
theorem buildSyntaxRule_terminator {ts : List Token} {t u : Token} {r : Option SyntaxRule}
    (h : stop t = stop u) : buildSyntaxRule (ts ++ [t]) = .ok r ↔ buildSyntaxRule (ts ++ [u]) = .ok r := by
  rw [← okay_iff, ← okay_iff, ← buildSyntaxRule_stop, ← buildSyntaxRule_stop (ts ++ [u])]
  simp [h]

/-- A spelling that ends in `;` is that of the terminator. -/
theorem spelled_semicolon {t : Token} {s : Str} (h : Spelled t (s ++ [';'])) :
    s = [] ∧ ∃ l, t = .terminatorSymbol l ';' := by
  generalize hx : s ++ [';'] = x at h
  have hlast : x.getLast? = some ';' := by rw [← hx]; simp
  have key : ∀ c, x = [c] → c = ';' := by rintro c rfl; simpa using hlast
  have key2 : ∀ (a : Str) c, x = a ++ [c] → c = ';' := by rintro a c rfl; simpa using hlast
  have nil : ∀ c, x = [c] → s = [] := by
    intro c hc; rw [hc] at hx
    cases s with
    | nil => rfl
    | cons a as => simp at hx
  have mem : ';' ∈ x := by rw [← hx]; simp
  cases h with
  | terminator l c hc => have := key c rfl; subst this; exact ⟨nil _ rfl, l, rfl⟩
  | separator _ c hc => have := key c rfl; subst this; simp at hc
  | startOption _ _ h => simp at h; rcases h with rfl | rfl <;> simp at mem
  | endOption _ _ h => simp at h; rcases h with rfl | rfl <;> simp at mem
  | startRepeat _ _ h => simp at h; rcases h with rfl | rfl <;> simp at mem
  | endRepeat _ _ h => simp at h; rcases h with rfl | rfl <;> simp at mem
  | metaIdentifier _ c s hc hs =>
    rcases List.mem_cons.mp mem with rfl | h
    · exact absurd hc (by decide)
    · exact absurd (hs _ h) (by decide)
  | integer _ c s hc hs =>
    rcases List.mem_cons.mp mem with rfl | h
    · exact absurd hc (by decide)
    · exact absurd (hs _ h) (by decide)
  | gapSeparator _ c s hc hs =>
    rcases List.mem_cons.mp mem with rfl | h
    · exact absurd hc (by decide)
    · exact absurd (hs _ h) (by decide)
  | terminalString _ s q hq _ _ =>
    have := key2 _ q rfl; subst this; simp at hq
  | comment _ s _ => exact absurd (key2 ('(' :: '*' :: s ++ ['*']) ')' (by simp)) (by decide)
  | specialSequence _ s _ => exact absurd (key2 _ '?' rfl) (by decide)
  | _ => simp at mem

theorem lexes_semicolon {loc : Location} {text : Str} {ts : List Token} (h : Lexes loc text ts) :
    Lexes loc (text ++ [';']) (ts ++ [.terminatorSymbol (lineColumn loc text) ';']) := by
  refine lexes_append h ?_ (.cons (s := [';']) (rest := []) (.terminator _ _ (by simp)) rfl trivial (.nil _))
  intro t _
  exact ends_of (by decide) (by decide) (by decide) (fun _ => by decide)

theorem lexes_drop_semicolon {loc : Location} {text : Str} {us : List Token} (h : Lexes loc (text ++ [';']) us) :
    ∃ ts, us = ts ++ [.terminatorSymbol (lineColumn loc text) ';'] ∧ Lexes loc text ts := by
  generalize hx : text ++ [';'] = x at h
  induction h generalizing text with
  | nil => simp at hx
  | @cons start tk s rest tks hsp hp hend hl ih =>
    rcases List.eq_nil_or_concat rest with rfl | ⟨r, c, rfl⟩
    · have := lexes_unique hl (.nil _)
      subst this
      rw [List.append_nil] at hx
      rw [← hx] at hsp
      obtain ⟨rfl, l, rfl⟩ := spelled_semicolon hsp
      refine ⟨[], ?_, .nil _⟩
      rw [lineColumn_nil, ← hp]; rfl
    · rw [List.concat_eq_append, ← List.append_assoc] at hx
      obtain ⟨rfl, hc⟩ := List.append_inj' hx rfl
      simp at hc
      subst hc
      obtain ⟨ts, rfl, h1⟩ := ih (text := r) (by simp)
      refine ⟨tk :: ts, ?_, .cons hsp hp ?_ h1⟩
      · rw [lineColumn_append]; simp
      · cases r with
        | nil => exact ends_none tk
        | cons a as => simpa using hend

theorem append_terminator (toks ts : List Token) (l l' : Location) (rs : List SyntaxRule) :
    (Lexer.append toks (ts ++ [.eof l])).1 = .ok rs ↔
    (Lexer.append toks (ts ++ [.terminatorSymbol l ';', .eof l'])).1 = .ok rs := by
  rw [append_append, append_append]
  generalize Lexer.append toks ts = x
  obtain ⟨r, t1⟩ := x
  cases r with
  | ok r1 =>
    simp only [thenAppend]
    rw [append_cons_term rfl, append_cons_term rfl]
    have h := fun r => buildSyntaxRule_terminator (ts := t1) (t := .eof l) (u := .terminatorSymbol l ';') (r := r) rfl
    have h2 : Lexer.append [] [.eof l'] = (.ok [], []) := by rfl
    rw [h2]
    cases h1 : buildSyntaxRule (t1 ++ [.eof l]) with
    | ok r => rw [(h r).mp h1]; simp [Lexer.append]
    | _ =>
      cases h3 : buildSyntaxRule (t1 ++ [.terminatorSymbol l ';']) with
      | ok r => rw [(h r).mpr h3] at h1; simp at h1
      | _ => simp
  | _ => simp [thenAppend]

theorem parseStr_semicolon (name text : Str) (rs : List SyntaxRule) :
    parseStr name text = .ok rs ↔ parseStr name (text ++ [';']) = .ok rs := by
  rw [parseStr_ok_iff, parseStr_ok_iff]
  constructor
  · rintro ⟨ts, h1, h2⟩
    refine ⟨_, lexes_semicolon h1, ?_⟩
    rw [List.append_assoc]
    rw [Location.pushStr_eq_lineColumn] at h2
    exact (append_terminator _ _ _ _ _).mp h2
  · rintro ⟨us, h1, h2⟩
    obtain ⟨ts, rfl, h3⟩ := lexes_drop_semicolon h1
    refine ⟨ts, h3, ?_⟩
    rw [List.append_assoc] at h2
    rw [Location.pushStr_eq_lineColumn]
    exact (append_terminator _ _ _ _ _).mpr h2

theorem append_blanks {g : List Token} (hg : Blanks g) (toks : List Token) : Lexer.append toks g = (.ok [], toks ++ g) := by
  have := append_seg (toks := toks) (rest := []) (noTerm_blanks hg)
  rw [List.append_nil] at this
  rw [this, Lexer.append]

theorem flush_after_terminator {name text : Str} {ts g : List Token} {l : Location} {c : Char}
    (hl : Lexes (Location.new name) text (ts ++ .terminatorSymbol l c :: g)) (hg : Blanks g)
    {rs : List SyntaxRule} {lx : Lexer} (hp : Lexer.pushStr text (Lexer.new name) = (.ok rs, lx)) :
    (Lexer.flush lx).1 = .ok none := by
  have hinv := pushStr_inv hp
  obtain ⟨tks, h1, h2, h3⟩ := pushStr_ok hp
  have hsc := scanAll_complete hl
  change tokLoop (Location.new name) text = _ at h1
  simp only [scanAll, h1] at hsc
  cases hf : flushTok lx.tokenizer.location lx.tokenizer.buffer with
  | ok fs =>
    rw [hf] at hsc
    simp [Res.bind] at hsc
    obtain ⟨f1, rfl, hf1, hf2⟩ := flushTok_ends hf
    have hcnt := flushTok_count hinv hf
    have hno : ∀ t ∈ f1, t.isTerminator = false := by
      simp [Token.isTerminator] at hcnt
      exact hcnt
    rw [← List.append_assoc, ← List.cons_append, ← List.append_assoc] at hsc
    have hsc := (List.append_inj' hsc rfl).1
    have hsplit : ∃ g1, tks = ts ++ .terminatorSymbol l c :: g1 ∧ g = g1 ++ f1 := by
      match f1, hf2, hno with
      | [], _, _ => exact ⟨g, by simpa using hsc, by simp⟩
      | [t], _, hno =>
        rcases List.eq_nil_or_concat g with rfl | ⟨g1, x, rfl⟩
        · have := (List.append_inj' (t₁ := [t]) (t₂ := [.terminatorSymbol l c]) hsc rfl).2
          simp at this
          have h := hno t (by simp)
          rw [this] at h; simp [Token.isTerminator] at h
        · rw [List.concat_eq_append, ← List.cons_append, ← List.append_assoc] at hsc
          obtain ⟨h4, h5⟩ := List.append_inj' hsc rfl
          simp at h5
          subst h5
          exact ⟨g1, h4, by simp⟩
      | _ :: _ :: _, h, _ => simp at h
    obtain ⟨g1, rfl, rfl⟩ := hsplit
    have htoks : lx.tokens = g1 := by
      change Lexer.append [] _ = _ at h2
      rw [show ts ++ Token.terminatorSymbol l c :: g1 = (ts ++ [.terminatorSymbol l c]) ++ g1 by simp,
        append_append] at h2
      generalize hx : Lexer.append [] (ts ++ [.terminatorSymbol l c]) = x at h2
      obtain ⟨r, t1⟩ := x
      cases r with
      | ok r1 =>
        have := append_ends_term rfl hx
        subst this
        simp only [thenAppend, append_blanks (show Blanks g1 from fun t ht => hg t (by simp [ht]))] at h2
        simp at h2
        exact h2.2.symm
      | _ => simp [thenAppend] at h2
    rcases flush_eq lx hinv with ⟨tks', h4, h5⟩ | ⟨e, h4, _⟩
    · rw [hf] at h4
      injection h4 with h4
      subst h4
      rw [h5]
      simp only
      have hgf : Blanks f1 := fun t ht => hg t (by simp [ht])
      rw [htoks, append_append, append_blanks hgf]
      simp only [thenAppend]
      rw [append_cons_term rfl, buildSyntaxRule_blank (by exact hg) (t := .eof _) trivial]
      simp [Lexer.append, headRes]
    · rw [hf] at h4; simp at h4
  | _ => rw [hf] at hsc; simp [Res.bind] at hsc

end Ebnf
