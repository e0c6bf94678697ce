import Verif.Model.Lexer
import Verif.Spec.Relocate
import Verif.Spec.Driver
import Verif.Proofs.Stream

set_option autoImplicit false

/-! # Lexing and reading commute with moving the places -/

namespace Ebnf

open Spec

/-- The token with its place moved. -/
def mapToken (f : Location → Location) : Token → Token
  | .repetitionSymbol l => .repetitionSymbol (f l)
  | .exceptSymbol l => .exceptSymbol (f l)
  | .concatenateSymbol l => .concatenateSymbol (f l)
  | .definitionSeparatorSymbol l c => .definitionSeparatorSymbol (f l) c
  | .definingSymbol l => .definingSymbol (f l)
  | .terminatorSymbol l c => .terminatorSymbol (f l) c
  | .startOptionSymbol l s => .startOptionSymbol (f l) s
  | .endOptionSymbol l s => .endOptionSymbol (f l) s
  | .startRepeatSymbol l s => .startRepeatSymbol (f l) s
  | .endRepeatSymbol l s => .endRepeatSymbol (f l) s
  | .startGroupSymbol l => .startGroupSymbol (f l)
  | .endGroupSymbol l => .endGroupSymbol (f l)
  | .eof l => .eof (f l)
  | .metaIdentifier l s => .metaIdentifier (f l) s
  | .terminalString l s q => .terminalString (f l) s q
  | .integer l s => .integer (f l) s
  | .comment l s => .comment (f l) s
  | .specialSequence l s => .specialSequence (f l) s
  | .gapSeparatorSequence l s => .gapSeparatorSequence (f l) s

/-- An outcome with its places moved. -/
def mapRes {α β : Type} (f : Location → Location) (g : α → β) : Res α → Res β
  | .ok a => .ok (g a)
  | .err e => .err ⟨f e.location, e.msg⟩
  | .panic p => .panic p
  | .diverge => .diverge

section
variable {f : Location → Location}

theorem mapRes_bind {α β γ δ : Type} {g : α → β} {h : γ → δ} {x : Res α} {x' : Res β} {k : α → Res γ} {k' : β → Res δ}
    (hx : x' = mapRes f g x) (hk : ∀ a, k' (g a) = mapRes f h (k a)) : (x' >>= k') = mapRes f h (x >>= k) := by
  subst hx
  cases x <;> first | exact hk _ | rfl

theorem ite_mapRes {α β : Type} {g : α → β} {c : Prop} [Decidable c] {a b : Res β} {x y : Res α} (h1 : c → a = mapRes f g x)
    (h2 : ¬ c → b = mapRes f g y) : (if c then a else b) = mapRes f g (if c then x else y) := by
  by_cases h : c
  · rw [if_pos h, if_pos h, h1 h]
  · rw [if_neg h, if_neg h, h2 h]

/-! ## The tokenizer -/

/-- `f` moves the places in `P` like the text does. -/
structure MovesAlong (f : Location → Location) (P : Location → Prop) : Prop where
  step : ∀ l c, P l → P (l.push c)
  push : ∀ l c, P l → f (l.push c) = (f l).push c

variable {P : Location → Prop}

theorem MovesAlong.pushStr (h : MovesAlong f P) {l : Location} (hl : P l) (s : Str) :
    P (l.pushStr s) ∧ f (l.pushStr s) = (f l).pushStr s := by
  induction s generalizing l with
  | nil => exact ⟨hl, rfl⟩
  | cons c s ih =>
    have := ih (h.step l c hl)
    simp only [Location.pushStr, List.foldl_cons] at *
    exact ⟨this.1, by rw [this.2, h.push l c hl]⟩

theorem commentLoop_map (h : MovesAlong f P) (text : Str) : ∀ (l : Location) (depth : Nat) (prev : Char), P l →
    commentLoop (f l) depth prev text =
      match commentLoop l depth prev text with
      | .bad l c => .bad (f l) c
      | r => r := by
  induction text with
  | nil => intros; rfl
  | cons c cs ih =>
    intro l depth prev hl
    rw [commentLoop, commentLoop]
    dsimp only
    rw [← h.push l c hl]
    simp only [ih _ _ c (h.step l c hl)]
    by_cases h1 : prev = '*' ∧ c = ')'
    · simp only [if_pos h1]
      by_cases h2 : depth = 0
      · simp only [if_pos h2]
      · simp only [if_neg h2]
        cases commentLoop (l.push c) (depth - 1) c cs <;> rfl
    · simp only [if_neg h1]
      by_cases h2 : prev = '(' ∧ c = '*'
      · simp only [if_pos h2]
        cases commentLoop (l.push c) (depth + 1) c cs <;> rfl
      · simp only [if_neg h2]
        by_cases h3 : (!isGapChar c && !isTerminalChar c) = true
        · simp only [if_pos h3]
        · simp only [if_neg h3]
          cases commentLoop (l.push c) depth c cs <;> rfl

/-- What is read, with its place moved. -/
abbrev mapRead (f : Location → Location) : ReadRes → ReadRes := mapRes f (Option.map fun p => (mapToken f p.1, p.2))

theorem readNext_map (h : MovesAlong f P) (l : Location) (hl : P l) (text : Str) (flush : Bool) :
    readNext (f l) text flush = mapRead f (readNext l text flush) := by
  have hq : ∀ (q : Char) (cs : Str), terminalString (f l) q cs flush = mapRead f (terminalString l q cs flush) := by
    intro q cs
    unfold terminalString
    cases scanQuoted q isTerminalChar cs with
    | error c => rfl
    | ok n => dsimp only; repeat' split
              all_goals rfl
  have hs : ∀ cs : Str, specialSequence (f l) cs flush = mapRead f (specialSequence l cs flush) := by
    intro cs
    unfold specialSequence
    cases scanQuoted '?' isSpecialSequenceChar cs with
    | error c => rfl
    | ok n => dsimp only; repeat' split
              all_goals rfl
  have hc : ∀ cs : Str, commentToken (f l) cs flush = mapRead f (commentToken l cs flush) := by
    intro cs
    unfold commentToken
    have h1 := h.pushStr hl ['(', '*']
    rw [← h1.2, commentLoop_map h cs _ 0 '*' h1.1]
    cases commentLoop (l.pushStr ['(', '*']) 0 '*' cs with
    | «open» => dsimp only; split <;> rfl
    | closed n => rfl
    | bad l' c => rfl
  cases text with
  | nil => rfl
  | cons c cs =>
    unfold readNext
    dsimp only
    iterate 11 refine ite_mapRes (fun _ => rfl) fun _ => ?_
    refine ite_mapRes (fun _ => hq c cs) fun _ => ite_mapRes (fun _ => ?_) fun _ => ite_mapRes (fun _ => ?_) fun _ =>
      ite_mapRes (fun _ => ?_) fun _ => ite_mapRes (fun _ => ?_) fun _ => ite_mapRes (fun _ => hs cs) fun _ =>
      ite_mapRes (fun _ => ?_) fun _ => ite_mapRes (fun _ => ?_) fun _ => ite_mapRes (fun _ => ?_) fun _ => rfl
    · cases cs with
      | nil => rfl
      | cons d ds =>
        dsimp only
        exact ite_mapRes (fun _ => ite_mapRes (fun _ => rfl) fun _ => hc ds) fun _ =>
          ite_mapRes (fun _ => rfl) fun _ => ite_mapRes (fun _ => rfl) fun _ => rfl
    all_goals first
      | exact ite_mapRes (fun _ => rfl) fun _ => rfl
      | (simp only [mapRes]; generalize readWhile _ _ _ = o; cases o <;> rfl)

/-- The tokens, the place and the rest, moved. -/
def mapLoop (f : Location → Location) : Res (List Token) × Location × Str → Res (List Token) × Location × Str
  | (r, l, rest) => (mapRes f (List.map (mapToken f)) r, f l, rest)

theorem tokenizeLoop_map (h : MovesAlong f P) : ∀ (fuel : Nat) (l : Location) (text : Str), P l →
    Tokenizer.tokenizeLoop fuel (f l) text = mapLoop f (Tokenizer.tokenizeLoop fuel l text) := by
  intro fuel
  induction fuel with
  | zero =>
    intro l text hl
    cases text <;> rfl
  | succ fuel ih =>
    intro l text hl
    rw [Tokenizer.tokenizeLoop, Tokenizer.tokenizeLoop]
    by_cases he : text.isEmpty
    · rw [if_pos he, if_pos he]; rfl
    rw [if_neg he, if_neg he, readNext_map h l hl]
    cases readNext l text false with
    | err e => rfl
    | panic p => rfl
    | diverge => rfl
    | ok o =>
      cases o with
      | none => rfl
      | some p =>
        obtain ⟨tk, n⟩ := p
        have h1 := h.pushStr hl (text.take n)
        simp only [mapRead, mapRes, Option.map]
        rw [← h1.2, ih _ _ h1.1]
        rcases Tokenizer.tokenizeLoop fuel (l.pushStr (text.take n)) (text.drop n) with ⟨r, l', rest⟩
        cases r <;> rfl

/-! ## The reader -/

@[simp] theorem mapToken_location (t : Token) : (mapToken f t).location = f t.location := by cases t <;> rfl
@[simp] theorem mapToken_name (t : Token) : (mapToken f t).name = t.name := by cases t <;> rfl
@[simp] theorem mapToken_debug (t : Token) (p : Char → Bool) : (mapToken f t).debug p = t.debug p := by cases t <;> rfl
@[simp] theorem mapToken_isSkippable (t : Token) : (mapToken f t).isSkippable = t.isSkippable := by cases t <;> rfl
@[simp] theorem mapToken_isTerminator (t : Token) : (mapToken f t).isTerminator = t.isTerminator := by cases t <;> rfl
@[simp] theorem mapToken_isDefiningSymbol (t : Token) : (mapToken f t).isDefiningSymbol = t.isDefiningSymbol := by cases t <;> rfl
@[simp] theorem mapToken_isRepetitionSymbol (t : Token) : (mapToken f t).isRepetitionSymbol = t.isRepetitionSymbol := by cases t <;> rfl
@[simp] theorem mapToken_isExceptSymbol (t : Token) : (mapToken f t).isExceptSymbol = t.isExceptSymbol := by cases t <;> rfl
@[simp] theorem mapToken_isEndGroupSymbol (t : Token) : (mapToken f t).isEndGroupSymbol = t.isEndGroupSymbol := by cases t <;> rfl

theorem skipGaps_map (ts : List Token) : skipGaps (ts.map (mapToken f)) = (skipGaps ts).map (mapToken f) := by
  induction ts with
  | nil => rfl
  | cons t ts ih =>
    simp only [skipGaps, List.map_cons, List.dropWhile_cons, mapToken_isSkippable] at *
    split
    · exact ih
    · rfl

theorem readMetaLoop_map (ts : List Token) : ∀ (acc : Str) (loc : Option Location),
    readMetaLoop (ts.map (mapToken f)) acc (loc.map f) =
      ((readMetaLoop ts acc loc).1, (readMetaLoop ts acc loc).2.1.map f, (readMetaLoop ts acc loc).2.2.map (mapToken f)) := by
  induction ts with
  | nil => intros; rfl
  | cons t ts ih =>
    intro acc loc
    cases t with
    | metaIdentifier l s =>
      have := ih (acc ++ s) (if loc.isNone then some l else loc)
      simp only [List.map_cons, mapToken, readMetaLoop]
      rw [← this]
      cases loc <;> rfl
    | gapSeparatorSequence l s =>
      simp only [List.map_cons, mapToken, readMetaLoop]
      exact ih _ loc
    | _ => rfl

theorem readMetaIdentifier_map (ts : List Token) : readMetaIdentifier (ts.map (mapToken f)) =
    ((readMetaIdentifier ts).1, (readMetaIdentifier ts).2.1.map f, (readMetaIdentifier ts).2.2.map (mapToken f)) := by
  have := readMetaLoop_map (f := f) (skipGaps ts) [] none
  simp only [readMetaIdentifier, skipGaps_map]
  simp only [Option.map_none] at this
  rw [this]

theorem findClose_map {isOpen isClose : Token → Bool} (ho : ∀ t, isOpen (mapToken f t) = isOpen t)
    (hc : ∀ t, isClose (mapToken f t) = isClose t) (ts : List Token) : ∀ depth : Nat,
    findClose isOpen isClose depth (ts.map (mapToken f)) =
      (findClose isOpen isClose depth ts).map fun p => (p.1.map (mapToken f), p.2.map (mapToken f)) := by
  induction ts with
  | nil => intro depth; rfl
  | cons t ts ih =>
    intro depth
    simp only [List.map_cons, findClose, ho, hc, ih]
    have h3 : ∀ o : Option (List Token × List Token),
        (o.map fun p => (p.1.map (mapToken f), p.2.map (mapToken f))).map (fun (i, r) => (mapToken f t :: i, r)) =
        (o.map fun (i, r) => (t :: i, r)).map fun p => (p.1.map (mapToken f), p.2.map (mapToken f)) := by
      intro o; cases o <;> rfl
    simp only [h3]
    repeat' split
    all_goals rfl

theorem lastLocation_map (hu : f (Location.new "<unknown>".toList) = Location.new "<unknown>".toList) (ts : List Token) :
    lastLocation (ts.map (mapToken f)) = f (lastLocation ts) := by
  simp only [lastLocation, List.getLast?_map]
  cases ts.getLast? with
  | none => exact hu.symm
  | some t => exact mapToken_location t

section readers
variable {recur recur' : List Token → Res DefinitionList} {last : Location}

/-- The pair of a tree and the tokens after it, moved. -/
abbrev mapPair {α : Type} (f : Location → Location) (g : α → α) : α × List Token → α × List Token :=
  fun p => (g p.1, p.2.map (mapToken f))

theorem readEnclosed_map (hr : ∀ ts, recur' (ts.map (mapToken f)) = mapRes f (mapList f f) (recur ts))
    {isOpen isClose : Token → Bool} (ho : ∀ t, isOpen (mapToken f t) = isOpen t)
    (hc : ∀ t, isClose (mapToken f t) = isClose t) (start : Token) (ts : List Token) :
    readEnclosed recur' (mapToken f start) (ts.map (mapToken f)) isOpen isClose =
      mapRes f (mapPair f (mapList f f)) (readEnclosed recur start ts isOpen isClose) := by
  unfold readEnclosed
  rw [findClose_map ho hc]
  cases findClose isOpen isClose 0 ts with
  | none => simp [Res.fail, mapRes]
  | some p =>
    obtain ⟨i, r⟩ := p
    exact mapRes_bind (hr i) fun a => rfl

theorem head_map (ts : List Token) : ((ts.map (mapToken f)).head?.map Token.isEndGroupSymbol).getD false =
    (ts.head?.map Token.isEndGroupSymbol).getD false := by
  cases ts <;> simp

theorem readPrimary_map (hr : ∀ ts, recur' (ts.map (mapToken f)) = mapRes f (mapList f f) (recur ts)) (ts : List Token) :
    readPrimary recur' (f last) (ts.map (mapToken f)) = mapRes f (mapPair f (mapPrimary f f)) (readPrimary recur last ts) := by
  unfold readPrimary
  rw [skipGaps_map]
  cases skipGaps ts with
  | nil => rfl
  | cons t rest =>
    cases t with
    | startOptionSymbol l s =>
      simp only [List.map_cons, mapToken, head_map]
      split
      · rfl
      · exact mapRes_bind (readEnclosed_map hr (start := .startOptionSymbol l s) (fun t => by cases t <;> rfl) (fun t => by cases t <;> rfl) rest) fun a => rfl
    | startRepeatSymbol l s =>
      simp only [List.map_cons, mapToken, head_map]
      split
      · rfl
      · exact mapRes_bind (readEnclosed_map hr (start := .startRepeatSymbol l s) (fun t => by cases t <;> rfl) (fun t => by cases t <;> rfl) rest) fun a => rfl
    | startGroupSymbol l =>
      exact mapRes_bind (readEnclosed_map hr (start := .startGroupSymbol l) (fun t => by cases t <;> rfl) (fun t => by cases t <;> rfl) rest) fun a => rfl
    | metaIdentifier l s =>
      have := readMetaIdentifier_map (f := f) (.metaIdentifier l s :: rest)
      simp only [List.map_cons, mapToken] at this ⊢
      rw [this]
      rfl
    | _ => rfl

theorem readFactor_map (hr : ∀ ts, recur' (ts.map (mapToken f)) = mapRes f (mapList f f) (recur ts)) (ts : List Token) :
    readFactor recur' (f last) (ts.map (mapToken f)) = mapRes f (mapPair f (mapFactor f f)) (readFactor recur last ts) := by
  unfold readFactor
  rw [skipGaps_map]
  have hp : ∀ (n : Nat) (us : List Token),
      (readPrimary recur' (f last) (us.map (mapToken f)) >>= fun x => pure (Factor.mk n x.1, x.2)) =
        mapRes f (mapPair f (mapFactor f f)) (readPrimary recur last us >>= fun x => pure (Factor.mk n x.1, x.2)) :=
    fun n us => mapRes_bind (readPrimary_map hr us) fun a => rfl
  cases skipGaps ts with
  | nil => exact hp 1 []
  | cons t rest =>
    have hq := hp 1 (t :: rest)
    cases t with
    | integer l s =>
      simp only [List.map_cons, mapToken]
      cases parseU32 s with
      | none => rfl
      | some n =>
        simp only [skipGaps_map]
        cases skipGaps rest with
        | nil => rfl
        | cons t rest' =>
          simp only [List.map_cons, mapToken_isRepetitionSymbol, mapToken_location, mapToken_name, skipGaps_map]
          exact ite_mapRes (fun _ => hp n (skipGaps rest')) fun _ => rfl
    | _ => exact hq

theorem readTerm_map (hr : ∀ ts, recur' (ts.map (mapToken f)) = mapRes f (mapList f f) (recur ts)) (ts : List Token) :
    readTerm recur' (f last) (ts.map (mapToken f)) = mapRes f (mapPair f (mapTerm f f)) (readTerm recur last ts) := by
  unfold readTerm
  refine mapRes_bind (readFactor_map hr ts) fun p => ?_
  simp only [skipGaps_map]
  cases skipGaps p.2 with
  | nil => rfl
  | cons t rest =>
    simp only [List.map_cons, mapToken_isExceptSymbol]
    split
    · exact mapRes_bind (readFactor_map hr rest) fun a => rfl
    · rfl

theorem readSingle_map (hr : ∀ ts, recur' (ts.map (mapToken f)) = mapRes f (mapList f f) (recur ts)) (fuel : Nat) :
    ∀ ts : List Token, readSingle recur' (f last) fuel (ts.map (mapToken f)) =
      mapRes f (mapPair f (mapSingle f f)) (readSingle recur last fuel ts) := by
  induction fuel with
  | zero => intro ts; rfl
  | succ fuel ih =>
    intro ts
    rw [readSingle, readSingle]
    refine mapRes_bind (readTerm_map hr ts) fun p => ?_
    simp only [skipGaps_map]
    cases skipGaps p.2 with
    | nil => rfl
    | cons t rest =>
      cases t with
      | concatenateSymbol l => exact mapRes_bind (ih rest) fun a => rfl
      | _ => rfl

theorem readDefinitions_map (hr : ∀ ts, recur' (ts.map (mapToken f)) = mapRes f (mapList f f) (recur ts)) (fuel : Nat) :
    ∀ ts : List Token, readDefinitions recur' (f last) fuel (ts.map (mapToken f)) =
      mapRes f (mapList f f) (readDefinitions recur last fuel ts) := by
  induction fuel with
  | zero => intro ts; rfl
  | succ fuel ih =>
    intro ts
    rw [readDefinitions, readDefinitions, List.length_map]
    refine mapRes_bind (readSingle_map hr (ts.length + 1) ts) fun p => ?_
    simp only [skipGaps_map]
    cases skipGaps p.2 with
    | nil => rfl
    | cons t rest =>
      simp only [List.map_cons, mapToken_isTerminator]
      split
      · rfl
      · refine mapRes_bind (g := mapList f f) ?_ fun a => rfl
        have hq := ih (t :: rest)
        cases t with
        | definitionSeparatorSymbol l c => exact ih rest
        | _ => exact hq

end readers

theorem readDefinitionList_map (hu : f (Location.new "<unknown>".toList) = Location.new "<unknown>".toList) (fuel : Nat) :
    ∀ ts : List Token, readDefinitionList fuel (ts.map (mapToken f)) = mapRes f (mapList f f) (readDefinitionList fuel ts) := by
  induction fuel with
  | zero => intro ts; rfl
  | succ fuel ih =>
    intro ts
    rw [readDefinitionList, readDefinitionList, lastLocation_map hu, List.length_map]
    exact readDefinitions_map ih _ ts

theorem buildSyntaxRule_map (hu : f (Location.new "<unknown>".toList) = Location.new "<unknown>".toList) (ts : List Token) :
    buildSyntaxRule (ts.map (mapToken f)) = mapRes f (Option.map (mapRule f f)) (buildSyntaxRule ts) := by
  unfold buildSyntaxRule
  rw [readMetaIdentifier_map]
  rcases readMetaIdentifier ts with ⟨name, loc, next⟩
  simp only [skipGaps_map, lastLocation_map hu, List.length_map]
  cases skipGaps next with
  | nil => cases loc <;> rfl
  | cons t rest =>
    cases loc with
    | none =>
      simp only [List.map_cons, Option.map, mapToken_isTerminator, mapToken_location, mapToken_name]
      split <;> rfl
    | some loc =>
      simp only [List.map_cons, Option.map, mapToken_isDefiningSymbol, mapToken_location, mapToken_name, List.length_map]
      split
      · rfl
      · split
        · rfl
        · exact mapRes_bind (readDefinitions_map (readDefinitionList_map hu ts.length) _ rest) fun a => rfl

theorem append_map (hu : f (Location.new "<unknown>".toList) = Location.new "<unknown>".toList) (ts : List Token) :
    ∀ tokens : List Token, Lexer.append (tokens.map (mapToken f)) (ts.map (mapToken f)) =
      (relocated f (Lexer.append tokens ts).1, (Lexer.append tokens ts).2.map (mapToken f)) := by
  induction ts with
  | nil => intro tokens; rfl
  | cons t ts ih =>
    intro tokens
    have h1 : tokens.map (mapToken f) ++ [mapToken f t] = (tokens ++ [t]).map (mapToken f) := by simp
    simp only [List.map_cons, Lexer.append, h1, mapToken_isTerminator, buildSyntaxRule_map hu]
    by_cases ht : t.isTerminator = true
    · simp only [ht, if_true]
      cases buildSyntaxRule (tokens ++ [t]) with
      | err e => rfl
      | panic p => rfl
      | diverge => rfl
      | ok o =>
        have h2 := ih []
        simp only [List.map_nil] at h2
        simp only [mapRes, h2]
        rcases Lexer.append [] ts with ⟨r, tokens'⟩
        cases r with
        | ok rules => cases o <;> simp [relocated]
        | _ => rfl
    · simp only [ht]
      exact ih _

/-! ## The lexer -/

/-- The lexer with its places moved. -/
def mapLexer (f : Location → Location) (l : Lexer) : Lexer :=
  ⟨⟨l.tokenizer.maxBufferSize, l.tokenizer.buffer, f l.tokenizer.location⟩, l.tokens.map (mapToken f)⟩

/-- The tokenizer with its place moved. -/
def mapTokenizer (f : Location → Location) (t : Tokenizer) : Tokenizer := ⟨t.maxBufferSize, t.buffer, f t.location⟩

/-- A method of the tokenizer does the same at moved places. -/
def Moves (f : Location → Location) (P : Location → Prop) (m : RM Tokenizer (List Token)) : Prop :=
  ∀ t : Tokenizer, P t.location → P (m t).2.location ∧
    m (mapTokenizer f t) = (mapRes f (List.map (mapToken f)) (m t).1, mapTokenizer f (m t).2)

theorem tokenizeLoop_stays (h : MovesAlong f P) : ∀ (fuel : Nat) (l : Location) (text : Str), P l →
    P (Tokenizer.tokenizeLoop fuel l text).2.1 := by
  intro fuel
  induction fuel with
  | zero => intro l text hl; exact hl
  | succ fuel ih =>
    intro l text hl
    rw [Tokenizer.tokenizeLoop]
    by_cases he : text.isEmpty
    · rw [if_pos he]; exact hl
    rw [if_neg he]
    cases readNext l text false with
    | err e => exact hl
    | panic p => exact hl
    | diverge => exact hl
    | ok o =>
      cases o with
      | none => exact hl
      | some p =>
        obtain ⟨tk, n⟩ := p
        have h1 := ih _ (text.drop n) (h.pushStr hl (text.take n)).1
        revert h1
        dsimp only
        rcases Tokenizer.tokenizeLoop fuel (l.pushStr (text.take n)) (text.drop n) with ⟨r, l', rest⟩
        cases r <;> exact id

theorem tokenize_moves (h : MovesAlong f P) : Moves f P Tokenizer.tokenize := by
  intro t ht
  have h1 := tokenizeLoop_map h t.buffer.length t.location t.buffer ht
  have h2 := tokenizeLoop_stays h t.buffer.length t.location t.buffer ht
  simp only [Tokenizer.tokenize, mapTokenizer]
  rw [h1]
  revert h2
  rcases Tokenizer.tokenizeLoop t.buffer.length t.location t.buffer with ⟨r, l', rest⟩
  cases r <;> exact fun h2 => ⟨h2, rfl⟩

theorem pushStr_moves (h : MovesAlong f P) (s : Str) : Moves f P (Tokenizer.pushStr s) := by
  intro t ht
  obtain ⟨m, b, l⟩ := t
  have h1 := tokenize_moves h ⟨m, b ++ s, l⟩ ht
  by_cases hc : m > 0 ∧ b.length + s.length > m
  · have e : ∀ l, Tokenizer.pushStr s ⟨m, b, l⟩ = (Res.fail l (.tooLong b.length s.length m), ⟨m, b, l⟩) := by
      intro l; simp only [Tokenizer.pushStr, Tokenizer.ensureCapacity]; rw [if_pos hc]; rfl
    rw [show mapTokenizer f ⟨m, b, l⟩ = ⟨m, b, f l⟩ from rfl, e, e]
    exact ⟨ht, rfl⟩
  · have e : ∀ l, Tokenizer.pushStr s ⟨m, b, l⟩ = Tokenizer.tokenize ⟨m, b ++ s, l⟩ := by
      intro l; simp only [Tokenizer.pushStr, Tokenizer.ensureCapacity]; rw [if_neg hc]
    rw [show mapTokenizer f ⟨m, b, l⟩ = ⟨m, b, f l⟩ from rfl, e, e]
    exact h1

theorem flush_moves (h : MovesAlong f P) : Moves f P Tokenizer.flush := by
  intro t ht
  obtain ⟨m, b, l⟩ := t
  simp only [Tokenizer.flush, mapTokenizer]
  rw [readNext_map h l ht]
  cases readNext l b true with
  | err e => exact ⟨ht, rfl⟩
  | panic p => exact ⟨ht, rfl⟩
  | diverge => exact ⟨ht, rfl⟩
  | ok o =>
    cases o with
    | none =>
      simp only [mapRes, Option.map]
      cases b <;> exact ⟨ht, rfl⟩
    | some p =>
      obtain ⟨tk, n⟩ := p
      have h1 := h.pushStr ht (b.take n)
      dsimp only at h1
      simp only [mapRes, Option.map, ← h1.2]
      cases b.drop n <;> exact ⟨h1.1, rfl⟩

/-- A method of the lexer does the same at moved places. -/
def MovesL (f : Location → Location) (P : Location → Prop) (m : RM Lexer (List SyntaxRule)) : Prop :=
  ∀ l : Lexer, P l.tokenizer.location → P (m l).2.tokenizer.location ∧
    m (mapLexer f l) = (relocated f (m l).1, mapLexer f (m l).2)

theorem feed_moves (hu : f (Location.new "<unknown>".toList) = Location.new "<unknown>".toList)
    {m : RM Tokenizer (List Token)} (hm : Moves f P m) : MovesL f P (Lexer.feed m) := by
  intro l hl
  have h1 := hm l.tokenizer hl
  simp only [Lexer.feed, mapLexer]
  rw [show (⟨l.tokenizer.maxBufferSize, l.tokenizer.buffer, f l.tokenizer.location⟩ : Tokenizer) = mapTokenizer f l.tokenizer from rfl,
    h1.2]
  revert h1
  rcases m l.tokenizer with ⟨r, tz⟩
  intro h1
  cases r with
  | ok tks =>
    simp only [mapRes, append_map hu]
    exact ⟨h1.1, rfl⟩
  | err e => exact ⟨h1.1, rfl⟩
  | panic p => exact ⟨h1.1, rfl⟩
  | diverge => exact ⟨h1.1, rfl⟩

theorem then_moves {m m' : RM Lexer (List SyntaxRule)} (h1 : MovesL f P m) (h2 : MovesL f P m') :
    MovesL f P (m >>= fun r => m' >>= fun s => pure (r ++ s)) := by
  intro l hl
  have ha := h1 l hl
  simp only [RM.bind_run]
  rw [ha.2]
  revert ha
  rcases m l with ⟨r, l1⟩
  intro ha
  cases r with
  | err e => exact ⟨ha.1, rfl⟩
  | panic p => exact ⟨ha.1, rfl⟩
  | diverge => exact ⟨ha.1, rfl⟩
  | ok r =>
    have hb := h2 l1 ha.1
    simp only [relocated, RM.pure_run]
    rw [hb.2]
    revert hb
    rcases m' l1 with ⟨r', l2⟩
    intro hb
    cases r' with
    | ok r' => exact ⟨hb.1, by simp [relocated]⟩
    | err e => exact ⟨hb.1, rfl⟩
    | panic p => exact ⟨hb.1, rfl⟩
    | diverge => exact ⟨hb.1, rfl⟩

theorem pushAll_moves (h : MovesAlong f P) (hu : f (Location.new "<unknown>".toList) = Location.new "<unknown>".toList)
    (chunks : List Str) : MovesL f P (pushAll chunks) := by
  induction chunks with
  | nil => intro l hl; exact ⟨hl, rfl⟩
  | cons c cs ih => exact then_moves (feed_moves hu (pushStr_moves h c)) ih

/-- The last step of `feedAll`, as a list. -/
theorem flush_list_moves (h : MovesAlong f P) (hu : f (Location.new "<unknown>".toList) = Location.new "<unknown>".toList) :
    MovesL f P (Lexer.flush >>= fun o => pure o.toList) := by
  intro l hl
  have h1 := feed_moves hu (flush_moves h) l hl
  simp only [Lexer.flush, Lexer.first, RM.bind_run]
  rw [h1.2]
  revert h1
  rcases Lexer.feed Tokenizer.flush l with ⟨r, l1⟩
  intro h1
  cases r with
  | ok r => cases r <;> exact ⟨h1.1, rfl⟩
  | err e => exact ⟨h1.1, rfl⟩
  | panic p => exact ⟨h1.1, rfl⟩
  | diverge => exact ⟨h1.1, rfl⟩

theorem feedAll_moves (h : MovesAlong f P) (hu : f (Location.new "<unknown>".toList) = Location.new "<unknown>".toList)
    (chunks : List Str) : MovesL f P (feedAll chunks) := by
  have h1 := then_moves (pushAll_moves h hu chunks) (flush_list_moves h hu)
  have h2 : feedAll chunks = (pushAll chunks >>= fun r => (Lexer.flush >>= fun o => pure o.toList) >>= fun s => pure (r ++ s)) := by
    funext l
    simp only [feedAll, RM.bind_run]
    rcases pushAll chunks l with ⟨r, l1⟩
    cases r with
    | ok r =>
      dsimp only
      rcases Lexer.flush l1 with ⟨r', l2⟩
      cases r' <;> rfl
    | _ => rfl
  rw [h2]
  exact h1

end

/-! ## Texts that end with a terminator -/

theorem spelled_terminator {tk : Token} {s : Str} {c : Char} (h : Spelled tk s) (hc : c ∈ [';', '.'])
    (hl : s.getLast? = some c) : tk.isTerminator = true ∧ s = [c] := by
  have hc' : c = ';' ∨ c = '.' := by simpa using hc
  have hm := List.mem_of_getLast? hl
  have n1 : ¬ IsLetter c := by rcases hc' with rfl | rfl <;> decide
  have n2 : ¬ IsDigit c := by rcases hc' with rfl | rfl <;> decide
  have n3 : ¬ c ∈ gapChars := by rcases hc' with rfl | rfl <;> decide
  have last : ∀ (x : Str) (d : Char), (x ++ [d]).getLast? = some c → d = c := by
    intro x d hd; rw [List.getLast?_concat] at hd; exact Option.some.inj hd
  cases h
  case terminator l d hd => simp at hl; subst hl; exact ⟨rfl, rfl⟩
  all_goals exfalso
  case metaIdentifier l d s h1 h2 =>
    rcases List.mem_cons.mp hm with rfl | hm
    · exact n1 h1
    · exact (h2 c hm).elim n1 n2
  case integer l d s h1 h2 =>
    rcases List.mem_cons.mp hm with rfl | hm
    · exact n2 h1
    · exact n2 (h2 c hm)
  case gapSeparator l d s h1 h2 =>
    rcases List.mem_cons.mp hm with rfl | hm
    · exact n3 h1
    · exact n3 (h2 c hm)
  case terminalString l s q h1 h2 h3 =>
    have := last _ _ hl; subst this
    rcases hc' with rfl | rfl <;> simp at h1
  case comment l s h1 =>
    have := last ('(' :: '*' :: s ++ ['*']) ')' (by simpa using hl)
    subst this; simp at hc
  case specialSequence l s h1 =>
    have := last _ _ hl; subst this; simp at hc
  case separator l d h1 => simp at hl; subst hl; rcases hc' with rfl | rfl <;> simp at h1
  all_goals first
    | (simp at hl; subst hl; simp at hc; done)
    | (rename_i h1; simp at h1; rcases h1 with rfl | rfl <;> simp at hl <;> subst hl <;> simp at hc)

/-- A text that ends with a terminator is read to its end, and its last token is that terminator. -/
theorem tokLoop_terminator {c : Char} (hc : c ∈ [';', '.']) {loc : Location} {a : Str} {tks : List Token} {loc' : Location}
    {rest : Str} (h : tokLoop loc a = (.ok tks, loc', rest)) (ha : a.getLast? = some c)
    (hf : ∀ e, flushTok loc' rest ≠ .err e) : rest = [] ∧ ∃ pre t, tks = pre ++ [t] ∧ t.isTerminator = true := by
  induction loc, a using tokLoop_induct generalizing tks loc' rest with
  | hnone loc a hn =>
    rw [tokLoop_none hn] at h
    simp at h; obtain ⟨rfl, rfl, rfl⟩ := h
    exfalso
    have hne : a ≠ [] := by intro h; subst h; simp at ha
    rcases pending_flush hn hne with ⟨tk, h1⟩ | ⟨e, h1⟩
    · have hr := readNext_sound _ _ _ _ _ h1
      have hs := hr.spelled
      rw [List.take_length] at hs
      obtain ⟨_, rfl⟩ := spelled_terminator hs hc ha
      have hc' : c = ';' ∨ c = '.' := by simpa using hc
      rcases hc' with rfl | rfl <;> simp [readNext] at hn
    · exact hf e (by simp [flushTok, hne, h1])
  | hsome loc a tk n hs ih =>
    rw [tokLoop_some hs] at h
    have hr := readNext_sound _ _ _ _ _ hs
    generalize hx : tokLoop (loc.pushStr (a.take n)) (a.drop n) = x at h
    obtain ⟨r, l2, rest2⟩ := x
    cases r with
    | err e => simp [consTok] at h
    | panic p => simp [consTok] at h
    | diverge => simp [consTok] at h
    | ok tks2 =>
      simp only [consTok, Prod.mk.injEq, Res.ok.injEq] at h
      obtain ⟨rfl, rfl, rfl⟩ := h
      by_cases hd : a.drop n = []
      · rw [hd, tokLoop_nil] at hx
        simp only [Prod.mk.injEq, Res.ok.injEq] at hx
        obtain ⟨rfl, _, rfl⟩ := hx
        have hsp := hr.spelled
        have hn : a.take n = a := by
          have := List.take_append_drop n a
          rwa [hd, List.append_nil] at this
        rw [hn] at hsp
        exact ⟨rfl, [], tk, rfl, (spelled_terminator hsp hc ha).1⟩
      · have hl : (a.drop n).getLast? = some c := by
          have h4 := ha
          rw [← List.take_append_drop n a, List.getLast?_append] at h4
          cases h5 : (a.drop n).getLast? with
          | none => exact absurd (List.getLast?_eq_none_iff.mp h5) hd
          | some d => rw [h5] at h4; simpa using h4
        obtain ⟨h1, pre, t, h2, h3⟩ := ih hx hl hf
        exact ⟨h1, tk :: pre, t, by rw [h2]; rfl, h3⟩
  | herr loc a e he => rw [tokLoop_err he] at h; simp at h

/-- A lexer that is between two rules. -/
def idle (m : Nat) (loc : Location) : Lexer := ⟨⟨m, [], loc⟩, []⟩

theorem flush_idle (m : Nat) (loc : Location) : Lexer.flush (idle m loc) = (.ok none, idle m loc) := rfl

theorem feedAll_one (s : Str) (l : Lexer) : (feedAll [s] l).1 =
    match Lexer.pushStr s l with
    | (.ok r, l1) => match Lexer.flush l1 with
      | (.ok o, _) => .ok (r ++ o.toList)
      | (.err e, _) => .err e
      | (.panic p, _) => .panic p
      | (.diverge, _) => .diverge
    | (.err e, _) => .err e
    | (.panic p, _) => .panic p
    | (.diverge, _) => .diverge := by
  simp only [feedAll, pushAll, RM.bind_run]
  rcases Lexer.pushStr s l with ⟨r, l1⟩
  cases r with
  | ok r =>
    simp only [RM.pure_run, List.append_nil]
    rcases Lexer.flush l1 with ⟨o, l2⟩
    cases o <;> rfl
  | _ => rfl

/-- After an accepted text that ends with a terminator the lexer is between two rules. -/
theorem complete_idle {c : Char} (hc : c ∈ [';', '.']) {loc : Location} {a : Str} {rs : List SyntaxRule}
    (h : (feedAll [a] (idle 0 loc)).1 = .ok rs) (ha : a.getLast? = some c) :
    Lexer.pushStr a (idle 0 loc) = (.ok rs, idle 0 (loc.pushStr a)) ∧
      ∃ tks, tokLoop loc a = (.ok tks, loc.pushStr a, []) ∧ Lexer.append [] tks = (.ok rs, []) := by
  rw [feedAll_one] at h
  generalize hp : Lexer.pushStr a (idle 0 loc) = x at h
  obtain ⟨r, l1⟩ := x
  cases r with
  | err e => simp at h
  | panic p => simp at h
  | diverge => simp at h
  | ok r =>
    obtain ⟨tks, h1, h2, h3⟩ := pushStr_ok hp
    simp only [idle, List.nil_append] at h1 h2 h3
    have hpend := (tokLoop_ok h1).1
    have hff : ∀ e, flushTok l1.tokenizer.location l1.tokenizer.buffer ≠ .err e := by
      intro e he
      rcases tokenizer_flush l1.tokenizer hpend with ⟨ts, h4, _⟩ | ⟨e', h4, h5⟩
      · rw [h4] at he; cases he
      · simp only [Lexer.flush, Lexer.first, RM.bind_run, Lexer.feed, h5] at h
        simp at h
    obtain ⟨h4, pre, t, h5, h6⟩ := tokLoop_terminator hc h1 ha hff
    subst h5
    have h7 := append_ends_term h6 h2
    obtain ⟨_, used, h8, h9⟩ := tokLoop_ok h1
    rw [h4, List.append_nil] at h8
    subst h8
    have hl1 : l1 = idle 0 (loc.pushStr a) := by
      obtain ⟨⟨m, b, l⟩, toks⟩ := l1
      simp only at h3 h4 h7 h9
      subst h3 h4 h7 h9
      rfl
    subst hl1
    simp only [flush_idle] at h
    have hrs : r = rs := by simpa using h
    subst hrs
    exact ⟨rfl, _, h1, h2⟩

/-- Reading goes on behind such a text as at the start of another one. -/
theorem feedAll_behind {c : Char} (hc : c ∈ [';', '.']) {loc : Location} {a b : Str} {rs : List SyntaxRule}
    (h : (feedAll [a] (idle 0 loc)).1 = .ok rs) (ha : a.getLast? = some c) :
    (feedAll [a ++ b] (idle 0 loc)).1 = following rs (feedAll [b] (idle 0 (loc.pushStr a))).1 := by
  obtain ⟨_, tks, h1, h2⟩ := complete_idle hc h ha
  have h3 := tokLoop_append h1 b
  rw [feedAll_one, feedAll_one, lexer_pushStr_eq (idle 0 loc) _ (unlimited_cap (l := idle 0 loc) rfl _),
    lexer_pushStr_eq (idle 0 (loc.pushStr a)) _ (unlimited_cap (l := idle 0 (loc.pushStr a)) rfl _)]
  simp only [idle, List.nil_append] at h3 ⊢
  rw [h3]
  rcases tokLoop (loc.pushStr a) b with ⟨r, l2, rest⟩
  cases r with
  | err e => rfl
  | panic p => rfl
  | diverge => rfl
  | ok tb =>
    simp only [prependTok, append_append, thenAppend, h2]
    rcases Lexer.append [] tb with ⟨r, toks⟩
    cases r with
    | err e => rfl
    | panic p => rfl
    | diverge => rfl
    | ok r2 =>
      dsimp only
      rcases Lexer.flush ⟨⟨0, rest, l2⟩, toks⟩ with ⟨o, l3⟩
      cases o <;> simp [following]

theorem pushAll_append (as bs : List Str) (l : Lexer) : pushAll (as ++ bs) l =
    match pushAll as l with
    | (.ok rs, l1) => ((following rs (pushAll bs l1).1), (pushAll bs l1).2)
    | r => r := by
  induction as generalizing l with
  | nil =>
    simp only [List.nil_append, pushAll, RM.pure_run]
    rcases pushAll bs l with ⟨r, l1⟩
    cases r <;> rfl
  | cons a as ih =>
    simp only [List.cons_append, pushAll, RM.bind_run]
    rcases Lexer.pushStr a l with ⟨r, l1⟩
    cases r with
    | ok r =>
      simp only [ih]
      rcases pushAll as l1 with ⟨r2, l2⟩
      cases r2 with
      | ok r2 =>
        simp only [RM.pure_run]
        rcases pushAll bs l2 with ⟨r3, l3⟩
        cases r3 <;> simp [following]
      | _ => rfl
    | _ => rfl

mutual
theorem forget_mapPrimary {f e : Location → Location} (p : Primary) :
    mapPrimary (fun _ => nowhere) (fun _ => nowhere) (mapPrimary f e p) = mapPrimary (fun _ => nowhere) (fun _ => nowhere) p := by
  cases p <;> simp only [mapPrimary]
  all_goals rw [forget_mapList]
theorem forget_mapFactor {f e : Location → Location} (p : Factor) :
    mapFactor (fun _ => nowhere) (fun _ => nowhere) (mapFactor f e p) = mapFactor (fun _ => nowhere) (fun _ => nowhere) p := by
  cases p; simp only [mapFactor]; rw [forget_mapPrimary]
theorem forget_mapTerm {f e : Location → Location} (p : Term) :
    mapTerm (fun _ => nowhere) (fun _ => nowhere) (mapTerm f e p) = mapTerm (fun _ => nowhere) (fun _ => nowhere) p := by
  cases p <;> simp only [mapTerm]
  · rw [forget_mapFactor]
  · rw [forget_mapFactor, forget_mapFactor]
theorem forget_mapSingle {f e : Location → Location} (p : SingleDefinition) :
    mapSingle (fun _ => nowhere) (fun _ => nowhere) (mapSingle f e p) = mapSingle (fun _ => nowhere) (fun _ => nowhere) p := by
  cases p <;> simp only [mapSingle]
  rw [forget_mapTerm, forget_mapSingle]
theorem forget_mapList {f e : Location → Location} (p : DefinitionList) :
    mapList (fun _ => nowhere) (fun _ => nowhere) (mapList f e p) = mapList (fun _ => nowhere) (fun _ => nowhere) p := by
  cases p <;> simp only [mapList]
  rw [forget_mapSingle, forget_mapList]
end

theorem forget_mapRule {f e : Location → Location} (r : SyntaxRule) : forgetLocations (mapRule f e r) = forgetLocations r := by
  simp only [forgetLocations, mapRule]; rw [forget_mapList]

/-! ## The two ways of moving -/

theorem behind_follows (name : Str) (stop : Location) (hs : stop.name = name) :
    MovesAlong (behind name stop) (fun l => l.name = name ∧ 1 ≤ l.lines ∧ 1 ≤ l.columns) := by
  constructor
  · intro l c ⟨h1, h2, h3⟩
    unfold Location.push
    split
    · exact ⟨h1, by simp, by simp⟩
    · exact ⟨h1, h2, by simp⟩
  · intro l c ⟨h1, h2, h3⟩
    obtain ⟨n, i, j⟩ := l
    simp only at h1 h2 h3
    subst h1
    by_cases hc : c = '\n'
    · simp only [behind, Location.push, if_pos hc, if_true]
      have : ¬ i + 1 = 1 := by omega
      simp only [this, if_false, Location.mk.injEq, true_and, and_true]
      omega
    · simp only [behind, Location.push, if_neg hc, if_true]
      by_cases hi : i = 1
      · simp only [hi, if_true, Location.mk.injEq, true_and]; omega
      · simp only [hi, if_false]

theorem behind_start {name : Str} {stop : Location} (hs : stop.name = name) : behind name stop (Location.new name) = stop := by
  subst hs; simp [behind, Location.new, Location.withLocation]

theorem calledBy_follows (name other : Str) : MovesAlong (calledBy name other) (fun l => l.name = name) := by
  constructor
  · intro l c h
    unfold Location.push
    split <;> exact h
  · intro l c h
    unfold calledBy Location.push
    by_cases hc : c = '\n'
    · simp [hc, h]
    · simp [hc, h]

theorem pushStr_name (l : Location) (s : Str) : (l.pushStr s).name = l.name := by
  rw [Location.pushStr_eq_lineColumn]; rfl

end Ebnf
