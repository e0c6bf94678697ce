import Verif.Proofs.Stream
import Verif.Spec.Danger

set_option autoImplicit false

/-! # Outcomes of the token parser: no divergence, where errors point, when it panics -/

namespace Ebnf

open Spec

/-- What may be the case of each outcome. -/
def Res.Sat {α : Type} (Q : α → Prop) (E : Error → Prop) (P : Panic → Prop) : Res α → Prop
  | .ok a => Q a
  | .err e => E e
  | .panic p => P p
  | .diverge => False

section sat
variable {α β : Type} {Q : α → Prop} {Q' : β → Prop} {E E' : Error → Prop} {P P' : Panic → Prop}

theorem Res.Sat.bind {x : Res α} {f : α → Res β} (hx : x.Sat Q E P)
    (hf : ∀ a, x = .ok a → Q a → (f a).Sat Q' E P) : (x >>= f).Sat Q' E P := by
  cases x with
  | ok a => exact hf a rfl hx
  | err e => exact hx
  | panic p => exact hx
  | diverge => exact hx

theorem Res.Sat.mono {Q' : α → Prop} {x : Res α} (h : x.Sat Q E P) (hq : ∀ a, Q a → Q' a)
    (he : ∀ e, E e → E' e) (hp : ∀ p, P p → P' p) : x.Sat Q' E' P' := by
  cases x with
  | ok a => exact hq _ h
  | err e => exact he _ h
  | panic p => exact hp _ h
  | diverge => exact h

theorem Res.Sat.ite {c : Prop} [Decidable c] {x y : Res α} (hx : c → x.Sat Q E P)
    (hy : ¬c → y.Sat Q E P) : (if c then x else y).Sat Q E P := by
  split
  · exact hx ‹_›
  · exact hy ‹_›

end sat

/-- An error of the token parser that points at one of `ts`. -/
def ErrAt (ts : List Token) (e : Error) : Prop :=
  (∃ t ∈ ts, e.location = positionOf t) ∧ e.msg.ofParser = true

theorem ErrAt.mono {ts us : List Token} {e : Error} (h : ErrAt ts e) (hs : ∀ t ∈ ts, t ∈ us) : ErrAt us e :=
  ⟨h.1.imp fun _ ⟨a, b⟩ => ⟨hs _ a, b⟩, h.2⟩

theorem location_eq_positionOf (t : Token) : t.location = positionOf t := by cases t <;> rfl

theorem ErrAt.fail {α : Type} {Q : α → Prop} {P : Panic → Prop} {ts : List Token} {t : Token} {m : Msg}
    (ht : t ∈ ts) (hm : m.ofParser = true) : (Res.fail t.location m : Res α).Sat Q (ErrAt ts) P :=
  ⟨⟨t, ht, location_eq_positionOf t⟩, hm⟩

/-- A closing bracket. -/
def Token.isClosing (t : Token) : Bool := t.isEndOptionSymbol || t.isEndRepeatSymbol || t.isEndGroupSymbol

/-- An integer with nothing but gaps and comments up to a closing bracket or the end of the slice. -/
def Dangling (ts : List Token) : Prop :=
  ∃ pre l d gaps post, ts = pre ++ .integer l d :: (gaps ++ post) ∧ (∀ g ∈ gaps, g.isSkippable = true) ∧
    (post = [] ∨ ∃ c rest, post = c :: rest ∧ c.isClosing = true)

theorem Dangling.suffix {us ts : List Token} (h : Dangling us) (hs : us <:+ ts) : Dangling ts := by
  obtain ⟨p, rfl⟩ := hs
  obtain ⟨pre, l, d, g, post, rfl, h1, h2⟩ := h
  exact ⟨p ++ pre, l, d, g, post, by simp, h1, h2⟩

theorem Dangling.inner {inner rest : List Token} {c : Token} (hc : c.isClosing = true) (h : Dangling inner) :
    Dangling (inner ++ c :: rest) := by
  obtain ⟨pre, l, d, g, post, rfl, h1, h2⟩ := h
  rcases h2 with rfl | ⟨c', r', rfl, hc'⟩
  · exact ⟨pre, l, d, g, c :: rest, by simp, h1, .inr ⟨c, rest, rfl, hc⟩⟩
  · exact ⟨pre, l, d, g, c' :: (r' ++ c :: rest), by simp, h1, .inr ⟨c', _, rfl, hc'⟩⟩

/-- The panic of the token parser, only for slices with a dangling integer. -/
def PanicAt (ts : List Token) (p : Panic) : Prop := p = .indexOutOfBounds ∧ Dangling ts

theorem skipGaps_suffix (ts : List Token) : skipGaps ts <:+ ts := List.dropWhile_suffix _

theorem skipGaps_split (ts : List Token) :
    ∃ g, ts = g ++ skipGaps ts ∧ (∀ t ∈ g, t.isSkippable = true) ∧
      (∀ t r, skipGaps ts = t :: r → t.isSkippable = false) := by
  refine ⟨ts.takeWhile Token.isSkippable, (List.takeWhile_append_dropWhile).symm, ?_, ?_⟩
  · intro t ht
    induction ts with
    | nil => simp at ht
    | cons a as ih =>
      by_cases ha : a.isSkippable = true
      · rw [List.takeWhile_cons_of_pos ha] at ht
        rcases List.mem_cons.mp ht with rfl | ht
        · exact ha
        · exact ih ht
      · rw [List.takeWhile_cons_of_neg ha] at ht; simp at ht
  · intro t r h
    have := List.head?_dropWhile_not Token.isSkippable ts
    unfold skipGaps at h
    rw [h] at this; simpa using this

theorem skipGaps_skip {g r : List Token} (hg : ∀ t ∈ g, t.isSkippable = true) :
    skipGaps (g ++ r) = skipGaps r := by
  induction g with
  | nil => rfl
  | cons a as ih =>
    rw [List.cons_append, skipGaps, List.dropWhile_cons_of_pos (hg a (by simp))]
    exact ih fun t ht => hg t (by simp [ht])

theorem skipGaps_cons {t : Token} {r : List Token} (ht : t.isSkippable = false) :
    skipGaps (t :: r) = t :: r := by
  rw [skipGaps, List.dropWhile_cons_of_neg (by simp [ht])]

theorem skipGaps_idem (ts : List Token) : skipGaps (skipGaps ts) = skipGaps ts := by
  obtain ⟨g, h1, h2, h3⟩ := skipGaps_split ts
  cases h : skipGaps ts with
  | nil => rfl
  | cons t r => exact skipGaps_cons (h3 t r h)

/-! ### `findClose` -/

/-- Shape of the split made by `findClose`. -/
theorem findClose_some {o c : Token → Bool} {n : Nat} {ts inner rest : List Token}
    (h : findClose o c n ts = some (inner, rest)) : ∃ t, ts = inner ++ t :: rest ∧ c t = true := by
  induction ts generalizing n inner with
  | nil => simp [findClose] at h
  | cons t ts ih =>
    simp only [findClose] at h
    split at h
    · rw [Option.map_eq_some_iff] at h
      obtain ⟨⟨i, r⟩, h1, h2⟩ := h
      simp at h2; obtain ⟨rfl, rfl⟩ := h2
      obtain ⟨t', h3, h4⟩ := ih h1
      exact ⟨t', by rw [h3]; simp, h4⟩
    · split at h
      · split at h
        · simp at h; obtain ⟨rfl, rfl⟩ := h
          exact ⟨t, rfl, ‹_›⟩
        · rw [Option.map_eq_some_iff] at h
          obtain ⟨⟨i, r⟩, h1, h2⟩ := h
          simp at h2; obtain ⟨rfl, rfl⟩ := h2
          obtain ⟨t', h3, h4⟩ := ih h1
          exact ⟨t', by rw [h3]; simp, h4⟩
      · rw [Option.map_eq_some_iff] at h
        obtain ⟨⟨i, r⟩, h1, h2⟩ := h
        simp at h2; obtain ⟨rfl, rfl⟩ := h2
        obtain ⟨t', h3, h4⟩ := ih h1
        exact ⟨t', by rw [h3]; simp, h4⟩

/-! ### Reading meta-identifiers -/

theorem readMetaLoop_suffix (ts : List Token) (acc : Str) (loc : Option Location) :
    (readMetaLoop ts acc loc).2.2 <:+ ts := by
  fun_induction readMetaLoop ts acc loc with
  | case1 acc loc l s ts ih => exact ih.trans (List.suffix_cons _ _)
  | case2 acc loc l s ts ih => exact ih.trans (List.suffix_cons _ _)
  | case3 ts acc loc h1 h2 => exact List.suffix_refl _

theorem readMetaIdentifier_suffix (ts : List Token) : (readMetaIdentifier ts).2.2 <:+ ts := by
  exact (readMetaLoop_suffix _ _ _).trans (skipGaps_suffix _)

section readers

/-- The slice on which the readers work. -/
structure RecurOk (all : List Token) (recur : List Token → Res DefinitionList) : Prop where
  ok : ∀ inner, (inner.length < all.length) →
    (recur inner).Sat (fun _ => True) (ErrAt inner) (PanicAt inner)

variable {recur : List Token → Res DefinitionList} {last : Location} {all : List Token}

abbrev Good {α : Type} (all ts : List Token) (r : Res (α × List Token)) : Prop :=
  r.Sat (fun x => x.2 <:+ ts) (ErrAt all) (PanicAt all)

theorem readEnclosed_sat (hr : RecurOk all recur) {start : Token} {ts : List Token} {o c : Token → Bool}
    (hc : ∀ t, c t = true → t.isClosing = true) (hts : start :: ts <:+ all) :
    Good all ts (readEnclosed recur start ts o c) := by
  unfold readEnclosed
  have hlen := hts.length_le
  cases h : findClose o c 0 ts with
  | none => exact ErrAt.fail (hts.subset (by simp)) rfl
  | some x =>
    obtain ⟨inner, rest⟩ := x
    obtain ⟨t, ht, hct⟩ := findClose_some h
    simp only
    have hlt : inner.length < all.length := by
      have := congrArg List.length ht
      simp at this hlen; omega
    have hsuf : ts <:+ all := (List.suffix_cons _ _).trans hts
    refine Res.Sat.bind (Q := fun _ => True) ((hr.ok inner hlt).mono (fun _ h => h) ?_ ?_) ?_
    · intro e he
      exact he.mono fun t' h' => hsuf.subset (by rw [ht]; simp [h'])
    · rintro p ⟨rfl, hd⟩
      refine ⟨rfl, Dangling.suffix ?_ hsuf⟩
      rw [ht]; exact hd.inner (hc t hct)
    · intro a _ _
      show rest <:+ ts
      rw [ht]; exact ⟨inner ++ [t], by simp⟩

theorem good_bind_pure {α β : Type} {all ts us : List Token} {x : Res (α × List Token)} {f : α → β}
    (h : Good all us x) (hs : us <:+ ts) :
    Good all ts (x >>= fun y => pure (f y.1, y.2)) := by
  refine Res.Sat.bind h ?_
  intro a _ ha
  exact List.IsSuffix.trans ha hs

theorem readPrimary_sat (hr : RecurOk all recur) {ts : List Token} (hts : ts <:+ all) :
    Good all ts (readPrimary recur last ts) := by
  unfold readPrimary
  have hsuf := skipGaps_suffix ts
  cases h : skipGaps ts with
  | nil => exact List.nil_suffix
  | cons t rest =>
    rw [h] at hsuf
    have h1 : rest <:+ ts := (List.suffix_cons _ _).trans hsuf
    have hmem : t ∈ all := hts.subset (hsuf.subset (by simp))
    cases t with
    | startOptionSymbol l s =>
      refine Res.Sat.ite (fun _ => ErrAt.fail (t := .startOptionSymbol l s) hmem rfl) fun _ => ?_
      exact good_bind_pure (readEnclosed_sat hr (by intro t ht; simp [Token.isClosing, ht]) (hsuf.trans hts)) h1
    | startRepeatSymbol l s =>
      refine Res.Sat.ite (fun _ => ErrAt.fail (t := .startRepeatSymbol l s) hmem rfl) fun _ => ?_
      exact good_bind_pure (readEnclosed_sat hr (by intro t ht; simp [Token.isClosing, ht]) (hsuf.trans hts)) h1
    | startGroupSymbol l =>
      exact good_bind_pure (readEnclosed_sat hr (by intro t ht; simp [Token.isClosing, ht]) (hsuf.trans hts)) h1
    | metaIdentifier l s => exact (readMetaIdentifier_suffix _).trans hsuf
    | terminalString l s q => exact h1
    | specialSequence l s => exact h1
    | _ => exact hsuf

/-- The repetition count of `read_syntactic_factor`. -/
def readCount (ts : List Token) : Res (Nat × List Token) :=
  match skipGaps ts with
  | .integer loc digits :: rest =>
    match parseU32 digits with
    | none => .fail loc (.badRepetition digits)
    | some n =>
      match skipGaps rest with
      | [] => .panic .indexOutOfBounds
      | t :: rest' =>
        if t.isRepetitionSymbol then .ok (n, skipGaps rest')
        else .fail t.location (.repetitionSymbolExpected t.name)
  | ts => .ok (1, ts)

theorem readFactor_eq (ts : List Token) : readFactor recur last ts =
    readCount ts >>= fun x => readPrimary recur last x.2 >>= fun y => pure (.mk x.1 y.1, y.2) := by
  unfold readFactor readCount
  cases h : skipGaps ts with
  | nil => rfl
  | cons t rest =>
    cases t with
    | integer l d =>
      simp only
      cases parseU32 d with
      | none => rfl
      | some n =>
        simp only
        cases h' : skipGaps rest with
        | nil => rfl
        | cons t' rest' => by_cases hr : t'.isRepetitionSymbol = true <;> simp [hr] <;> rfl
    | _ => rfl

theorem readFactor_sat (hr : RecurOk all recur) {ts : List Token} (hts : ts <:+ all) :
    Good all ts (readFactor recur last ts) := by
  rw [readFactor_eq]
  have hsuf := skipGaps_suffix ts
  refine Res.Sat.bind (Q := fun x : Nat × List Token => x.2 <:+ ts) ?_ ?_
  · unfold readCount
    cases h : skipGaps ts with
    | nil => exact List.nil_suffix
    | cons t rest =>
      rw [h] at hsuf
      have hmem : ∀ u ∈ t :: rest, u ∈ all := fun u hu => hts.subset (hsuf.subset hu)
      cases t with
      | integer l d =>
        simp only
        cases parseU32 d with
        | none => exact ErrAt.fail (t := .integer l d) (hmem _ (by simp)) rfl
        | some n =>
          simp only
          obtain ⟨g, hg1, hg2, _⟩ := skipGaps_split rest
          cases h' : skipGaps rest with
          | nil =>
            refine ⟨rfl, Dangling.suffix ?_ (hsuf.trans hts)⟩
            exact ⟨[], l, d, g, [], by rw [h'] at hg1; simp at hg1; simp [hg1], hg2, .inl rfl⟩
          | cons t' rest' =>
            have hs' := skipGaps_suffix rest
            rw [h'] at hs'
            refine Res.Sat.ite (fun _ => ?_) fun _ => ErrAt.fail (hmem _ ?_) rfl
            · exact (skipGaps_suffix _).trans ((List.suffix_cons _ _).trans (hs'.trans ((List.suffix_cons _ _).trans hsuf)))
            · exact List.mem_cons_of_mem _ (hs'.subset (by simp))
      | _ => exact hsuf
  · rintro ⟨n, us⟩ _ hus
    exact good_bind_pure (readPrimary_sat hr (List.IsSuffix.trans hus hts)) hus

theorem readTerm_sat (hr : RecurOk all recur) {ts : List Token} (hts : ts <:+ all) :
    Good all ts (readTerm recur last ts) := by
  unfold readTerm
  refine Res.Sat.bind (readFactor_sat hr hts) ?_
  rintro ⟨f, next⟩ _ hn
  simp only at hn ⊢
  have hsuf := (skipGaps_suffix next).trans hn
  cases h : skipGaps next with
  | nil => exact List.nil_suffix
  | cons t rest =>
    rw [h] at hsuf
    have h1 : rest <:+ ts := (List.suffix_cons _ _).trans hsuf
    refine Res.Sat.ite (fun _ => ?_) fun _ => hsuf
    exact good_bind_pure (readFactor_sat hr (h1.trans hts)) h1

/-- Where `read_single_definition` stops. -/
def StopsAt : List Token → Prop
  | [] => True
  | .definitionSeparatorSymbol _ _ :: _ => True
  | t :: _ => t.isTerminator = true

theorem readSingle_sat (hr : RecurOk all recur) {ts : List Token} (hts : ts <:+ all) {fuel : Nat}
    (hf : ts.length < fuel) :
    (readSingle recur last fuel ts).Sat (fun x => x.2 <:+ ts ∧ StopsAt x.2) (ErrAt all) (PanicAt all) := by
  induction fuel generalizing ts with
  | zero => omega
  | succ fuel ih =>
    unfold readSingle
    refine Res.Sat.bind (readTerm_sat hr hts) ?_
    rintro ⟨f, next⟩ _ hn
    simp only at hn ⊢
    have hsuf := (skipGaps_suffix next).trans hn
    cases h : skipGaps next with
    | nil => exact ⟨List.nil_suffix, trivial⟩
    | cons t rest =>
      rw [h] at hsuf
      have h1 : rest <:+ ts := (List.suffix_cons _ _).trans hsuf
      have hmem : t ∈ all := hts.subset (hsuf.subset (by simp))
      have key : Res.Sat (fun x : SingleDefinition × List Token => x.2 <:+ ts ∧ StopsAt x.2) (ErrAt all) (PanicAt all)
          (if t.isTerminator then pure (.cons f .nil, t :: rest)
            else .fail t.location (.separatorExpected t.name)) := by
        refine Res.Sat.ite (fun ht => ⟨hsuf, ?_⟩) fun _ => ErrAt.fail hmem rfl
        cases t <;> first | trivial | exact ht
      cases t with
      | concatenateSymbol l =>
        simp only
        have hl := hsuf.length_le
        simp at hl
        refine Res.Sat.bind (ih (h1.trans hts) (by omega)) ?_
        rintro ⟨m, nx⟩ _ ⟨hm1, hm2⟩
        exact ⟨hm1.trans h1, hm2⟩
      | definitionSeparatorSymbol l c => exact ⟨hsuf, trivial⟩
      | _ => exact key

theorem readDefinitions_sat (hr : RecurOk all recur) {ts : List Token} (hts : ts <:+ all) {fuel : Nat}
    (hf : ts.length < fuel) :
    (readDefinitions recur last fuel ts).Sat (fun _ => True) (ErrAt all) (PanicAt all) := by
  induction fuel generalizing ts with
  | zero => omega
  | succ fuel ih =>
    unfold readDefinitions
    refine Res.Sat.bind (readSingle_sat hr hts (by omega)) ?_
    rintro ⟨f, next⟩ _ ⟨hn, hst⟩
    simp only at hn hst ⊢
    have hsuf := (skipGaps_suffix next).trans hn
    cases h : skipGaps next with
    | nil => trivial
    | cons t rest =>
      rw [h] at hsuf
      refine Res.Sat.ite (fun _ => trivial) fun ht => ?_
      cases next with
      | nil => simp [skipGaps] at h
      | cons a as =>
        cases a with
        | definitionSeparatorSymbol l c =>
          rw [skipGaps_cons rfl] at h
          simp at h; obtain ⟨rfl, rfl⟩ := h
          have h1 : as <:+ ts := (List.suffix_cons _ _).trans hsuf
          have hl := hsuf.length_le
          simp at hl
          exact Res.Sat.bind (ih (ts := as) (h1.trans hts) (by omega)) fun _ _ _ => trivial
        | terminatorSymbol l c =>
          rw [skipGaps_cons rfl] at h
          simp at h; obtain ⟨rfl, rfl⟩ := h; simp [Token.isTerminator] at ht
        | eof l =>
          rw [skipGaps_cons rfl] at h
          simp at h; obtain ⟨rfl, rfl⟩ := h; simp [Token.isTerminator] at ht
        | _ => simp [StopsAt, Token.isTerminator] at hst

end readers

theorem readDefinitionList_sat (fuel : Nat) (ts : List Token) (hf : ts.length < fuel) :
    (readDefinitionList fuel ts).Sat (fun _ => True) (ErrAt ts) (PanicAt ts) := by
  induction fuel generalizing ts with
  | zero => omega
  | succ fuel ih =>
    unfold readDefinitionList
    exact readDefinitions_sat ⟨fun inner hi => ih inner (by omega)⟩ (List.suffix_refl _) (by omega)

/-- Identifier tokens with a text. -/
def NamedOk (ts : List Token) : Prop := ∀ l s, Token.metaIdentifier l s ∈ ts → s ≠ [] ∧ ∀ c ∈ s, c ≠ ' '

/-- The accumulated name once an identifier token was read contains a character that is not a space. -/
theorem readMetaLoop_name (ts : List Token) (acc : Str) (loc : Option Location) (hn : NamedOk ts)
    (hacc : loc ≠ none → ∃ c ∈ acc, c ≠ ' ') :
    ((readMetaLoop ts acc loc).2.1 ≠ none → ∃ c ∈ (readMetaLoop ts acc loc).1, c ≠ ' ') := by
  fun_induction readMetaLoop ts acc loc with
  | case1 l s ts acc loc ih =>
    refine ih (fun l s h => hn l s (by simp [h])) ?_
    intro _
    obtain ⟨h1, h2⟩ := hn l s (by simp)
    obtain ⟨c, cs, rfl⟩ := List.exists_cons_of_ne_nil h1
    exact ⟨c, by simp, h2 c (by simp)⟩
  | case2 l s ts acc loc ih =>
    refine ih (fun l s h => hn l s (by simp [h])) ?_
    intro h
    obtain ⟨c, hc1, hc2⟩ := hacc h
    refine ⟨c, ?_, hc2⟩
    split <;> simp [hc1]
  | case3 ts acc loc h1 h2 => exact hacc

theorem trimSpaces_ne_nil {s : Str} (h : ∃ c ∈ s, c ≠ ' ') : trimSpaces s ≠ [] := by
  obtain ⟨c, hc, hn⟩ := h
  have aux : ∀ l : Str, c ∈ l → c ∈ l.dropWhile (· == ' ') := by
    intro l hl
    induction l with
    | nil => simp at hl
    | cons a as ih =>
      by_cases ha : a = ' '
      · subst ha
        rw [List.dropWhile_cons_of_pos (by simp)]
        rcases List.mem_cons.mp hl with rfl | hl
        · exact absurd rfl hn
        · exact ih hl
      · rw [List.dropWhile_cons_of_neg (by simp [ha])]; exact hl
  intro h0
  have : c ∈ trimSpaces s := by
    unfold trimSpaces
    rw [List.mem_reverse]
    exact aux _ (by rw [List.mem_reverse]; exact aux _ hc)
  rw [h0] at this; simp at this

theorem skipGaps_ne_nil {ts : List Token} {t : Token} (ht : t ∈ ts) (hs : t.isSkippable = false) :
    skipGaps ts ≠ [] := by
  obtain ⟨g, h1, h2, _⟩ := skipGaps_split ts
  intro h
  rw [h, List.append_nil] at h1
  rw [h1] at ht
  simp [h2 t ht] at hs

/-- The result of the identifier loop ends in the same terminator. -/
theorem readMetaLoop_last (ts : List Token) (acc : Str) (loc : Option Location) (t : Token)
    (ht : t.isTerminator = true) (h : t ∈ ts) : t ∈ (readMetaLoop ts acc loc).2.2 := by
  fun_induction readMetaLoop ts acc loc with
  | case1 acc loc l s ts ih =>
    apply ih
    rcases List.mem_cons.mp h with rfl | h
    · simp [Token.isTerminator] at ht
    · exact h
  | case2 acc loc l s ts ih =>
    apply ih
    rcases List.mem_cons.mp h with rfl | h
    · simp [Token.isTerminator] at ht
    · exact h
  | case3 ts acc loc h1 h2 => exact h

theorem terminator_not_skippable {t : Token} (h : t.isTerminator = true) : t.isSkippable = false := by
  cases t <;> simp [Token.isTerminator] at h <;> rfl

theorem mem_skipGaps {ts : List Token} {t : Token} (h : t ∈ ts) (ht : t.isTerminator = true) :
    t ∈ skipGaps ts := by
  obtain ⟨g, h1, h2, _⟩ := skipGaps_split ts
  rw [h1] at h
  rcases List.mem_append.mp h with h | h
  · have := h2 t h; rw [terminator_not_skippable ht] at this; simp at this
  · exact h

/-- `build_syntax_rule` on a token sequence that ends in a terminator. -/
theorem buildSyntaxRule_sat {ts : List Token} {t : Token} (ht : t.isTerminator = true) :
    (buildSyntaxRule (ts ++ [t])).Sat (fun _ => True) (ErrAt (ts ++ [t]))
      (fun p => NamedOk (ts ++ [t]) → p = .indexOutOfBounds ∧ Dangling (ts ++ [t])) := by
  unfold buildSyntaxRule
  have hmem : t ∈ (readMetaIdentifier (ts ++ [t])).2.2 := by
    unfold readMetaIdentifier
    exact readMetaLoop_last _ _ _ t ht (mem_skipGaps (by simp) ht)
  have hsuf := readMetaIdentifier_suffix (ts ++ [t])
  have hname : NamedOk (ts ++ [t]) → (readMetaIdentifier (ts ++ [t])).2.1 ≠ none →
      (readMetaIdentifier (ts ++ [t])).1 ≠ [] := by
    intro hn' h
    unfold readMetaIdentifier at h ⊢
    exact trimSpaces_ne_nil (readMetaLoop_name _ _ _
      (fun l s hm => hn' l s ((skipGaps_suffix _).subset hm)) (by simp) h)
  generalize readMetaIdentifier (ts ++ [t]) = x at hmem hsuf hname
  obtain ⟨name, location, next⟩ := x
  simp only at hmem hsuf hname ⊢
  have hs2 := (skipGaps_suffix next).trans hsuf
  have hne := skipGaps_ne_nil hmem (terminator_not_skippable ht)
  cases h : skipGaps next with
  | nil => exact absurd h hne
  | cons u rest =>
    rw [h] at hs2
    have hm : u ∈ ts ++ [t] := hs2.subset (by simp)
    cases location with
    | none =>
      exact Res.Sat.ite (fun _ => trivial) fun _ => ErrAt.fail hm rfl
    | some loc =>
      refine Res.Sat.ite (fun _ => ErrAt.fail hm rfl) fun _ => Res.Sat.ite (fun hE => ?_) fun _ => ?_
      · intro hn
        exact absurd (by simpa using hE) (hname hn (by simp))
      · have hl := hs2.length_le
        simp at hl
        refine Res.Sat.bind ((readDefinitions_sat (all := ts ++ [t])
          ⟨fun inner hi => readDefinitionList_sat _ _ hi⟩ ((List.suffix_cons _ _).trans hs2) (by omega)).mono
          (fun _ h => h) (fun _ h => h) fun p hp _ => hp) ?_
        intro _ _ _; trivial

/-- The tokens kept by the lexer never contain a terminator, and `append` preserves this. -/
def NoTerm (ts : List Token) : Prop := ∀ t ∈ ts, t.isTerminator = false

theorem append_noTerm {toks ts toks' : List Token} {rs : List SyntaxRule} (h0 : NoTerm toks)
    (h : Lexer.append toks ts = (.ok rs, toks')) : NoTerm toks' := by
  induction ts generalizing toks rs with
  | nil => simp [Lexer.append] at h; rw [← h.2]; exact h0
  | cons t ts ih =>
    by_cases ht : t.isTerminator = true
    · rw [append_cons_term ht] at h
      cases hb : buildSyntaxRule (toks ++ [t]) with
      | ok r =>
        rw [hb] at h
        simp only at h
        generalize hx : Lexer.append [] ts = x at h
        obtain ⟨r1, t1⟩ := x
        cases r1 with
        | ok r1 =>
          simp only [Prod.mk.injEq] at h
          exact ih (toks := []) (rs := r1) (by simp [NoTerm]) (by rw [hx, h.2])
        | err e => simp at h
        | panic p => simp at h
        | diverge => simp at h
      | err e => rw [hb] at h; simp at h
      | panic p => rw [hb] at h; simp at h
      | diverge => rw [hb] at h; simp at h
    · have ht : t.isTerminator = false := by simpa using ht
      rw [append_cons_other ht] at h
      refine ih ?_ h
      intro u hu
      rcases List.mem_append.mp hu with hu | hu
      · exact h0 u hu
      · simp at hu; subst hu; exact ht

theorem isSkippable_iff (t : Token) : t.isSkippable = true ↔ IsBlank t := by
  cases t <;> simp [Token.isSkippable, Token.isGapSeparatorSequence, Token.isComment, IsBlank]

theorem isClosing_iff (t : Token) : t.isClosing = true ↔ IsClosingBracket t := by
  cases t <;> simp [Token.isClosing, Token.isEndGroupSymbol, Token.isEndOptionSymbol,
    Token.isEndRepeatSymbol, IsClosingBracket]

theorem Dangling.closing {ts : List Token} {t : Token} (ht : t.isTerminator = true)
    (h : Dangling (ts ++ [t])) : IntegerBeforeClosing (ts ++ [t]) := by
  obtain ⟨pre, l, d, g, post, h0, h1, h2⟩ := h
  rcases h2 with rfl | ⟨c, rest, rfl, hc⟩
  · exfalso
    have hl := congrArg List.getLast? h0
    rw [List.getLast?_concat, List.append_nil, List.getLast?_append] at hl
    simp only [List.getLast?_cons, Option.some_or] at hl
    rw [← List.getLast?_cons] at hl
    have : t ∈ (.integer l d :: g : List Token) := List.mem_of_getLast? hl.symm
    rcases List.mem_cons.mp this with rfl | hm
    · simp [Token.isTerminator] at ht
    · have := h1 t hm; rw [terminator_not_skippable ht] at this; simp at this
  · exact ⟨pre, l, d, g, c, rest, h0, fun x hx => (isSkippable_iff x).mp (h1 x hx), (isClosing_iff c).mp hc⟩

theorem IntegerBeforeClosing.extend {ts us vs : List Token} (h : IntegerBeforeClosing ts) :
    IntegerBeforeClosing (us ++ ts ++ vs) := by
  obtain ⟨pre, l, d, g, c, post, rfl, h1, h2⟩ := h
  exact ⟨us ++ pre, l, d, g, c, post ++ vs, by simp, h1, h2⟩

/-- The outcomes of `append`. -/
theorem append_sat (toks ts : List Token) :
    (Lexer.append toks ts).1.Sat (fun _ => True) (ErrAt (toks ++ ts))
      (fun p => NamedOk (toks ++ ts) → p = .indexOutOfBounds ∧ IntegerBeforeClosing (toks ++ ts)) := by
  induction ts generalizing toks with
  | nil => trivial
  | cons t ts ih =>
    by_cases ht : t.isTerminator = true
    · rw [append_cons_term ht]
      have hb := buildSyntaxRule_sat (ts := toks) ht
      have hassoc : toks ++ t :: ts = toks ++ [t] ++ ts := by simp
      cases h : buildSyntaxRule (toks ++ [t]) with
      | ok r =>
        have := ih []
        revert this
        rcases Lexer.append [] ts with ⟨r1, t1⟩
        intro this
        cases r1 with
        | ok r1 => trivial
        | err e => exact ErrAt.mono this (by intro u hu; simp at hu; simp [hu])
        | panic p =>
          intro hn
          have hp := this (fun l s h => hn l s (by simp at h; simp [h]))
          refine ⟨hp.1, ?_⟩
          have := IntegerBeforeClosing.extend hp.2 (us := toks ++ [t]) (vs := [])
          simpa using this
        | diverge => exact this
      | err e =>
        rw [h] at hb
        exact ErrAt.mono hb (by intro u hu; rw [hassoc]; exact List.mem_append_left _ hu)
      | panic p =>
        rw [h] at hb
        intro hn
        have hp := hb (fun l s h => hn l s (by rw [hassoc]; exact List.mem_append_left _ h))
        refine ⟨hp.1, ?_⟩
        rw [hassoc]
        have := IntegerBeforeClosing.extend (hp.2.closing ht) (us := []) (vs := ts)
        simpa using this
      | diverge => rw [h] at hb; exact hb
    · have ht : t.isTerminator = false := by simpa using ht
      rw [append_cons_other ht]
      have := ih (toks ++ [t])
      simpa using this

end Ebnf
