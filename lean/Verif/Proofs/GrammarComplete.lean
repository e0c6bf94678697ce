import Verif.Proofs.GrammarSound

set_option autoImplicit false

/-! # The token parser is complete for the grammar -/

namespace Ebnf

open Spec

theorem opens_not_closes {k k' : Bracket} {t : Token} (h : Opens k t) : ¬ Closes k' t := by
  cases k <;> cases k' <;> cases t <;> simp_all [Opens, Closes]

theorem opens_unique {k k' : Bracket} {t : Token} (h : Opens k t) (h' : Opens k' t) : k = k' := by
  cases k <;> cases k' <;> cases t <;> simp_all [Opens]

theorem closes_unique {k k' : Bracket} {t : Token} (h : Closes k t) (h' : Closes k' t) : k = k' := by
  cases k <;> cases k' <;> cases t <;> simp_all [Closes]

theorem findClose_nested {o c : Token → Bool} {k : Bracket} (ho : ∀ t, o t = true ↔ Opens k t)
    (hc : ∀ t, c t = true ↔ Closes k t) {a : List Token} (ha : Nested a) (n : Nat) (r : List Token) :
    findClose o c n (a ++ r) = (findClose o c n r).map fun x => (a ++ x.1, x.2) := by
  induction ha generalizing n r with
  | nil => simp
  | other h1 h2 _ ih =>
    have e1 := fun h => h1 k ((ho _).mp h)
    have e2 := fun h => h2 k ((hc _).mp h)
    rw [List.cons_append, findClose, if_neg e1, if_neg e2, ih, Option.map_map]
    rfl
  | @pair k' t u ts us h1 h2 _ _ ih1 ih2 =>
    rw [List.cons_append, List.append_assoc, findClose]
    by_cases hk : k' = k
    · subst hk
      rw [if_pos ((ho _).mpr h1), ih1, List.cons_append, findClose,
        if_neg (fun h => opens_not_closes ((ho _).mp h) h2), if_pos ((hc _).mpr h2), if_neg (by omega),
        Nat.add_sub_cancel, ih2, Option.map_map, Option.map_map, Option.map_map]
      congr 1
      funext x
      simp
    · rw [if_neg (fun h => hk (opens_unique h1 ((ho _).mp h))), if_neg (fun h => opens_not_closes h1 ((hc _).mp h)),
        ih1, List.cons_append, findClose, if_neg (fun h => opens_not_closes ((ho _).mp h) h2),
        if_neg (fun h => hk (closes_unique h2 ((hc _).mp h))), ih2, Option.map_map, Option.map_map, Option.map_map]
      congr 1
      funext x
      simp

theorem nested_head_not_close {a : List Token} (ha : Nested a) {k : Bracket} {t : Token} (hc : Closes k t)
    (r : List Token) : a ≠ t :: r := by
  cases ha with
  | nil => simp
  | other _ h _ => intro h'; injection h' with h1 h2; subst h1; exact h k hc
  | pair h _ _ _ => intro h'; injection h' with h1 h2; subst h1; exact opens_not_closes h hc

/-- A symbol at which a definition list, definition, term or factor may stop. -/
def IsFollow : Token → Bool
  | .concatenateSymbol _ | .definitionSeparatorSymbol _ _ | .terminatorSymbol _ _ | .eof _ | .exceptSymbol _ => true
  | _ => false

/-- What follows a factor. -/
def Follows (rest : List Token) : Prop := ∀ t r, skipGaps rest = t :: r → IsFollow t = true

theorem follows_of_skip {a b : List Token} (h : skipGaps a = skipGaps b) (hb : Follows b) : Follows a := by
  intro t r he; exact hb t r (by rw [← h, he])

/-- The identifier loop on a name. -/
theorem readMetaLoop_name_complete {ts : List Token} {l : Location} {n : Str} (hN : Name ts l n) (hok : NamedOk ts)
    (rest : List Token) :
    readMetaLoop (ts ++ rest) [] none = readMetaLoop rest n (some l) := by
  induction hN generalizing rest with
  | word l s => simp [readMetaLoop]
  | @adjacent ts l n l' s _ ih =>
    rw [List.append_assoc, ih (hok.sub (by simp +contextual))]
    simp [readMetaLoop]
  | @gap ts l n gs l' s hN hne hgs ih =>
    rw [List.append_assoc, List.append_assoc, ih (hok.sub (by simp +contextual))]
    have ht := hN.tight (hok.sub (by simp +contextual))
    have aux : ∀ (gs : List Token), (∀ t ∈ gs, IsGapToken t) → ∀ r,
        readMetaLoop (gs ++ r) (n ++ [' ']) (some l) = readMetaLoop r (n ++ [' ']) (some l) := by
      intro gs hgs r
      induction gs with
      | nil => rfl
      | cons g gs ih =>
        have := hgs g (by simp)
        cases g <;> simp [IsGapToken] at this
        rw [List.cons_append, readMetaLoop]
        simp only [List.getLast?_concat, if_true]
        exact ih fun t ht => hgs t (by simp [ht])
    obtain ⟨g, gs', rfl⟩ := List.exists_cons_of_ne_nil hne
    have hg := hgs g (by simp)
    cases g <;> simp [IsGapToken] at hg
    rw [List.cons_append, readMetaLoop, if_neg ht.2.2, aux gs' fun t ht => hgs t (by simp [ht])]
    simp [readMetaLoop]

/-- The identifier loop after a name. -/
theorem readMetaLoop_after {n : Str} (hn : Tight n) (l : Location) (rest : List Token)
    (hf : ∀ t r, skipGaps rest = t :: r → ¬ ∃ l s, t = .metaIdentifier l s) :
    ∃ gs r, readMetaLoop rest n (some l) = (accOf n gs, some l, r) ∧ skipGaps r = skipGaps rest := by
  have aux : ∀ (rest gs : List Token), (∀ t r, skipGaps rest = t :: r → ¬ ∃ l s, t = .metaIdentifier l s) →
      ∃ gs' r, readMetaLoop rest (accOf n gs) (some l) = (accOf n gs', some l, r) ∧ skipGaps r = skipGaps rest := by
    intro rest
    induction rest with
    | nil => intro gs _; exact ⟨gs, [], rfl, rfl⟩
    | cons t ts ih =>
      intro gs hf
      cases t with
      | metaIdentifier l' s => exact absurd ⟨l', s, rfl⟩ (hf _ _ (skipGaps_cons rfl))
      | gapSeparatorSequence l' s =>
        have hsk : skipGaps (.gapSeparatorSequence l' s :: ts) = skipGaps ts :=
          skipGaps_skip (g := [.gapSeparatorSequence l' s]) (by simp [Token.isSkippable, Token.isGapSeparatorSequence])
        obtain ⟨gs', r, h1, h2⟩ := ih (gs ++ [.gapSeparatorSequence l' s]) (by rw [← hsk]; exact hf)
        refine ⟨gs', r, ?_, by rw [h2, hsk]⟩
        rw [readMetaLoop, ← h1]
        congr 1
        by_cases hg : gs = []
        · subst hg; simp [accOf, hn.2.2]
        · simp [accOf, hg]
      | _ => exact ⟨gs, _, rfl, rfl⟩
  simpa [accOf] using aux rest [] hf

theorem name_head {ts : List Token} {l : Location} {n : Str} (h : Name ts l n) :
    ∃ s r, ts = .metaIdentifier l s :: r := by
  induction h with
  | word l s => exact ⟨s, [], rfl⟩
  | adjacent l' s _ ih => obtain ⟨s', r, rfl⟩ := ih; exact ⟨s', _, rfl⟩
  | gap gs l' s _ _ _ ih => obtain ⟨s', r, rfl⟩ := ih; exact ⟨s', _, rfl⟩

theorem readMetaIdentifier_complete {ts rest : List Token} {l : Location} {n : Str} (hN : Name ts l n)
    (hok : NamedOk ts) (hf : ∀ t r, skipGaps rest = t :: r → ¬ ∃ l s, t = .metaIdentifier l s) :
    ∃ r, readMetaIdentifier (ts ++ rest) = (n, some l, r) ∧ skipGaps r = skipGaps rest := by
  obtain ⟨gs, r, h1, h2⟩ := readMetaLoop_after (hN.tight hok) l rest hf
  refine ⟨r, ?_, h2⟩
  obtain ⟨s, ts', rfl⟩ := name_head hN
  have : skipGaps (.metaIdentifier l s :: ts' ++ rest) = .metaIdentifier l s :: ts' ++ rest := by
    rw [List.cons_append]; exact skipGaps_cons rfl
  unfold readMetaIdentifier
  rw [this, readMetaLoop_name_complete hN hok, h1]
  simp only
  rw [trimSpaces_accOf gs (hN.tight hok)]

/-- Forget the location of empty sequences. -/
abbrev noE : Location → Location := fun _ => nowhere

/-- Recursive calls on the inside of brackets. -/
theorem readEnclosed_complete {recur : List Token → Res DefinitionList} {start c : Token} {ts rest : List Token}
    {o cl : Token → Bool} {k : Bracket} (ho : ∀ t, o t = true ↔ Opens k t) (hc : ∀ t, cl t = true ↔ Closes k t)
    {l' : DefinitionList} (hn : Nested ts) (hcl : Closes k c) (hr : recur ts = .ok l') :
    readEnclosed recur start (ts ++ c :: rest) o cl = .ok (l', rest) := by
  unfold readEnclosed
  rw [findClose_nested ho hc hn, findClose, if_neg (fun h => opens_not_closes ((ho _).mp h) hcl),
    if_pos ((hc _).mpr hcl), if_pos rfl]
  simp only [Option.map_some, List.append_nil]
  rw [hr]
  rfl

/-- Contract of the list reader used in the mutual induction. -/
def ListC (ts : List Token) (l : DefinitionList) : Prop :=
  ∀ fuel last n rest, ts.length ≤ fuel → (ts ++ rest).length < n → (skipGaps rest = [] ∨ ∃ t r, skipGaps rest = t :: r ∧
    t.isTerminator = true) → ∃ l', readDefinitions (readDefinitionList fuel) last n (ts ++ rest) = .ok l' ∧
    mapList id noE l' = mapList id noE l

def PrimaryC (ts : List Token) (p : Primary) : Prop :=
  ∀ fuel last rest, ts.length ≤ fuel → Follows rest →
    ∃ p' rest', readPrimary (readDefinitionList fuel) last (ts ++ rest) = .ok (p', rest') ∧
    mapPrimary id noE p' = mapPrimary id noE p ∧ skipGaps rest' = skipGaps rest

def FactorC (ts : List Token) (p : Factor) : Prop :=
  ∀ fuel last rest, ts.length ≤ fuel → Follows rest →
    ∃ p' rest', readFactor (readDefinitionList fuel) last (ts ++ rest) = .ok (p', rest') ∧
    mapFactor id noE p' = mapFactor id noE p ∧ skipGaps rest' = skipGaps rest

def TermC (ts : List Token) (p : Term) : Prop :=
  ∀ fuel last rest, ts.length ≤ fuel → Follows rest → (∀ l r, skipGaps rest ≠ .exceptSymbol l :: r) →
    ∃ p' rest', readTerm (readDefinitionList fuel) last (ts ++ rest) = .ok (p', rest') ∧
    mapTerm id noE p' = mapTerm id noE p ∧ skipGaps rest' = skipGaps rest

def SingleC (ts : List Token) (d : SingleDefinition) : Prop :=
  ∀ fuel last n rest, ts.length ≤ fuel → (ts ++ rest).length < n → Follows rest →
    (∀ l r, skipGaps rest ≠ .exceptSymbol l :: r) → (∀ l r, skipGaps rest ≠ .concatenateSymbol l :: r) →
    ∃ d', readSingle (readDefinitionList fuel) last n (ts ++ rest) = .ok (d', skipGaps rest) ∧
    mapSingle id noE d' = mapSingle id noE d

theorem ListC.inner {ts g : List Token} {l : DefinitionList} (h : ListC ts l) (hg : Blanks g) {fuel : Nat}
    (hf : (ts ++ g).length < fuel) :
    ∃ l', readDefinitionList fuel (ts ++ g) = .ok l' ∧ mapList id noE l' = mapList id noE l := by
  cases fuel with
  | zero => omega
  | succ f =>
    unfold readDefinitionList
    refine h f _ _ g (by simp at hf; omega) (by omega) (.inl ?_)
    have := skipGaps_blanks_skip (g := g) (r := []) hg
    simpa [skipGaps] using this

/-- The primary of a bracket. -/
def bracketed (k : Bracket) (loc : Location) (l : DefinitionList) : Primary :=
  match k with
  | .option => .optional loc l
  | .repeat => .repeated loc l
  | .group => .grouped loc l

theorem primary_bracket {g ts g' rest : List Token} {list : DefinitionList} (o c : Token) {fuel : Nat} {last : Location}
    (hg : Blanks g) (hg' : Blanks g') (hl : ListC ts list) (hn : Nested ts)
    (hlen : (g ++ o :: (ts ++ g' ++ [c])).length ≤ fuel) {k : Bracket} (ho : Opens k o) (hc : Closes k c) :
    ∃ l', readPrimary (readDefinitionList fuel) last (g ++ o :: (ts ++ g' ++ [c]) ++ rest) =
      .ok (bracketed k o.location l', rest) ∧
      mapList id noE l' = mapList id noE list := by
  obtain ⟨l', h1, h2⟩ := hl.inner (g := g') (fuel := fuel) hg' (by simp at hlen ⊢; omega)
  refine ⟨l', ?_, h2⟩
  have hsk : skipGaps (g ++ o :: (ts ++ g' ++ [c]) ++ rest) = o :: ((ts ++ g') ++ c :: rest) := by
    rw [List.append_assoc, skipGaps_blanks_skip hg, List.cons_append, skipGaps_cons]
    · simp
    · cases k <;> cases o <;> simp_all [Opens] <;> rfl
  have hnest := nested_append hn (nested_blanks hg')
  have hhead : ∀ t, ((ts ++ g') ++ c :: rest).head? = some t → k ≠ .group → t.isEndGroupSymbol = false := by
    intro t ht hk
    cases hh : ts ++ g' with
    | nil => rw [hh] at ht; simp at ht; subst ht; cases k <;> cases c <;> simp_all [Closes] <;> rfl
    | cons a as =>
      rw [hh] at ht; simp at ht; subst ht
      cases a with
      | endGroupSymbol l => exact absurd hh (nested_head_not_close hnest (k := .group) (by trivial) _)
      | _ => rfl
  have hhead' : k ≠ .group → (((ts ++ g') ++ c :: rest).head?.map Token.isEndGroupSymbol).getD false = false := by
    intro hk
    cases h : ((ts ++ g') ++ c :: rest).head? with
    | none => rfl
    | some t => simp [hhead t h hk]
  unfold readPrimary
  rw [hsk]
  cases k with
  | option =>
    cases o <;> simp only [Opens] at ho
    simp only
    rw [hhead' (by simp)]
    simp only [Bool.false_eq_true, and_false, if_false]
    rw [readEnclosed_complete (k := .option) (by intro t; cases t <;> simp [Token.isStartOptionSymbol, Opens])
      (by intro t; cases t <;> simp [Token.isEndOptionSymbol, Closes]) hnest hc h1]
    rfl
  | «repeat» =>
    cases o <;> simp only [Opens] at ho
    simp only
    rw [hhead' (by simp)]
    simp only [Bool.false_eq_true, and_false, if_false]
    rw [readEnclosed_complete (k := .repeat) (by intro t; cases t <;> simp [Token.isStartRepeatSymbol, Opens])
      (by intro t; cases t <;> simp [Token.isEndRepeatSymbol, Closes]) hnest hc h1]
    rfl
  | group =>
    cases o <;> simp only [Opens] at ho
    simp only
    rw [readEnclosed_complete (k := .group) (by intro t; cases t <;> simp [Token.isStartGroupSymbol, Opens])
      (by intro t; cases t <;> simp [Token.isEndGroupSymbol, Closes]) hnest hc h1]
    rfl

theorem isFollow_not_skippable {t : Token} (h : IsFollow t = true) : t.isSkippable = false := by
  cases t <;> simp [IsFollow] at h <;> rfl

theorem name_skip {g ts rest : List Token} {l : Location} {n : Str} (hg : Blanks g) (hN : Name ts l n) :
    skipGaps (g ++ ts ++ rest) = ts ++ rest := by
  obtain ⟨s, r, rfl⟩ := name_head hN
  rw [List.append_assoc, skipGaps_blanks_skip hg, List.cons_append, skipGaps_cons rfl]

theorem readMetaIdentifier_skip (ts : List Token) : readMetaIdentifier (skipGaps ts) = readMetaIdentifier ts := by
  unfold readMetaIdentifier
  rw [skipGaps_idem]

theorem primary_name {g ts : List Token} {l : Location} {n : Str} (hg : Blanks g) (hN : Name ts l n)
    (hok : NamedOk ts) : PrimaryC (g ++ ts) (.metaIdentifier l n) := by
  intro fuel last rest _ hf
  have hsk := name_skip (rest := rest) hg hN
  obtain ⟨r, h1, h2⟩ := readMetaIdentifier_complete (rest := rest) hN hok (by
    rintro t r he ⟨l, s, rfl⟩
    have := hf _ _ he
    simp [IsFollow] at this)
  refine ⟨.metaIdentifier l n, r, ?_, rfl, h2⟩
  unfold readPrimary
  rw [hsk]
  obtain ⟨s, r', rfl⟩ := name_head hN
  simp only [List.cons_append] at h1 ⊢
  rw [h1]

theorem primary_empty {g : List Token} (l : Location) (hg : Blanks g) : PrimaryC g (.empty l) := by
  intro fuel last rest _ hf
  unfold readPrimary
  rw [skipGaps_blanks_skip hg]
  cases h : skipGaps rest with
  | nil => exact ⟨.empty last, [], rfl, rfl, rfl⟩
  | cons t r =>
    have := hf t r h
    refine ⟨.empty t.location, t :: r, ?_, rfl, ?_⟩
    · cases t <;> simp [IsFollow] at this <;> rfl
    · exact skipGaps_cons (isFollow_not_skippable this)

/-- Where a primary starts there is no integer. -/
theorem primary_no_integer {ts rest : List Token} {p : Primary} (h : PrimaryG ts p) (hf : Follows rest) :
    ∀ l d r, skipGaps (ts ++ rest) ≠ .integer l d :: r := by
  intro l d r
  cases h with
  | optional hg _ _ =>
    rw [List.append_assoc, skipGaps_blanks_skip hg, List.cons_append, skipGaps_cons rfl]; simp
  | repeated hg _ _ =>
    rw [List.append_assoc, skipGaps_blanks_skip hg, List.cons_append, skipGaps_cons rfl]; simp
  | grouped hg _ _ =>
    rw [List.append_assoc, skipGaps_blanks_skip hg, List.cons_append, skipGaps_cons rfl]; simp
  | metaIdentifier hg hN =>
    rw [name_skip hg hN]
    obtain ⟨s, r', rfl⟩ := name_head hN
    simp
  | terminalString hg =>
    rw [List.append_assoc, skipGaps_blanks_skip hg, List.cons_append, skipGaps_cons rfl]; simp
  | specialSequence hg =>
    rw [List.append_assoc, skipGaps_blanks_skip hg, List.cons_append, skipGaps_cons rfl]; simp
  | empty _ hg =>
    rw [skipGaps_blanks_skip hg]
    intro he
    have := hf _ _ he
    simp [IsFollow] at this

theorem readPrimary_skip {recur : List Token → Res DefinitionList} {last : Location} (ts : List Token) :
    readPrimary recur last (skipGaps ts) = readPrimary recur last ts := by
  unfold readPrimary; rw [skipGaps_idem]

theorem readCount_none {ts : List Token} (h : ∀ l d r, skipGaps ts ≠ .integer l d :: r) :
    readCount ts = .ok (1, skipGaps ts) := by
  unfold readCount
  cases hs : skipGaps ts with
  | nil => rfl
  | cons t r =>
    cases t with
    | integer l d => exact absurd hs (h l d r)
    | _ => rfl

theorem factor_one {ts : List Token} {p : Primary} (h : PrimaryG ts p) (hc : PrimaryC ts p) :
    FactorC ts (.mk 1 p) := by
  intro fuel last rest hl hf
  obtain ⟨p', r', h1, h2, h3⟩ := hc fuel last rest hl hf
  refine ⟨.mk 1 p', r', ?_, by simp [mapFactor, h2], h3⟩
  rw [readFactor_eq, readCount_none (primary_no_integer h hf)]
  show (readPrimary (readDefinitionList fuel) last (skipGaps (ts ++ rest)) >>= _) = _
  rw [readPrimary_skip, h1]
  rfl

theorem factor_times {g g' ts : List Token} {l l' : Location} {d : Str} {p : Primary} (hg : Blanks g)
    (hg' : Blanks g') (hd : ∀ c ∈ d, IsDigit c) (hne : d ≠ []) (hlt : decimal d < 2 ^ 32) (hc : PrimaryC ts p) :
    FactorC (g ++ .integer l d :: (g' ++ .repetitionSymbol l' :: ts)) (.mk (decimal d) p) := by
  intro fuel last rest hl hf
  obtain ⟨p', r', h1, h2, h3⟩ := hc fuel last rest (by simp at hl; omega) hf
  refine ⟨.mk (decimal d) p', r', ?_, by simp [mapFactor, h2], h3⟩
  have : readCount (g ++ .integer l d :: (g' ++ .repetitionSymbol l' :: ts) ++ rest) =
      .ok (decimal d, skipGaps (ts ++ rest)) := by
    unfold readCount
    rw [List.append_assoc, skipGaps_blanks_skip hg, List.cons_append, skipGaps_cons rfl]
    simp only
    rw [parseU32_eq hd hne hlt]
    simp only
    rw [List.append_assoc, skipGaps_blanks_skip hg', List.cons_append, skipGaps_cons rfl]
    rfl
  rw [readFactor_eq, this]
  show (readPrimary (readDefinitionList fuel) last (skipGaps (ts ++ rest)) >>= _) = _
  rw [readPrimary_skip, h1]
  rfl

theorem follows_cons {g r : List Token} {t : Token} (hg : Blanks g) (ht : IsFollow t = true) :
    Follows (g ++ t :: r) ∧ skipGaps (g ++ t :: r) = t :: r := by
  have : skipGaps (g ++ t :: r) = t :: r := by
    rw [skipGaps_blanks_skip hg, skipGaps_cons (isFollow_not_skippable ht)]
  refine ⟨?_, this⟩
  intro u r' he
  rw [this] at he
  injection he with h1 h2
  subst h1; exact ht

theorem term_plain {ts : List Token} {f : Factor} (hc : FactorC ts f) : TermC ts (.plain f) := by
  intro fuel last rest hl hf hx
  obtain ⟨f', r', h1, h2, h3⟩ := hc fuel last rest hl hf
  refine ⟨.plain f', skipGaps rest, ?_, by simp [mapTerm, h2], skipGaps_idem _⟩
  unfold readTerm
  rw [h1]
  show (match skipGaps r' with | t :: rest => _ | [] => _) = _
  rw [h3]
  cases hs : skipGaps rest with
  | nil => rfl
  | cons t r =>
    simp only
    rw [if_neg]
    · rfl
    · intro ht
      cases t <;> simp [Token.isExceptSymbol] at ht
      exact hx _ _ hs

theorem term_except {ts g ts' : List Token} {l : Location} {f e : Factor} (hc : FactorC ts f) (hg : Blanks g)
    (hc' : FactorC ts' e) : TermC (ts ++ g ++ .exceptSymbol l :: ts') (.except f e) := by
  intro fuel last rest hl hf hx
  simp at hl
  obtain ⟨hfo, hsk⟩ := follows_cons (r := ts' ++ rest) (t := .exceptSymbol l) hg rfl
  obtain ⟨f', r', h1, h2, h3⟩ := hc fuel last (g ++ .exceptSymbol l :: (ts' ++ rest)) (by omega) hfo
  obtain ⟨e', r'', h1', h2', h3'⟩ := hc' fuel last rest (by omega) hf
  refine ⟨.except f' e', r'', ?_, by simp [mapTerm, h2, h2'], h3'⟩
  have : ts ++ g ++ .exceptSymbol l :: ts' ++ rest = ts ++ (g ++ .exceptSymbol l :: (ts' ++ rest)) := by simp
  unfold readTerm
  rw [this, h1]
  show (match skipGaps r' with | t :: rest => _ | [] => _) = _
  rw [h3, hsk]
  simp only [Token.isExceptSymbol, if_true]
  rw [h1']
  rfl

theorem single_one {ts : List Token} {t : Term} (hc : TermC ts t) : SingleC ts (.cons t .nil) := by
  intro fuel last n rest hl hn hf hx hcc
  obtain ⟨t', r', h1, h2, h3⟩ := hc fuel last rest hl hf hx
  refine ⟨.cons t' .nil, ?_, by simp [mapSingle, h2]⟩
  cases n with
  | zero => omega
  | succ n =>
    unfold readSingle
    rw [h1]
    show (match skipGaps r' with | [] => _ | .concatenateSymbol _ :: rest => _ | .definitionSeparatorSymbol l c :: rest => _ | t :: rest => _) = _
    rw [h3]
    cases hs : skipGaps rest with
    | nil => rfl
    | cons t r =>
      have := hf t r hs
      cases t with
      | concatenateSymbol l => exact absurd hs (hcc _ _)
      | exceptSymbol l => exact absurd hs (hx _ _)
      | definitionSeparatorSymbol l c => rfl
      | terminatorSymbol l c => rfl
      | eof l => rfl
      | _ => simp [IsFollow] at this

theorem single_more {ts g ts' : List Token} {l : Location} {t : Term} {d : SingleDefinition} (hc : TermC ts t)
    (hg : Blanks g) (hc' : SingleC ts' d) : SingleC (ts ++ g ++ .concatenateSymbol l :: ts') (.cons t d) := by
  intro fuel last n rest hl hn hf hx hcc
  simp at hl hn
  obtain ⟨hfo, hsk⟩ := follows_cons (r := ts' ++ rest) (t := .concatenateSymbol l) hg rfl
  obtain ⟨t', r', h1, h2, h3⟩ := hc fuel last (g ++ .concatenateSymbol l :: (ts' ++ rest)) (by omega) hfo
    (by rw [hsk]; simp)
  cases n with
  | zero => omega
  | succ n =>
    obtain ⟨d', h1', h2'⟩ := hc' fuel last n rest (by omega) (by simp; omega) hf hx hcc
    refine ⟨.cons t' d', ?_, by simp [mapSingle, h2, h2']⟩
    have : ts ++ g ++ .concatenateSymbol l :: ts' ++ rest = ts ++ (g ++ .concatenateSymbol l :: (ts' ++ rest)) := by simp
    unfold readSingle
    rw [this, h1]
    show (match skipGaps r' with | [] => _ | .concatenateSymbol _ :: rest => _ | .definitionSeparatorSymbol l c :: rest => _ | t :: rest => _) = _
    rw [h3, hsk]
    simp only
    rw [h1']
    rfl

theorem follows_end {rest : List Token} (h : skipGaps rest = [] ∨ ∃ t r, skipGaps rest = t :: r ∧ t.isTerminator = true) :
    Follows rest ∧ (∀ l r, skipGaps rest ≠ .exceptSymbol l :: r) ∧ (∀ l r, skipGaps rest ≠ .concatenateSymbol l :: r) := by
  rcases h with h | ⟨t, r, h, ht⟩
  · refine ⟨?_, ?_, ?_⟩ <;> simp [Follows, h]
  · refine ⟨?_, ?_, ?_⟩
    · intro u r' he
      rw [h] at he
      injection he with h1 h2
      subst h1
      cases t <;> simp [Token.isTerminator] at ht <;> rfl
    · rintro l r' he
      rw [h] at he
      injection he with h1 h2
      subst h1; simp [Token.isTerminator] at ht
    · rintro l r' he
      rw [h] at he
      injection he with h1 h2
      subst h1; simp [Token.isTerminator] at ht

theorem list_one {ts : List Token} {d : SingleDefinition} (hc : SingleC ts d) : ListC ts (.cons d .nil) := by
  intro fuel last n rest hl hn he
  obtain ⟨h1, h2, h3⟩ := follows_end he
  obtain ⟨d', h1', h2'⟩ := hc fuel last ((ts ++ rest).length + 1) rest hl (by omega) h1 h2 h3
  refine ⟨.cons d' .nil, ?_, by simp [mapList, h2']⟩
  cases n with
  | zero => omega
  | succ n =>
    unfold readDefinitions
    rw [h1']
    show (match skipGaps (skipGaps rest) with | [] => _ | t :: rest => _) = _
    rw [skipGaps_idem]
    rcases he with he | ⟨t, r, he, ht⟩
    · rw [he]; rfl
    · rw [he]; simp only [ht, if_true]; rfl

theorem list_more {ts g ts' : List Token} {l : Location} {c : Char} {d : SingleDefinition} {list : DefinitionList}
    (hc : SingleC ts d) (hg : Blanks g) (hc' : ListC ts' list) :
    ListC (ts ++ g ++ .definitionSeparatorSymbol l c :: ts') (.cons d list) := by
  intro fuel last n rest hl hn he
  simp at hl hn
  obtain ⟨hfo, hsk⟩ := follows_cons (r := ts' ++ rest) (t := .definitionSeparatorSymbol l c) hg rfl
  have heq : ts ++ g ++ .definitionSeparatorSymbol l c :: ts' ++ rest =
    ts ++ (g ++ .definitionSeparatorSymbol l c :: (ts' ++ rest)) := by simp
  obtain ⟨d', h1, h2⟩ := hc fuel last ((ts ++ (g ++ .definitionSeparatorSymbol l c :: (ts' ++ rest))).length + 1)
    (g ++ .definitionSeparatorSymbol l c :: (ts' ++ rest)) (by omega) (by omega) hfo
    (by rw [hsk]; simp) (by rw [hsk]; simp)
  cases n with
  | zero => omega
  | succ n =>
    obtain ⟨l', h1', h2'⟩ := hc' fuel last n rest (by omega) (by simp; omega) he
    refine ⟨.cons d' l', ?_, by simp [mapList, h2, h2']⟩
    unfold readDefinitions
    rw [heq, h1, hsk]
    have hk : skipGaps (.definitionSeparatorSymbol l c :: (ts' ++ rest)) = .definitionSeparatorSymbol l c :: (ts' ++ rest) :=
      skipGaps_cons rfl
    simp only [bind, Res.bind, hk, Token.isTerminator, h1']
    rfl

theorem NamedOk.left {a b : List Token} (h : NamedOk (a ++ b)) : NamedOk a := h.sub (by simp +contextual)
theorem NamedOk.right {a b : List Token} (h : NamedOk (a ++ b)) : NamedOk b := h.sub (by simp +contextual)
theorem NamedOk.tail {t : Token} {b : List Token} (h : NamedOk (t :: b)) : NamedOk b := h.sub (by simp +contextual)

mutual
theorem primary_complete {ts : List Token} {p : Primary} : PrimaryG ts p → NamedOk ts → PrimaryC ts p
  | .optional (l := l) (s := s) (l' := l') (s' := s') hg hg' hl, hn => by
    intro fuel last rest hlen hf
    obtain ⟨x, h1, h2⟩ := primary_bracket (rest := rest) (last := last) (.startOptionSymbol l s) (.endOptionSymbol l' s') hg hg'
      (list_complete hl hn.right.tail.left.left) (nested_list hl) hlen (k := .option) trivial trivial
    exact ⟨_, rest, h1, by simp [bracketed, mapPrimary, h2, Token.location], rfl⟩
  | .repeated (l := l) (s := s) (l' := l') (s' := s') hg hg' hl, hn => by
    intro fuel last rest hlen hf
    obtain ⟨x, h1, h2⟩ := primary_bracket (rest := rest) (last := last) (.startRepeatSymbol l s) (.endRepeatSymbol l' s') hg hg'
      (list_complete hl hn.right.tail.left.left) (nested_list hl) hlen (k := .repeat) trivial trivial
    exact ⟨_, rest, h1, by simp [bracketed, mapPrimary, h2, Token.location], rfl⟩
  | .grouped (l := l) (l' := l') hg hg' hl, hn => by
    intro fuel last rest hlen hf
    obtain ⟨x, h1, h2⟩ := primary_bracket (rest := rest) (last := last) (.startGroupSymbol l) (.endGroupSymbol l') hg hg'
      (list_complete hl hn.right.tail.left.left) (nested_list hl) hlen (k := .group) trivial trivial
    exact ⟨_, rest, h1, by simp [bracketed, mapPrimary, h2, Token.location], rfl⟩
  | .metaIdentifier hg hN, hn => primary_name hg hN hn.right
  | .terminalString (l := l) (s := s) (q := q) hg, _ => by
    intro fuel last rest _ hf
    refine ⟨.terminalString l s, rest, ?_, rfl, rfl⟩
    unfold readPrimary
    rw [List.append_assoc, skipGaps_blanks_skip hg, List.cons_append, skipGaps_cons rfl]
    rfl
  | .specialSequence (l := l) (s := s) hg, _ => by
    intro fuel last rest _ hf
    refine ⟨.specialSequence l s, rest, ?_, rfl, rfl⟩
    unfold readPrimary
    rw [List.append_assoc, skipGaps_blanks_skip hg, List.cons_append, skipGaps_cons rfl]
    rfl
  | .empty l hg, _ => primary_empty l hg
theorem factor_complete {ts : List Token} {f : Factor} : FactorG ts f → NamedOk ts → FactorC ts f
  | .one h, hn => factor_one h (primary_complete h hn)
  | .times hg hg' h1 h2 h3 hp, hn => factor_times hg hg' h1 h2 h3 (primary_complete hp hn.right.tail.right.tail)
theorem term_complete {ts : List Token} {t : Term} : TermG ts t → NamedOk ts → TermC ts t
  | .plain h, hn => term_plain (factor_complete h hn)
  | .except h hg h', hn => term_except (factor_complete h hn.left.left) hg (factor_complete h' hn.right.tail)
theorem single_complete {ts : List Token} {d : SingleDefinition} : SingleG ts d → NamedOk ts → SingleC ts d
  | .one h, hn => single_one (term_complete h hn)
  | .more h hg h', hn => single_more (term_complete h hn.left.left) hg (single_complete h' hn.right.tail)
theorem list_complete {ts : List Token} {l : DefinitionList} : ListG ts l → NamedOk ts → ListC ts l
  | .one h, hn => list_one (single_complete h hn)
  | .more h hg h', hn => list_more (single_complete h hn.left.left) hg (list_complete h' hn.right.tail)
end

/-- A derivable rule is built. -/
theorem buildSyntaxRule_complete {ts : List Token} {r : SyntaxRule} (h : RuleG ts r) (hn : NamedOk ts) :
    ∃ r', buildSyntaxRule ts = .ok (some r') ∧ forgetEmpty r' = forgetEmpty r := by
  cases h with
  | @rule g ts g' l ts' g'' t loc name list hg hN hg' hl hg'' ht =>
    have hassoc : g ++ ts ++ g' ++ .definingSymbol l :: (ts' ++ g'' ++ [t]) =
      g ++ (ts ++ (g' ++ .definingSymbol l :: (ts' ++ g'' ++ [t]))) := by simp
    rw [hassoc] at hn ⊢
    have hsk : skipGaps (g' ++ .definingSymbol l :: (ts' ++ g'' ++ [t])) = .definingSymbol l :: (ts' ++ g'' ++ [t]) := by
      rw [skipGaps_blanks_skip hg', skipGaps_cons rfl]
    obtain ⟨nx, h1, h2⟩ := readMetaIdentifier_complete (rest := g' ++ .definingSymbol l :: (ts' ++ g'' ++ [t])) hN
      hn.right.left (by
        rw [hsk]
        rintro t r he ⟨l, s, rfl⟩
        simp at he)
    have hmi : readMetaIdentifier (g ++ (ts ++ (g' ++ .definingSymbol l :: (ts' ++ g'' ++ [t])))) = (name, some loc, nx) := by
      rw [← h1, ← readMetaIdentifier_skip, skipGaps_blanks_skip hg, readMetaIdentifier_skip]
    have hterm : skipGaps (g'' ++ [t]) = [t] := by
      rw [skipGaps_blanks_skip hg'', skipGaps_cons (terminator_not_skippable ((isTerminator_iff t).mp ht))]
    obtain ⟨l', h3, h4⟩ := list_complete hl hn.right.right.right.tail.left.left
      (g ++ (ts ++ (g' ++ .definingSymbol l :: (ts' ++ g'' ++ [t])))).length
      (lastLocation (g ++ (ts ++ (g' ++ .definingSymbol l :: (ts' ++ g'' ++ [t])))))
      ((ts' ++ g'' ++ [t]).length + 1) (g'' ++ [t]) (by simp; omega) (by simp)
      (.inr ⟨t, [], hterm, (isTerminator_iff t).mp ht⟩)
    refine ⟨⟨loc, name, l'⟩, ?_, by simp [forgetEmpty, mapRule]; exact h4⟩
    unfold buildSyntaxRule
    rw [hmi]
    simp only
    rw [h2, hsk]
    simp only [Token.isDefiningSymbol]
    have hne : name.isEmpty = false := by
      have := (hN.tight hn.right.left).1
      cases name with
      | nil => exact absurd rfl this
      | cons a as => rfl
    rw [← List.append_assoc ts' g'' [t]] at h3
    simp only [hne, Bool.not_true, Bool.false_eq_true, if_false]
    rw [h3]
    rfl

/-- Only blanks and a terminator: no rule. -/
theorem buildSyntaxRule_blank {g : List Token} {t : Token} (hg : Blanks g) (ht : IsTerminator t) :
    buildSyntaxRule (g ++ [t]) = .ok none := by
  have ht' := (isTerminator_iff t).mp ht
  have hsk : skipGaps (g ++ [t]) = [t] := by
    rw [skipGaps_blanks_skip hg, skipGaps_cons (terminator_not_skippable ht')]
  have : readMetaIdentifier (g ++ [t]) = ([], none, [t]) := by
    unfold readMetaIdentifier
    rw [hsk]
    cases t <;> simp [IsTerminator] at ht <;> rfl
  unfold buildSyntaxRule
  rw [this]
  simp only
  rw [skipGaps_cons (terminator_not_skippable ht')]
  simp only [ht', if_true]

end Ebnf
