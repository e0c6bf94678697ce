import Verif.Proofs.TermStop

set_option autoImplicit false

/-! # Faulty token sequences are answered with the error of the fault -/

namespace Ebnf

open Spec

theorem name_kindOf (t : Token) : t.name = kindOf t := by cases t <;> rfl

theorem not_skippable {t : Token} (h : ¬ IsBlank t) : t.isSkippable = false := by
  cases hs : t.isSkippable with
  | false => rfl
  | true => exact absurd ((isSkippable_iff t).mp hs) h

/-! ## Brackets -/

def openB : Bracket → Token → Bool
  | .option => Token.isStartOptionSymbol
  | .repeat => Token.isStartRepeatSymbol
  | .group => Token.isStartGroupSymbol

def closeB : Bracket → Token → Bool
  | .option => Token.isEndOptionSymbol
  | .repeat => Token.isEndRepeatSymbol
  | .group => Token.isEndGroupSymbol

theorem openB_iff (k : Bracket) (t : Token) : openB k t = true ↔ Opens k t := by
  cases k <;> cases t <;> simp [openB, Opens, Token.isStartOptionSymbol, Token.isStartRepeatSymbol, Token.isStartGroupSymbol]

theorem closeB_iff (k : Bracket) (t : Token) : closeB k t = true ↔ Closes k t := by
  cases k <;> cases t <;> simp [closeB, Closes, Token.isEndOptionSymbol, Token.isEndRepeatSymbol, Token.isEndGroupSymbol]

theorem opens_not_skippable {k : Bracket} {o : Token} (h : Opens k o) : o.isSkippable = false := by
  cases k <;> cases o <;> simp_all [Opens] <;> rfl

theorem endGroup_head {rest : List Token} (h : (rest.head?.map Token.isEndGroupSymbol).getD false = true) :
    ∃ l r, rest = .endGroupSymbol l :: r := by
  cases rest with
  | nil => simp at h
  | cons t r =>
    cases t <;> simp [Token.isEndGroupSymbol] at h
    exact ⟨_, _, rfl⟩

theorem ambiguous_primary {recur : List Token → Res DefinitionList} {last : Location} {g rest : List Token} {o : Token} {e : Error}
    (hg : Blanks g) (h : Ambiguous o rest e) : readPrimary recur last (g ++ o :: rest) = .err e := by
  cases h with
  | option =>
    unfold readPrimary
    rw [skipGaps_blanks_skip hg, skipGaps_cons rfl]
    rfl
  | «repeat» =>
    unfold readPrimary
    rw [skipGaps_blanks_skip hg, skipGaps_cons rfl]
    rfl

theorem bracket_primary {recur : List Token → Res DefinitionList} {last : Location} {g rest : List Token} {o : Token} {k : Bracket}
    (hg : Blanks g) (ho : Opens k o) (h : ∀ e, ¬ Ambiguous o rest e) : readPrimary recur last (g ++ o :: rest) =
      (readEnclosed recur o rest (openB k) (closeB k) >>= fun x => pure (bracketed k o.location x.1, x.2)) := by
  unfold readPrimary
  rw [skipGaps_blanks_skip hg, skipGaps_cons (opens_not_skippable ho)]
  cases k with
  | option =>
    cases o <;> simp only [Opens] at ho
    simp only
    rw [if_neg]
    · rfl
    · rintro ⟨rfl, h2⟩
      obtain ⟨l, r, rfl⟩ := endGroup_head h2
      exact h _ .option
  | «repeat» =>
    cases o <;> simp only [Opens] at ho
    simp only
    rw [if_neg]
    · rfl
    · rintro ⟨rfl, h2⟩
      obtain ⟨l, r, rfl⟩ := endGroup_head h2
      exact h _ .repeat
  | group =>
    cases o <;> simp only [Opens] at ho
    rfl

theorem findClose_none_iff {k : Bracket} {ts : List Token} :
    findClose (openB k) (closeB k) 0 ts = none ↔ ¬ ∃ inner c more, ts = inner ++ c :: more ∧ Paired k inner ∧ Closes k c := by
  constructor
  · rintro h ⟨inner, c, more, rfl, hp, hc⟩
    rw [findClose_paired (openB_iff k) (closeB_iff k) hp, findClose,
      if_neg (fun h => opens_not_closes ((openB_iff k _).mp h) hc), if_pos ((closeB_iff k _).mpr hc), if_pos rfl] at h
    simp at h
  · intro h
    cases hf : findClose (openB k) (closeB k) 0 ts with
    | none => rfl
    | some x =>
      obtain ⟨inner, rest⟩ := x
      obtain ⟨t, ht, hct⟩ := findClose_some hf
      have hd := findClose_debt (openB_iff k) (closeB_iff k) hf
      cases hd with
      | zero hp => exact absurd ⟨inner, t, rest, ht, hp, (closeB_iff k t).mp hct⟩ h

theorem debug_spelled {k : Bracket} {o : Token} {s : Str} (ho : Opens k o) (hs : Spelled o s) (hidden : Char → Bool) :
    o.debug hidden = s := by
  cases hs <;> cases k <;> simp_all [Opens] <;> rfl

theorem enclosed_err {recur : List Token → Res DefinitionList} {start c : Token} {ts rest : List Token} {k : Bracket} {e : Error}
    (hn : Paired k ts) (hcl : Closes k c) (hr : recur ts = .err e) :
    readEnclosed recur start (ts ++ c :: rest) (openB k) (closeB k) = .err e := by
  unfold readEnclosed
  rw [findClose_paired (openB_iff k) (closeB_iff k) hn, findClose, if_neg (fun h => opens_not_closes ((openB_iff k _).mp h) hcl),
    if_pos ((closeB_iff k _).mpr hcl), if_pos rfl]
  simp only [Option.map_some, List.append_nil]
  rw [hr]
  rfl

/-! ## Readers -/

def FactorE (ts : List Token) (e : Error) : Prop :=
  ∀ fuel last, ts.length ≤ fuel → readFactor (readDefinitionList fuel) last ts = .err e
def TermE (ts : List Token) (e : Error) : Prop :=
  ∀ fuel last, ts.length ≤ fuel → readTerm (readDefinitionList fuel) last ts = .err e
def SingleE (ts : List Token) (e : Error) : Prop :=
  ∀ fuel last n, ts.length ≤ fuel → ts.length < n → readSingle (readDefinitionList fuel) last n ts = .err e
def ListE (ts : List Token) (e : Error) : Prop :=
  ∀ fuel last n, ts.length ≤ fuel → ts.length < n → readDefinitions (readDefinitionList fuel) last n ts = .err e

theorem ListE.inner {ts : List Token} {e : Error} (h : ListE ts e) {fuel : Nat} (hf : ts.length < fuel) :
    readDefinitionList fuel ts = .err e := by
  cases fuel with
  | zero => omega
  | succ f => unfold readDefinitionList; exact h f _ _ (by omega) (by omega)

theorem parseU32_none {d : Str} (h : 2 ^ 32 ≤ decimal d) : parseU32 d = none := by
  cases hu : parseU32 d with
  | none => rfl
  | some n =>
    obtain ⟨_, _, h3, h4⟩ := parseU32_some hu
    omega

theorem factorE_count {g rest : List Token} {l : Location} {d : Str} (hg : Blanks g) (hd : 2 ^ 32 ≤ decimal d) :
    FactorE (g ++ .integer l d :: rest) ⟨l, .badRepetition d⟩ := by
  intro fuel last _
  have : readCount (g ++ .integer l d :: rest) = .err ⟨l, .badRepetition d⟩ := by
    unfold readCount
    rw [skipGaps_blanks_skip hg, skipGaps_cons rfl]
    simp only
    rw [parseU32_none hd]
    rfl
  rw [readFactor_eq, this]
  rfl

theorem factorE_noStar {g g' rest : List Token} {l : Location} {d : Str} {t : Token} (hg : Blanks g) (hg' : Blanks g') (hd : IsCount d)
    (ht : ¬ IsBlank t) (hk : kindOf t ≠ .repetition) :
    FactorE (g ++ .integer l d :: (g' ++ t :: rest)) ⟨positionOf t, .repetitionSymbolExpected (kindOf t)⟩ := by
  intro fuel last _
  have : readCount (g ++ .integer l d :: (g' ++ t :: rest)) = .err ⟨positionOf t, .repetitionSymbolExpected (kindOf t)⟩ := by
    unfold readCount
    rw [skipGaps_blanks_skip hg, skipGaps_cons rfl]
    simp only
    rw [parseU32_eq hd.1 hd.2.1 hd.2.2]
    simp only
    rw [skipGaps_blanks_skip hg', skipGaps_cons (not_skippable ht)]
    simp only
    rw [if_neg, name_kindOf, location_eq_positionOf]
    · rfl
    · intro h
      apply hk
      cases t <;> simp [Token.isRepetitionSymbol] at h
      rfl
  rw [readFactor_eq, this]
  rfl

theorem factorE_primary {m g rest : List Token} {o : Token} {k : Bracket} {e : Error} (hm : Multiplier m) (hg : Blanks g) (ho : Opens k o)
    (h : ∀ fuel last, (g ++ o :: rest).length ≤ fuel → readPrimary (readDefinitionList fuel) last (g ++ o :: rest) = .err e) :
    FactorE (m ++ (g ++ o :: rest)) e := by
  intro fuel last hf
  have hsk : skipGaps (g ++ o :: rest) = o :: rest := by
    rw [skipGaps_blanks_skip hg, skipGaps_cons (opens_not_skippable ho)]
  obtain ⟨n, hn⟩ := multiplier_count hm (us := g ++ o :: rest) (by
    intro l d r; rw [hsk]; cases k <;> cases o <;> simp_all [Opens])
  rw [readFactor_eq, hn]
  show (readPrimary (readDefinitionList fuel) last (skipGaps (g ++ o :: rest)) >>= _) = _
  rw [readPrimary_skip, h fuel last (by simp at hf ⊢; omega)]
  rfl

theorem ambiguous_opens {o : Token} {rest : List Token} {e : Error} (h : Ambiguous o rest e) : ∃ k, Opens k o := by
  cases h
  · exact ⟨.option, trivial⟩
  · exact ⟨.repeat, trivial⟩

theorem factorE_notClosed {m g rest : List Token} {o : Token} {k : Bracket} {s : Str} (hm : Multiplier m) (hg : Blanks g) (ho : Opens k o)
    (hs : Spelled o s) (ha : ∀ e, ¬ Ambiguous o rest e)
    (hc : ¬ ∃ inner c more, rest = inner ++ c :: more ∧ Paired k inner ∧ Closes k c) :
    FactorE (m ++ (g ++ o :: rest)) ⟨positionOf o, .bracketNotClosed (kindOf o) s⟩ := by
  refine factorE_primary hm hg ho fun fuel last _ => ?_
  rw [bracket_primary hg ho ha]
  unfold readEnclosed
  rw [findClose_none_iff.mpr hc]
  simp only
  rw [debug_spelled ho hs, name_kindOf, location_eq_positionOf]
  rfl

theorem factorE_inside {m g inner rest : List Token} {o c : Token} {k : Bracket} {e : Error} (hm : Multiplier m) (hg : Blanks g)
    (ho : Opens k o) (ha : ∀ e', ¬ Ambiguous o (inner ++ c :: rest) e') (hp : Paired k inner) (hc : Closes k c) (hl : ListE inner e) :
    FactorE (m ++ (g ++ o :: (inner ++ c :: rest))) e := by
  refine factorE_primary hm hg ho fun fuel last hf => ?_
  rw [bracket_primary hg ho ha, enclosed_err hp hc (hl.inner (by simp at hf; omega))]
  rfl

theorem termE_factor {ts : List Token} {e : Error} (h : FactorE ts e) : TermE ts e := by
  intro fuel last hf
  unfold readTerm
  rw [h fuel last hf]
  rfl

theorem termE_exception {ts g us : List Token} {l : Location} {f : Factor} {e : Error} (hc : FactorC ts f) (hg : Blanks g)
    (h : FactorE us e) : TermE (ts ++ g ++ .exceptSymbol l :: us) e := by
  intro fuel last hl
  simp at hl
  obtain ⟨hfo, hsk⟩ := follows_cons (r := us) (t := .exceptSymbol l) hg rfl
  obtain ⟨f', r', h1, _, h3⟩ := hc fuel last (g ++ .exceptSymbol l :: us) (by omega) hfo
  unfold readTerm
  rw [List.append_assoc, h1]
  show (match skipGaps r' with | t :: rest => _ | [] => _) = _
  rw [h3, hsk]
  simp only [Token.isExceptSymbol, if_true]
  rw [h fuel last (by omega)]
  rfl

theorem singleE_term {ts : List Token} {e : Error} (h : TermE ts e) : SingleE ts e := by
  intro fuel last n hf hn
  cases n with
  | zero => omega
  | succ n =>
    unfold readSingle
    rw [h fuel last hf]
    rfl

theorem singleE_next {ts g us : List Token} {l : Location} {t : Term} {e : Error} (hc : TermC ts t) (hg : Blanks g)
    (h : SingleE us e) : SingleE (ts ++ g ++ .concatenateSymbol l :: us) e := by
  intro fuel last n hl hn
  simp at hl hn
  obtain ⟨hfo, hsk⟩ := follows_cons (r := us) (t := .concatenateSymbol l) hg rfl
  obtain ⟨t', r', h1, _, h3⟩ := hc fuel last (g ++ .concatenateSymbol l :: us) (by omega) hfo (by rw [hsk]; simp)
  cases n with
  | zero => omega
  | succ n =>
    unfold readSingle
    rw [List.append_assoc, h1]
    show (match skipGaps r' with | [] => _ | .concatenateSymbol _ :: rest => _ | .definitionSeparatorSymbol l c :: rest => _ | t :: rest => _) = _
    rw [h3, hsk]
    simp only
    rw [h fuel last n (by omega) (by omega)]
    rfl

theorem singleE_separator {ts g rest : List Token} {t : Token} {tree : Term} (hn : NamedOk ts) (hT : TermG ts tree) (hg : Blanks g)
    (ht : ¬ IsBlank t) (hk : kindOf t ∉ [.concatenate, .definitionSeparator, .terminator, .eof])
    (hno : ∀ t' more tree', kindOf t' = kindOf t → ¬ TermG (ts ++ g ++ t' :: more) tree') :
    SingleE (ts ++ g ++ t :: rest) ⟨positionOf t, .separatorExpected (kindOf t)⟩ := by
  intro fuel last n hl hlt
  obtain ⟨t', r', h1, h3⟩ := term_stops (termStop_of_maximal (more := rest) hT hg ht hno) hn fuel last (by simp at hl; omega)
  cases n with
  | zero => omega
  | succ n =>
    unfold readSingle
    rw [List.append_assoc, h1]
    show (match skipGaps r' with | [] => _ | .concatenateSymbol _ :: rest => _ | .definitionSeparatorSymbol l c :: rest => _ | t :: rest => _) = _
    rw [h3, skipGaps_blanks_skip hg, skipGaps_cons (not_skippable ht)]
    cases t <;> first | rfl | (exfalso; apply hk; simp [kindOf]; done)

theorem listE_single {ts : List Token} {e : Error} (h : SingleE ts e) : ListE ts e := by
  intro fuel last n hf hn
  cases n with
  | zero => omega
  | succ n =>
    unfold readDefinitions
    rw [h fuel last _ hf (by omega)]
    rfl

theorem listE_next {ts g us : List Token} {l : Location} {c : Char} {d : SingleDefinition} {e : Error} (hc : SingleC ts d)
    (hg : Blanks g) (h : ListE us e) : ListE (ts ++ g ++ .definitionSeparatorSymbol l c :: us) e := by
  intro fuel last n hl hn
  simp at hl hn
  obtain ⟨hfo, hsk⟩ := follows_cons (r := us) (t := .definitionSeparatorSymbol l c) hg rfl
  obtain ⟨d', h1, h2⟩ := hc fuel last ((ts ++ (g ++ .definitionSeparatorSymbol l c :: us)).length + 1)
    (g ++ .definitionSeparatorSymbol l c :: us) (by omega) (by omega) hfo (by rw [hsk]; simp) (by rw [hsk]; simp)
  cases n with
  | zero => omega
  | succ n =>
    unfold readDefinitions
    rw [List.append_assoc, h1, hsk]
    have hk : skipGaps (.definitionSeparatorSymbol l c :: us) = .definitionSeparatorSymbol l c :: us := skipGaps_cons rfl
    simp only [bind, Res.bind, hk, Token.isTerminator, h fuel last n (by omega) (by omega)]
    rfl

mutual
theorem factorFault_err {ts : List Token} {e : Error} : FactorFault ts e → NamedOk ts → FactorE ts e
  | .count hg _ hd, _ => factorE_count hg hd
  | .noStar hg hg' hd ht hk, _ => factorE_noStar hg hg' hd ht hk
  | .ambiguous hm hg ha, _ => by
    obtain ⟨k, ho⟩ := ambiguous_opens ha
    exact factorE_primary hm hg ho fun _ _ _ => ambiguous_primary hg ha
  | .notClosed hm hg ho hs ha hc, _ => factorE_notClosed hm hg ho hs ha hc
  | .inside hm hg ho ha hp hc hl, hn => factorE_inside hm hg ho ha hp hc (listFault_err hl hn.right.right.tail.left)
theorem termFault_err {ts : List Token} {e : Error} : TermFault ts e → NamedOk ts → TermE ts e
  | .factor h, hn => termE_factor (factorFault_err h hn)
  | .exception hf hg h, hn => termE_exception (factor_complete hf hn.left.left) hg (factorFault_err h hn.right.tail)
theorem singleFault_err {ts : List Token} {e : Error} : SingleFault ts e → NamedOk ts → SingleE ts e
  | .term h, hn => singleE_term (termFault_err h hn)
  | .next ht hg h, hn => singleE_next (term_complete ht hn.left.left) hg (singleFault_err h hn.right.tail)
  | .separator hT hg ht hk hno, hn => singleE_separator hn.left.left hT hg ht hk hno
theorem listFault_err {ts : List Token} {e : Error} : ListFault ts e → NamedOk ts → ListE ts e
  | .single h, hn => listE_single (singleFault_err h hn)
  | .next hd hg h, hn => listE_next (single_complete hd hn.left.left) hg (listFault_err h hn.right.tail)
end

/-! ## Rules -/

theorem ruleFault_err {ts : List Token} {e : Error} (h : RuleFault ts e) (hn : NamedOk ts) : buildSyntaxRule ts = .err e := by
  cases h with
  | @name g t rest hg ht hk =>
    have hsk : skipGaps (g ++ t :: rest) = t :: rest := by rw [skipGaps_blanks_skip hg, skipGaps_cons (not_skippable ht)]
    have hmi : readMetaIdentifier (g ++ t :: rest) = ([], none, t :: rest) := by
      unfold readMetaIdentifier
      rw [hsk]
      cases t with
      | metaIdentifier l s => exact absurd (by simp [kindOf]) hk
      | gapSeparatorSequence l s => exact absurd trivial ht
      | _ => rfl
    unfold buildSyntaxRule
    rw [hmi]
    simp only
    rw [skipGaps_cons (not_skippable ht)]
    simp only
    rw [if_neg, name_kindOf, location_eq_positionOf]
    · rfl
    · intro h
      apply hk
      cases t <;> simp [Token.isTerminator] at h <;> simp [kindOf]
  | @defining g ts g' t rest loc name hg hN hg' ht hk hno =>
    have hassoc : g ++ ts ++ g' ++ t :: rest = g ++ (ts ++ (g' ++ t :: rest)) := by simp
    rw [hassoc] at hn ⊢
    have hw : NoWord (g' ++ t :: rest) := noWord_or hN hg' ht fun n' => hno loc n'
    obtain ⟨a, r, h1, h2⟩ := readMetaLoop_stopped hw name (some loc)
    have hmi : readMetaIdentifier (g ++ (ts ++ (g' ++ t :: rest))) = (trimSpaces a, some loc, r) := by
      unfold readMetaIdentifier
      rw [← List.append_assoc g, name_skip hg hN, readMetaLoop_name_complete hN hn.right.left, h1]
    unfold buildSyntaxRule
    rw [hmi]
    simp only
    rw [h2, skipGaps_blanks_skip hg', skipGaps_cons (not_skippable ht)]
    simp only
    rw [if_pos, name_kindOf, location_eq_positionOf]
    · rfl
    · cases t with
      | definingSymbol l => exact absurd rfl hk
      | _ => rfl
  | @list g ts g' l us loc name e hg hN hg' hl =>
    have hassoc : g ++ ts ++ g' ++ .definingSymbol l :: us = g ++ (ts ++ (g' ++ .definingSymbol l :: us)) := by simp
    rw [hassoc] at hn ⊢
    have hsk : skipGaps (g' ++ .definingSymbol l :: us) = .definingSymbol l :: us := by
      rw [skipGaps_blanks_skip hg', skipGaps_cons rfl]
    obtain ⟨nx, h1, h2⟩ := readMetaIdentifier_complete (rest := g' ++ .definingSymbol l :: us) hN hn.right.left (by
      rw [hsk]
      rintro t r he ⟨l, s, rfl⟩
      simp at he)
    have hmi : readMetaIdentifier (g ++ (ts ++ (g' ++ .definingSymbol l :: us))) = (name, some loc, nx) := by
      rw [← h1, ← readMetaIdentifier_skip, skipGaps_blanks_skip hg, readMetaIdentifier_skip]
    have h3 := listFault_err hl hn.right.right.right.tail (g ++ (ts ++ (g' ++ .definingSymbol l :: us))).length
      (lastLocation (g ++ (ts ++ (g' ++ .definingSymbol l :: us)))) (us.length + 1) (by simp; omega) (by omega)
    unfold buildSyntaxRule
    rw [hmi]
    simp only
    rw [h2, hsk]
    simp only [Token.isDefiningSymbol]
    have hne : name.isEmpty = false := by
      have := (hN.tight hn.right.left).1
      cases name with
      | nil => exact absurd rfl this
      | cons a as => rfl
    simp only [hne, Bool.not_true, Bool.false_eq_true, if_false]
    rw [h3]
    rfl

theorem malformed_append {ts rest : List Token} {e : Error} (h : Malformed ts e) (hn : NamedOk ts) :
    (Lexer.append [] (ts ++ rest)).1 = .err e := by
  obtain ⟨us, rs, vs, t, rfl, hr, hno, ht, hh⟩ := h
  obtain ⟨rs', h1, _⟩ := append_complete hr hn.left
  have ht := (isTerminator_iff t).mp ht
  rw [List.append_assoc, append_append, h1]
  simp only [thenAppend]
  rw [List.append_assoc, append_seg ((noTerm_iff vs).mpr hno), List.singleton_append, append_cons_term ht,
    List.nil_append, ruleFault_err hh hn.right]

end Ebnf
