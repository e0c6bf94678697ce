import Verif.Proofs.FaultComplete
import Verif.Proofs.Asserts
import Verif.Proofs.ErrorFacts

set_option autoImplicit false

/-! # Every error of the token parser is that of a fault -/

namespace Ebnf

open Spec

theorem Genuine.named {ts : List Token} (h : Genuine ts) : NamedOk ts := spelled_named h
theorem Genuine.sub {ts us : List Token} (h : Genuine ts) (hs : ∀ t ∈ us, t ∈ ts) : Genuine us := fun t ht => h t (hs t ht)

/-! ## Where the readers stop -/

theorem readMetaLoop_head {ts : List Token} {acc : Str} {loc : Option Location} {t : Token} {r : List Token}
    (h : (readMetaLoop ts acc loc).2.2 = t :: r) : kindOf t ≠ .metaIdentifier ∧ ¬ IsGapToken t := by
  induction ts generalizing acc loc with
  | nil => simp [readMetaLoop] at h
  | cons x xs ih =>
    have other : (x :: xs) = t :: r → kindOf x ≠ .metaIdentifier → ¬ IsGapToken x → kindOf t ≠ .metaIdentifier ∧ ¬ IsGapToken t := by
      intro he h1 h2
      injection he with he _
      subst he
      exact ⟨h1, h2⟩
    cases x with
    | metaIdentifier l s => rw [readMetaLoop] at h; exact ih h
    | gapSeparatorSequence l s => rw [readMetaLoop] at h; exact ih h
    | _ => exact other h (by simp [kindOf]) (by simp [IsGapToken])

theorem noWord_stop {g rest : List Token} (hg : Blanks g) (h : ∀ t r, rest = t :: r → kindOf t ≠ .metaIdentifier ∧ ¬ IsGapToken t) :
    NoWord (g ++ rest) := by
  intro gs l s r hgs he
  rcases List.append_eq_append_iff.mp he with ⟨as, h1, h2⟩ | ⟨bs, h1, h2⟩
  · cases as with
    | nil => exact (h _ _ h2).1 rfl
    | cons a as => exact (h _ _ h2).2 (hgs a (by rw [h1]; simp))
  · cases bs with
    | nil => simp only [List.nil_append] at h2; exact (h _ _ h2.symm).1 rfl
    | cons b bs =>
      injection h2 with h2 _
      have := hg b (by rw [h1]; simp)
      rw [← h2] at this
      exact this

section stop
variable {recur : List Token → Res DefinitionList} {last : Location}

theorem readPrimary_stopped (hr : RecurSound recur) {ts rest : List Token} {p : Primary} (hts : TermLast ts) (hn : NamedOk ts)
    (h : readPrimary recur last ts = .ok (p, rest)) :
    ∃ u g, ts = u ++ (g ++ rest) ∧ Blanks g ∧ PrimaryG u p ∧ PrimaryStop p (g ++ rest) := by
  obtain ⟨u, g, h1, h2, h3⟩ := readPrimary_sound hr hts hn h
  refine ⟨u, g, h1, h2, h3, ?_⟩
  have hemp : ∀ l, p = .empty l → NextNot StartsPrimary ts := by
    rintro l rfl t r hs ht
    unfold readPrimary at h
    rw [hs] at h
    cases t with
    | startOptionSymbol l s =>
      simp only at h
      split at h
      · simp [Res.fail] at h
      · obtain ⟨a, _, h⟩ := bind_ok h
        cases h
    | startRepeatSymbol l s =>
      simp only at h
      split at h
      · simp [Res.fail] at h
      · obtain ⟨a, _, h⟩ := bind_ok h
        cases h
    | startGroupSymbol l =>
      simp only at h
      obtain ⟨a, _, h⟩ := bind_ok h
      cases h
    | metaIdentifier l s => simp only at h; injection h with h; injection h with h _; cases h
    | terminalString l s q => simp only at h; injection h with h; injection h with h _; cases h
    | specialSequence l s => simp only at h; injection h with h; injection h with h _; cases h
    | _ => exact absurd ht (by simp [StartsPrimary])
  have hmeta : ∀ l n, p = .metaIdentifier l n → ∀ t r, rest = t :: r → kindOf t ≠ .metaIdentifier ∧ ¬ IsGapToken t := by
    rintro l n rfl t r hrest
    unfold readPrimary at h
    cases hs : skipGaps ts with
    | nil => rw [hs] at h; injection h with h; injection h with h _; cases h
    | cons x xs =>
      rw [hs] at h
      cases x with
      | startOptionSymbol l s =>
        simp only at h
        split at h
        · simp [Res.fail] at h
        · obtain ⟨a, _, h⟩ := bind_ok h
          cases h
      | startRepeatSymbol l s =>
        simp only at h
        split at h
        · simp [Res.fail] at h
        · obtain ⟨a, _, h⟩ := bind_ok h
          cases h
      | startGroupSymbol l =>
        simp only at h
        obtain ⟨a, _, h⟩ := bind_ok h
        cases h
      | metaIdentifier l s =>
        simp only at h
        injection h with h
        injection h with _ h
        unfold readMetaIdentifier at h
        simp only at h
        exact readMetaLoop_head (h.trans hrest)
      | _ => injection h with h; injection h with h _; cases h
  cases p with
  | empty l =>
    have := hemp l rfl
    intro t r hs
    refine this t r ?_
    generalize hp : Primary.empty l = p at h3
    cases h3 with
    | empty l' hb => rw [h1, skipGaps_blanks_skip hb, hs]
    | _ => cases hp
  | metaIdentifier l n => exact noWord_stop h2 (hmeta l n rfl)
  | _ => trivial

theorem readFactor_stopped (hr : RecurSound recur) {ts rest : List Token} {f : Factor} (hts : TermLast ts) (hn : NamedOk ts)
    (h : readFactor recur last ts = .ok (f, rest)) :
    ∃ u g, ts = u ++ (g ++ rest) ∧ Blanks g ∧ FactorG u f ∧ FactorStop u f (g ++ rest) := by
  rw [readFactor_eq] at h
  obtain ⟨⟨n, us⟩, hc, h⟩ := bind_ok h
  obtain ⟨⟨p, nx⟩, hp, h⟩ := bind_ok h
  injection h with h
  injection h with h1 h2
  subst h1 h2
  simp only at hp
  unfold readCount at hc
  obtain ⟨g, hg1, hg2⟩ := skipGaps_blanks ts
  have plain : (1, skipGaps ts) = (n, us) → NextNot (kindOf · = .integer) ts →
      ∃ u g, ts = u ++ (g ++ nx) ∧ Blanks g ∧ FactorG u (.mk n p) ∧ FactorStop u (.mk n p) (g ++ nx) := by
    intro h hi
    injection h with h1 h2
    subst h1 h2
    obtain ⟨u, g', h1, h2, h3, h4⟩ := readPrimary_stopped hr (hts.suffix (skipGaps_suffix _))
      (hn.sub fun t ht => (skipGaps_suffix _).subset ht) hp
    refine ⟨g ++ u, g', by rw [List.append_assoc, ← h1, ← hg1], h2, .one (h3.blanks hg2), h4, fun hb => ?_⟩
    intro t r hs
    refine hi t r ?_
    rw [hg1, skipGaps_blanks_skip hg2, h1, skipGaps_blanks_skip (g := u) fun t ht => hb t (by simp [ht]), hs]
  cases hs : skipGaps ts with
  | nil =>
    rw [hs] at hc
    injection hc with hc
    exact plain (by rw [hs]; exact hc) (by intro t r h; rw [hs] at h; cases h)
  | cons t r =>
    rw [hs] at hc
    cases t with
    | integer l d =>
      simp only at hc
      rw [hs] at hg1
      cases hu : parseU32 d with
      | none => rw [hu] at hc; simp [Res.fail] at hc
      | some m =>
        rw [hu] at hc
        simp only at hc
        obtain ⟨g', hg1', hg2'⟩ := skipGaps_blanks r
        cases hs' : skipGaps r with
        | nil => rw [hs'] at hc; simp at hc
        | cons t' r' =>
          rw [hs'] at hc hg1'
          simp only at hc
          split at hc
          · next ht' =>
            injection hc with hc
            injection hc with h1 h2
            subst h1 h2
            obtain ⟨l', rfl⟩ : ∃ l', t' = .repetitionSymbol l' := by
              cases t' <;> simp [Token.isRepetitionSymbol] at ht'; exact ⟨_, rfl⟩
            obtain ⟨hd1, hd2, rfl, hd3⟩ := parseU32_some hu
            obtain ⟨g'', hg1'', hg2''⟩ := skipGaps_blanks r'
            have hsuf : skipGaps r' <:+ ts := by
              refine (skipGaps_suffix _).trans ?_
              rw [hg1, hg1']
              exact ⟨g ++ .integer l d :: (g' ++ [.repetitionSymbol l']), by simp⟩
            obtain ⟨u, gx, h1, h2, h3, h4⟩ := readPrimary_stopped hr (hts.suffix hsuf) (hn.sub fun t ht => hsuf.subset ht) hp
            refine ⟨g ++ .integer l d :: (g' ++ .repetitionSymbol l' :: (g'' ++ u)), gx, ?_, h2,
              .times hg2 hg2' hd1 hd2 hd3 ?_, h4, fun hb => absurd (hb (.integer l d) (by simp)) (by simp [IsBlank])⟩
            · rw [hg1, hg1', hg1'', h1]; simp
            · exact h3.blanks hg2''
          · simp [Res.fail] at hc
    | _ =>
      injection hc with hc
      exact plain (by rw [hs]; exact hc) (by
        intro t r h; rw [hs] at h; injection h with h _; subst h; simp [kindOf])

theorem blanks_gap_skip {u g : List Token} {nx : List Token} (hg : Blanks g) :
    ∃ g', Blanks g' ∧ u ++ (g ++ nx) = u ++ (g' ++ skipGaps nx) ∧ g ++ nx = g' ++ skipGaps nx := by
  obtain ⟨g', h1, h2⟩ := skipGaps_blanks nx
  have : g ++ nx = (g ++ g') ++ skipGaps nx := by rw [List.append_assoc, ← h1]
  exact ⟨g ++ g', blanks_append hg h2, by rw [this], this⟩

theorem readTerm_stopped (hr : RecurSound recur) {ts rest : List Token} {t : Term} (hts : TermLast ts) (hn : NamedOk ts)
    (h : readTerm recur last ts = .ok (t, rest)) : ∃ u g, ts = u ++ (g ++ rest) ∧ Blanks g ∧ TermStop u t (g ++ rest) := by
  unfold readTerm at h
  obtain ⟨⟨f, nx⟩, hf, h⟩ := bind_ok h
  simp only at h
  obtain ⟨u, g0, h1, hg0, h3, h4⟩ := readFactor_stopped hr hts hn hf
  obtain ⟨g, h2, _, hgg⟩ := blanks_gap_skip (u := u) (nx := nx) hg0
  rw [hgg] at h1 h4
  cases hs : skipGaps nx with
  | nil =>
    rw [hs] at h h1 h4
    injection h with h
    injection h with h5 h6
    subst h5 h6
    refine ⟨u, g, h1, h2, .plain h3 h4 ?_⟩
    intro t r h
    rw [skipGaps_blanks_skip h2] at h
    cases h
  | cons t' r =>
    rw [hs] at h h1 h4
    simp only at h
    split at h
    · next ht =>
      obtain ⟨l, rfl⟩ : ∃ l, t' = .exceptSymbol l := by
        cases t' <;> simp [Token.isExceptSymbol] at ht; exact ⟨_, rfl⟩
      obtain ⟨⟨e, nx'⟩, he, h⟩ := bind_ok h
      injection h with h
      injection h with h5 h6
      subst h5 h6
      have hsuf : r <:+ ts := ⟨u ++ g ++ [.exceptSymbol l], by rw [h1]; simp⟩
      obtain ⟨u', g', h1', h2', h3', h4'⟩ := readFactor_stopped hr (hts.suffix hsuf) (hn.sub fun t ht => hsuf.subset ht) he
      exact ⟨u ++ g ++ .exceptSymbol l :: u', g', by rw [h1, h1']; simp, h2', .except h3 h2 h3' h4'⟩
    · next ht =>
      injection h with h
      injection h with h5 h6
      subst h5 h6
      refine ⟨u, g, h1, h2, .plain h3 h4 ?_⟩
      intro x y h
      rw [skipGaps_blanks_skip h2, ← hs, skipGaps_idem, hs] at h
      injection h with h _
      subst h
      intro hk
      apply ht
      cases t' <;> simp [kindOf] at hk
      rfl

end stop

/-! ## Errors -/

/-- What the recursive call may be assumed to do. -/
def RecurFault (recur : List Token → Res DefinitionList) : Prop :=
  ∀ inner e, NoTerm inner → Genuine inner → recur inner = .err e → ListFault inner e

section fault
variable {recur : List Token → Res DefinitionList} {last : Location}

theorem bracket_fault (hr : RecurFault recur) {m g rest : List Token} {o : Token} {k : Bracket} {e : Error} {s : Str} (hm : Multiplier m)
    (hg : Blanks g) (ho : Opens k o) (hs : Spelled o s) (hts : TermLast rest) (hn : Genuine rest)
    (h : readPrimary recur last (g ++ o :: rest) = .err e) : FactorFault (m ++ (g ++ o :: rest)) e := by
  by_cases ha : ∃ e', Ambiguous o rest e'
  · obtain ⟨e', ha⟩ := ha
    rw [ambiguous_primary hg ha] at h
    injection h with h
    subst h
    exact .ambiguous hm hg ha
  · have ha : ∀ e', ¬ Ambiguous o rest e' := fun e' h => ha ⟨e', h⟩
    rw [bracket_primary hg ho ha] at h
    rcases bind_err_cases h with h' | ⟨a, _, h'⟩
    · clear h
      rename _ => h
      unfold readEnclosed at h
      cases hf : findClose (openB k) (closeB k) 0 rest with
      | none =>
        rw [hf] at h
        simp only [Res.fail, Res.err.injEq] at h
        rw [debug_spelled ho hs, name_kindOf, location_eq_positionOf] at h
        subst h
        exact .notClosed hm hg ho hs ha (findClose_none_iff.mp hf)
      | some x =>
        obtain ⟨inner, rest'⟩ := x
        obtain ⟨c, hc, hct⟩ := findClose_some hf
        have hd := findClose_debt (openB_iff k) (closeB_iff k) hf
        rw [hf] at h
        subst hc
        change (recur inner >>= fun list => pure (list, rest')) = _ at h
        rcases bind_err_cases h with h | ⟨a, _, h⟩
        · have hl := hr inner e hts.before (hn.sub (by simp +contextual)) h
          cases hd with
          | zero hp => exact .inside hm hg ho ha hp ((closeB_iff k c).mp hct) hl
        · cases h
    · cases h'

theorem primary_fault (hr : RecurFault recur) {m ts : List Token} {e : Error} (hm : Multiplier m) (hts : TermLast ts) (hn : Genuine ts)
    (h : readPrimary recur last ts = .err e) : FactorFault (m ++ ts) e := by
  have h0 := h
  unfold readPrimary at h
  obtain ⟨g, hg1, hg2⟩ := skipGaps_blanks ts
  cases hs : skipGaps ts with
  | nil => rw [hs] at h; cases h
  | cons t r =>
    rw [hs] at h hg1
    simp only at h
    have hts' : TermLast r := hts.suffix ⟨g ++ [t], by rw [hg1]; simp⟩
    have hn' : Genuine r := hn.sub (by rw [hg1]; simp +contextual)
    have br : ∀ k, Opens k t → FactorFault (m ++ ts) e := by
      intro k ho
      rcases hn t (by rw [hg1]; simp) with ⟨s, hsp⟩ | ⟨l, rfl⟩
      · rw [hg1] at h0 ⊢
        exact bracket_fault hr hm hg2 ho hsp hts' hn' h0
      · cases k <;> simp [Opens] at ho
    cases t with
    | startOptionSymbol l s => exact br .option trivial
    | startRepeatSymbol l s => exact br .repeat trivial
    | startGroupSymbol l => exact br .group trivial
    | _ => cases h

theorem decimal_big {d : Str} {l : Location} (hs : ∃ s, Spelled (.integer l d) s) (h : parseU32 d = none) :
    (∀ c ∈ d, IsDigit c) ∧ 2 ^ 32 ≤ decimal d := by
  obtain ⟨s, hs⟩ := hs
  cases hs with
  | integer _ c s hc hcs =>
    have hd : ∀ x ∈ c :: s, IsDigit x := by
      intro x hx
      rcases List.mem_cons.mp hx with rfl | hx
      · exact hc
      · exact hcs x hx
    refine ⟨hd, ?_⟩
    rcases Nat.lt_or_ge (decimal (c :: s)) (2 ^ 32) with hlt | hge
    · rw [parseU32_eq hd (by simp) hlt] at h; cases h
    · exact hge

theorem readFactor_fault (hr : RecurFault recur) {ts : List Token} {e : Error} (hts : TermLast ts) (hn : Genuine ts)
    (h : readFactor recur last ts = .err e) : FactorFault ts e := by
  rw [readFactor_eq] at h
  obtain ⟨g, hg1, hg2⟩ := skipGaps_blanks ts
  have noCount : readCount ts = .ok (1, skipGaps ts) → FactorFault ts e := by
    intro hc
    rw [hc] at h
    rcases bind_err_cases h with h | ⟨a, ha, h⟩
    · cases h
    · injection ha with ha
      subst ha
      rcases bind_err_cases h with h | ⟨a, _, h⟩
      · simp only at h
        rw [readPrimary_skip] at h
        exact primary_fault (m := []) hr .none hts hn h
      · cases h
  cases hs : skipGaps ts with
  | nil => exact noCount (by unfold readCount; rw [hs])
  | cons t r =>
    cases t with
    | integer l d =>
      rw [hs] at hg1
      unfold readCount at h
      rw [hs] at h
      simp only at h
      cases hu : parseU32 d with
      | none =>
        rw [hu] at h
        simp only [Res.fail, bind, Res.bind, Res.err.injEq] at h
        subst h
        have hsp : ∃ s, Spelled (.integer l d) s := by
          rcases hn (.integer l d) (by rw [hg1]; simp) with h | ⟨l, h⟩
          · exact h
          · cases h
        obtain ⟨h1, h2⟩ := decimal_big hsp hu
        rw [hg1]
        exact .count hg2 h1 h2
      | some n =>
        rw [hu] at h
        simp only at h
        obtain ⟨h1, h2, h3, h4⟩ := parseU32_some hu
        subst h3
        obtain ⟨g', hg1', hg2'⟩ := skipGaps_blanks r
        cases hs' : skipGaps r with
        | nil =>
          rw [hs'] at h
          rcases bind_err_cases h with h | ⟨a, ha, h⟩
          · cases h
          · cases ha
        | cons t' r' =>
          have hb : ¬ IsBlank t' := by
            intro hb
            have := (skipGaps_split r)
            obtain ⟨_, _, _, h3⟩ := this
            have := h3 t' r' hs'
            rw [(isSkippable_iff t').mpr hb] at this
            cases this
          rw [hs'] at h hg1'
          simp only at h
          by_cases ht' : t'.isRepetitionSymbol = true
          · rw [if_pos ht'] at h
            obtain ⟨l', rfl⟩ : ∃ l', t' = .repetitionSymbol l' := by
              cases t' <;> simp [Token.isRepetitionSymbol] at ht'; exact ⟨_, rfl⟩
            rcases bind_err_cases h with h | ⟨a, ha, h⟩
            · cases h
            · injection ha with ha
              subst ha
              rcases bind_err_cases h with h | ⟨a, _, h⟩
              · simp only at h
                rw [readPrimary_skip] at h
                have hsp : ts = (g ++ .integer l d :: (g' ++ [.repetitionSymbol l'])) ++ r' := by
                  rw [hg1, hg1']; simp
                have hsuf : r' <:+ ts := ⟨_, hsp.symm⟩
                rw [hsp]
                exact primary_fault hr (.times hg2 hg2' ⟨h1, h2, h4⟩) (hts.suffix hsuf) (hn.sub fun t ht => hsuf.subset ht) h
              · cases h
          · rw [if_neg ht', name_kindOf, location_eq_positionOf] at h
            simp only [Res.fail, bind, Res.bind, Res.err.injEq] at h
            subst h
            rw [hg1, hg1']
            refine .noStar hg2 hg2' ⟨h1, h2, h4⟩ hb ?_
            intro hk
            apply ht'
            cases t' <;> simp [kindOf] at hk
            rfl
    | _ => exact noCount (by unfold readCount; rw [hs])

theorem readTerm_fault (hs : RecurSound recur) (hr : RecurFault recur) {ts : List Token} {e : Error} (hts : TermLast ts)
    (hn : Genuine ts) (h : readTerm recur last ts = .err e) : TermFault ts e := by
  unfold readTerm at h
  rcases bind_err_cases h with h | ⟨⟨f, nx⟩, hf, h⟩
  · exact .factor (readFactor_fault hr hts hn h)
  · simp only at h
    obtain ⟨u, g, h1, h2, h3⟩ := (readFactor_sound hs hts hn.named hf).skip
    cases hsk : skipGaps nx with
    | nil => rw [hsk] at h; cases h
    | cons t' r =>
      rw [hsk] at h h1
      simp only at h
      split at h
      · next ht =>
        obtain ⟨l, rfl⟩ : ∃ l, t' = .exceptSymbol l := by
          cases t' <;> simp [Token.isExceptSymbol] at ht; exact ⟨_, rfl⟩
        rcases bind_err_cases h with h | ⟨a, _, h⟩
        · have hsp : ts = u ++ g ++ .exceptSymbol l :: r := by rw [h1]; simp
          have hsuf : r <:+ ts := ⟨u ++ g ++ [.exceptSymbol l], by rw [hsp]; simp⟩
          have := readFactor_fault hr (hts.suffix hsuf) (hn.sub fun t ht => hsuf.subset ht) h
          rw [hsp]
          exact .exception h3 h2 this
        · cases h
      · cases h

theorem readSingle_fault (hs : RecurSound recur) (hr : RecurFault recur) {fuel : Nat} {ts : List Token} {e : Error}
    (hts : TermLast ts) (hn : Genuine ts) (h : readSingle recur last fuel ts = .err e) : SingleFault ts e := by
  induction fuel generalizing ts with
  | zero => simp [readSingle] at h
  | succ fuel ih =>
    unfold readSingle at h
    rcases bind_err_cases h with h | ⟨⟨t, nx⟩, ht, h⟩
    · exact .term (readTerm_fault hs hr hts hn h)
    · simp only at h
      obtain ⟨u, g0, h1, hg0, h3⟩ := readTerm_stopped hs hts hn.named ht
      obtain ⟨g, h2, _, hgg⟩ := blanks_gap_skip (u := u) (nx := nx) hg0
      rw [hgg] at h1 h3
      cases hsk : skipGaps nx with
      | nil => rw [hsk] at h; cases h
      | cons t' r =>
        have hb : ¬ IsBlank t' := by
          intro hb
          obtain ⟨_, _, _, h3⟩ := skipGaps_split nx
          have := h3 t' r hsk
          rw [(isSkippable_iff t').mpr hb] at this
          cases this
        rw [hsk] at h h1 h3
        have hu : NamedOk u := hn.named.sub (by rw [h1]; simp +contextual)
        have key : kindOf t' ≠ .concatenate → kindOf t' ≠ .definitionSeparator →
            (if t'.isTerminator then pure (.cons t .nil, t' :: r)
            else .fail t'.location (.separatorExpected t'.name) : Res (SingleDefinition × List Token)) = .err e → SingleFault ts e := by
          intro k1 k2 h
          split at h
          · cases h
          · next hterm =>
            rw [name_kindOf, location_eq_positionOf] at h
            simp only [Res.fail, Res.err.injEq] at h
            subst h
            rw [h1, ← List.append_assoc]
            refine .separator h3.termG h2 hb ?_ (h3.maximal hu h2 hb)
            intro hm
            simp only [List.mem_cons, List.not_mem_nil, or_false] at hm
            rcases hm with hm | hm | hm | hm
            · exact k1 hm
            · exact k2 hm
            · apply hterm; cases t' <;> simp [kindOf] at hm; rfl
            · apply hterm; cases t' <;> simp [kindOf] at hm; rfl
        cases t' with
        | concatenateSymbol l =>
          simp only at h
          rcases bind_err_cases h with h | ⟨a, _, h⟩
          · have hsp : ts = u ++ g ++ .concatenateSymbol l :: r := by rw [h1]; simp
            have hsuf : r <:+ ts := ⟨u ++ g ++ [.concatenateSymbol l], by rw [hsp]; simp⟩
            have := ih (hts.suffix hsuf) (hn.sub fun t ht => hsuf.subset ht) h
            rw [hsp]
            exact .next h3.termG h2 this
          · cases h
        | definitionSeparatorSymbol l c => cases h
        | _ => exact key (by simp [kindOf]) (by simp [kindOf]) h

theorem readDefinitions_fault (hs : RecurSound recur) (hr : RecurFault recur) {fuel : Nat} {ts : List Token} {e : Error}
    (hts : TermLast ts) (hn : Genuine ts) (h : readDefinitions recur last fuel ts = .err e) : ListFault ts e := by
  induction fuel generalizing ts with
  | zero => simp [readDefinitions] at h
  | succ fuel ih =>
    unfold readDefinitions at h
    rcases bind_err_cases h with h | ⟨⟨d, nx⟩, hd, h⟩
    · exact .single (readSingle_fault hs hr hts hn h)
    · simp only at h
      obtain ⟨⟨u, g, h1, h2, h3⟩, hst⟩ := readSingle_sound hs hts hn.named hd
      cases nx with
      | nil => cases h
      | cons t r =>
        cases t with
        | definitionSeparatorSymbol l' c =>
          rw [skipGaps_cons rfl] at h
          simp only [Token.isTerminator] at h
          rcases bind_err_cases h with h | ⟨a, _, h⟩
          · have hsp : ts = u ++ g ++ .definitionSeparatorSymbol l' c :: r := by rw [h1]; simp
            have hsuf : r <:+ ts := ⟨u ++ g ++ [.definitionSeparatorSymbol l' c], by rw [hsp]; simp⟩
            have := ih (hts.suffix hsuf) (hn.sub fun t ht => hsuf.subset ht) h
            rw [hsp]
            exact .next h3 h2 this
          · cases h
        | terminatorSymbol l' c => rw [skipGaps_cons rfl] at h; cases h
        | eof l' => rw [skipGaps_cons rfl] at h; cases h
        | _ => simp [StopsAt, Token.isTerminator] at hst

end fault

theorem readDefinitionList_fault (fuel : Nat) : RecurFault (readDefinitionList fuel) := by
  induction fuel with
  | zero => intro inner e _ _ h; simp [readDefinitionList] at h
  | succ fuel ih =>
    intro inner e hno hn h
    unfold readDefinitionList at h
    exact readDefinitions_fault (readDefinitionList_sound fuel) ih hno.termLast hn h

theorem name_tokens {ts : List Token} {l : Location} {n : Str} (h : Name ts l n) :
    (∀ t ∈ ts, kindOf t = .metaIdentifier ∨ IsGapToken t) ∧ ∀ t, ts.getLast? = some t → kindOf t = .metaIdentifier := by
  induction h with
  | word l s => simp [kindOf]
  | adjacent l' s _ ih =>
    refine ⟨?_, by simp [kindOf]⟩
    intro t ht
    rcases List.mem_append.mp ht with h | h
    · exact ih.1 t h
    · simp at h; subst h; exact .inl rfl
  | gap gs l' s _ _ hgs ih =>
    refine ⟨?_, by simp [kindOf]⟩
    intro t ht
    rcases List.mem_append.mp ht with h | h
    · rcases List.mem_append.mp h with h | h
      · exact ih.1 t h
      · exact .inr (hgs t h)
    · simp at h; subst h; exact .inl rfl

theorem buildSyntaxRule_fault {ts : List Token} {t : Token} {e : Error} (ht : t.isTerminator = true)
    (hno : NoTerm ts) (hn : Genuine (ts ++ [t])) (h : buildSyntaxRule (ts ++ [t]) = .err e) : RuleFault (ts ++ [t]) e := by
  have htl : TermLast (ts ++ [t]) := termLast_concat hno
  obtain ⟨g, hg1, hg2⟩ := skipGaps_blanks (ts ++ [t])
  have hskip : skipGaps (ts ++ [t]) ≠ [] := skipGaps_ne_nil (t := t) (by simp) (terminator_not_skippable ht)
  obtain ⟨a, as, hsk⟩ := List.exists_cons_of_ne_nil hskip
  have hab : ¬ IsBlank a := by
    intro hb
    obtain ⟨_, _, _, h3⟩ := skipGaps_split (ts ++ [t])
    have := h3 a as hsk
    rw [(isSkippable_iff a).mpr hb] at this
    cases this
  have hmem : t ∈ (readMetaIdentifier (ts ++ [t])).2.2 := by
    unfold readMetaIdentifier
    exact readMetaLoop_last _ _ _ t ht (mem_skipGaps (by simp) ht)
  have hrest : skipGaps (readMetaIdentifier (ts ++ [t])).2.2 ≠ [] := skipGaps_ne_nil hmem (terminator_not_skippable ht)
  have hhead : ∀ x r, (readMetaIdentifier (ts ++ [t])).2.2 = x :: r → kindOf x ≠ .metaIdentifier ∧ ¬ IsGapToken x := by
    intro x r hx
    unfold readMetaIdentifier at hx
    exact readMetaLoop_head hx
  unfold buildSyntaxRule at h
  by_cases hm : ∃ l s, a = .metaIdentifier l s
  · obtain ⟨l, s, rfl⟩ := hm
    have hmi : readMetaIdentifier (ts ++ [t]) = readMetaIdentifier (.metaIdentifier l s :: as) := by
      unfold readMetaIdentifier
      rw [← hsk, skipGaps_idem]
    obtain ⟨u, gs, n, rest, h1, h2, h3, h4⟩ := readMetaIdentifier_sound (l := l) (s := s) (ts := as)
      (hn.named.sub (by rw [hg1, hsk]; intro t ht; exact List.mem_append_right _ ht))
    rw [hmi, h1] at h hrest hhead
    simp only at h hrest hhead
    obtain ⟨g', hg1', hg2'⟩ := skipGaps_blanks rest
    have hgs : Blanks gs := fun t ht => isBlank_of_gap (h4 t ht)
    cases hs' : skipGaps rest with
    | nil => exact absurd hs' hrest
    | cons b bs =>
      have hbb : ¬ IsBlank b := by
        intro hb
        obtain ⟨_, _, _, h3⟩ := skipGaps_split rest
        have := h3 b bs hs'
        rw [(isSkippable_iff b).mpr hb] at this
        cases this
      rw [hs'] at h hg1'
      simp only at h
      have hsplit : ts ++ [t] = g ++ u ++ (gs ++ g') ++ b :: bs := by
        rw [hg1, hsk, h2, hg1']; simp
      by_cases hdef : b.isDefiningSymbol = true
      · obtain ⟨ld, rfl⟩ : ∃ ld, b = .definingSymbol ld := by
          cases b <;> simp [Token.isDefiningSymbol] at hdef; exact ⟨_, rfl⟩
        rw [if_neg (by simp [Token.isDefiningSymbol])] at h
        split at h
        · simp at h
        · rcases bind_err_cases h with h | ⟨a, _, h⟩
          · have hsuf : bs <:+ ts ++ [t] := ⟨g ++ u ++ (gs ++ g') ++ [.definingSymbol ld], by rw [hsplit]; simp⟩
            have k2 := readDefinitions_fault (readDefinitionList_sound _) (readDefinitionList_fault _)
              (htl.suffix hsuf) (hn.sub fun t ht => hsuf.subset ht) h
            rw [hsplit]
            exact .list hg2 h3 (blanks_append hgs hg2') k2
          · cases h
      · rw [if_pos (by simp [hdef]), name_kindOf, location_eq_positionOf] at h
        simp only [Res.fail, Res.err.injEq] at h
        subst h
        rw [hsplit]
        refine .defining hg2 h3 (blanks_append hgs hg2') hbb ?_ ?_
        · intro hk
          apply hdef
          cases b <;> simp [kindOf] at hk
          rfl
        · intro l' n' hN
          obtain ⟨k1, k2⟩ := name_tokens hN
          have hb : kindOf b = .metaIdentifier := k2 b (by simp)
          cases g' with
          | nil => exact (hhead b bs (by simpa using hg1')).1 hb
          | cons x g' =>
            have hx := hhead x (g' ++ b :: bs) (by simpa using hg1')
            rcases k1 x (by simp) with k | k
            · exact hx.1 k
            · exact hx.2 k
  · have hmi : readMetaIdentifier (ts ++ [t]) = ([], none, skipGaps (ts ++ [t])) := by
      unfold readMetaIdentifier
      rw [hsk]
      cases a with
      | metaIdentifier l s => exact absurd ⟨_, _, rfl⟩ hm
      | gapSeparatorSequence l s => exact absurd trivial hab
      | _ => rfl
    rw [hmi] at h
    simp only at h
    rw [skipGaps_idem, hsk] at h
    simp only at h
    rw [hsk] at hg1
    split at h
    · cases h
    · next hterm =>
      rw [name_kindOf, location_eq_positionOf] at h
      simp only [Res.fail, Res.err.injEq] at h
      subst h
      rw [hg1]
      refine .name hg2 hab ?_
      intro hk
      simp only [List.mem_cons, List.not_mem_nil, or_false] at hk
      rcases hk with hk | hk | hk
      · apply hm; cases a <;> simp [kindOf] at hk; exact ⟨_, _, rfl⟩
      · apply hterm; cases a <;> simp [kindOf] at hk; rfl
      · apply hterm; cases a <;> simp [kindOf] at hk; rfl

/-! ## Token sequences -/

theorem append_fault {toks ts : List Token} {e : Error} (h0 : NoTerm toks) (hn : Genuine (toks ++ ts))
    (h : (Lexer.append toks ts).1 = .err e) : ∃ us rest, toks ++ ts = us ++ rest ∧ Malformed us e := by
  induction ts generalizing toks with
  | nil => simp [Lexer.append] at h
  | cons t ts ih =>
    cases ht : t.isTerminator with
    | false =>
      rw [append_cons_other ht] at h
      have := ih (toks := toks ++ [t]) (by
        intro x hx
        rcases List.mem_append.mp hx with hx | hx
        · exact h0 x hx
        · simp at hx; subst hx; exact ht) (by simpa using hn) h
      simpa using this
    | true =>
      rw [append_cons_term ht] at h
      have hn1 : Genuine (toks ++ [t]) := hn.sub (by simp; intro x hx; rcases hx with hx | hx <;> simp [hx])
      cases hb : buildSyntaxRule (toks ++ [t]) with
      | ok r =>
        rw [hb] at h
        simp only at h
        have hp : (Lexer.append [] ts).1 = .err e := by
          revert h
          rcases Lexer.append [] ts with ⟨x, y⟩
          cases x with
          | ok rules => intro h; cases h
          | err e' => intro h; exact h
          | panic q => intro h; cases h
          | diverge => intro h; cases h
        obtain ⟨us, rest, h2, us', rs, vs, t', h3, h4, h5, h6, h7⟩ := ih noTerm_nil (by
          rw [List.nil_append]; exact hn.sub (by simp +contextual)) hp
        rw [List.nil_append] at h2
        refine ⟨toks ++ [t] ++ us, rest, by rw [h2]; simp, ?_⟩
        obtain ⟨k1, k2⟩ := buildSyntaxRule_sound ht h0 hn1.named hb
        cases r with
        | some r =>
          exact ⟨(toks ++ [t]) ++ us', r :: rs, vs, t', by rw [h3]; simp, .rule (k1 r rfl) h4, h5, h6, h7⟩
        | none =>
          refine ⟨toks ++ t :: us', rs, vs, t', by rw [h3]; simp, .blank (k2 rfl) ((isTerminator_iff t).mpr ht) h4, h5, h6, h7⟩
      | err e' =>
        rw [hb] at h
        injection h with h
        subst h
        exact ⟨toks ++ [t], ts, by simp, [], [], toks, t, rfl, .nil, (noTerm_iff toks).mp h0,
          (isTerminator_iff t).mpr ht, buildSyntaxRule_fault ht h0 hn1 hb⟩
      | panic q => rw [hb] at h; cases h
      | diverge => rw [hb] at h; cases h

/-- The token parser answers with an error exactly when a beginning of the tokens is malformed in that way. -/
theorem append_err_iff {ts : List Token} (hn : Genuine ts) (e : Error) :
    (Lexer.append [] ts).1 = .err e ↔ ∃ us rest, ts = us ++ rest ∧ Malformed us e := by
  constructor
  · intro h
    exact append_fault noTerm_nil hn h
  · rintro ⟨us, rest, rfl, h⟩
    exact malformed_append h hn.named.left

end Ebnf
