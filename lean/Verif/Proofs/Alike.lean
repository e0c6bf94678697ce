import Verif.Spec.Alike
import Verif.Spec.Parsing

set_option autoImplicit false

/-! # Grammars that are alike have the same outcomes -/

namespace Ebnf

open Spec

variable {K : Correspondence} {G G' : Language}

/-- Tasks that are alike. -/
inductive AlikeTask (K : Correspondence) : Task → Task → Prop
  | primary {p p'} : AlikePrimary K p p' → AlikeTask K (.primary p) (.primary p')
  | factor {p p'} : AlikeFactor K p p' → AlikeTask K (.factor p) (.factor p')
  | term {p p'} : AlikeTerm K p p' → AlikeTask K (.term p) (.term p')
  | sequence {p p'} : AlikeSingle K p p' → AlikeTask K (.sequence p) (.sequence p')
  | list {p p'} : AlikeList K p p' → AlikeTask K (.list p) (.list p')
  | alternatives {p p'} : AlikeList K p p' → AlikeTask K (.alternatives p) (.alternatives p')
  | rounds {b b' min max g i} : AlikeTask K b b' → AlikeTask K (.rounds b min max g i) (.rounds b' min max g i)

/-- Outcomes that are alike. -/
inductive AlikeOutcome (K : Correspondence) : Outcome → Outcome → Prop
  | ok {evs evs' n} : AlikeEvents K evs evs' → AlikeOutcome K (.ok evs n) (.ok evs' n)
  | fail {e e' evs evs' n} : AlikeError K e e' → AlikeEvents K evs evs' → AlikeOutcome K (.fail e evs n) (.fail e' evs' n)
  | abort {e e'} : AlikeError K e e' → AlikeOutcome K (.abort e) (.abort e')
  | panic {p} : AlikeOutcome K (.panic p) (.panic p)

/-- What is shown in messages corresponds. -/
structure ShownAlike (K : Correspondence) (G G' : Language) : Prop where
  terminal : ∀ s, K.shown (debugStr s) (debugStr s)
  list : ∀ {l l'}, AlikeList K l l' → K.shown (nameOfList G l) (nameOfList G' l')
  term : ∀ {f f' x x'}, AlikeTerm K (.except f x) (.except f' x') →
    K.shown (Term.except f x).display (Term.except f' x').display

theorem _root_.Ebnf.Spec.AlikeEvents.append {a a' b b' : List Event} (h : AlikeEvents K a a') (h' : AlikeEvents K b b') :
    AlikeEvents K (a ++ b) (a' ++ b') := by
  induction h with
  | nil => exact h'
  | cons h1 _ ih => exact .cons h1 ih

theorem AlikeOutcome.after {o o' : Outcome} {evs evs' : List Event} {n : Nat} (h : AlikeOutcome K o o') (he : AlikeEvents K evs evs') :
    AlikeOutcome K (o.after evs n) (o'.after evs' n) := by
  cases h with
  | ok h => exact .ok (he.append h)
  | fail h1 h2 => exact .fail h1 (he.append h2)
  | abort h => exact .abort h
  | panic => exact .panic

theorem AlikeOutcome.afterRound {o o' : Outcome} {evs evs' : List Event} {n : Nat} (h : AlikeOutcome K o o')
    (he : AlikeEvents K evs evs') : AlikeOutcome K (o.afterRound evs n) (o'.afterRound evs' n) := by
  cases h with
  | ok h => exact .ok (he.append h)
  | fail h1 h2 => exact .fail h1 h2
  | abort h => exact .abort h
  | panic => exact .panic

theorem AlikeOutcome.stop {o o' : Outcome} (h : AlikeOutcome K o o') (hs : o.IsStop) : o'.IsStop := by
  cases h <;> first | exact hs.elim | trivial

theorem AlikeOutcome.notOk {o o' : Outcome} (h : AlikeOutcome K o o') (hs : ¬ o.IsOk) : ¬ o'.IsOk := by
  cases h <;> exact hs

theorem AlikeOutcome.notFail {o o' : Outcome} (h : AlikeOutcome K o o') (hs : ∀ e evs n, o ≠ .fail e evs n) :
    ∀ e evs n, o' ≠ .fail e evs n := by
  cases h with
  | fail => exact absurd rfl (hs _ _ _)
  | _ => intros; simp

theorem alike_expected {s s' : Str} (h : K.shown s s') (here : Location) (rest : Str) :
    AlikeError K (expectedAt s here rest) (expectedAt s' here rest) := ⟨rfl, .expected h⟩

theorem alike_later {e e' f f' : Error} (h : AlikeError K e e') (h' : AlikeError K f f') :
    AlikeError K (laterError e f) (laterError e' f') := by
  unfold laterError
  rw [h.1, h'.1]
  split
  · exact h
  · exact h'

theorem alike_bare {t t' : Term} (h : AlikeTerm K t t') :
    IsBareGroup t ↔ IsBareGroup t' := by
  cases h with
  | plain h =>
    cases h with
    | @mk k p p' h =>
      by_cases hk : k = 1
      · subst hk; cases h <;> simp [IsBareGroup]
      · cases h <;> simp [IsBareGroup]
        all_goals (split <;> simp_all)
  | except => simp [IsBareGroup]

theorem AlikeOutcome.ok_inv {o' : Outcome} {evs : List Event} {n : Nat} (h : AlikeOutcome K (.ok evs n) o') :
    ∃ evs', o' = .ok evs' n ∧ AlikeEvents K evs evs' := by
  cases h with
  | ok h => exact ⟨_, rfl, h⟩

theorem AlikeOutcome.fail_inv {o' : Outcome} {e : Error} {evs : List Event} {n : Nat} (h : AlikeOutcome K (.fail e evs n) o') :
    ∃ e' evs', o' = .fail e' evs' n ∧ AlikeError K e e' ∧ AlikeEvents K evs evs' := by
  cases h with
  | fail h1 h2 => exact ⟨_, _, rfl, h1, h2⟩

theorem AlikeOutcome.abort_inv {o' : Outcome} {e : Error} (h : AlikeOutcome K (.abort e) o') :
    ∃ e', o' = .abort e' ∧ AlikeError K e e' := by
  cases h with
  | abort h => exact ⟨_, rfl, h⟩

theorem ev_alike (A : AlikeGrammars K G G') (H : ShownAlike K G G') {q : Quirks} {task : Task} {here : Location} {rest : Str} {o : Outcome}
    (h : Ev q G task here rest o) : ∀ {task'}, AlikeTask K task task' →
      ∃ o', Ev q G' task' here rest o' ∧ AlikeOutcome K o o' := by
  have target : ∀ {n n' : Str} {t : Task}, AlikeTarget K G.rules G'.rules n n' → ForwardTarget G n t →
      ∃ t', ForwardTarget G' n' t' ∧ AlikeTask K t t' := by
    intro n n' t hn ht
    cases ht with
    | @rule r h1 h2 =>
      obtain ⟨r', h3, h4⟩ := A.rules r h1
      exact ⟨_, .rule h3 ((hn r h1 r' h3 h4.2.1).1.mp h2), .list h4.2.2⟩
    | @marked r h1 h2 =>
      obtain ⟨r', h3, h4⟩ := A.rules r h1
      exact ⟨_, .marked h3 ((hn r h1 r' h3 h4.2.1).2.mp h2), .primary (.metaIdentifier h4.1 h4.2.1)⟩
  have noTarget : ∀ {n n' : Str}, AlikeTarget K G.rules G'.rules n n' → (∀ t, ¬ ForwardTarget G n t) → ∀ t, ¬ ForwardTarget G' n' t := by
    intro n n' hn hno t ht
    cases ht with
    | @rule r' h1 h2 =>
      obtain ⟨r, h3, h4⟩ := A.rules' r' h1
      exact hno _ (.rule h3 ((hn r h3 r' h1 h4.2.1).1.mpr h2))
    | @marked r' h1 h2 =>
      obtain ⟨r, h3, h4⟩ := A.rules' r' h1
      exact hno _ (.marked h3 ((hn r h3 r' h1 h4.2.1).2.mpr h2))
  induction h with
  | optional _ ih =>
    intro _ ha
    cases ha; rename_i ha
    cases ha; rename_i hl
    obtain ⟨o', h1, h2⟩ := ih (.rounds (.list hl))
    exact ⟨o', .optional h1, h2⟩
  | repeated _ ih =>
    intro _ ha
    cases ha; rename_i ha
    cases ha; rename_i hl
    obtain ⟨o', h1, h2⟩ := ih (.rounds (.list hl))
    exact ⟨o', .repeated h1, h2⟩
  | grouped _ ih =>
    intro _ ha
    cases ha; rename_i ha
    cases ha; rename_i hl
    obtain ⟨o', h1, h2⟩ := ih (.list hl)
    exact ⟨o', .grouped h1, h2⟩
  | empty =>
    intro _ ha
    cases ha; rename_i ha
    cases ha
    exact ⟨_, .empty, .ok .nil⟩
  | terminal h =>
    intro _ ha
    cases ha; rename_i ha
    cases ha; rename_i hk
    exact ⟨_, .terminal h, .ok (.cons (.token hk) .nil)⟩
  | terminalFail h =>
    intro _ ha
    cases ha; rename_i ha
    cases ha
    exact ⟨_, .terminalFail h, .fail (alike_expected (H.terminal _) _ _) .nil⟩
  | reference h1 h2 _ ih =>
    intro _ ha
    cases ha; rename_i ha
    cases ha; rename_i hk hn
    obtain ⟨r', h3, h4⟩ := A.rules _ h1
    obtain ⟨_, h5, ho⟩ := ih (.list h4.2.2)
    obtain ⟨_, rfl, h6⟩ := ho.ok_inv
    exact ⟨_, .reference h3 ((A.names h4.2.1 hn).mp h2) h5, .ok (AlikeEvents.append (.cons (.begin hk h4.2.1) h6) (.cons (.end hk h4.2.1) .nil))⟩
  | referenceFail h1 h2 _ ih =>
    intro _ ha
    cases ha; rename_i ha
    cases ha; rename_i hk hn
    obtain ⟨r', h3, h4⟩ := A.rules _ h1
    obtain ⟨_, h5, ho⟩ := ih (.list h4.2.2)
    obtain ⟨_, _, rfl, h6, h7⟩ := ho.fail_inv
    exact ⟨_, .referenceFail h3 ((A.names h4.2.1 hn).mp h2) h5, .fail h6 .nil⟩
  | referenceStop h1 h2 _ hs ih =>
    intro _ ha
    cases ha; rename_i ha
    cases ha; rename_i hk hn
    obtain ⟨r', h3, h4⟩ := A.rules _ h1
    obtain ⟨o', h5, h6⟩ := ih (.list h4.2.2)
    exact ⟨o', .referenceStop h3 ((A.names h4.2.1 hn).mp h2) h5 (h6.stop hs), h6⟩
  | referenceUndefined h =>
    intro _ ha
    cases ha; rename_i ha
    cases ha; rename_i hk hn
    refine ⟨_, .referenceUndefined fun r' h1 h2 => ?_, .panic⟩
    obtain ⟨r, h3, h4⟩ := A.rules' _ h1
    exact h r h3 ((A.names h4.2.1 hn).mpr h2)
  | @special loc s here rest evs n h =>
    intro _ ha
    cases ha; rename_i ha
    cases ha; rename_i hk hs
    have hs := A.specials hs
    have hr := hs.2 here rest
    rw [h] at hr
    generalize hx : G'.special _ _ _ here rest = x at hr
    cases hr with
    | accept he => exact ⟨_, .special hx, .ok he⟩
  | @specialFail loc s here rest h =>
    intro _ ha
    cases ha; rename_i ha
    cases ha; rename_i hk hs
    have hs := A.specials hs
    have hr := hs.2 here rest
    rw [h] at hr
    generalize hx : G'.special _ _ _ here rest = x at hr
    cases hr with
    | unmatched => exact ⟨_, .specialFail hx, .fail (alike_expected hs.1 _ _) .nil⟩
  | @specialError loc s here rest e h =>
    intro _ ha
    cases ha; rename_i ha
    cases ha; rename_i hk hs
    have hs := A.specials hs
    have hr := hs.2 here rest
    rw [h] at hr
    generalize hx : G'.special _ _ _ here rest = x at hr
    cases hr with
    | error he => exact ⟨_, .specialError hx, .abort he⟩
  | @forward loc s here rest name n task evs m h ht _ ih =>
    intro _ ha
    cases ha; rename_i ha
    cases ha; rename_i hk hs
    have hs := A.specials hs
    have hr := hs.2 here rest
    rw [h] at hr
    generalize hx : G'.special _ _ _ here rest = x at hr
    cases hr with
    | forward hn _ =>
      obtain ⟨t', h1, h2⟩ := target hn ht
      obtain ⟨_, h3, ho⟩ := ih h2
      obtain ⟨_, rfl, h4⟩ := ho.ok_inv
      exact ⟨_, .forward hx h1 h3, .ok h4⟩
  | @forwardFail loc s here rest name n task e evs m h ht _ hq ih =>
    intro _ ha
    cases ha; rename_i ha
    cases ha; rename_i hk hs
    have hs := A.specials hs
    have hr := hs.2 here rest
    rw [h] at hr
    generalize hx : G'.special _ _ _ here rest = x at hr
    cases hr with
    | forward hn _ =>
      obtain ⟨t', h1, h2⟩ := target hn ht
      obtain ⟨_, h3, ho⟩ := ih h2
      obtain ⟨_, _, rfl, h4, h5⟩ := ho.fail_inv
      exact ⟨_, .forwardFail hx h1 h3 hq, .fail h4 .nil⟩
  | @forwardIgnored loc s here rest name n task e evs m h ht _ hq ih =>
    intro _ ha
    cases ha; rename_i ha
    cases ha; rename_i hk hs
    have hs := A.specials hs
    have hr := hs.2 here rest
    rw [h] at hr
    generalize hx : G'.special _ _ _ here rest = x at hr
    cases hr with
    | forward hn _ =>
      obtain ⟨t', h1, h2⟩ := target hn ht
      obtain ⟨_, h3, ho⟩ := ih h2
      obtain ⟨_, _, rfl, h4, h5⟩ := ho.fail_inv
      exact ⟨_, .forwardIgnored hx h1 h3 hq, .ok h5⟩
  | @forwardStop loc s here rest name n task o h ht _ hq ih =>
    intro _ ha
    cases ha; rename_i ha
    cases ha; rename_i hk hs
    have hs := A.specials hs
    have hr := hs.2 here rest
    rw [h] at hr
    generalize hx : G'.special _ _ _ here rest = x at hr
    cases hr with
    | forward hn _ =>
      obtain ⟨t', h1, h2⟩ := target hn ht
      obtain ⟨_, h3, h4⟩ := ih h2
      exact ⟨_, .forwardStop hx h1 h3 (h4.stop hq), h4⟩
  | @forwardUndefined loc s here rest name n h ht =>
    intro _ ha
    cases ha; rename_i ha
    cases ha; rename_i hk hs
    have hs := A.specials hs
    have hr := hs.2 here rest
    rw [h] at hr
    generalize hx : G'.special _ _ _ here rest = x at hr
    cases hr with
    | forward hn hw => exact ⟨_, .forwardUndefined hx (noTarget hn ht), .abort ⟨rfl, .forwardUndefined hw hs.1 hk⟩⟩
  | once _ ih =>
    intro _ ha
    cases ha; rename_i ha
    cases ha; rename_i hp
    obtain ⟨o', h1, h2⟩ := ih (.primary hp)
    exact ⟨o', .once h1, h2⟩
  | counted hk _ ih =>
    intro _ ha
    cases ha; rename_i ha
    cases ha; rename_i hp
    obtain ⟨o', h1, h2⟩ := ih (.rounds (.primary hp))
    exact ⟨o', .counted hk h1, h2⟩
  | plain _ ih =>
    intro _ ha
    cases ha; rename_i ha
    cases ha; rename_i hp
    obtain ⟨o', h1, h2⟩ := ih (.factor hp)
    exact ⟨o', .plain h1, h2⟩
  | exceptFail _ ih =>
    intro _ ha
    cases ha; rename_i ha
    cases ha; rename_i hf hx
    obtain ⟨_, h1, ho⟩ := ih (.factor hf)
    obtain ⟨_, _, rfl, h2, h3⟩ := ho.fail_inv
    exact ⟨_, .exceptFail h1, .fail h2 .nil⟩
  | exceptStop _ hs ih =>
    intro _ ha
    cases ha; rename_i ha
    cases ha; rename_i hf hx
    obtain ⟨_, h1, h2⟩ := ih (.factor hf)
    exact ⟨_, .exceptStop h1 (h2.stop hs), h2⟩
  | excluded _ _ ih1 ih2 =>
    intro _ ha
    cases ha; rename_i ha
    cases ha; rename_i hf hx
    obtain ⟨_, h1, ho⟩ := ih1 (.factor hf)
    obtain ⟨_, rfl, h2⟩ := ho.ok_inv
    obtain ⟨_, h3, ho⟩ := ih2 (.factor hx)
    obtain ⟨_, rfl, h4⟩ := ho.ok_inv
    exact ⟨_, .excluded h1 h3, .fail (alike_expected (H.term (.except hf hx)) _ _) .nil⟩
  | notExcluded _ _ hn ih1 ih2 =>
    intro _ ha
    cases ha; rename_i ha
    cases ha; rename_i hf hx
    obtain ⟨_, h1, ho⟩ := ih1 (.factor hf)
    obtain ⟨_, rfl, h2⟩ := ho.ok_inv
    obtain ⟨_, h3, ho⟩ := ih2 (.factor hx)
    obtain ⟨_, rfl, h4⟩ := ho.ok_inv
    exact ⟨_, .notExcluded h1 h3 hn, .ok h2⟩
  | notExcludedFail _ _ ih1 ih2 =>
    intro _ ha
    cases ha; rename_i ha
    cases ha; rename_i hf hx
    obtain ⟨_, h1, ho⟩ := ih1 (.factor hf)
    obtain ⟨_, rfl, h2⟩ := ho.ok_inv
    obtain ⟨_, h3, ho⟩ := ih2 (.factor hx)
    obtain ⟨_, _, rfl, h4, h5⟩ := ho.fail_inv
    exact ⟨_, .notExcludedFail h1 h3, .ok h2⟩
  | excludedStop _ _ hs ih1 ih2 =>
    intro _ ha
    cases ha; rename_i ha
    cases ha; rename_i hf hx
    obtain ⟨_, h1, ho⟩ := ih1 (.factor hf)
    obtain ⟨_, rfl, h2⟩ := ho.ok_inv
    obtain ⟨_, h3, h4⟩ := ih2 (.factor hx)
    exact ⟨_, .excludedStop h1 h3 (h4.stop hs), h4⟩
  | done =>
    intro _ ha
    cases ha; rename_i ha
    cases ha
    exact ⟨_, .done, .ok .nil⟩
  | next hb _ _ ih1 ih2 =>
    intro _ ha
    cases ha; rename_i ha
    cases ha; rename_i ht hd
    obtain ⟨_, h1, ho⟩ := ih1 (.term ht)
    obtain ⟨_, rfl, h2⟩ := ho.ok_inv
    obtain ⟨_, h3, h4⟩ := ih2 (.sequence hd)
    exact ⟨_, .next (fun h => hb ⟨h.1, (alike_bare ht).mpr h.2⟩) h1 h3, h4.after h2⟩
  | dropped hq hb _ ih =>
    intro _ ha
    cases ha; rename_i ha
    cases ha; rename_i ht hd
    obtain ⟨_, h1, ho⟩ := ih (.term ht)
    obtain ⟨_, rfl, h2⟩ := ho.ok_inv
    exact ⟨_, .dropped hq ((alike_bare ht).mp hb) h1, .ok h2⟩
  | nextFail _ hn ih =>
    intro _ ha
    cases ha; rename_i ha
    cases ha; rename_i ht hd
    obtain ⟨_, h1, h2⟩ := ih (.term ht)
    exact ⟨_, .nextFail h1 (h2.notOk hn), h2⟩
  | single _ ih =>
    intro _ ha
    cases ha; rename_i ha
    cases ha; rename_i hd ha
    cases ha
    obtain ⟨_, h1, h2⟩ := ih (.sequence hd)
    exact ⟨_, .single h1, h2⟩
  | choice _ hn ih =>
    intro _ ha
    cases ha; rename_i hl
    have hl' := hl
    cases hl with
    | cons hd hl =>
      cases hl with
      | cons hd' hl =>
        obtain ⟨_, h1, h2⟩ := ih (.alternatives hl')
        exact ⟨_, .choice h1 (h2.notFail hn), h2⟩
  | @choiceFail d d' l here rest e evs n _ ih =>
    intro _ ha
    cases ha; rename_i hl
    have hl' := hl
    cases hl with
    | cons hd hl =>
      cases hl with
      | cons hd' hl =>
        obtain ⟨_, h1, ho⟩ := ih (.alternatives hl')
        obtain ⟨_, _, rfl, h2, h3⟩ := ho.fail_inv
        refine ⟨_, .choiceFail h1, .fail ?_ .nil⟩
        rw [h2.1]
        split
        · exact alike_expected (H.list hl') _ _
        · exact h2
  | first _ hn ih =>
    intro _ ha
    cases ha; rename_i ha
    cases ha; rename_i hd hl
    obtain ⟨_, h1, h2⟩ := ih (.sequence hd)
    exact ⟨_, .first h1 (h2.notFail hn), h2⟩
  | last _ ih =>
    intro _ ha
    cases ha; rename_i ha
    cases ha; rename_i hd ha
    cases ha
    obtain ⟨_, h1, ho⟩ := ih (.sequence hd)
    obtain ⟨_, _, rfl, h2, h3⟩ := ho.fail_inv
    exact ⟨_, .last h1, .fail h2 .nil⟩
  | other _ _ hn ih1 ih2 =>
    intro _ ha
    cases ha; rename_i ha
    cases ha; rename_i hd ha
    cases ha; rename_i hd' hl
    obtain ⟨_, h1, ho⟩ := ih1 (.sequence hd)
    obtain ⟨_, _, rfl, h2, h3⟩ := ho.fail_inv
    obtain ⟨_, h4, h5⟩ := ih2 (.alternatives (.cons hd' hl))
    exact ⟨_, .other h1 h4 (h5.notFail hn), h5⟩
  | otherFail _ _ ih1 ih2 =>
    intro _ ha
    cases ha; rename_i ha
    cases ha; rename_i hd ha
    cases ha; rename_i hd' hl
    obtain ⟨_, h1, ho⟩ := ih1 (.sequence hd)
    obtain ⟨_, _, rfl, h2, h3⟩ := ho.fail_inv
    obtain ⟨_, h4, ho⟩ := ih2 (.alternatives (.cons hd' hl))
    obtain ⟨_, _, rfl, h5, h6⟩ := ho.fail_inv
    exact ⟨_, .otherFail h1 h4, .fail (alike_later h2 h5) .nil⟩
  | enough h =>
    intro _ ha
    cases ha; rename_i hb
    exact ⟨_, .enough h, .ok .nil⟩
  | round h1 h2 _ _ ih1 ih2 =>
    intro _ ha
    cases ha; rename_i hb
    obtain ⟨_, h3, ho⟩ := ih1 hb
    obtain ⟨_, rfl, h4⟩ := ho.ok_inv
    obtain ⟨_, h5, h6⟩ := ih2 (.rounds hb)
    exact ⟨_, .round h1 h2 h3 h5, h6.afterRound h4⟩
  | livelock h _ ih =>
    intro _ ha
    cases ha; rename_i hb
    obtain ⟨_, h3, ho⟩ := ih hb
    obtain ⟨_, rfl, h4⟩ := ho.ok_inv
    exact ⟨_, .livelock h h3, .abort ⟨rfl, .same⟩⟩
  | @lastRound body min max guarded i here rest e evs n h1 h2 _ ih =>
    intro _ ha
    cases ha; rename_i hb
    obtain ⟨_, h3, ho⟩ := ih hb
    obtain ⟨_, _, rfl, h4, h5⟩ := ho.fail_inv
    refine ⟨_, .lastRound h1 h2 h3, .ok ?_⟩
    split
    · exact h5
    · exact .nil
  | tooFew h1 h2 _ ih =>
    intro _ ha
    cases ha; rename_i hb
    obtain ⟨_, h3, ho⟩ := ih hb
    obtain ⟨_, _, rfl, h4, h5⟩ := ho.fail_inv
    exact ⟨_, .tooFew h1 h2 h3, .fail h4 .nil⟩
  | roundStop h1 _ hs ih =>
    intro _ ha
    cases ha; rename_i hb
    obtain ⟨_, h3, h4⟩ := ih hb
    exact ⟨_, .roundStop h1 h3 (h4.stop hs), h4⟩

theorem alike_isBegin {e e' : Event} (h : AlikeEvent K e e') : IsBegin e ↔ IsBegin e' := by cases h <;> exact Iff.rfl
theorem alike_isEnd {e e' : Event} (h : AlikeEvent K e e') : IsEnd e ↔ IsEnd e' := by cases h <;> exact Iff.rfl

theorem onePass_alike {es out es' : List Event} (h : OnePass es out) (ha : AlikeEvents K es es') :
    ∃ out', OnePass es' out' ∧ AlikeEvents K out out' := by
  induction h generalizing es' with
  | nil => cases ha; exact ⟨_, .nil, .nil⟩
  | pair h1 h2 _ ih =>
    cases ha with
    | cons ha1 ha =>
      cases ha with
      | cons ha2 ha =>
        obtain ⟨out', h3, h4⟩ := ih ha
        exact ⟨out', .pair ((alike_isBegin ha1).mp h1) ((alike_isEnd ha2).mp h2) h3, h4⟩
  | keep h1 _ ih =>
    cases ha with
    | cons ha1 ha =>
      obtain ⟨out', h3, h4⟩ := ih ha
      refine ⟨_, .keep ?_ h3, .cons ha1 h4⟩
      rintro e es'' rfl ⟨h5, h6⟩
      cases ha with
      | cons ha2 ha => exact h1 _ _ rfl ⟨(alike_isBegin ha1).mpr h5, (alike_isEnd ha2).mpr h6⟩

theorem parses_alike (A : AlikeGrammars K G G') (H : ShownAlike K G G') (hw : K.shown "EOF".toList "EOF".toList) {q : Quirks}
    {start start' : SyntaxRule} (hl : K.place start.location start'.location) (hs : K.name start.metaIdentifier start'.metaIdentifier) {here : Location} {text : Str}
    {x : Res (List Event)} (h : Parses q G start here text x) : ∃ x', Parses q G' start' here text x' ∧ AlikeResult K x x' := by
  cases h with
  | accepted h1 h2 =>
    obtain ⟨_, h3, ho⟩ := ev_alike A H h1 (.primary (.metaIdentifier hl hs))
    obtain ⟨_, rfl, h4⟩ := ho.ok_inv
    cases h2 with
    | nil => cases h4; exact ⟨_, .accepted h3 .nil, .ok .nil⟩
    | cons h2 =>
      cases h4 with
      | cons h5 h6 =>
        obtain ⟨out', h7, h8⟩ := onePass_alike h2 h6
        exact ⟨_, .accepted h3 (.cons h7), .ok (.cons h5 h8)⟩
  | leftover h1 h2 =>
    obtain ⟨_, h3, ho⟩ := ev_alike A H h1 (.primary (.metaIdentifier hl hs))
    obtain ⟨_, rfl, h4⟩ := ho.ok_inv
    exact ⟨_, .leftover h3 h2, .err (alike_expected hw _ _)⟩
  | rejected h1 =>
    obtain ⟨_, h3, ho⟩ := ev_alike A H h1 (.primary (.metaIdentifier hl hs))
    obtain ⟨_, _, rfl, h4, _⟩ := ho.fail_inv
    exact ⟨_, .rejected h3, .err h4⟩
  | aborted h1 =>
    obtain ⟨_, h3, ho⟩ := ev_alike A H h1 (.primary (.metaIdentifier hl hs))
    obtain ⟨_, rfl, h4⟩ := ho.abort_inv
    exact ⟨_, .aborted h3, .err h4⟩
  | crashed h1 =>
    obtain ⟨_, h3, ⟨⟩⟩ := ev_alike A H h1 (.primary (.metaIdentifier hl hs))
    exact ⟨_, .crashed h3, .panic⟩

end Ebnf
