import Verif.Spec.Refactor
import Verif.Proofs.Eval

set_option autoImplicit false

/-! # Rewriting a grammar keeps what it matches -/

namespace Ebnf

open Spec

/-- What matters of an outcome. -/
inductive Verdict
  | matched (n : Nat)
  | unmatched
  | stopped
deriving DecidableEq

namespace Verdict

/-- After `n` characters. -/
def after (n : Nat) : Verdict → Verdict
  | matched m => matched (n + m)
  | v => v

/-- What an exception makes of a match of `n` characters. -/
def excepted (n : Nat) : Verdict → Verdict
  | matched m => if m = n then unmatched else matched n
  | unmatched => matched n
  | stopped => stopped

/-- It does not match. -/
def Bad : Verdict → Prop
  | matched _ => False
  | _ => True

end Verdict

/-- The verdict of an outcome. -/
def verdictOf : Outcome → Verdict
  | .ok _ n => .matched n
  | .fail _ _ _ => .unmatched
  | .abort _ => .stopped
  | .panic _ => .stopped

/-- The meaning without events and errors; the number bounds the height of the derivation. -/
inductive Rec (G : Language) : Nat → Task → Location → Str → Verdict → Prop
  | optional {k loc l here rest v} : Rec G k (.rounds (.list l) 0 (some 1) false 0) here rest v → Rec G (k + 1) (.primary (.optional loc l)) here rest v
  | repeated {k loc l here rest v} : Rec G k (.rounds (.list l) 0 (some 4294967295) true 0) here rest v →
      Rec G (k + 1) (.primary (.repeated loc l)) here rest v
  | grouped {k loc l here rest v} : Rec G k (.list l) here rest v → Rec G (k + 1) (.primary (.grouped loc l)) here rest v
  | empty {k loc here rest} : Rec G (k + 1) (.primary (.empty loc)) here rest (.matched 0)
  | terminal {k loc s here rest} : s <+: rest → Rec G (k + 1) (.primary (.terminalString loc s)) here rest (.matched s.length)
  | terminalFail {k loc s here rest} : ¬ s <+: rest → Rec G (k + 1) (.primary (.terminalString loc s)) here rest .unmatched
  | reference {k loc name here rest r v} : r ∈ G.rules → SameName r.metaIdentifier name → Rec G k (.list r.definitionList) here rest v →
      Rec G (k + 1) (.primary (.metaIdentifier loc name)) here rest v
  | undefined {k loc name here rest} : (∀ r ∈ G.rules, ¬ SameName r.metaIdentifier name) →
      Rec G (k + 1) (.primary (.metaIdentifier loc name)) here rest .stopped
  | special {k loc s here rest evs n} : G.special loc s loc here rest = .accept evs n →
      Rec G (k + 1) (.primary (.specialSequence loc s)) here rest (.matched n)
  | specialFail {k loc s here rest} : G.special loc s loc here rest = .unmatched →
      Rec G (k + 1) (.primary (.specialSequence loc s)) here rest .unmatched
  | specialError {k loc s here rest e} : G.special loc s loc here rest = .error e →
      Rec G (k + 1) (.primary (.specialSequence loc s)) here rest .stopped
  | once {k p here rest v} : Rec G k (.primary p) here rest v → Rec G (k + 1) (.factor (.mk 1 p)) here rest v
  | counted {k c p here rest v} : c ≠ 1 → Rec G k (.rounds (.primary p) c (some c) (decide (c = 4294967295)) 0) here rest v →
      Rec G (k + 1) (.factor (.mk c p)) here rest v
  | plain {k f here rest v} : Rec G k (.factor f) here rest v → Rec G (k + 1) (.term (.plain f)) here rest v
  | exceptBad {k f x here rest v} : Rec G k (.factor f) here rest v → v.Bad → Rec G (k + 1) (.term (.except f x)) here rest v
  | except {k f x here rest n v} : Rec G k (.factor f) here rest (.matched n) → Rec G k (.factor x) here (rest.take n) v →
      Rec G (k + 1) (.term (.except f x)) here rest (v.excepted n)
  | done {k here rest} : Rec G (k + 1) (.sequence .nil) here rest (.matched 0)
  | next {k t d here rest n v} : ¬ IsBareGroup t → Rec G k (.term t) here rest (.matched n) →
      Rec G k (.sequence d) (lineColumn here (rest.take n)) (rest.drop n) v → Rec G (k + 1) (.sequence (.cons t d)) here rest (v.after n)
  | last {k t d here rest v} : Rec G k (.term t) here rest v → IsBareGroup t ∨ v.Bad → Rec G (k + 1) (.sequence (.cons t d)) here rest v
  | first {k d l here rest v} : Rec G k (.sequence d) here rest v → v ≠ .unmatched ∨ l = .nil → Rec G (k + 1) (.list (.cons d l)) here rest v
  | other {k d l here rest v} : Rec G k (.sequence d) here rest .unmatched → l ≠ .nil → Rec G k (.list l) here rest v →
      Rec G (k + 1) (.list (.cons d l)) here rest v
  | enough {k body min max guarded i here rest} : max ≤ i → Rec G (k + 1) (.rounds body min (some max) guarded i) here rest (.matched 0)
  | round {k body min max guarded i here rest n v} : (∀ m, max = some m → i < m) → ¬ (guarded = true ∧ n = 0) → Rec G k body here rest (.matched n) →
      Rec G k (.rounds body min max guarded (i + 1)) (lineColumn here (rest.take n)) (rest.drop n) v →
      Rec G (k + 1) (.rounds body min max guarded i) here rest (v.after n)
  | livelock {k body min max i here rest} : (∀ m, max = some m → i < m) → Rec G k body here rest (.matched 0) →
      Rec G (k + 1) (.rounds body min max true i) here rest .stopped
  | lastRound {k body min max guarded i here rest} : (∀ m, max = some m → i < m) → min ≤ i → Rec G k body here rest .unmatched →
      Rec G (k + 1) (.rounds body min max guarded i) here rest (.matched 0)
  | tooFew {k body min max guarded i here rest} : (∀ m, max = some m → i < m) → i < min → Rec G k body here rest .unmatched →
      Rec G (k + 1) (.rounds body min max guarded i) here rest .unmatched
  | roundStop {k body min max guarded i here rest} : (∀ m, max = some m → i < m) → Rec G k body here rest .stopped →
      Rec G (k + 1) (.rounds body min max guarded i) here rest .stopped

theorem Rec.mono {G : Language} {k : Nat} {t : Task} {here : Location} {rest : Str} {v : Verdict} (h : Rec G k t here rest v) :
    ∀ {j : Nat}, k ≤ j → Rec G j t here rest v := by
  induction h with
  | optional _ ih => intro j hj; obtain ⟨j, rfl⟩ : ∃ i, j = i + 1 := ⟨j - 1, by omega⟩; exact .optional (ih (by omega))
  | repeated _ ih => intro j hj; obtain ⟨j, rfl⟩ : ∃ i, j = i + 1 := ⟨j - 1, by omega⟩; exact .repeated (ih (by omega))
  | grouped _ ih => intro j hj; obtain ⟨j, rfl⟩ : ∃ i, j = i + 1 := ⟨j - 1, by omega⟩; exact .grouped (ih (by omega))
  | empty => intro j hj; obtain ⟨j, rfl⟩ : ∃ i, j = i + 1 := ⟨j - 1, by omega⟩; exact .empty
  | terminal h => intro j hj; obtain ⟨j, rfl⟩ : ∃ i, j = i + 1 := ⟨j - 1, by omega⟩; exact .terminal h
  | terminalFail h => intro j hj; obtain ⟨j, rfl⟩ : ∃ i, j = i + 1 := ⟨j - 1, by omega⟩; exact .terminalFail h
  | reference a b _ ih => intro j hj; obtain ⟨j, rfl⟩ : ∃ i, j = i + 1 := ⟨j - 1, by omega⟩; exact .reference a b (ih (by omega))
  | undefined h => intro j hj; obtain ⟨j, rfl⟩ : ∃ i, j = i + 1 := ⟨j - 1, by omega⟩; exact .undefined h
  | special h => intro j hj; obtain ⟨j, rfl⟩ : ∃ i, j = i + 1 := ⟨j - 1, by omega⟩; exact .special h
  | specialFail h => intro j hj; obtain ⟨j, rfl⟩ : ∃ i, j = i + 1 := ⟨j - 1, by omega⟩; exact .specialFail h
  | specialError h => intro j hj; obtain ⟨j, rfl⟩ : ∃ i, j = i + 1 := ⟨j - 1, by omega⟩; exact .specialError h
  | once _ ih => intro j hj; obtain ⟨j, rfl⟩ : ∃ i, j = i + 1 := ⟨j - 1, by omega⟩; exact .once (ih (by omega))
  | counted a _ ih => intro j hj; obtain ⟨j, rfl⟩ : ∃ i, j = i + 1 := ⟨j - 1, by omega⟩; exact .counted a (ih (by omega))
  | plain _ ih => intro j hj; obtain ⟨j, rfl⟩ : ∃ i, j = i + 1 := ⟨j - 1, by omega⟩; exact .plain (ih (by omega))
  | exceptBad _ a ih => intro j hj; obtain ⟨j, rfl⟩ : ∃ i, j = i + 1 := ⟨j - 1, by omega⟩; exact .exceptBad (ih (by omega)) a
  | except _ _ ih1 ih2 => intro j hj; obtain ⟨j, rfl⟩ : ∃ i, j = i + 1 := ⟨j - 1, by omega⟩; exact .except (ih1 (by omega)) (ih2 (by omega))
  | done => intro j hj; obtain ⟨j, rfl⟩ : ∃ i, j = i + 1 := ⟨j - 1, by omega⟩; exact .done
  | next a _ _ ih1 ih2 => intro j hj; obtain ⟨j, rfl⟩ : ∃ i, j = i + 1 := ⟨j - 1, by omega⟩; exact .next a (ih1 (by omega)) (ih2 (by omega))
  | last _ a ih => intro j hj; obtain ⟨j, rfl⟩ : ∃ i, j = i + 1 := ⟨j - 1, by omega⟩; exact .last (ih (by omega)) a
  | first _ a ih => intro j hj; obtain ⟨j, rfl⟩ : ∃ i, j = i + 1 := ⟨j - 1, by omega⟩; exact .first (ih (by omega)) a
  | other _ a _ ih1 ih2 => intro j hj; obtain ⟨j, rfl⟩ : ∃ i, j = i + 1 := ⟨j - 1, by omega⟩; exact .other (ih1 (by omega)) a (ih2 (by omega))
  | enough a => intro j hj; obtain ⟨j, rfl⟩ : ∃ i, j = i + 1 := ⟨j - 1, by omega⟩; exact .enough a
  | round a b _ _ ih1 ih2 => intro j hj; obtain ⟨j, rfl⟩ : ∃ i, j = i + 1 := ⟨j - 1, by omega⟩; exact .round a b (ih1 (by omega)) (ih2 (by omega))
  | livelock a _ ih => intro j hj; obtain ⟨j, rfl⟩ : ∃ i, j = i + 1 := ⟨j - 1, by omega⟩; exact .livelock a (ih (by omega))
  | lastRound a b _ ih => intro j hj; obtain ⟨j, rfl⟩ : ∃ i, j = i + 1 := ⟨j - 1, by omega⟩; exact .lastRound a b (ih (by omega))
  | tooFew a b _ ih => intro j hj; obtain ⟨j, rfl⟩ : ∃ i, j = i + 1 := ⟨j - 1, by omega⟩; exact .tooFew a b (ih (by omega))
  | roundStop a _ ih => intro j hj; obtain ⟨j, rfl⟩ : ∃ i, j = i + 1 := ⟨j - 1, by omega⟩; exact .roundStop a (ih (by omega))

/-- Some derivation. -/
def Judges (G : Language) (t : Task) (here : Location) (rest : Str) (v : Verdict) : Prop := ∃ k, Rec G k t here rest v

/-- In `Rec`, trying the definitions in order is what a list does. -/
def shallow : Task → Task
  | .alternatives l => .list l
  | .rounds b min max g i => .rounds (shallow b) min max g i
  | t => t

theorem verdictOf_after (evs : List Event) (n : Nat) (o : Outcome) : verdictOf (o.after evs n) = (verdictOf o).after n := by cases o <;> rfl
theorem verdictOf_afterRound (evs : List Event) (n : Nat) (o : Outcome) : verdictOf (o.afterRound evs n) = (verdictOf o).after n := by cases o <;> rfl
theorem verdictOf_stop {o : Outcome} (h : o.IsStop) : verdictOf o = .stopped := by cases o <;> first | rfl | exact h.elim
theorem verdictOf_notFail {o : Outcome} (h : ∀ e evs n, o ≠ .fail e evs n) : verdictOf o ≠ .unmatched := by
  cases o <;> simp [verdictOf] at *
theorem verdictOf_notOk {o : Outcome} (h : ¬ o.IsOk) : (verdictOf o).Bad := by
  cases o <;> simp [verdictOf, Verdict.Bad, Outcome.IsOk] at *

variable {G : Language}

theorem Rec.up {k j : Nat} {t : Task} {here : Location} {rest : Str} {v : Verdict} (h : Rec G k t here rest v) : Rec G (max k j) t here rest v :=
  h.mono (Nat.le_max_left _ _)
theorem Rec.up' {k j : Nat} {t : Task} {here : Location} {rest : Str} {v : Verdict} (h : Rec G k t here rest v) : Rec G (max j k) t here rest v :=
  h.mono (Nat.le_max_right _ _)

/-- The meaning is judged. -/
theorem ev_judges (hf : NeverForwards G) {t : Task} {here : Location} {rest : Str} {o : Outcome} (h : Ev asBuilt G t here rest o) :
    Judges G (shallow t) here rest (verdictOf o) := by
  induction h with
  | optional _ ih => obtain ⟨k, ih⟩ := ih; exact ⟨_, .optional ih⟩
  | repeated _ ih => obtain ⟨k, ih⟩ := ih; exact ⟨_, .repeated ih⟩
  | grouped _ ih => obtain ⟨k, ih⟩ := ih; exact ⟨_, .grouped ih⟩
  | empty => exact ⟨1, .empty⟩
  | terminal h => exact ⟨1, .terminal h⟩
  | terminalFail h => exact ⟨1, .terminalFail h⟩
  | reference a b _ ih => obtain ⟨k, ih⟩ := ih; exact ⟨_, .reference a b ih⟩
  | referenceFail a b _ ih => obtain ⟨k, ih⟩ := ih; exact ⟨_, .reference a b ih⟩
  | referenceStop a b _ _ ih => obtain ⟨k, ih⟩ := ih; exact ⟨_, .reference a b ih⟩
  | referenceUndefined h => exact ⟨1, .undefined h⟩
  | special h => exact ⟨1, .special h⟩
  | specialFail h => exact ⟨1, .specialFail h⟩
  | specialError h => exact ⟨1, .specialError h⟩
  | forward h | forwardFail h | forwardIgnored h | forwardStop h | forwardUndefined h => exact absurd h (hf _ _ _ _ _ _)
  | once _ ih => obtain ⟨k, ih⟩ := ih; exact ⟨_, .once ih⟩
  | counted a _ ih =>
    obtain ⟨k, ih⟩ := ih
    exact ⟨k + 1, .counted a (by simpa [asBuilt, shallow, eq_comm] using ih)⟩
  | plain _ ih => obtain ⟨k, ih⟩ := ih; exact ⟨_, .plain ih⟩
  | exceptFail _ ih => obtain ⟨k, ih⟩ := ih; exact ⟨_, .exceptBad ih trivial⟩
  | exceptStop _ hs ih => obtain ⟨k, ih⟩ := ih; exact ⟨_, .exceptBad ih (by rw [verdictOf_stop hs]; trivial)⟩
  | excluded _ _ ih1 ih2 =>
    obtain ⟨k, ih1⟩ := ih1; obtain ⟨j, ih2⟩ := ih2
    have := Rec.except ih1.up ih2.up'
    exact ⟨_, by simpa [shallow, verdictOf, Verdict.excepted] using this⟩
  | notExcluded _ _ hne ih1 ih2 =>
    obtain ⟨k, ih1⟩ := ih1; obtain ⟨j, ih2⟩ := ih2
    have := Rec.except ih1.up ih2.up'
    exact ⟨_, by simpa [shallow, verdictOf, Verdict.excepted, hne] using this⟩
  | notExcludedFail _ _ ih1 ih2 =>
    obtain ⟨k, ih1⟩ := ih1; obtain ⟨j, ih2⟩ := ih2
    exact ⟨_, Rec.except ih1.up ih2.up'⟩
  | excludedStop _ _ hs ih1 ih2 =>
    obtain ⟨k, ih1⟩ := ih1; obtain ⟨j, ih2⟩ := ih2
    rw [verdictOf_stop hs] at ih2 ⊢
    exact ⟨_, Rec.except ih1.up ih2.up'⟩
  | done => exact ⟨1, .done⟩
  | next hb _ _ ih1 ih2 =>
    obtain ⟨k, ih1⟩ := ih1; obtain ⟨j, ih2⟩ := ih2
    rw [verdictOf_after]
    exact ⟨_, .next (fun h => hb ⟨rfl, h⟩) ih1.up ih2.up'⟩
  | dropped _ hb _ ih => obtain ⟨k, ih⟩ := ih; exact ⟨_, .last ih (.inl hb)⟩
  | nextFail _ hn ih => obtain ⟨k, ih⟩ := ih; exact ⟨_, .last ih (.inr (verdictOf_notOk hn))⟩
  | single _ ih => obtain ⟨k, ih⟩ := ih; exact ⟨_, .first ih (.inr rfl)⟩
  | choice _ _ ih => exact ih
  | choiceFail _ ih => exact ih
  | first _ hn ih => obtain ⟨k, ih⟩ := ih; exact ⟨_, .first ih (.inl (verdictOf_notFail hn))⟩
  | last _ ih => obtain ⟨k, ih⟩ := ih; exact ⟨_, .first ih (.inr rfl)⟩
  | other _ _ _ ih1 ih2 =>
    obtain ⟨k, ih1⟩ := ih1; obtain ⟨j, ih2⟩ := ih2
    exact ⟨_, .other ih1.up (by simp) ih2.up'⟩
  | otherFail _ _ ih1 ih2 =>
    obtain ⟨k, ih1⟩ := ih1; obtain ⟨j, ih2⟩ := ih2
    exact ⟨_, .other ih1.up (by simp) ih2.up'⟩
  | enough h => exact ⟨1, .enough h⟩
  | round a b _ _ ih1 ih2 =>
    obtain ⟨k, ih1⟩ := ih1; obtain ⟨j, ih2⟩ := ih2
    rw [verdictOf_afterRound]
    exact ⟨_, .round a b ih1.up ih2.up'⟩
  | livelock a _ ih => obtain ⟨k, ih⟩ := ih; exact ⟨_, .livelock a ih⟩
  | lastRound a b _ ih => obtain ⟨k, ih⟩ := ih; exact ⟨_, .lastRound a b ih⟩
  | tooFew a b _ ih => obtain ⟨k, ih⟩ := ih; exact ⟨_, .tooFew a b ih⟩
  | roundStop a _ hs ih =>
    obtain ⟨k, ih⟩ := ih
    rw [verdictOf_stop hs] at ih ⊢
    exact ⟨_, .roundStop a ih⟩

/-- A list, tried in order. -/
def deep : Task → Task
  | .list l => .alternatives l
  | t => t

/-- What a list comes to. -/
theorem ev_list {l : DefinitionList} {here : Location} {rest : Str} {o : Outcome} (h : Ev asBuilt G (.alternatives l) here rest o) :
    ∃ o', Ev asBuilt G (.list l) here rest o' ∧ verdictOf o' = verdictOf o := by
  cases l with
  | nil => nomatch h
  | cons d l =>
    cases l with
    | nil =>
      cases h with
      | first h _ => exact ⟨_, .single h, rfl⟩
      | last h => exact ⟨_, .single h, rfl⟩
    | cons d' l =>
      cases o with
      | fail e evs n => exact ⟨_, .choiceFail h, rfl⟩
      | ok evs n => exact ⟨_, .choice h (by simp), rfl⟩
      | abort e => exact ⟨_, .choice h (by simp), rfl⟩
      | panic p => exact ⟨_, .choice h (by simp), rfl⟩

theorem ev_deep {t : Task} {here : Location} {rest : Str} {v : Verdict} (h : ∃ o, Ev asBuilt G (deep t) here rest o ∧ verdictOf o = v) :
    ∃ o, Ev asBuilt G t here rest o ∧ verdictOf o = v := by
  obtain ⟨o, h, rfl⟩ := h
  cases t with
  | list l => exact ev_list h
  | _ => exact ⟨o, h, rfl⟩

/-- Where a verdictOf comes from. -/
theorem verdictOf_matched {o : Outcome} {n : Nat} (h : verdictOf o = .matched n) : ∃ evs, o = .ok evs n := by
  cases o <;> simp [verdictOf] at h
  exact ⟨_, by rw [h]⟩
theorem verdictOf_unmatched {o : Outcome} (h : verdictOf o = .unmatched) : ∃ e evs n, o = .fail e evs n := by
  cases o <;> simp [verdictOf] at h
  exact ⟨_, _, _, rfl⟩
theorem verdictOf_stopped {o : Outcome} (h : verdictOf o = .stopped) : o.IsStop := by
  cases o <;> simp [verdictOf] at h <;> trivial

/-- What is judged is the meaning. -/
theorem judges_ev {k : Nat} {t : Task} {here : Location} {rest : Str} {v : Verdict} (h : Rec G k t here rest v) :
    ∃ o, Ev asBuilt G (deep t) here rest o ∧ verdictOf o = v := by
  induction h with
  | optional _ ih => obtain ⟨o, h, rfl⟩ := ev_deep ih; exact ⟨_, .optional h, rfl⟩
  | repeated _ ih => obtain ⟨o, h, rfl⟩ := ev_deep ih; exact ⟨_, .repeated h, rfl⟩
  | grouped _ ih => obtain ⟨o, h, rfl⟩ := ev_deep ih; exact ⟨_, .grouped h, rfl⟩
  | empty => exact ⟨_, .empty, rfl⟩
  | terminal h => exact ⟨_, .terminal h, rfl⟩
  | terminalFail h => exact ⟨_, .terminalFail h, rfl⟩
  | reference a b _ ih =>
    obtain ⟨o, h, rfl⟩ := ev_deep ih
    cases o with
    | ok evs n => exact ⟨_, .reference a b h, rfl⟩
    | fail e evs n => exact ⟨_, .referenceFail a b h, rfl⟩
    | abort e => exact ⟨_, .referenceStop a b h trivial, rfl⟩
    | panic p => exact ⟨_, .referenceStop a b h trivial, rfl⟩
  | undefined h => exact ⟨_, .referenceUndefined h, rfl⟩
  | special h => exact ⟨_, .special h, rfl⟩
  | specialFail h => exact ⟨_, .specialFail h, rfl⟩
  | specialError h => exact ⟨_, .specialError h, rfl⟩
  | once _ ih => obtain ⟨o, h, rfl⟩ := ih; exact ⟨_, .once h, rfl⟩
  | counted a _ ih =>
    obtain ⟨o, h, rfl⟩ := ih
    exact ⟨_, .counted a (by simpa [asBuilt, deep, eq_comm] using h), rfl⟩
  | plain _ ih => obtain ⟨o, h, rfl⟩ := ih; exact ⟨_, .plain h, rfl⟩
  | exceptBad _ a ih =>
    obtain ⟨o, h, rfl⟩ := ih
    cases o with
    | ok evs n => exact a.elim
    | fail e evs n => exact ⟨_, .exceptFail h, rfl⟩
    | abort e => exact ⟨_, .exceptStop h trivial, rfl⟩
    | panic p => exact ⟨_, .exceptStop h trivial, rfl⟩
  | @except k f x here rest n v _ _ ih1 ih2 =>
    obtain ⟨o, h, h'⟩ := ih1
    obtain ⟨evs, rfl⟩ := verdictOf_matched h'
    obtain ⟨o, h2, rfl⟩ := ih2
    cases o with
    | ok evs' m =>
      by_cases hm : m = n
      · subst hm; exact ⟨_, .excluded h h2, by simp [verdictOf, Verdict.excepted]⟩
      · exact ⟨_, .notExcluded h h2 hm, by simp [verdictOf, Verdict.excepted, hm]⟩
    | fail e evs m => exact ⟨_, .notExcludedFail h h2, rfl⟩
    | abort e => exact ⟨_, .excludedStop h h2 trivial, rfl⟩
    | panic p => exact ⟨_, .excludedStop h h2 trivial, rfl⟩
  | done => exact ⟨_, .done, rfl⟩
  | next a _ _ ih1 ih2 =>
    obtain ⟨o, h, h'⟩ := ih1
    obtain ⟨evs, rfl⟩ := verdictOf_matched h'
    obtain ⟨o, h2, rfl⟩ := ih2
    exact ⟨_, .next (fun h => a h.2) h h2, verdictOf_after ..⟩
  | @last k t d here rest v _ a ih =>
    obtain ⟨o, h, rfl⟩ := ih
    by_cases ho : o.IsOk
    · cases o with
      | ok evs n =>
        rcases a with a | a
        · exact ⟨_, .dropped rfl a h, rfl⟩
        · exact a.elim
      | _ => exact ho.elim
    · exact ⟨_, .nextFail h ho, rfl⟩
  | @first k d l here rest v _ a ih =>
    obtain ⟨o, h, rfl⟩ := ih
    cases o with
    | fail e evs n =>
      rcases a with a | rfl
      · exact absurd rfl a
      · exact ⟨_, .last h, rfl⟩
    | ok evs n => exact ⟨_, .first h (by simp), rfl⟩
    | abort e => exact ⟨_, .first h (by simp), rfl⟩
    | panic p => exact ⟨_, .first h (by simp), rfl⟩
  | @other k d l here rest v _ a _ ih1 ih2 =>
    obtain ⟨o, h, h'⟩ := ih1
    obtain ⟨e, evs, n, rfl⟩ := verdictOf_unmatched h'
    obtain ⟨o, h2, rfl⟩ := ih2
    cases l with
    | nil => exact absurd rfl a
    | cons d' l =>
      cases o with
      | fail e evs n => exact ⟨_, .otherFail h h2, rfl⟩
      | ok evs n => exact ⟨_, .other h h2 (by simp), rfl⟩
      | abort e => exact ⟨_, .other h h2 (by simp), rfl⟩
      | panic p => exact ⟨_, .other h h2 (by simp), rfl⟩
  | enough h => exact ⟨_, .enough h, rfl⟩
  | round a b _ _ ih1 ih2 =>
    obtain ⟨o, h, h'⟩ := ev_deep ih1
    obtain ⟨evs, rfl⟩ := verdictOf_matched h'
    obtain ⟨o, h2, rfl⟩ := ih2
    exact ⟨_, .round a b h h2, verdictOf_afterRound ..⟩
  | livelock a _ ih =>
    obtain ⟨o, h, h'⟩ := ev_deep ih
    obtain ⟨evs, rfl⟩ := verdictOf_matched h'
    exact ⟨_, .livelock a h, rfl⟩
  | lastRound a b _ ih =>
    obtain ⟨o, h, h'⟩ := ev_deep ih
    obtain ⟨e, evs, n, rfl⟩ := verdictOf_unmatched h'
    exact ⟨_, .lastRound a b h, rfl⟩
  | tooFew a b _ ih =>
    obtain ⟨o, h, h'⟩ := ev_deep ih
    obtain ⟨e, evs, n, rfl⟩ := verdictOf_unmatched h'
    exact ⟨_, .tooFew a b h, rfl⟩
  | roundStop a _ ih =>
    obtain ⟨o, h, h'⟩ := ev_deep ih
    exact ⟨_, .roundStop a h (verdictOf_stopped h'), h'⟩

/-- One verdictOf only. -/
theorem judges_unique (U : OneMeaning G) {t : Task} {here : Location} {rest : Str} {v w : Verdict} (h1 : Judges G t here rest v)
    (h2 : Judges G t here rest w) : v = w := by
  obtain ⟨k, h1⟩ := h1
  obtain ⟨j, h2⟩ := h2
  obtain ⟨o, e1, rfl⟩ := judges_ev h1
  obtain ⟨o', e2, rfl⟩ := judges_ev h2
  rw [ev_unique U e1 e2]

end Ebnf
