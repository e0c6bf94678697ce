import Verif.Proofs.Refine

set_option autoImplicit false
set_option linter.unusedSectionVars false

/-! # The pure machine on compiled code reaches every outcome of the meaning -/

namespace Ebnf

open Spec

section
variable {config : Config} {G : Language} {sem : SpecialScanner → Recognizer} {g : Graph}

/-- With enough fuel the code of the task ends with the outcome. -/
def Reaches (config : Config) (G : Language) (sem : SpecialScanner → Recognizer) (g : Graph) :
    Task → Location → Str → Outcome → Prop
  | .primary p, here, rest, o => ∀ i next, CodePrimary config G g.instructions i next p → ∃ f0, ∀ f, f0 ≤ f →
      prun sem g (f + 1) (some i) here rest = contin sem g f (barePrimary p) next here rest o
  | .factor x, here, rest, o => ∀ i next, CodeFactor config G g.instructions i next x → ∃ f0, ∀ f, f0 ≤ f →
      prun sem g (f + 1) (some i) here rest = contin sem g f (bareFactor x) next here rest o
  | .term t, here, rest, o => ∀ i next, CodeTerm config G g.instructions i next t → ∃ f0, ∀ f, f0 ≤ f →
      prun sem g (f + 1) (some i) here rest = contin sem g f (bareTerm t) next here rest o
  | .sequence d, here, rest, o => ∀ start, CodeTerms config G g.instructions start d → ∃ f0, ∀ f, f0 ≤ f →
      prun sem g f start here rest = some o
  | .list l, here, rest, o => ∀ i, CodeList config G g.instructions i l → ∃ f0, ∀ f, f0 ≤ f →
      prun sem g f (some i) here rest = some o
  | .alternatives l, here, rest, o => ∀ subs, l ≠ .nil → CodeSubs config G g.instructions subs l → ∃ f0, ∀ f, f0 ≤ f →
      por (fun a => prun sem g f (some a)) subs here rest = some o
  | .rounds body min max guarded k, here, rest, o => ∀ sub mx, CodeTask config G g.instructions sub body → max = some mx →
      guarded = decide (mx = u32Max) → ∃ f0, ∀ f f', f0 ≤ f → f0 ≤ f' →
        ploop (prun sem g f (some sub)) min mx f' k here rest = some o

theorem reaches_task {task : Task} {here : Location} {rest : Str} {o : Outcome} (h : Reaches config G sem g task here rest o)
    {i : Nat} (hc : CodeTask config G g.instructions i task) :
    ∃ f0, ∀ f, f0 ≤ f → prun sem g f (some i) here rest = some o := by
  cases task with
  | list l => exact h i hc
  | primary p =>
    obtain ⟨f0, h1⟩ := h i none hc
    refine ⟨f0 + 2, fun f hf => ?_⟩
    obtain ⟨k, rfl⟩ : ∃ k, f = k + 2 := ⟨f - 2, by omega⟩
    rw [h1 (k + 1) (by omega), contin_none]
  | _ => exact hc.elim

theorem reaches_factor {x : Factor} {here : Location} {rest : Str} {o : Outcome} (h : Reaches config G sem g (.factor x) here rest o)
    {i : Nat} (hc : CodeFactor config G g.instructions i none x) :
    ∃ f0, ∀ f, f0 ≤ f → prun sem g f (some i) here rest = some o := by
  obtain ⟨f0, h1⟩ := h i none hc
  refine ⟨f0 + 2, fun f hf => ?_⟩
  obtain ⟨k, rfl⟩ : ∃ k, f = k + 2 := ⟨f - 2, by omega⟩
  rw [h1 (k + 1) (by omega), contin_none]

/-- Execution of the instruction gives the outcome. -/
theorem step_reaches {i : Nat} {x : Instruction} (hi : g.instructions[i]? = some x) {here : Location} {rest : Str} {o : Outcome}
    {f0 : Nat} (h : ∀ f, f0 ≤ f → pexec sem g (fun a => prun sem g f (some a)) f i x here rest = some o) :
    ∃ f0, ∀ f, f0 ≤ f → prun sem g (f + 1) (some i) here rest = contin sem g f false x.next here rest o :=
  ⟨f0, fun f hf => by rw [prun_succ hi, h f hf]; rfl⟩

variable (L : Linked config G sem g)
include L

theorem complete {task : Task} {here : Location} {rest : Str} {o : Outcome} (h : Ev asBuilt G task here rest o) :
    Reaches config G sem g task here rest o := by
  induction h with
  | optional _ ih =>
    rintro i next ⟨sub, hc1, hc2⟩
    obtain ⟨f0, h⟩ := ih sub 1 hc1 rfl (by decide)
    exact step_reaches hc2 (f0 := f0) (fun f hf => h f f hf hf)
  | repeated _ ih =>
    rintro i next ⟨sub, hc1, hc2⟩
    obtain ⟨f0, h⟩ := ih sub u32Max hc1 rfl (by decide)
    exact step_reaches hc2 (f0 := f0) (fun f hf => h f f hf hf)
  | grouped _ ih =>
    intro i next hc
    obtain ⟨f0, h⟩ := ih i hc
    exact ⟨f0, fun f hf => by rw [h (f + 1) (by omega)]; exact (contin_bare _).symm⟩
  | empty => exact fun i next hc => step_reaches hc (f0 := 0) (fun f _ => rfl)
  | terminal hp => exact fun i next hc => step_reaches hc (f0 := 0) (fun f _ => by simp only [pexec, if_pos hp])
  | terminalFail hp =>
    exact fun i next hc => step_reaches hc (f0 := 0) (fun f _ => by simp only [pexec, if_neg hp, symbolAt_eq hc])
  | reference hr hs _ ih =>
    intro i next hc
    obtain ⟨a, h3, h4, h5⟩ := alias_defined L hr hs
    obtain ⟨f0, h⟩ := ih a h5
    exact step_reaches hc (f0 := f0) (fun f hf => by simp only [pexec, h3, h4, h f hf])
  | referenceFail hr hs _ ih =>
    intro i next hc
    obtain ⟨a, h3, h4, h5⟩ := alias_defined L hr hs
    obtain ⟨f0, h⟩ := ih a h5
    exact step_reaches hc (f0 := f0) (fun f hf => by simp only [pexec, h3, h4, h f hf])
  | @referenceStop loc name here rest r o hr hs _ ho ih =>
    intro i next hc
    obtain ⟨a, h3, h4, h5⟩ := alias_defined L hr hs
    obtain ⟨f0, h⟩ := ih a h5
    refine step_reaches hc (f0 := f0) (fun f hf => ?_)
    simp only [pexec, h3, h4, h f hf]
    cases o <;> simp_all [Outcome.IsStop]
  | referenceUndefined hu =>
    intro i next hc
    refine step_reaches hc (f0 := 0) (fun f hf => ?_)
    simp only [pexec, alias_undefined L hu]
    cases g.indexOfLabel _ <;> rfl
  | special hs =>
    intro i next hc
    exact step_reaches hc (f0 := 0) (fun f hf => by simp only [pexec, L.sem, hs])
  | specialFail hs =>
    intro i next hc
    exact step_reaches hc (f0 := 0) (fun f hf => by simp only [pexec, L.sem, hs, symbolAt_eq hc, L.symbol])
  | specialError hs =>
    intro i next hc
    exact step_reaches hc (f0 := 0) (fun f hf => by simp only [pexec, L.sem, hs])
  | forward hs ht _ ih =>
    intro i next hc
    obtain ⟨a, h3, h4⟩ := forward_some L ht
    obtain ⟨f0, h⟩ := reaches_task ih h4
    exact step_reaches hc (f0 := f0) (fun f hf => by simp only [pexec, L.sem, hs, h3, h f hf])
  | forwardFail _ _ _ hq => simp [asBuilt] at hq
  | forwardIgnored hs ht _ _ ih =>
    intro i next hc
    obtain ⟨a, h3, h4⟩ := forward_some L ht
    obtain ⟨f0, h⟩ := reaches_task ih h4
    exact step_reaches hc (f0 := f0) (fun f hf => by simp only [pexec, L.sem, hs, h3, h f hf])
  | @forwardStop loc s here rest name n task o hs ht _ ho ih =>
    intro i next hc
    obtain ⟨a, h3, h4⟩ := forward_some L ht
    obtain ⟨f0, h⟩ := reaches_task ih h4
    refine step_reaches hc (f0 := f0) (fun f hf => ?_)
    simp only [pexec, L.sem, hs, h3, h f hf]
    cases o <;> simp_all [Outcome.IsStop]
  | forwardUndefined hs ht =>
    intro i next hc
    exact step_reaches hc (f0 := 0) (fun f hf => by simp only [pexec, L.sem, hs, forward_none L ht, L.symbol])
  | once _ ih =>
    intro i next hc
    simp only [CodeFactor, if_true] at hc
    obtain ⟨f0, h⟩ := ih i next hc
    exact ⟨f0, fun f hf => by rw [h f hf]; simp [bareFactor]⟩
  | @counted k p here rest o hk _ ih =>
    intro i next hc
    simp only [CodeFactor, if_neg hk] at hc
    obtain ⟨sub, hc1, hc2⟩ := hc
    have hd : decide (asBuilt.roundLimit = some k) = decide (k = u32Max) := by
      simp only [asBuilt, u32Max, Option.some.injEq]
      exact decide_eq_decide.mpr ⟨fun h => h.symm, fun h => h.symm⟩
    obtain ⟨f0, h⟩ := ih sub k hc1 rfl hd
    have := step_reaches hc2 (f0 := f0) (fun f hf => h f f hf hf)
    have hb : bareFactor (.mk k p) = false := by simp [bareFactor, hk]
    rw [hb]
    exact this
  | plain _ ih => exact ih
  | exceptFail _ ih =>
    rintro i next ⟨a, b, hc1, hc2, hc3⟩
    obtain ⟨f0, h⟩ := reaches_factor ih hc1
    exact step_reaches hc3 (f0 := f0) (fun f hf => by simp only [pexec, h f hf])
  | @exceptStop x e here rest o _ ho ih =>
    rintro i next ⟨a, b, hc1, hc2, hc3⟩
    obtain ⟨f0, h⟩ := reaches_factor ih hc1
    refine step_reaches hc3 (f0 := f0) (fun f hf => ?_)
    simp only [pexec, h f hf]
    cases o <;> simp_all [Outcome.IsStop]
  | excluded _ _ ih1 ih2 =>
    rintro i next ⟨a, b, hc1, hc2, hc3⟩
    obtain ⟨f0, h⟩ := reaches_factor ih1 hc1
    obtain ⟨f1, h'⟩ := reaches_factor ih2 hc2
    exact step_reaches hc3 (f0 := max f0 f1) (fun f hf => by
      simp only [pexec, h f (by omega), h' f (by omega), if_true, symbolAt_eq hc3])
  | notExcluded _ _ hm ih1 ih2 =>
    rintro i next ⟨a, b, hc1, hc2, hc3⟩
    obtain ⟨f0, h⟩ := reaches_factor ih1 hc1
    obtain ⟨f1, h'⟩ := reaches_factor ih2 hc2
    exact step_reaches hc3 (f0 := max f0 f1) (fun f hf => by
      simp only [pexec, h f (by omega), h' f (by omega), if_neg hm])
  | notExcludedFail _ _ ih1 ih2 =>
    rintro i next ⟨a, b, hc1, hc2, hc3⟩
    obtain ⟨f0, h⟩ := reaches_factor ih1 hc1
    obtain ⟨f1, h'⟩ := reaches_factor ih2 hc2
    exact step_reaches hc3 (f0 := max f0 f1) (fun f hf => by
      simp only [pexec, h f (by omega), h' f (by omega)])
  | @excludedStop x e here rest evs n o _ _ ho ih1 ih2 =>
    rintro i next ⟨a, b, hc1, hc2, hc3⟩
    obtain ⟨f0, h⟩ := reaches_factor ih1 hc1
    obtain ⟨f1, h'⟩ := reaches_factor ih2 hc2
    refine step_reaches hc3 (f0 := max f0 f1) (fun f hf => ?_)
    simp only [pexec, h f (by omega), h' f (by omega)]
    cases o <;> simp_all [Outcome.IsStop]
  | done =>
    intro start hc
    simp only [CodeTerms] at hc
    subst hc
    exact ⟨1, fun f hf => by obtain ⟨k, rfl⟩ : ∃ k, f = k + 1 := ⟨f - 1, by omega⟩; rfl⟩
  | @next t d here rest evs n o hb _ _ ih1 ih2 =>
    rintro start ⟨i, next, rfl, hc1, hc2⟩
    obtain ⟨f0, h⟩ := ih1 i next hc1
    obtain ⟨f1, h'⟩ := ih2 next hc2
    have hb' : bareTerm t = false := by
      cases hc : bareTerm t with
      | false => rfl
      | true => exact absurd ⟨rfl, (bareTerm_iff t).mp hc⟩ hb
    refine ⟨max f0 f1 + 1, fun f hf => ?_⟩
    obtain ⟨k, rfl⟩ : ∃ k, f = k + 1 := ⟨f - 1, by omega⟩
    rw [h k (by omega), hb']
    simp only [contin, Bool.false_eq_true, if_false, h' k (by omega), Option.map_some]
  | dropped _ hb _ ih =>
    rintro start ⟨i, next, rfl, hc1, hc2⟩
    obtain ⟨f0, h⟩ := ih i next hc1
    refine ⟨f0 + 1, fun f hf => ?_⟩
    obtain ⟨k, rfl⟩ : ∃ k, f = k + 1 := ⟨f - 1, by omega⟩
    rw [h k (by omega), (bareTerm_iff _).mpr hb, contin_bare]
  | @nextFail t d here rest o _ ho ih =>
    rintro start ⟨i, next, rfl, hc1, hc2⟩
    obtain ⟨f0, h⟩ := ih i next hc1
    refine ⟨f0 + 1, fun f hf => ?_⟩
    obtain ⟨k, rfl⟩ : ∃ k, f = k + 1 := ⟨f - 1, by omega⟩
    rw [h k (by omega)]
    cases o with
    | ok => exact absurd trivial ho
    | _ => rfl
  | single _ ih => exact fun i hc => ih (some i) hc.2
  | @choice d d' l here rest o _ ho ih =>
    rintro i ⟨a, more, loc, hd, hc1, hc2, hc3⟩
    obtain ⟨f0, h⟩ := ih (a :: more) (by simp) ⟨a, more, rfl, hd, hc1, hc2⟩
    refine ⟨f0 + 2, fun f hf => ?_⟩
    obtain ⟨k, rfl⟩ : ∃ k, f = k + 2 := ⟨f - 2, by omega⟩
    rw [prun_succ hc3]
    simp only [pexec, h (k + 1) (by omega)]
    cases o with
    | fail e evs n => exact absurd rfl (ho e evs n)
    | _ => simp only [Option.bind_some]; exact contin_none _
  | choiceFail _ ih =>
    rintro i ⟨a, more, loc, hd, hc1, hc2, hc3⟩
    obtain ⟨f0, h⟩ := ih (a :: more) (by simp) ⟨a, more, rfl, hd, hc1, hc2⟩
    refine ⟨f0 + 2, fun f hf => ?_⟩
    obtain ⟨k, rfl⟩ : ∃ k, f = k + 2 := ⟨f - 2, by omega⟩
    rw [prun_succ hc3]
    simp only [pexec, h (k + 1) (by omega), symbolAt_eq hc3, Option.bind_some]
    exact contin_none _
  | @first d l here rest o _ ho ih =>
    rintro subs _ ⟨a, more, rfl, hd, hc1, hc2⟩
    obtain ⟨f0, h⟩ := ih (some a) hc1
    refine ⟨f0, fun f hf => ?_⟩
    cases more with
    | nil =>
      simp only [por, h f hf]
      cases o with
      | fail e evs n => exact absurd rfl (ho e evs n)
      | _ => rfl
    | cons b more =>
      simp only [por, h f hf]
      cases o with
      | fail e evs n => exact absurd rfl (ho e evs n)
      | _ => rfl
  | last _ ih =>
    rintro subs _ ⟨a, more, rfl, hd, hc1, hc2⟩
    simp only [CodeSubs] at hc2
    subst hc2
    obtain ⟨f0, h⟩ := ih (some a) hc1
    exact ⟨f0, fun f hf => by simp only [por, h f hf]⟩
  | @other d d' l here rest e evs n o _ _ ho ih1 ih2 =>
    rintro subs _ ⟨a, more, rfl, hd, hc1, hc2⟩
    obtain ⟨f0, h⟩ := ih1 (some a) hc1
    obtain ⟨f1, h'⟩ := ih2 more (by simp) hc2
    obtain ⟨b, more', rfl, _⟩ := hc2
    refine ⟨max f0 f1, fun f hf => ?_⟩
    simp only [por, h f (by omega), h' f (by omega)]
    cases o with
    | fail e evs n => exact absurd rfl (ho e evs n)
    | _ => rfl
  | otherFail _ _ ih1 ih2 =>
    rintro subs _ ⟨a, more, rfl, hd, hc1, hc2⟩
    obtain ⟨f0, h⟩ := ih1 (some a) hc1
    obtain ⟨f1, h'⟩ := ih2 more (by simp) hc2
    obtain ⟨b, more', rfl, _⟩ := hc2
    refine ⟨max f0 f1, fun f hf => ?_⟩
    simp only [por, h f (by omega), h' f (by omega)]
  | @enough body min max guarded i here rest hi =>
    intro sub mx _ hm _
    injection hm with hm; subst hm
    refine ⟨1, fun f f' _ hf' => ?_⟩
    obtain ⟨k, rfl⟩ : ∃ k, f' = k + 1 := ⟨f' - 1, by omega⟩
    rw [ploop, if_neg (by omega)]
  | @round body min max guarded i here rest evs n o hi hz _ _ ih1 ih2 =>
    intro sub mx hc hm hgd
    obtain ⟨f0, h⟩ := reaches_task ih1 hc
    obtain ⟨f1, h'⟩ := ih2 sub mx hc hm hgd
    refine ⟨f0 + f1 + 1, fun f f' hf hf' => ?_⟩
    obtain ⟨k, rfl⟩ : ∃ k, f' = k + 1 := ⟨f' - 1, by omega⟩
    rw [ploop, if_pos (hi mx hm), h f (by omega)]
    simp only
    rw [if_neg (by rw [hgd] at hz; simpa using hz), h' f k (by omega) (by omega)]
    rfl
  | @livelock body min max i here rest evs hi _ ih =>
    intro sub mx hc hm hgd
    obtain ⟨f0, h⟩ := reaches_task ih hc
    refine ⟨f0 + 1, fun f f' hf hf' => ?_⟩
    obtain ⟨k, rfl⟩ : ∃ k, f' = k + 1 := ⟨f' - 1, by omega⟩
    rw [ploop, if_pos (hi mx hm), h f (by omega)]
    simp only
    rw [if_pos (by simpa using hgd.symm)]
  | @lastRound body min max guarded i here rest e evs n hi hmin _ ih =>
    intro sub mx hc hm hgd
    obtain ⟨f0, h⟩ := reaches_task ih hc
    refine ⟨f0 + 1, fun f f' hf hf' => ?_⟩
    obtain ⟨k, rfl⟩ : ∃ k, f' = k + 1 := ⟨f' - 1, by omega⟩
    rw [ploop, if_pos (hi mx hm), h f (by omega)]
    simp only
    rw [if_neg (by omega)]
    rfl
  | @tooFew body min max guarded i here rest e evs n hi hmin _ ih =>
    intro sub mx hc hm hgd
    obtain ⟨f0, h⟩ := reaches_task ih hc
    refine ⟨f0 + 1, fun f f' hf hf' => ?_⟩
    obtain ⟨k, rfl⟩ : ∃ k, f' = k + 1 := ⟨f' - 1, by omega⟩
    rw [ploop, if_pos (hi mx hm), h f (by omega)]
    simp only
    rw [if_pos hmin]
  | @roundStop body min max guarded i here rest o hi _ ho ih =>
    intro sub mx hc hm hgd
    obtain ⟨f0, h⟩ := reaches_task ih hc
    refine ⟨f0 + 1, fun f f' hf hf' => ?_⟩
    obtain ⟨k, rfl⟩ : ∃ k, f' = k + 1 := ⟨f' - 1, by omega⟩
    rw [ploop, if_pos (hi mx hm), h f (by omega)]
    cases o <;> simp_all [Outcome.IsStop]

end

end Ebnf
