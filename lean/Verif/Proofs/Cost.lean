import Verif.Spec.Cost
import Verif.Proofs.StepsMore
import Verif.Proofs.Recursion

set_option autoImplicit false
set_option linter.unusedSectionVars false

/-! # The pure machine on compiled code executes as many instructions as the specification says -/

namespace Ebnf

open Spec

/-- What the instructions after one cost. -/
def cContin (sem : SpecialScanner → Recognizer) (g : Graph) (f : Nat) (bare : Bool) (next : Option Nat)
    (here : Location) (rest : Str) : Outcome → Nat
  | .ok _ n => if bare then 0 else csteps sem g f next (lineColumn here (rest.take n)) (rest.drop n)
  | _ => 0

theorem cContin_bare {sem : SpecialScanner → Recognizer} {g : Graph} {f : Nat} {next : Option Nat} {here : Location}
    {rest : Str} (o : Outcome) : cContin sem g f true next here rest o = 0 := by
  cases o <;> rfl

theorem cContin_none {sem : SpecialScanner → Recognizer} {g : Graph} {f : Nat} {bare : Bool} {here : Location}
    {rest : Str} (o : Outcome) : cContin sem g f bare none here rest o = 0 := by
  cases o with
  | ok evs n => cases bare <;> cases f <;> rfl
  | _ => rfl

theorem csteps_succ {sem : SpecialScanner → Recognizer} {g : Graph} {i : Nat} {x : Instruction}
    (h : g.instructions[i]? = some x) {f : Nat} {here : Location} {rest : Str} {o : Outcome}
    (ho : pexec sem g (fun a => prun sem g f (some a)) f i x here rest = some o) :
    csteps sem g (f + 1) (some i) here rest =
      cExec sem g (fun a => prun sem g f (some a)) (fun a => csteps sem g f (some a)) f x here rest + 1 +
        cContin sem g f false x.next here rest o := by
  have h' : g.instruction i = some x := h
  rw [csteps, h']
  simp only
  rw [ho, Nat.add_comm 1]
  congr 1
  cases o <;> rfl

section Cost
variable {config : Config} {G : Language} {sem : SpecialScanner → Recognizer} {g : Graph} (L : Linked config G sem g)
include L

/-- What a run with fuel `f` executes is the cost. -/
def CostAll (config : Config) (G : Language) (sem : SpecialScanner → Recognizer) (g : Graph) (f : Nat) : Prop :=
  (∀ l i here rest o, CodeList config G g.instructions i l → prun sem g f (some i) here rest = some o →
    Costs G (.list l) here rest (csteps sem g f (some i) here rest)) ∧
  (∀ d start here rest o, CodeTerms config G g.instructions start d → prun sem g f start here rest = some o →
    Costs G (.sequence d) here rest (csteps sem g f start here rest)) ∧
  (∀ p i here rest o, CodePrimary config G g.instructions i none p → prun sem g f (some i) here rest = some o →
    Costs G (.primary p) here rest (csteps sem g f (some i) here rest)) ∧
  (∀ p i here rest o, CodeFactor config G g.instructions i none p → prun sem g f (some i) here rest = some o →
    Costs G (.factor p) here rest (csteps sem g f (some i) here rest))

omit L in
theorem loop_cost {body : Task} {p : PRun} {c : PCount} (h : ∀ here rest o, p here rest = some o → Ev asBuilt G body here rest o)
    (hc : ∀ here rest o, p here rest = some o → Costs G body here rest (c here rest))
    (min max fuel : Nat) : ∀ i here rest o, ploop p min max fuel i here rest = some o →
      Costs G (.rounds body min (some max) (decide (max = 4294967295)) i) here rest (cLoop p c max fuel i here rest) := by
  have hu : u32Max = 4294967295 := rfl
  induction fuel with
  | zero => intro i here rest o h; simp [ploop] at h
  | succ fuel ih =>
    intro i here rest o hl
    unfold ploop at hl
    unfold cLoop
    by_cases hi : i < max
    · rw [if_pos hi] at hl ⊢
      cases hp : p here rest with
      | none => rw [hp] at hl; simp at hl
      | some o1 =>
        have hb := h here rest o1 hp
        have hk := hc here rest o1 hp
        rw [hp] at hl
        cases o1 with
        | abort e => exact .lastRound hi hb (.inl id) hk
        | panic e => exact .lastRound hi hb (.inl id) hk
        | fail e evs n => exact .lastRound hi hb (.inl id) hk
        | ok evs n =>
          simp only at hl ⊢
          by_cases hz : max = u32Max ∧ n = 0
          · rw [if_pos hz]
            obtain ⟨hz1, hz2⟩ := hz
            subst hz2
            exact .lastRound hi hb (.inr ⟨by simpa [u32Max] using hz1, evs, rfl⟩) hk
          · rw [if_neg hz] at hl ⊢
            cases hn : ploop p min max fuel (i + 1) (lineColumn here (rest.take n)) (rest.drop n) with
            | none => rw [hn] at hl; simp at hl
            | some o2 => exact .round hi (by simpa [u32Max] using hz) hb hk (ih _ _ _ _ hn)
    · rw [if_neg hi]
      exact .enough (by omega)

omit L in
theorem or_cost {run : Nat → PRun} {c : Nat → PCount}
    (h : ∀ d a here rest o, CodeTerms config G g.instructions (some a) d → run a here rest = some o →
      Ev asBuilt G (.sequence d) here rest o)
    (hk : ∀ d a here rest o, CodeTerms config G g.instructions (some a) d → run a here rest = some o →
      Costs G (.sequence d) here rest (c a here rest)) (l : DefinitionList) :
    ∀ subs here rest o, l ≠ .nil → CodeSubs config G g.instructions subs l → por run subs here rest = some o →
      Costs G (.alternatives l) here rest (cOr run c subs here rest) := by
  match l with
  | .nil => intro subs here rest o hne; exact absurd rfl hne
  | .cons d .nil =>
    intro subs here rest o _ hc ho
    simp only [CodeSubs] at hc
    obtain ⟨a, more, rfl, hd, hc1, rfl⟩ := hc
    simp only [por] at ho
    cases hr : run a here rest with
    | none => rw [hr] at ho; simp at ho
    | some o1 =>
      have : cOr run c [a] here rest = c a here rest := by
        simp only [cOr, hr]
        cases o1 <;> rfl
      rw [this]
      exact .first (h d a here rest o1 hc1 hr) (.inl rfl) (hk d a here rest o1 hc1 hr)
  | .cons d (.cons d' l) =>
    intro subs here rest o _ hc ho
    have ih := or_cost h hk (.cons d' l)
    rw [CodeSubs] at hc
    obtain ⟨a, more, rfl, hd, hc1, hc2⟩ := hc
    have hc3 := hc2
    rw [CodeSubs] at hc2
    obtain ⟨b, more', rfl, hc2⟩ := hc2
    simp only [por] at ho
    rw [cOr]
    cases hr : run a here rest with
    | none => rw [hr] at ho; simp at ho
    | some o1 =>
      have hs := h d a here rest o1 hc1 hr
      have hs' := hk d a here rest o1 hc1 hr
      rw [hr] at ho
      cases o1 with
      | ok evs n => exact .first hs (.inr (by simp)) hs'
      | abort e => exact .first hs (.inr (by simp)) hs'
      | panic e => exact .first hs (.inr (by simp)) hs'
      | fail e evs n =>
        simp only at ho
        cases hp : por run (b :: more') here rest with
        | none => rw [hp] at ho; simp at ho
        | some o2 => exact .other hs hs' (ih (b :: more') here rest o2 (by simp) hc3 hp)

theorem task_cost {f : Nat} (ih : CostAll config G sem g f) {i : Nat} {task : Task} {here : Location} {rest : Str} {o : Outcome}
    (hc : CodeTask config G g.instructions i task) (h : prun sem g f (some i) here rest = some o) :
    Costs G task here rest (csteps sem g f (some i) here rest) := by
  cases task with
  | list l => exact ih.1 l i here rest o hc h
  | primary p => exact ih.2.2.1 p i here rest o hc h
  | _ => exact hc.elim

mutual
theorem cost_primary (f : Nat) (ih : ∀ f', f' ≤ f → CostAll config G sem g f') : ∀ (p : Primary) (i : Nat) (next : Option Nat) (here : Location) (rest : Str) (o : Outcome),
    CodePrimary config G g.instructions i next p → prun sem g (f + 1) (some i) here rest = some o →
    ∃ o1 k, Ev asBuilt G (.primary p) here rest o1 ∧ contin sem g f (barePrimary p) next here rest o1 = some o ∧
      Costs G (.primary p) here rest k ∧ csteps sem g (f + 1) (some i) here rest = k + cContin sem g f (barePrimary p) next here rest o1
  | .optional loc l, i, next, here, rest, o => by
    rintro ⟨sub, hc1, hc2⟩ h
    rw [prun_succ hc2] at h
    obtain ⟨o1, h1, h2⟩ := Option.bind_eq_some_iff.mp h
    refine ⟨o1, _, .optional (loop_sound (fun here rest o => (sound_all L f).1 l sub here rest o hc1) 0 1 f 0 _ _ _ h1), h2, ?_,
      csteps_succ hc2 h1⟩
    exact .optional (loop_cost (fun here rest o => (sound_all L f).1 l sub here rest o hc1)
      (fun here rest o => (ih f (Nat.le_refl f)).1 l sub here rest o hc1) 0 1 f 0 _ _ _ h1)
  | .repeated loc l, i, next, here, rest, o => by
    rintro ⟨sub, hc1, hc2⟩ h
    rw [prun_succ hc2] at h
    obtain ⟨o1, h1, h2⟩ := Option.bind_eq_some_iff.mp h
    refine ⟨o1, _, .repeated (loop_sound (fun here rest o => (sound_all L f).1 l sub here rest o hc1) 0 u32Max f 0 _ _ _ h1), h2, ?_,
      csteps_succ hc2 h1⟩
    exact .repeated (loop_cost (fun here rest o => (sound_all L f).1 l sub here rest o hc1)
      (fun here rest o => (ih f (Nat.le_refl f)).1 l sub here rest o hc1) 0 u32Max f 0 _ _ _ h1)
  | .grouped loc l, i, next, here, rest, o => by
    intro hc h
    refine ⟨o, _, .grouped ((sound_all L (f + 1)).1 l i here rest o hc h), contin_bare o, .grouped (cost_list f ih l i here rest o hc h), ?_⟩
    simp only [barePrimary, cContin_bare, Nat.add_zero]
  | .empty loc, i, next, here, rest, o => by
    intro hc h
    rw [prun_succ hc] at h
    obtain ⟨o1, h1, h2⟩ := Option.bind_eq_some_iff.mp h
    have h3 := csteps_succ hc h1
    simp only [pexec, Option.some.injEq] at h1
    subst h1
    exact ⟨_, 1, .empty, h2, .empty, by rw [h3]; simp [cExec, barePrimary]⟩
  | .terminalString loc s, i, next, here, rest, o => by
    intro hc h
    have hsym := symbolAt_eq hc
    rw [prun_succ hc] at h
    obtain ⟨o1, h1, h2⟩ := Option.bind_eq_some_iff.mp h
    have h3 := csteps_succ hc h1
    simp only [pexec, hsym] at h1
    by_cases hp : s <+: rest
    · rw [if_pos hp] at h1; injection h1 with h1; subst h1
      exact ⟨_, 1, .terminal hp, h2, .terminal, by rw [h3]; simp [cExec, barePrimary]⟩
    · rw [if_neg hp] at h1; injection h1 with h1; subst h1
      exact ⟨_, 1, .terminalFail hp, h2, .terminal, by rw [h3]; simp [cExec, barePrimary]⟩
  | .metaIdentifier loc n, i, next, here, rest, o => by
    intro hc h
    have h0 := h
    rw [prun_succ hc] at h
    obtain ⟨o1, h1, h2⟩ := Option.bind_eq_some_iff.mp h
    have h3 := csteps_succ hc h1
    simp only [pexec] at h1
    by_cases hd : ∃ r ∈ G.rules, SameName r.metaIdentifier n
    · obtain ⟨r, hr, hs⟩ := hd
      obtain ⟨a, h4, h5, h6⟩ := alias_defined L hr hs
      rw [h4] at h1
      simp only [h5] at h1
      simp only [cExec, h4, h5] at h3
      cases hp : prun sem g f (some a) here rest with
      | none => rw [hp] at h1; simp at h1
      | some o2 =>
        have he := (sound_all L f).1 _ _ _ _ _ h6 hp
        have hk := (ih f (Nat.le_refl f)).1 _ _ _ _ _ h6 hp
        refine ⟨o1, _, ?_, h2, .reference hr hs hk, h3⟩
        rw [hp] at h1
        cases o2 <;> simp only [Option.some.injEq] at h1 <;> subst h1
        · exact .reference hr hs he
        · exact .referenceFail hr hs he
        · exact .referenceStop hr hs he trivial
        · exact .referenceStop hr hs he trivial
    · have hd' : ∀ r ∈ G.rules, ¬ SameName r.metaIdentifier n := fun r hr hs => hd ⟨r, hr, hs⟩
      have h4 := alias_undefined L hd'
      have : o1 = .panic .missing := by
        cases hx : g.indexOfLabel n with
        | none => rw [hx] at h1; simp only [Option.some.injEq] at h1; exact h1.symm
        | some a => rw [hx] at h1; simp only [h4, Option.some.injEq] at h1; exact h1.symm
      subst this
      refine ⟨_, 1, .referenceUndefined hd', h2, .undefined hd', ?_⟩
      rw [h3]
      simp only [cExec, h4]
      cases g.indexOfLabel n <;> simp [barePrimary]
  | .specialSequence loc s, i, next, here, rest, o => by
    intro hc h
    have hsym := symbolAt_eq hc
    rw [prun_succ hc] at h
    obtain ⟨o1, h1, h2⟩ := Option.bind_eq_some_iff.mp h
    have h3 := csteps_succ hc h1
    simp only [pexec, hsym, L.sem, L.symbol] at h1
    simp only [cExec, L.sem] at h3
    cases hs : G.special loc s loc here rest with
    | accept evs n =>
      rw [hs] at h1 h3; simp only [Option.some.injEq] at h1; subst h1
      exact ⟨_, 1, .special hs, h2, .special (by simp [hs]), by simpa [barePrimary] using h3⟩
    | unmatched =>
      rw [hs] at h1 h3; simp only [Option.some.injEq] at h1; subst h1
      exact ⟨_, 1, .specialFail hs, h2, .special (by simp [hs]), by simpa [barePrimary] using h3⟩
    | error e =>
      rw [hs] at h1 h3; simp only [Option.some.injEq] at h1; subst h1
      exact ⟨_, 1, .specialError hs, h2, .special (by simp [hs]), by simpa [barePrimary] using h3⟩
    | forward name n =>
      rw [hs] at h1 h3
      simp only at h1 h3
      cases hx : g.indexOfLabel name with
      | none =>
        rw [hx] at h1 h3; simp only [Option.some.injEq] at h1; subst h1
        have hu : ∀ task, ¬ ForwardTarget G name task := by
          intro task ht
          obtain ⟨a, h4, _⟩ := forward_some L ht
          rw [hx] at h4; simp at h4
        exact ⟨_, 1, .forwardUndefined hs hu, h2, .forwardUndefined hs hu, by simpa [barePrimary] using h3⟩
      | some a =>
        obtain ⟨task, h4, h5⟩ := forward_inv L hx
        rw [hx] at h1 h3
        simp only at h1 h3
        cases hp : prun sem g f (some a) (lineColumn here (rest.take n)) (rest.drop n) with
        | none => rw [hp] at h1; simp at h1
        | some o2 =>
          have he := task_sound L (sound_all L f) h5 hp
          have hk := task_cost L (ih f (Nat.le_refl f)) h5 hp
          refine ⟨o1, _, ?_, h2, .forward hs h4 hk, h3⟩
          rw [hp] at h1
          cases o2 <;> simp only [Option.some.injEq] at h1 <;> subst h1
          · exact .forward hs h4 he
          · exact .forwardIgnored hs h4 he rfl
          · exact .forwardStop hs h4 he trivial
          · exact .forwardStop hs h4 he trivial
theorem cost_factor (f : Nat) (ih : ∀ f', f' ≤ f → CostAll config G sem g f') : ∀ (x : Factor) (i : Nat) (next : Option Nat) (here : Location) (rest : Str) (o : Outcome),
    CodeFactor config G g.instructions i next x → prun sem g (f + 1) (some i) here rest = some o →
    ∃ o1 k, Ev asBuilt G (.factor x) here rest o1 ∧ contin sem g f (bareFactor x) next here rest o1 = some o ∧
      Costs G (.factor x) here rest k ∧ csteps sem g (f + 1) (some i) here rest = k + cContin sem g f (bareFactor x) next here rest o1
  | .mk n p, i, next, here, rest, o => by
    intro hc h
    simp only [CodeFactor] at hc
    by_cases hn : n = 1
    · rw [if_pos hn] at hc
      obtain ⟨o1, k, h1, h2, h3, h4⟩ := cost_primary f ih p i next here rest o hc h
      subst hn
      exact ⟨o1, k, .once h1, by simpa [bareFactor] using h2, .once h3, by simpa [bareFactor] using h4⟩
    · rw [if_neg hn] at hc
      obtain ⟨sub, hc1, hc2⟩ := hc
      rw [prun_succ hc2] at h
      obtain ⟨o1, h1, h2⟩ := Option.bind_eq_some_iff.mp h
      have h3 := csteps_succ hc2 h1
      have hl := loop_sound (fun here rest o => (sound_all L f).2.2.1 p sub here rest o hc1) n n f 0 _ _ _ h1
      have hk := loop_cost (fun here rest o => (sound_all L f).2.2.1 p sub here rest o hc1)
        (fun here rest o => (ih f (Nat.le_refl f)).2.2.1 p sub here rest o hc1) n n f 0 _ _ _ h1
      have hb : bareFactor (.mk n p) = false := by simp [bareFactor, hn]
      refine ⟨o1, _, .counted hn ?_, by rw [hb]; exact h2, .counted hn hk, by rw [hb]; exact h3⟩
      have hd : decide (asBuilt.roundLimit = some n) = decide (n = u32Max) := by
        simp only [asBuilt, u32Max, Option.some.injEq]
        exact decide_eq_decide.mpr ⟨fun h => h.symm, fun h => h.symm⟩
      rw [hd]; exact hl
theorem cost_term (f : Nat) (ih : ∀ f', f' ≤ f → CostAll config G sem g f') : ∀ (t : Term) (i : Nat) (next : Option Nat) (here : Location) (rest : Str) (o : Outcome),
    CodeTerm config G g.instructions i next t → prun sem g (f + 1) (some i) here rest = some o →
    ∃ o1 k, Ev asBuilt G (.term t) here rest o1 ∧ contin sem g f (bareTerm t) next here rest o1 = some o ∧
      Costs G (.term t) here rest k ∧ csteps sem g (f + 1) (some i) here rest = k + cContin sem g f (bareTerm t) next here rest o1
  | .plain x, i, next, here, rest, o => by
    intro hc h
    obtain ⟨o1, k, h1, h2, h3, h4⟩ := cost_factor f ih x i next here rest o hc h
    exact ⟨o1, k, .plain h1, h2, .plain h3, h4⟩
  | .except x e, i, next, here, rest, o => by
    intro hc h
    obtain ⟨o1, h4, h5⟩ := sound_term L f (fun f' _ => sound_all L f') (.except x e) i next here rest o hc h
    obtain ⟨a, b, hc1, hc2, hc3⟩ := hc
    have hsym := symbolAt_eq hc3
    rw [prun_succ hc3] at h
    obtain ⟨o1, h1, h2⟩ := Option.bind_eq_some_iff.mp h
    have h3 := csteps_succ hc3 h1
    simp only [pexec, hsym] at h1
    simp only [cExec] at h3
    cases hp : prun sem g f (some a) here rest with
    | none => rw [hp] at h1; simp at h1
    | some o2 =>
      have he := (sound_all L f).2.2.2 _ _ _ _ _ hc1 hp
      have hk := (ih f (Nat.le_refl f)).2.2.2 _ _ _ _ _ hc1 hp
      rw [hp] at h1 h3
      cases o2 with
      | abort e =>
        simp only [Option.some.injEq] at h1; subst h1
        exact ⟨_, _, .exceptStop he trivial, h2, .exceptFail he id hk, h3⟩
      | panic e =>
        simp only [Option.some.injEq] at h1; subst h1
        exact ⟨_, _, .exceptStop he trivial, h2, .exceptFail he id hk, h3⟩
      | fail e evs n =>
        simp only [Option.some.injEq] at h1; subst h1
        exact ⟨_, _, .exceptFail he, h2, .exceptFail he id hk, h3⟩
      | ok evs n =>
        simp only at h1
        cases hq : prun sem g f (some b) here (rest.take n) with
        | none => rw [hq] at h1; simp at h1
        | some o3 =>
          have hx := (sound_all L f).2.2.2 _ _ _ _ _ hc2 hq
          have hk' := (ih f (Nat.le_refl f)).2.2.2 _ _ _ _ _ hc2 hq
          refine ⟨o1, _, ?_, h2, .except he hk hk', h3⟩
          rw [hq] at h1
          cases o3 with
          | abort e => simp only [Option.some.injEq] at h1; subst h1; exact .excludedStop he hx trivial
          | panic e => simp only [Option.some.injEq] at h1; subst h1; exact .excludedStop he hx trivial
          | fail e evs n => simp only [Option.some.injEq] at h1; subst h1; exact .notExcludedFail he hx
          | ok evs' m =>
            simp only at h1
            by_cases hm : m = n
            · subst hm
              rw [if_pos rfl] at h1
              injection h1 with h1; subst h1
              exact .excluded he hx
            · rw [if_neg hm] at h1
              injection h1 with h1; subst h1
              exact .notExcluded he hx hm
theorem cost_single (f : Nat) (ih : ∀ f', f' ≤ f → CostAll config G sem g f') : ∀ (d : SingleDefinition) (start : Option Nat) (here : Location) (rest : Str) (o : Outcome),
    CodeTerms config G g.instructions start d → prun sem g (f + 1) start here rest = some o →
    Costs G (.sequence d) here rest (csteps sem g (f + 1) start here rest)
  | .nil, start, here, rest, o => by
    intro hc h
    simp only [CodeTerms] at hc
    subst hc
    exact .done
  | .cons t d, start, here, rest, o => by
    rintro ⟨i, next, rfl, hc1, hc2⟩ h
    obtain ⟨o1, k, h1, h2, h3, h4⟩ := cost_term f ih t i next here rest o hc1 h
    rw [h4]
    cases hb : bareTerm t with
    | true =>
      rw [cContin_bare]
      exact .last h1 (.inl ((bareTerm_iff t).mp hb)) h3
    | false =>
      have hn : ¬ IsBareGroup t := fun hx => by have := (bareTerm_iff t).mpr hx; rw [hb] at this; simp at this
      cases o1 with
      | ok evs n =>
        simp only [contin, hb, Bool.false_eq_true, if_false] at h2
        obtain ⟨o2, h5, h6⟩ := Option.map_eq_some_iff.mp h2
        exact .next hn h1 h3 ((ih f (Nat.le_refl f)).2.1 _ _ _ _ _ hc2 h5)
      | _ => exact .last h1 (.inr id) h3
theorem cost_list (f : Nat) (ih : ∀ f', f' ≤ f → CostAll config G sem g f') : ∀ (l : DefinitionList) (i : Nat) (here : Location) (rest : Str) (o : Outcome),
    CodeList config G g.instructions i l → prun sem g (f + 1) (some i) here rest = some o →
    Costs G (.list l) here rest (csteps sem g (f + 1) (some i) here rest)
  | .nil, i, here, rest, o => fun h => h.elim
  | .cons d .nil, i, here, rest, o => by
    rintro ⟨_, hc⟩ h
    exact .single (cost_single f ih d (some i) here rest o hc h)
  | .cons d (.cons d' l), i, here, rest, o => by
    rintro ⟨a, more, loc, hd, hc1, hc2, hc3⟩ h
    have hsym := symbolAt_eq hc3
    rw [prun_succ hc3] at h
    obtain ⟨o1, h1, h2⟩ := Option.bind_eq_some_iff.mp h
    rw [csteps_succ hc3 h1]
    simp only [pexec, hsym] at h1
    rw [cContin_none, cExec]
    cases hp : por (fun a => prun sem g f (some a)) (a :: more) here rest with
    | none => rw [hp] at h1; simp at h1
    | some o2 =>
      exact .choice (or_cost (g := g) (G := G) (config := config) (run := fun a => prun sem g f (some a))
        (fun d a here rest o hc h => (sound_all L f).2.1 d (some a) here rest o hc h)
        (fun d a here rest o hc h => (ih f (Nat.le_refl f)).2.1 d (some a) here rest o hc h)
        (.cons d (.cons d' l)) (a :: more) here rest o2 (by simp) ⟨a, more, rfl, hd, hc1, hc2⟩ hp)
end

theorem cost_all (f : Nat) : CostAll config G sem g f := by
  induction f using Nat.strongRecOn with
  | _ f ih =>
    cases f with
    | zero =>
      exact ⟨fun _ _ _ _ _ _ h => by simp [prun] at h, fun _ _ _ _ _ _ h => by simp [prun] at h,
        fun _ _ _ _ _ _ h => by simp [prun] at h, fun _ _ _ _ _ _ h => by simp [prun] at h⟩
    | succ f =>
      have ih' : ∀ f', f' ≤ f → CostAll config G sem g f' := fun f' h => ih f' (by omega)
      refine ⟨fun l i here rest o => cost_list L f ih' l i here rest o,
        fun d st here rest o => cost_single L f ih' d st here rest o, fun p i here rest o hc h => ?_,
        fun p i here rest o hc h => ?_⟩
      · obtain ⟨o1, k, _, _, h3, h4⟩ := cost_primary L f ih' p i none here rest o hc h
        rw [h4, cContin_none]; exact h3
      · obtain ⟨o1, k, _, _, h3, h4⟩ := cost_factor L f ih' p i none here rest o hc h
        rw [h4, cContin_none]; exact h3

end Cost

/-- What has a cost has an outcome. -/
theorem costs_ev {G : Language} {task : Task} {here : Location} {rest : Str} {k : Nat} (h : Costs G task here rest k) :
    ∃ o, Ev asBuilt G task here rest o := by
  induction h with
  | empty => exact ⟨_, .empty⟩
  | @terminal loc s here rest =>
    by_cases h : s <+: rest
    · exact ⟨_, .terminal h⟩
    · exact ⟨_, .terminalFail h⟩
  | grouped _ ih => obtain ⟨o, h⟩ := ih; exact ⟨o, .grouped h⟩
  | optional _ ih => obtain ⟨o, h⟩ := ih; exact ⟨o, .optional h⟩
  | repeated _ ih => obtain ⟨o, h⟩ := ih; exact ⟨o, .repeated h⟩
  | reference h1 h2 _ ih => exact reference_total h1 h2 ih
  | undefined h => exact ⟨_, .referenceUndefined h⟩
  | @special loc s here rest h =>
    cases hs : G.special loc s loc here rest with
    | accept evs n => exact ⟨_, .special hs⟩
    | unmatched => exact ⟨_, .specialFail hs⟩
    | error e => exact ⟨_, .specialError hs⟩
    | forward name n => exact absurd hs (h _ _)
  | forward h1 h2 _ ih => exact forward_total h1 h2 ih
  | forwardUndefined h1 h2 => exact ⟨_, .forwardUndefined h1 h2⟩
  | once _ ih => obtain ⟨o, h⟩ := ih; exact ⟨o, .once h⟩
  | @counted c p here rest k hc _ ih =>
    obtain ⟨o, h⟩ := ih
    refine ⟨o, .counted hc ?_⟩
    have : decide (asBuilt.roundLimit = some c) = decide (c = 4294967295) := by simp [asBuilt, eq_comm]
    rw [this]
    exact h
  | plain _ ih => obtain ⟨o, h⟩ := ih; exact ⟨o, .plain h⟩
  | @except f x here rest evs n a b h1 _ _ _ ih =>
    obtain ⟨o, h⟩ := ih
    cases o with
    | ok evs' m =>
      by_cases hm : m = n
      · subst hm; exact ⟨_, .excluded h1 h⟩
      · exact ⟨_, .notExcluded h1 h hm⟩
    | fail e evs' m => exact ⟨_, .notExcludedFail h1 h⟩
    | abort e => exact ⟨_, .excludedStop h1 h trivial⟩
    | panic p => exact ⟨_, .excludedStop h1 h trivial⟩
  | @exceptFail f x here rest o a h1 h2 _ _ =>
    cases o with
    | ok => exact absurd trivial h2
    | fail e evs' m => exact ⟨_, .exceptFail h1⟩
    | abort e => exact ⟨_, .exceptStop h1 trivial⟩
    | panic p => exact ⟨_, .exceptStop h1 trivial⟩
  | done => exact ⟨_, .done⟩
  | next hg h1 _ _ _ ih => obtain ⟨o, h⟩ := ih; exact ⟨_, .next (fun h => hg h.2) h1 h⟩
  | @last t d here rest o a h1 h2 _ _ =>
    rcases h2 with h2 | h2
    · cases o with
      | ok evs n => exact ⟨_, .dropped rfl h2 h1⟩
      | _ => exact ⟨_, .nextFail h1 id⟩
    · exact ⟨_, .nextFail h1 h2⟩
  | single _ ih => obtain ⟨o, h⟩ := ih; exact ⟨o, .single h⟩
  | choice _ ih =>
    obtain ⟨o, h⟩ := ih
    cases o with
    | fail e evs n => exact ⟨_, .choiceFail h⟩
    | _ => exact ⟨_, .choice h (by simp)⟩
  | @first d l here rest o a h1 h2 _ _ =>
    cases o with
    | fail e evs n =>
      rcases h2 with rfl | h2
      · exact ⟨_, .last h1⟩
      · exact absurd rfl (h2 _ _ _)
    | _ => exact ⟨_, .first h1 (by simp)⟩
  | other h1 _ _ _ ih =>
    obtain ⟨o, h⟩ := ih
    cases o with
    | fail e evs n => exact ⟨_, .otherFail h1 h⟩
    | _ => exact ⟨_, .other h1 h (by simp)⟩
  | enough h => exact ⟨_, .enough h⟩
  | round hi hg h1 _ _ _ ih =>
    obtain ⟨o, h⟩ := ih
    exact ⟨_, .round (fun m hm => by cases hm; exact hi) hg h1 h⟩
  | @lastRound body min max guarded i here rest o a hi h1 h2 _ _ =>
    have hi' : ∀ m, some max = some m → i < m := fun m hm => by cases hm; exact hi
    cases o with
    | ok evs n =>
      rcases h2 with h2 | ⟨rfl, _, h2⟩
      · exact absurd trivial h2
      · cases h2; exact ⟨_, .livelock hi' h1⟩
    | fail e evs n =>
      by_cases hm : min ≤ i
      · exact ⟨_, .lastRound hi' hm h1⟩
      · exact ⟨_, .tooFew hi' (by omega) h1⟩
    | abort e => exact ⟨_, .roundStop hi' h1 trivial⟩
    | panic p => exact ⟨_, .roundStop hi' h1 trivial⟩

/-- A task has one cost. -/
theorem costs_unique {G : Language} (U : OneMeaning G) {task : Task} {here : Location} {rest : Str} {k : Nat} (h : Costs G task here rest k) :
    ∀ {k'}, Costs G task here rest k' → k = k' := by
  induction h with
  | empty => intro k' h; cases h; rfl
  | terminal => intro k' h; cases h; rfl
  | grouped _ ih => intro k' h; cases h with | grouped h => exact ih h
  | optional _ ih => intro k' h; cases h with | optional h => rw [ih h]
  | repeated _ ih => intro k' h; cases h with | repeated h => rw [ih h]
  | reference h1 h2 _ ih =>
    intro k' h
    cases h with
    | reference h3 h4 h => rw [ih (U.rule _ h3 _ h1 _ h4 h2 ▸ h)]
    | undefined h => exact absurd h2 (h _ h1)
  | undefined h1 =>
    intro k' h
    cases h with
    | reference h3 h4 h => exact absurd h4 (h1 _ h3)
    | undefined h => rfl
  | special h1 =>
    intro k' h
    cases h with
    | special => rfl
    | forward h2 => exact absurd h2 (h1 _ _)
    | forwardUndefined h2 => exact absurd h2 (h1 _ _)
  | forward h1 h2 _ ih =>
    intro k' h
    cases h with
    | special h => exact absurd h1 (h _ _)
    | forward h3 h4 h =>
      rw [h1] at h3
      cases h3
      rw [ih (U.forward _ _ _ h4 h2 ▸ h)]
    | forwardUndefined h3 h4 =>
      rw [h1] at h3
      cases h3
      exact absurd h2 (h4 _)
  | forwardUndefined h1 h2 =>
    intro k' h
    cases h with
    | special h => exact absurd h1 (h _ _)
    | forward h3 h4 h =>
      rw [h1] at h3
      cases h3
      exact absurd h4 (h2 _)
    | forwardUndefined h3 h4 => rfl
  | once _ ih =>
    intro k' h
    cases h with
    | once h => exact ih h
    | counted h => exact absurd rfl h
  | counted hc _ ih =>
    intro k' h
    cases h with
    | once h => exact absurd rfl hc
    | counted _ h => rw [ih h]
  | plain _ ih => intro k' h; cases h with | plain h => exact ih h
  | except h1 _ _ ih1 ih2 =>
    intro k' h
    cases h with
    | except h2 h3 h4 =>
      have := ev_unique U h1 h2
      cases this
      rw [ih1 h3, ih2 h4]
    | exceptFail h2 h3 =>
      have := ev_unique U h1 h2
      subst this
      exact absurd trivial h3
  | exceptFail h1 h2 _ ih =>
    intro k' h
    cases h with
    | except h3 =>
      have := ev_unique U h1 h3
      subst this
      exact absurd trivial h2
    | exceptFail _ _ h => rw [ih h]
  | done => intro k' h; cases h; rfl
  | next hg h1 _ _ ih1 ih2 =>
    intro k' h
    cases h with
    | next _ h2 h3 h4 =>
      have := ev_unique U h1 h2
      cases this
      rw [ih1 h3, ih2 h4]
    | last h2 h3 =>
      have := ev_unique U h1 h2
      subst this
      rcases h3 with h3 | h3
      · exact absurd h3 hg
      · exact absurd trivial h3
  | last h1 h2 _ ih =>
    intro k' h
    cases h with
    | next hg h3 =>
      have := ev_unique U h1 h3
      subst this
      rcases h2 with h2 | h2
      · exact absurd h2 hg
      · exact absurd trivial h2
    | last _ _ h => exact ih h
  | single _ ih => intro k' h; cases h with | single h => exact ih h
  | choice _ ih => intro k' h; cases h with | choice h => rw [ih h]
  | first h1 h2 _ ih =>
    intro k' h
    cases h with
    | first _ _ h => exact ih h
    | other h3 =>
      have := ev_unique U h1 h3
      subst this
      rcases h2 with h2 | h2
      · cases h2
      · exact absurd rfl (h2 _ _ _)
  | other h1 _ _ ih1 ih2 =>
    intro k' h
    cases h with
    | first h3 h2 =>
      have := ev_unique U h1 h3
      subst this
      rcases h2 with h2 | h2
      · cases h2
      · exact absurd rfl (h2 _ _ _)
    | other _ h3 h4 => rw [ih1 h3, ih2 h4]
  | enough h1 =>
    intro k' h
    cases h with
    | enough => rfl
    | round h => omega
    | lastRound h => omega
  | round hi hg h1 _ _ ih1 ih2 =>
    intro k' h
    cases h with
    | enough => omega
    | round _ _ h2 h3 h4 =>
      have := ev_unique U h1 h2
      cases this
      rw [ih1 h3, ih2 h4]
    | lastRound _ h2 h3 =>
      have := ev_unique U h1 h2
      subst this
      rcases h3 with h3 | ⟨h3, _, h4⟩
      · exact absurd trivial h3
      · cases h4; exact absurd ⟨h3, rfl⟩ hg
  | lastRound hi h1 h2 _ ih =>
    intro k' h
    cases h with
    | enough => omega
    | round _ hg h3 =>
      have := ev_unique U h1 h3
      subst this
      rcases h2 with h5 | ⟨h5, _, h4⟩
      · exact absurd trivial h5
      · cases h4; exact absurd ⟨h5, rfl⟩ hg
    | lastRound _ _ _ h => exact ih h

end Ebnf
