import Verif.Proofs.Compile
import Verif.Proofs.Scanners

set_option autoImplicit false
set_option linter.unusedSectionVars false

/-! # The pure machine on compiled code computes the meaning of the grammar -/

namespace Ebnf

open Spec

/-- What the proofs need to know about the graph. -/
structure Linked (config : Config) (G : Language) (sem : SpecialScanner → Recognizer) (g : Graph) : Prop where
  compiled : Compiled config G G.rules g
  symbol : ∀ l s, (config l s).symbol = G.specialName l s
  sem : ∀ l s, sem (config l s) = G.special l s
  unique : ∀ r ∈ G.rules, ∀ r' ∈ G.rules, SameName r.metaIdentifier r'.metaIdentifier → r = r'

/-- A bare group. -/
def barePrimary : Primary → Bool
  | .grouped _ _ => true
  | _ => false
/-- A bare group. -/
def bareFactor : Factor → Bool
  | .mk n p => n == 1 && barePrimary p
/-- A bare group. -/
def bareTerm : Term → Bool
  | .plain f => bareFactor f
  | .except _ _ => false

theorem bareTerm_iff (t : Term) : bareTerm t = true ↔ IsBareGroup t := by
  cases t with
  | except f e => simp [bareTerm, IsBareGroup]
  | plain f =>
    obtain ⟨n, p⟩ := f
    simp only [bareTerm, bareFactor]
    constructor
    · intro h
      simp only [Bool.and_eq_true, beq_iff_eq] at h
      obtain ⟨h1, h2⟩ := h
      subst h1
      cases p <;> simp_all [barePrimary, IsBareGroup]
    · intro h
      unfold IsBareGroup at h
      split at h
      · rename_i heq
        injection heq with heq
        injection heq with h1 h2
        subst h1 h2
        rfl
      · exact h.elim

/-- What follows an instruction. -/
def contin (sem : SpecialScanner → Recognizer) (g : Graph) (f : Nat) (bare : Bool) (next : Option Nat)
    (here : Location) (rest : Str) : Outcome → Option Outcome
  | .ok evs n => if bare then some (.ok evs n)
    else (prun sem g f next (lineColumn here (rest.take n)) (rest.drop n)).map (.after evs n)
  | o => some o

theorem contin_bare {sem : SpecialScanner → Recognizer} {g : Graph} {f : Nat} {next : Option Nat} {here : Location}
    {rest : Str} (o : Outcome) : contin sem g f true next here rest o = some o := by
  cases o <;> rfl

theorem contin_none {sem : SpecialScanner → Recognizer} {g : Graph} {f : Nat} {bare : Bool} {here : Location}
    {rest : Str} (o : Outcome) : contin sem g (f + 1) bare none here rest o = some o := by
  cases o with
  | ok evs n => simp [contin, prun, Outcome.after]
  | _ => rfl

theorem contin_none_inv {sem : SpecialScanner → Recognizer} {g : Graph} {f : Nat} {bare : Bool} {here : Location}
    {rest : Str} {o o' : Outcome} (h : contin sem g f bare none here rest o = some o') : o' = o := by
  cases f with
  | succ f => rw [contin_none] at h; injection h with h; exact h.symm
  | zero =>
    cases o with
    | ok evs n =>
      cases bare with
      | true => simp only [contin, if_true] at h; injection h with h; exact h.symm
      | false => simp [contin, prun] at h
    | _ => simp only [contin] at h; injection h with h; exact h.symm

theorem prun_succ {sem : SpecialScanner → Recognizer} {g : Graph} {i : Nat} {x : Instruction}
    (h : g.instructions[i]? = some x) (f : Nat) (here : Location) (rest : Str) :
    prun sem g (f + 1) (some i) here rest =
      (pexec sem g (fun a => prun sem g f (some a)) f i x here rest).bind (contin sem g f false x.next here rest) := by
  have h' : g.instruction i = some x := h
  rw [prun, h']
  simp only
  cases pexec sem g (fun a => prun sem g f (some a)) f i x here rest with
  | none => rfl
  | some o => cases o <;> rfl

theorem symbolAt_eq {g : Graph} {i : Nat} {x : Instruction} (h : g.instructions[i]? = some x) :
    symbolAt g (some i) = x.symbol := by
  have h' : g.instruction i = some x := h
  simp [symbolAt, h']

section Lookup
variable {config : Config} {G : Language} {sem : SpecialScanner → Recognizer} {g : Graph} (L : Linked config G sem g)
include L

theorem alias_defined {r : SyntaxRule} {name : Str} (h : r ∈ G.rules) (hs : SameName r.metaIdentifier name) :
    ∃ i, g.indexOfLabel name = some i ∧ g.canonicalName name = some r.metaIdentifier ∧
      CodeList config G g.instructions i r.definitionList := by
  obtain ⟨i, h1, h2⟩ := L.compiled.rule r h
  have hk := (keyed_eq_iff _ _).mpr hs
  exact ⟨i, by rw [Graph.indexOfLabel, ← hk]; exact h1, by rw [Graph.canonicalName, ← hk]; exact L.compiled.name r h, h2⟩

theorem alias_undefined {name : Str} (h : ∀ r ∈ G.rules, ¬ SameName r.metaIdentifier name) : g.canonicalName name = none := by
  cases hc : g.canonicalName name with
  | none => rfl
  | some n =>
    obtain ⟨r, h1, h2, _⟩ := L.compiled.names _ _ hc
    exact absurd ((keyed_eq_iff _ _).mp h2.symm) (h r h1)

/-- The code of a task. -/
def CodeTask (config : Config) (G : Language) (steps : List Instruction) (i : Nat) : Task → Prop
  | .list l => CodeList config G steps i l
  | .primary p => CodePrimary config G steps i none p
  | _ => False

theorem forward_some {name : Str} {task : Task} (h : ForwardTarget G name task) :
    ∃ i, g.indexOfLabel name = some i ∧ CodeTask config G g.instructions i task := by
  cases h with
  | rule h1 h2 =>
    obtain ⟨i, h3, _, h4⟩ := alias_defined L h1 h2
    exact ⟨i, h3, h4⟩
  | @marked r h1 h2 =>
    obtain ⟨i, h3, h4⟩ := L.compiled.marked r h1
    have hk := (keyed_eq_iff _ _).mpr h2
    rw [keyed_dollar] at hk
    exact ⟨i, by rw [Graph.indexOfLabel, ← hk]; exact h3, h4⟩

theorem forward_inv {name : Str} {i : Nat} (h : g.indexOfLabel name = some i) :
    ∃ task, ForwardTarget G name task ∧ CodeTask config G g.instructions i task := by
  obtain ⟨_, r, h1, h2⟩ := L.compiled.labels _ _ h
  rcases h2 with h2 | h2
  · refine ⟨_, .rule h1 ((keyed_eq_iff _ _).mp h2.symm), ?_⟩
    obtain ⟨j, h3, h4⟩ := L.compiled.rule r h1
    rw [Graph.indexOfLabel, h2, h3] at h
    injection h with h; subst h; exact h4
  · refine ⟨_, .marked h1 ((keyed_eq_iff _ _).mp (by rw [keyed_dollar]; exact h2.symm)), ?_⟩
    obtain ⟨j, h3, h4⟩ := L.compiled.marked r h1
    rw [Graph.indexOfLabel, h2, h3] at h
    injection h with h; subst h; exact h4

theorem forward_none {name : Str} (h : ∀ task, ¬ ForwardTarget G name task) : g.indexOfLabel name = none := by
  cases hc : g.indexOfLabel name with
  | none => rfl
  | some i =>
    obtain ⟨task, h1, _⟩ := forward_inv L hc
    exact absurd h1 (h task)

end Lookup

/-! ## Soundness -/

section Sound
variable {config : Config} {G : Language} {sem : SpecialScanner → Recognizer} {g : Graph} (L : Linked config G sem g)
include L

/-- What a run with fuel `f` gives is the meaning. -/
def SoundList (config : Config) (G : Language) (sem : SpecialScanner → Recognizer) (g : Graph) (f : Nat) : Prop :=
  ∀ l i here rest o, CodeList config G g.instructions i l → prun sem g f (some i) here rest = some o →
    Ev asBuilt G (.list l) here rest o
/-- Definitions. -/
def SoundSeq (config : Config) (G : Language) (sem : SpecialScanner → Recognizer) (g : Graph) (f : Nat) : Prop :=
  ∀ d start here rest o, CodeTerms config G g.instructions start d → prun sem g f start here rest = some o →
    Ev asBuilt G (.sequence d) here rest o
/-- Primaries that end a subroutine. -/
def SoundPrimary (config : Config) (G : Language) (sem : SpecialScanner → Recognizer) (g : Graph) (f : Nat) : Prop :=
  ∀ p i here rest o, CodePrimary config G g.instructions i none p → prun sem g f (some i) here rest = some o →
    Ev asBuilt G (.primary p) here rest o
/-- Factors that end a subroutine. -/
def SoundFactor (config : Config) (G : Language) (sem : SpecialScanner → Recognizer) (g : Graph) (f : Nat) : Prop :=
  ∀ p i here rest o, CodeFactor config G g.instructions i none p → prun sem g f (some i) here rest = some o →
    Ev asBuilt G (.factor p) here rest o
/-- Everything. -/
def SoundAll (config : Config) (G : Language) (sem : SpecialScanner → Recognizer) (g : Graph) (f : Nat) : Prop :=
  SoundList config G sem g f ∧ SoundSeq config G sem g f ∧ SoundPrimary config G sem g f ∧ SoundFactor config G sem g f

omit L in
theorem loop_sound {body : Task} {p : PRun} (h : ∀ here rest o, p here rest = some o → Ev asBuilt G body here rest o)
    (min max fuel : Nat) : ∀ i here rest o, ploop p min max fuel i here rest = some o →
      Ev asBuilt G (.rounds body min (some max) (decide (max = u32Max)) i) here rest o := by
  induction fuel with
  | zero => intro i here rest o h; simp [ploop] at h
  | succ fuel ih =>
    intro i here rest o hl
    unfold ploop at hl
    by_cases hi : i < max
    · have hm : ∀ m, some max = some m → i < m := by intro m hm; injection hm with hm; omega
      rw [if_pos hi] at hl
      cases hp : p here rest with
      | none => rw [hp] at hl; simp at hl
      | some o1 =>
        have hb := h here rest o1 hp
        rw [hp] at hl
        cases o1 with
        | abort e => simp only at hl; injection hl with hl; subst hl; exact .roundStop hm hb trivial
        | panic e => simp only at hl; injection hl with hl; subst hl; exact .roundStop hm hb trivial
        | fail e evs n =>
          simp only at hl
          by_cases hmin : i < min
          · rw [if_pos hmin] at hl; injection hl with hl; subst hl; exact .tooFew hm hmin hb
          · rw [if_neg hmin] at hl; injection hl with hl; subst hl
            exact .lastRound (q := asBuilt) hm (by omega) hb
        | ok evs n =>
          simp only at hl
          by_cases hz : max = u32Max ∧ n = 0
          · rw [if_pos hz] at hl; injection hl with hl; subst hl
            obtain ⟨hz1, hz2⟩ := hz
            subst hz2
            rw [decide_eq_true hz1]
            exact .livelock hm hb
          · rw [if_neg hz] at hl
            cases hn : ploop p min max fuel (i + 1) (lineColumn here (rest.take n)) (rest.drop n) with
            | none => rw [hn] at hl; simp at hl
            | some o2 =>
              rw [hn] at hl
              simp only [Option.map_some, Option.some.injEq] at hl
              subst hl
              exact .round hm (by simpa using hz) hb (ih _ _ _ _ hn)
    · rw [if_neg hi] at hl
      injection hl with hl; subst hl
      exact .enough (by omega)

omit L in
theorem por_sound {run : Nat → PRun}
    (h : ∀ d a here rest o, CodeTerms config G g.instructions (some a) d → run a here rest = some o →
      Ev asBuilt G (.sequence d) here rest o) (l : DefinitionList) :
    ∀ subs here rest o, l ≠ .nil → CodeSubs config G g.instructions subs l → por run subs here rest = some o →
      Ev asBuilt G (.alternatives l) here rest o := by
  match l with
  | .nil => intro subs here rest o hne; exact absurd rfl hne
  | .cons d .nil =>
    intro subs here rest o _ hc ho
    simp only [CodeSubs] at hc
    obtain ⟨a, more, rfl, hd, hc1, rfl⟩ := hc
    simp only [por] at ho
    cases hr : run a here rest with
    | none => rw [hr] at ho; simp at ho
    | some o1 =>
      have hs := h d a here rest o1 hc1 hr
      rw [hr] at ho
      cases o1 <;> simp only [Option.some.injEq] at ho <;> subst ho
      · exact .first hs (by simp)
      · exact .last hs
      · exact .first hs (by simp)
      · exact .first hs (by simp)
  | .cons d (.cons d' l) =>
    intro subs here rest o _ hc ho
    have ih := por_sound h (.cons d' l)
    rw [CodeSubs] at hc
    obtain ⟨a, more, rfl, hd, hc1, hc2⟩ := hc
    have hc3 := hc2
    rw [CodeSubs] at hc2
    obtain ⟨b, more', rfl, hc2⟩ := hc2
    simp only [por] at ho
    cases hr : run a here rest with
    | none => rw [hr] at ho; simp at ho
    | some o1 =>
      have hs := h d a here rest o1 hc1 hr
      rw [hr] at ho
      cases o1 with
      | ok evs n => simp only [Option.some.injEq] at ho; subst ho; exact .first hs (by simp)
      | abort e => simp only [Option.some.injEq] at ho; subst ho; exact .first hs (by simp)
      | panic e => simp only [Option.some.injEq] at ho; subst ho; exact .first hs (by simp)
      | fail e evs n =>
        simp only at ho
        cases hp : por run (b :: more') here rest with
        | none => rw [hp] at ho; simp at ho
        | some o2 =>
          have hs2 := ih (b :: more') here rest o2 (by simp) hc3 hp
          rw [hp] at ho
          cases o2 <;> simp only [Option.some.injEq] at ho <;> subst ho
          · exact .other hs hs2 (by simp)
          · exact .otherFail hs hs2
          · exact .other hs hs2 (by simp)
          · exact .other hs hs2 (by simp)

theorem task_sound {f : Nat} (ih : SoundAll config G sem g f) {i : Nat} {task : Task} {here : Location} {rest : Str} {o : Outcome}
    (hc : CodeTask config G g.instructions i task) (h : prun sem g f (some i) here rest = some o) :
    Ev asBuilt G task here rest o := by
  cases task with
  | list l => exact ih.1 l i here rest o hc h
  | primary p => exact ih.2.2.1 p i here rest o hc h
  | _ => exact hc.elim

mutual
theorem sound_primary (f : Nat) (ih : ∀ f', f' ≤ f → SoundAll config G sem g f') : ∀ (p : Primary) (i : Nat) (next : Option Nat) (here : Location) (rest : Str) (o : Outcome),
    CodePrimary config G g.instructions i next p → prun sem g (f + 1) (some i) here rest = some o →
    ∃ o1, Ev asBuilt G (.primary p) here rest o1 ∧ contin sem g f (barePrimary p) next here rest o1 = some o
  | .optional loc l, i, next, here, rest, o => by
    rintro ⟨sub, hc1, hc2⟩ h
    rw [prun_succ hc2] at h
    obtain ⟨o1, h1, h2⟩ := Option.bind_eq_some_iff.mp h
    exact ⟨o1, .optional (loop_sound (fun here rest o => (ih f (Nat.le_refl f)).1 l sub here rest o hc1) 0 1 f 0 _ _ _ h1), h2⟩
  | .repeated loc l, i, next, here, rest, o => by
    rintro ⟨sub, hc1, hc2⟩ h
    rw [prun_succ hc2] at h
    obtain ⟨o1, h1, h2⟩ := Option.bind_eq_some_iff.mp h
    exact ⟨o1, .repeated (loop_sound (fun here rest o => (ih f (Nat.le_refl f)).1 l sub here rest o hc1) 0 u32Max f 0 _ _ _ h1), h2⟩
  | .grouped loc l, i, next, here, rest, o => by
    intro hc h
    exact ⟨o, .grouped (sound_list f ih l i here rest o hc h), contin_bare o⟩
  | .empty loc, i, next, here, rest, o => by
    intro hc h
    rw [prun_succ hc] at h
    obtain ⟨o1, h1, h2⟩ := Option.bind_eq_some_iff.mp h
    simp only [pexec, Option.some.injEq] at h1
    subst h1
    exact ⟨_, .empty, h2⟩
  | .terminalString loc s, i, next, here, rest, o => by
    intro hc h
    have hsym := symbolAt_eq hc
    rw [prun_succ hc] at h
    obtain ⟨o1, h1, h2⟩ := Option.bind_eq_some_iff.mp h
    simp only [pexec, hsym] at h1
    by_cases hp : s <+: rest
    · rw [if_pos hp] at h1; injection h1 with h1; subst h1
      exact ⟨_, .terminal hp, h2⟩
    · rw [if_neg hp] at h1; injection h1 with h1; subst h1
      exact ⟨_, .terminalFail hp, h2⟩
  | .metaIdentifier loc n, i, next, here, rest, o => by
    intro hc h
    rw [prun_succ hc] at h
    obtain ⟨o1, h1, h2⟩ := Option.bind_eq_some_iff.mp h
    simp only [pexec] at h1
    refine ⟨o1, ?_, h2⟩
    by_cases hd : ∃ r ∈ G.rules, SameName r.metaIdentifier n
    · obtain ⟨r, hr, hs⟩ := hd
      obtain ⟨a, h3, h4, h5⟩ := alias_defined L hr hs
      rw [h3] at h1
      simp only [h4] at h1
      cases hp : prun sem g f (some a) here rest with
      | none => rw [hp] at h1; simp at h1
      | some o2 =>
        have he := (ih f (Nat.le_refl f)).1 _ _ _ _ _ h5 hp
        rw [hp] at h1
        cases o2 <;> simp only [Option.some.injEq] at h1 <;> subst h1
        · exact .reference hr hs he
        · exact .referenceFail hr hs he
        · exact .referenceStop hr hs he trivial
        · exact .referenceStop hr hs he trivial
    · have hd' : ∀ r ∈ G.rules, ¬ SameName r.metaIdentifier n := fun r hr hs => hd ⟨r, hr, hs⟩
      have h3 := alias_undefined L hd'
      have : o1 = .panic .missing := by
        cases hx : g.indexOfLabel n with
        | none => rw [hx] at h1; simp only [Option.some.injEq] at h1; exact h1.symm
        | some a => rw [hx] at h1; simp only [h3, Option.some.injEq] at h1; exact h1.symm
      subst this
      exact .referenceUndefined hd'
  | .specialSequence loc s, i, next, here, rest, o => by
    intro hc h
    have hsym := symbolAt_eq hc
    rw [prun_succ hc] at h
    obtain ⟨o1, h1, h2⟩ := Option.bind_eq_some_iff.mp h
    simp only [pexec, hsym, L.sem, L.symbol] at h1
    refine ⟨o1, ?_, h2⟩
    cases hs : G.special loc s loc here rest with
    | accept evs n =>
      rw [hs] at h1; simp only [Option.some.injEq] at h1; subst h1; exact .special hs
    | unmatched =>
      rw [hs] at h1; simp only [Option.some.injEq] at h1; subst h1; exact .specialFail hs
    | error e =>
      rw [hs] at h1; simp only [Option.some.injEq] at h1; subst h1; exact .specialError hs
    | forward name n =>
      rw [hs] at h1
      simp only at h1
      cases hx : g.indexOfLabel name with
      | none =>
        rw [hx] at h1; simp only [Option.some.injEq] at h1; subst h1
        refine .forwardUndefined hs (fun task ht => ?_)
        obtain ⟨a, h3, _⟩ := forward_some L ht
        rw [hx] at h3; simp at h3
      | some a =>
        obtain ⟨task, h3, h4⟩ := forward_inv L hx
        rw [hx] at h1
        simp only at h1
        cases hp : prun sem g f (some a) (lineColumn here (rest.take n)) (rest.drop n) with
        | none => rw [hp] at h1; simp at h1
        | some o2 =>
          have he := task_sound L (ih f (Nat.le_refl f)) h4 hp
          rw [hp] at h1
          cases o2 <;> simp only [Option.some.injEq] at h1 <;> subst h1
          · exact .forward hs h3 he
          · exact .forwardIgnored hs h3 he rfl
          · exact .forwardStop hs h3 he trivial
          · exact .forwardStop hs h3 he trivial
theorem sound_factor (f : Nat) (ih : ∀ f', f' ≤ f → SoundAll config G sem g f') : ∀ (x : Factor) (i : Nat) (next : Option Nat) (here : Location) (rest : Str) (o : Outcome),
    CodeFactor config G g.instructions i next x → prun sem g (f + 1) (some i) here rest = some o →
    ∃ o1, Ev asBuilt G (.factor x) here rest o1 ∧ contin sem g f (bareFactor x) next here rest o1 = some o
  | .mk n p, i, next, here, rest, o => by
    intro hc h
    simp only [CodeFactor] at hc
    by_cases hn : n = 1
    · rw [if_pos hn] at hc
      obtain ⟨o1, h1, h2⟩ := sound_primary f ih p i next here rest o hc h
      subst hn
      exact ⟨o1, .once h1, by simpa [bareFactor] using h2⟩
    · rw [if_neg hn] at hc
      obtain ⟨sub, hc1, hc2⟩ := hc
      rw [prun_succ hc2] at h
      obtain ⟨o1, h1, h2⟩ := Option.bind_eq_some_iff.mp h
      have hl := loop_sound (fun here rest o => (ih f (Nat.le_refl f)).2.2.1 p sub here rest o hc1) n n f 0 _ _ _ h1
      refine ⟨o1, .counted hn ?_, ?_⟩
      · have hd : decide (asBuilt.roundLimit = some n) = decide (n = u32Max) := by
          simp only [asBuilt, u32Max, Option.some.injEq]
          exact decide_eq_decide.mpr ⟨fun h => h.symm, fun h => h.symm⟩
        rw [hd]; exact hl
      · have : bareFactor (.mk n p) = false := by simp [bareFactor, hn]
        rw [this]; exact h2
theorem sound_term (f : Nat) (ih : ∀ f', f' ≤ f → SoundAll config G sem g f') : ∀ (t : Term) (i : Nat) (next : Option Nat) (here : Location) (rest : Str) (o : Outcome),
    CodeTerm config G g.instructions i next t → prun sem g (f + 1) (some i) here rest = some o →
    ∃ o1, Ev asBuilt G (.term t) here rest o1 ∧ contin sem g f (bareTerm t) next here rest o1 = some o
  | .plain x, i, next, here, rest, o => by
    intro hc h
    obtain ⟨o1, h1, h2⟩ := sound_factor f ih x i next here rest o hc h
    exact ⟨o1, .plain h1, h2⟩
  | .except x e, i, next, here, rest, o => by
    rintro ⟨a, b, hc1, hc2, hc3⟩ h
    have hsym := symbolAt_eq hc3
    rw [prun_succ hc3] at h
    obtain ⟨o1, h1, h2⟩ := Option.bind_eq_some_iff.mp h
    simp only [pexec, hsym] at h1
    refine ⟨o1, ?_, h2⟩
    cases hp : prun sem g f (some a) here rest with
    | none => rw [hp] at h1; simp at h1
    | some o2 =>
      have he := (ih f (Nat.le_refl f)).2.2.2 _ _ _ _ _ hc1 hp
      rw [hp] at h1
      cases o2 with
      | abort e => simp only [Option.some.injEq] at h1; subst h1; exact .exceptStop he trivial
      | panic e => simp only [Option.some.injEq] at h1; subst h1; exact .exceptStop he trivial
      | fail e evs n => simp only [Option.some.injEq] at h1; subst h1; exact .exceptFail he
      | ok evs n =>
        simp only at h1
        cases hq : prun sem g f (some b) here (rest.take n) with
        | none => rw [hq] at h1; simp at h1
        | some o3 =>
          have hx := (ih f (Nat.le_refl f)).2.2.2 _ _ _ _ _ hc2 hq
          rw [hq] at h1
          cases o3 with
          | abort e => simp only [Option.some.injEq] at h1; subst h1; exact .excludedStop he hx trivial
          | panic e => simp only [Option.some.injEq] at h1; subst h1; exact .excludedStop he hx trivial
          | fail e evs n => simp only [Option.some.injEq] at h1; subst h1; exact .notExcludedFail he hx
          | ok evs' m =>
            simp only at h1
            by_cases hm : m = n
            · subst hm
              rw [if_pos rfl] at h1
              injection h1 with h1; subst h1
              exact .excluded he hx
            · rw [if_neg hm] at h1
              injection h1 with h1; subst h1
              exact .notExcluded he hx hm
theorem sound_single (f : Nat) (ih : ∀ f', f' ≤ f → SoundAll config G sem g f') : ∀ (d : SingleDefinition) (start : Option Nat) (here : Location) (rest : Str) (o : Outcome),
    CodeTerms config G g.instructions start d → prun sem g (f + 1) start here rest = some o →
    Ev asBuilt G (.sequence d) here rest o
  | .nil, start, here, rest, o => by
    intro hc h
    simp only [CodeTerms] at hc
    subst hc
    simp only [prun, Option.some.injEq] at h
    subst h
    exact .done
  | .cons t d, start, here, rest, o => by
    rintro ⟨i, next, rfl, hc1, hc2⟩ h
    obtain ⟨o1, h1, h2⟩ := sound_term f ih t i next here rest o hc1 h
    cases o1 with
    | ok evs n =>
      simp only [contin] at h2
      cases hb : bareTerm t with
      | true =>
        rw [hb, if_pos rfl] at h2
        injection h2 with h2; subst h2
        exact .dropped rfl ((bareTerm_iff t).mp hb) h1
      | false =>
        rw [hb] at h2
        simp only [Bool.false_eq_true, if_false] at h2
        obtain ⟨o2, h3, h4⟩ := Option.map_eq_some_iff.mp h2
        subst h4
        exact .next (fun hx => by have := (bareTerm_iff t).mpr hx.2; rw [hb] at this; simp at this) h1
          ((ih f (Nat.le_refl f)).2.1 _ _ _ _ _ hc2 h3)
    | _ =>
      simp only [contin, Option.some.injEq] at h2
      subst h2
      exact .nextFail h1 (fun h => h)
theorem sound_list (f : Nat) (ih : ∀ f', f' ≤ f → SoundAll config G sem g f') : ∀ (l : DefinitionList) (i : Nat) (here : Location) (rest : Str) (o : Outcome),
    CodeList config G g.instructions i l → prun sem g (f + 1) (some i) here rest = some o →
    Ev asBuilt G (.list l) here rest o
  | .nil, i, here, rest, o => fun h => h.elim
  | .cons d .nil, i, here, rest, o => by
    rintro ⟨_, hc⟩ h
    exact .single (sound_single f ih d (some i) here rest o hc h)
  | .cons d (.cons d' l), i, here, rest, o => by
    rintro ⟨a, more, loc, hd, hc1, hc2, hc3⟩ h
    have hsym := symbolAt_eq hc3
    rw [prun_succ hc3] at h
    obtain ⟨o1, h1, h2⟩ := Option.bind_eq_some_iff.mp h
    have := contin_none_inv h2
    subst this
    simp only [pexec, hsym] at h1
    cases hp : por (fun a => prun sem g f (some a)) (a :: more) here rest with
    | none => rw [hp] at h1; simp at h1
    | some o2 =>
      have hs := por_sound (g := g) (G := G) (config := config) (run := fun a => prun sem g f (some a))
        (fun d a here rest o hc h => (ih f (Nat.le_refl f)).2.1 d (some a) here rest o hc h)
        (.cons d (.cons d' l)) (a :: more) here rest o2 (by simp) ⟨a, more, rfl, hd, hc1, hc2⟩ hp
      rw [hp] at h1
      cases o2 <;> simp only [Option.some.injEq] at h1 <;> subst h1
      · exact .choice hs (by simp)
      · exact .choiceFail hs
      · exact .choice hs (by simp)
      · exact .choice hs (by simp)
end

theorem sound_all (f : Nat) : SoundAll config G sem g f := by
  induction f using Nat.strongRecOn with
  | _ f ih =>
    cases f with
    | zero =>
      exact ⟨fun _ _ _ _ _ _ h => by simp [prun] at h, fun _ _ _ _ _ _ h => by simp [prun] at h,
        fun _ _ _ _ _ _ h => by simp [prun] at h, fun _ _ _ _ _ _ h => by simp [prun] at h⟩
    | succ f =>
      have ih' : ∀ f', f' ≤ f → SoundAll config G sem g f' := fun f' h => ih f' (by omega)
      refine ⟨fun l i here rest o => sound_list L f ih' l i here rest o,
        fun d st here rest o => sound_single L f ih' d st here rest o, fun p i here rest o hc h => ?_,
        fun p i here rest o hc h => ?_⟩
      · obtain ⟨o1, h1, h2⟩ := sound_primary L f ih' p i none here rest o hc h
        rw [contin_none_inv h2]; exact h1
      · obtain ⟨o1, h1, h2⟩ := sound_factor L f ih' p i none here rest o hc h
        rw [contin_none_inv h2]; exact h1

end Sound

end Ebnf
