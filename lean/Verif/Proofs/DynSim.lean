import Verif.Model.Dyn

set_option autoImplicit false

/-! # The machine on two readers whose methods agree (lemmas) -/

namespace Ebnf.Dyn

variable {σ τ α β : Type} {R : σ → τ → Prop}

/-- Started in related states, the two give the same result and end in related states. -/
def Same (R : σ → τ → Prop) (x : RM σ α) (y : RM τ α) : Prop := ∀ s t, R s t → (x s).1 = (y t).1 ∧ R (x s).2 (y t).2

theorem same_pure (a : α) : Same R (pure a) (pure a) := fun _ _ h => ⟨rfl, h⟩

theorem same_lift (x : Res α) : Same R (RM.lift x) (RM.lift x) := fun _ _ h => ⟨rfl, h⟩

theorem same_bind {x : RM σ α} {y : RM τ α} {f : α → RM σ β} {g : α → RM τ β} (h : Same R x y) (hf : ∀ a, Same R (f a) (g a)) :
    Same R (x >>= f) (y >>= g) := by
  intro s t hr
  obtain ⟨h1, h2⟩ := h s t hr
  simp only [RM.bind_run]
  generalize x s = p at h1 h2
  generalize y t = q at h1 h2
  obtain ⟨a, s'⟩ := p
  obtain ⟨b, t'⟩ := q
  simp only at h1 h2
  subst h1
  cases a with
  | ok a => exact hf a s' t' h2
  | err e => exact ⟨rfl, h2⟩
  | panic e => exact ⟨rfl, h2⟩
  | diverge => exact ⟨rfl, h2⟩

/-- Reading the state. -/
theorem same_get {f : σ → RM σ β} {g : τ → RM τ β} (h : ∀ s t, R s t → (f s s).1 = (g t t).1 ∧ R (f s s).2 (g t t).2) :
    Same R (RM.get >>= f) (RM.get >>= g) := by
  intro s t hr
  exact h s t hr

variable {I : Methods σ} {J : Methods τ}

/-- What `TerminalStringScanner::scan` does with the reader, until it knows whether the terminal is there. -/
def matchSkip {ρ : Type} (K : Methods ρ) (p : Str) (l : Location) : RM ρ (Option Event) := do
  if ← K.prefixMatches p then do
    let here ← Dyn.location K
    let _ ← K.skip p.length
    pure (some (Event.token l here p))
  else pure none

/-- The methods that the machine calls agree. -/
structure Agree (R : σ → τ → Prop) (I : Methods σ) (J : Methods τ) : Prop where
  location : ∀ s t, R s t → I.location s = J.location t
  read : Same R I.read J.read
  isEof : Same R I.isEof J.isEof
  peek : ∀ n, Same R (I.peek n) (J.peek n)
  mark : Same R I.mark J.mark
  resetToMark : ∀ m, Same R (I.resetToMark m) (J.resetToMark m)
  unmark : ∀ m, Same R (I.unmark m) (J.unmark m)
  size : ∀ s t, R s t → I.size s = J.size t
  debug : ∀ s t, R s t → I.debug s = J.debug t
  terminal : ∀ (p : Str) (l : Location), Same R (matchSkip I p l) (matchSkip J p l)

variable (A : Agree R I J)

include A

theorem same_location : Same R (Dyn.location I) (Dyn.location J) := fun s t h => ⟨by simp only [Dyn.location]; rw [A.location s t h], h⟩

theorem same_streamPrefix : Same R (streamPrefix I) (streamPrefix J) := by
  unfold streamPrefix
  refine same_bind A.isEof fun b => ?_
  cases b with
  | true => exact same_pure _
  | false => exact same_bind (A.peek 9) fun _ => same_pure _

theorem same_errExpected (g : Graph) (current : Option Nat) : Same R (errExpected I g current) (errExpected J g current) := by
  intro s t h
  obtain ⟨h1, h2⟩ := same_streamPrefix A s t h
  have hl := A.location s t h
  unfold errExpected
  simp only
  generalize streamPrefix I s = p at h1 h2
  generalize streamPrefix J t = q at h1 h2
  obtain ⟨a, s'⟩ := p
  obtain ⟨b, t'⟩ := q
  simp only at h1 h2
  subst h1
  cases a <;> simp only [hl] <;> exact ⟨trivial, h2⟩

theorem same_repetition {x : RM σ (Prospect × List Event)} {y : RM τ (Prospect × List Event)} (h : Same R x y) (min max fuel : Nat) :
    ∀ i temp, Same R (repetitionLoop I x min max fuel i temp) (repetitionLoop J y min max fuel i temp) := by
  induction fuel with
  | zero => intro i temp; exact same_lift _
  | succ fuel ih =>
    intro i temp
    unfold repetitionLoop
    by_cases hi : i < max
    · rw [if_pos hi, if_pos hi]
      refine same_bind (same_location A) fun location => same_bind A.mark fun mark => same_bind h fun out => ?_
      obtain ⟨prospect, evs⟩ := out
      cases prospect with
      | notThisWay e =>
        dsimp only
        by_cases hm : i < min
        · rw [if_pos hm, if_pos hm]; exact same_pure _
        · rw [if_neg hm, if_neg hm]; exact same_bind (A.resetToMark mark) fun _ => same_pure _
      | proceed =>
        dsimp only
        refine same_bind (same_location A) fun location' => ?_
        by_cases hm : max = u32Max ∧ location' = location
        · rw [if_pos hm, if_pos hm]; exact same_lift _
        · rw [if_neg hm, if_neg hm]; exact ih _ _
    · rw [if_neg hi, if_neg hi]; exact same_pure _

theorem same_or {x : Nat → RM σ (Prospect × List Event)} {y : Nat → RM τ (Prospect × List Event)} (h : ∀ a, Same R (x a) (y a))
    (subs : List Nat) : ∀ errors, Same R (orLoop I x subs errors) (orLoop J y subs errors) := by
  induction subs with
  | nil => intro errors; exact same_pure _
  | cons sub subs ih =>
    intro errors
    unfold orLoop
    refine same_bind A.mark fun mark => same_bind (h sub) fun out => ?_
    obtain ⟨prospect, evs⟩ := out
    cases prospect with
    | proceed => exact same_pure _
    | notThisWay e => exact same_bind (A.resetToMark mark) fun _ => ih _

theorem same_capture (endLoc : Location) (fuel : Nat) : Same R (captureLoop I endLoc fuel) (captureLoop J endLoc fuel) := by
  induction fuel with
  | zero => exact same_lift _
  | succ fuel ih =>
    unfold captureLoop
    refine same_bind (same_location A) fun here => ?_
    by_cases hh : here.lines < endLoc.lines ∨ here.columns < endLoc.columns
    · rw [if_pos hh, if_pos hh]
      refine same_bind A.read fun ch => ?_
      cases ch with
      | some ch => exact same_bind ih fun _ => same_pure _
      | none => exact ih
    · rw [if_neg hh, if_neg hh]; exact same_pure _

theorem same_exception {x : RM σ (Prospect × List Event)} {y : RM τ (Prospect × List Event)} (h : Same R x y) (g : Graph) (addr : Nat)
    (inner : Run) : Same R (scanException I g addr x inner) (scanException J g addr y inner) := by
  unfold scanException
  refine same_bind (same_location A) fun begin => same_bind A.mark fun mark => same_bind h fun out => ?_
  obtain ⟨prospect, temp⟩ := out
  cases prospect with
  | notThisWay e => exact same_bind (A.resetToMark mark) fun _ => same_pure _
  | proceed =>
    refine same_bind (same_location A) fun endLoc => same_bind (A.resetToMark mark) fun _ => same_bind A.mark fun mark => same_get ?_
    intro s t hr
    rw [A.size s t hr, A.debug s t hr]
    refine same_bind (same_capture A endLoc _) (fun buffer => same_bind (same_location A) fun here => ?_) s t hr
    by_cases hd : (J.debug t && decide (here ≠ endLoc)) = true
    · rw [if_pos hd, if_pos hd]; exact same_lift _
    · rw [if_neg hd, if_neg hd]
      refine same_bind (same_lift _) fun excluded => ?_
      cases excluded with
      | true => exact same_bind (A.resetToMark mark) fun _ => same_bind (same_errExpected A g _) fun _ => same_pure _
      | false => exact same_pure _

theorem same_special {scan : Location → RM σ Reaction} {scan' : Location → RM τ Reaction} {x : Nat → RM σ (Prospect × List Event)}
    {y : Nat → RM τ (Prospect × List Event)} (hs : ∀ d, Same R (scan d) (scan' d)) (h : ∀ a, Same R (x a) (y a)) (g : Graph) (addr : Nat)
    (instr : Instruction) : Same R (scanSpecial I g addr instr scan x) (scanSpecial J g addr instr scan' y) := by
  unfold scanSpecial
  refine same_bind A.mark fun mark => same_bind (hs _) fun out => ?_
  cases out with
  | «match» evts => exact same_bind (A.unmark mark) fun _ => same_pure _
  | unmatch => exact same_bind (A.resetToMark mark) fun _ => same_bind (same_errExpected A g _) fun _ => same_pure _
  | forward name =>
    dsimp only
    cases g.indexOfLabel name with
    | some next => exact same_bind (A.unmark mark) fun _ => same_bind (h next) fun _ => same_pure _
    | none => exact same_bind (A.resetToMark mark) fun _ => same_bind (same_location A) fun _ => same_lift _

theorem same_terminal (g : Graph) (addr : Nat) (instr : Instruction) (p : Str) :
    Same R (scanTerminal I g addr instr p) (scanTerminal J g addr instr p) := by
  have key : ∀ {ρ : Type} (K : Methods ρ), scanTerminal K g addr instr p = (do
      let o ← matchSkip K p instr.definition
      match o with
      | some e => pure (.proceed, [e])
      | none => do
        let e ← errExpected K g (some addr)
        pure (.notThisWay e, [])) := by
    intro ρ K
    funext r
    unfold scanTerminal matchSkip
    simp only [RM.bind_run]
    cases K.prefixMatches p r with
    | mk a r1 =>
      cases a with
      | ok b =>
        cases b with
        | true =>
          simp only [if_pos, RM.bind_run]
          cases Dyn.location K r1 with
          | mk a r2 =>
            cases a with
            | ok l => simp only; cases K.skip p.length r2 with
              | mk a r3 => cases a <;> rfl
            | err e => rfl
            | panic e => rfl
            | diverge => rfl
        | false => simp [RM.bind_run]
      | err e => rfl
      | panic e => rfl
      | diverge => rfl
  rw [key I, key J]
  refine same_bind (A.terminal p _) fun o => ?_
  cases o with
  | some e => exact same_pure _
  | none => exact same_bind (same_errExpected A g _) fun _ => same_pure _

theorem same_step {scan : SpecialScanner → Location → RM σ Reaction} {scan' : SpecialScanner → Location → RM τ Reaction} {g : Graph}
    {x : Nat → RM σ (Prospect × List Event)} {y : Nat → RM τ (Prospect × List Event)} (h : ∀ a, Same R (x a) (y a)) (inner : Nat → Run)
    (fuel addr : Nat) (instr : Instruction)
    (hs : ∀ scanner, instr.step = .scan (.special scanner) → ∀ d, Same R (scan scanner d) (scan' scanner d)) :
    Same R (execStep I scan g x inner fuel addr instr) (execStep J scan' g y inner fuel addr instr) := by
  unfold execStep
  cases hi : instr.step with
  | repetition min max sub => exact same_repetition A (h sub) min max fuel 0 []
  | or subs =>
    refine same_bind (same_or A h subs []) fun out => ?_
    cases out with
    | ok evs => exact same_pure _
    | error errors =>
      dsimp only
      cases errors.reverse with
      | nil => exact same_lift _
      | cons last others =>
        dsimp only
        refine same_bind (same_location A) fun here => ?_
        by_cases hh : (pickError last others).location = here
        · rw [if_pos hh, if_pos hh]; exact same_bind (same_errExpected A g _) fun _ => same_pure _
        · rw [if_neg hh, if_neg hh]; exact same_pure _
  | alias name =>
    dsimp only
    cases g.indexOfLabel name with
    | none => exact same_lift _
    | some address =>
      dsimp only
      cases g.canonicalName name with
      | none => exact same_lift _
      | some label =>
        dsimp only
        refine same_bind (same_location A) fun location => same_bind (h address) fun out => ?_
        obtain ⟨prospect, evs⟩ := out
        cases prospect with
        | notThisWay e => exact same_pure _
        | proceed => exact same_bind (same_location A) fun _ => same_pure _
  | scan sc =>
    cases sc with
    | terminal p => exact same_terminal A g addr instr p
    | special scanner => exact same_special A (hs scanner hi) h g addr instr
    | empty => exact same_pure _
    | exception factor exception => exact same_exception A (h factor) g addr _

theorem same_run {scan : SpecialScanner → Location → RM σ Reaction} {scan' : SpecialScanner → Location → RM τ Reaction} {g : Graph}
    (hs : ∀ addr instr scanner, g.instruction addr = some instr → instr.step = .scan (.special scanner) →
      ∀ d, Same R (scan scanner d) (scan' scanner d)) (fuel : Nat) :
    ∀ next, Same R (runFrom I scan g fuel next) (runFrom J scan' g fuel next) := by
  induction fuel with
  | zero => intro next; exact same_lift _
  | succ fuel ih =>
    intro next
    cases next with
    | none => exact same_pure _
    | some addr =>
      unfold runFrom
      cases hi : g.instruction addr with
      | none => exact same_lift _
      | some instr =>
        dsimp only
        refine same_bind (same_step A (fun a => ih (some a)) _ fuel addr instr fun scanner h => hs addr instr scanner hi h) fun out => ?_
        obtain ⟨prospect, evs⟩ := out
        cases prospect with
        | notThisWay e => exact same_pure _
        | proceed => exact same_bind (ih _) fun _ => same_pure _

/-- On two readers whose methods agree, the machine does the same. -/
theorem same_parse {scan : SpecialScanner → Location → RM σ Reaction} {scan' : SpecialScanner → Location → RM τ Reaction} {m : Machine}
    (hs : ∀ addr instr scanner, m.graph.instruction addr = some instr → instr.step = .scan (.special scanner) →
      ∀ d, Same R (scan scanner d) (scan' scanner d)) (fuel : Nat) : Same R (Dyn.parse I scan m fuel) (Dyn.parse J scan' m fuel) := by
  unfold Dyn.parse
  refine same_bind (same_run A hs fuel _) fun out => ?_
  obtain ⟨prospect, events⟩ := out
  cases prospect with
  | notThisWay e => exact same_lift _
  | proceed =>
    refine same_bind A.isEof fun b => ?_
    cases b with
    | false => exact same_bind (same_errExpected A m.graph none) fun _ => same_lift _
    | true =>
      refine same_get ?_
      intro s t hr
      rw [A.debug s t hr]
      by_cases hd : (J.debug t && !labelsAgree events) = true
      · rw [if_pos hd, if_pos hd]; exact same_lift _ s t hr
      · rw [if_neg hd, if_neg hd]; exact same_pure _ s t hr

theorem same_charsLoop (predicator : Char → Bool) (max : Option Nat) (fuel : Nat) :
    ∀ count, Same R (charsLoop I predicator max fuel count) (charsLoop J predicator max fuel count) := by
  induction fuel with
  | zero => intro count; exact same_lift _
  | succ fuel ih =>
    intro count
    unfold charsLoop
    by_cases hm : ((max.map fun m => decide (count < m)).getD true) = true
    · rw [if_pos hm, if_pos hm]
      refine same_bind A.mark fun m2 => same_bind A.read fun ch => ?_
      cases ch with
      | none => exact same_pure _
      | some ch =>
        dsimp only
        by_cases hp : (!predicator ch) = true
        · rw [if_pos hp, if_pos hp]; exact same_bind (A.resetToMark m2) fun _ => same_pure _
        · rw [if_neg hp, if_neg hp]
          exact same_bind (A.unmark m2) fun _ => same_bind (ih _) fun _ => same_pure _
    · rw [if_neg hm, if_neg hm]; exact same_pure _

theorem same_chars (predicator : Char → Bool) (min max : Option Nat) (d : Location) :
    Same R (charsScan I predicator min max d) (charsScan J predicator min max d) := by
  unfold charsScan
  refine same_bind A.mark fun mark => same_bind (same_location A) fun location => same_get ?_
  intro s t hr
  rw [A.size s t hr]
  refine same_bind (same_charsLoop A predicator max _ 0) (fun buffer => ?_) s t hr
  by_cases hm : ((min.map fun m => decide (buffer.length < m)).getD false) = true
  · rw [if_pos hm, if_pos hm]; exact same_bind (A.resetToMark mark) fun _ => same_pure _
  · rw [if_neg hm, if_neg hm]; exact same_pure _

end Ebnf.Dyn
