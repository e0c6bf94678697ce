import Verif.Model.Steps
import Verif.Proofs.StackMore

set_option autoImplicit false

/-! # The instructions executed, without the reader -/

namespace Ebnf

open Spec

variable {dbg : Bool}

/-- A number of instructions, as a function of the place and the text left. -/
abbrev PCount := Location → Str → Nat

/-- `repetitionSteps` without reader. -/
def cLoop (body : PRun) (count : PCount) (max : Nat) : Nat → Nat → PCount
  | 0, _, _, _ => 0
  | fuel + 1, i, here, rest =>
    if i < max then
      count here rest +
        match body here rest with
        | some (.ok _ n) =>
          if max = u32Max ∧ n = 0 then 0
          else cLoop body count max fuel (i + 1) (lineColumn here (rest.take n)) (rest.drop n)
        | _ => 0
    else 0

/-- `orSteps` without reader. -/
def cOr (run : Nat → PRun) (count : Nat → PCount) : List Nat → PCount
  | [], _, _ => 0
  | a :: l, here, rest =>
    count a here rest +
      match run a here rest with
      | some (.fail _ _ _) => cOr run count l here rest
      | _ => 0

/-- `callSteps` without reader. -/
def cExec (sem : SpecialScanner → Recognizer) (g : Graph) (run : Nat → PRun) (count : Nat → PCount) (fuel : Nat)
    (instr : Instruction) : PCount := fun here rest =>
  match instr.step with
  | .repetition _ max sub => cLoop (run sub) (count sub) max fuel 0 here rest
  | .or subs => cOr run count subs here rest
  | .alias name =>
    match g.indexOfLabel name, g.canonicalName name with
    | some address, some _ => count address here rest
    | _, _ => 0
  | .scan (.terminal _) => 0
  | .scan (.special scanner) =>
    match sem scanner instr.definition here rest with
    | .forward name n =>
      match g.indexOfLabel name with
      | some address => count address (lineColumn here (rest.take n)) (rest.drop n)
      | none => 0
    | _ => 0
  | .scan .empty => 0
  | .scan (.exception factor exception) =>
    count factor here rest +
      match run factor here rest with
      | some (.ok _ n) => count exception here (rest.take n)
      | _ => 0

/-- `stepsFrom` without reader. -/
def csteps (sem : SpecialScanner → Recognizer) (g : Graph) : Nat → Option Nat → PCount
  | 0, _, _, _ => 0
  | _ + 1, none, _, _ => 0
  | fuel + 1, some addr, here, rest =>
    match g.instruction addr with
    | none => 0
    | some instr =>
      1 + cExec sem g (fun a => prun sem g fuel (some a)) (fun a => csteps sem g fuel (some a)) fuel instr here rest +
        match pexec sem g (fun a => prun sem g fuel (some a)) fuel addr instr here rest with
        | some (.ok _ n) => csteps sem g fuel instr.next (lineColumn here (rest.take n)) (rest.drop n)
        | _ => 0

/-! ## The machine on a reader counts what the pure machine counts -/

/-- The count on a reader is the pure count. -/
def Counts (dbg : Bool) (count : Reader → Nat) (p : PCount) : Prop := ∀ r c, Stands dbg r c → count r = p c.location c.rest

theorem counts_loop {body : Run} {pbody : PRun} (hb : Sims dbg body pbody) {count : Reader → Nat} {p : PCount} (hc : Counts dbg count p)
    (max fuel : Nat) : ∀ i, Counts dbg (repetitionSteps body count max fuel i) (cLoop pbody p max fuel i) := by
  induction fuel with
  | zero => intro i r c h; rfl
  | succ fuel ih =>
    intro i r c h
    unfold repetitionSteps cLoop
    by_cases hi : i < max
    · rw [if_pos hi, if_pos hi]
      obtain ⟨m, r1, h1, h2, hx⟩ := mark_run hb h
      have hc' := hc r1 _ h2
      simp only [h1]
      rw [hc']
      congr 1
      have hloc := h.1.loc
      generalize body r1 = x at hx
      generalize hpo : pbody c.location c.rest = o at hx
      obtain ⟨res, r2⟩ := x
      cases o with
      | none => simp only [AgreesM] at hx; subst hx; rfl
      | some o =>
        cases o with
        | ok evs n =>
          obtain ⟨hx1, hx2, own, hx3⟩ := hx
          simp only at hx1; subst hx1
          have hl2 := hx3.1.loc
          rw [moved_location hx2] at hl2
          simp only
          rw [hl2, hloc]
          by_cases hl : max = u32Max ∧ n = 0
          · rw [if_pos hl, if_pos ⟨hl.1, by rw [lineColumn_self_iff, take_eq_nil_iff' hx2]; exact hl.2⟩]
          · rw [if_neg hl, if_neg (by rw [lineColumn_self_iff, take_eq_nil_iff' hx2]; exact hl)]
            rw [ih (i + 1) r2 _ hx3, moved_location hx2, moved_rest]
        | fail e evs n => obtain ⟨hx1, _⟩ := hx; simp only at hx1; subst hx1; rfl
        | abort e => obtain ⟨hx1, _⟩ := hx; simp only at hx1; subst hx1; rfl
        | panic p => simp only [AgreesM] at hx; subst hx; rfl
    · rw [if_neg hi, if_neg hi]

theorem counts_or {run : Nat → Run} {p : Nat → PRun} (hs : ∀ a, Sims dbg (run a) (p a)) {count : Nat → Reader → Nat} {pc : Nat → PCount}
    (hc : ∀ a, Counts dbg (count a) (pc a)) (subs : List Nat) : Counts dbg (orSteps run count subs) (cOr p pc subs) := by
  induction subs with
  | nil => intro r c h; rfl
  | cons a l ih =>
    intro r c h
    obtain ⟨m, r1, h1, h2, hx⟩ := mark_run (hs a) h
    have hc' := hc a r1 _ h2
    unfold orSteps cOr
    simp only [h1]
    rw [hc']
    congr 1
    generalize run a r1 = x at hx
    generalize p a c.location c.rest = o at hx
    obtain ⟨res, r2⟩ := x
    cases o with
    | none => simp only [AgreesM] at hx; subst hx; rfl
    | some o =>
      cases o with
      | ok evs n => obtain ⟨hx1, _⟩ := hx; simp only at hx1; subst hx1; rfl
      | abort e => obtain ⟨hx1, _⟩ := hx; simp only at hx1; subst hx1; rfl
      | panic q => simp only [AgreesM] at hx; subst hx; rfl
      | fail e evs n =>
        obtain ⟨hx1, hx2, own, hx3⟩ := hx
        simp only at hx1; subst hx1
        obtain ⟨k, r3, own', h3, h4⟩ := reset_back hx3
        simp only [h3]
        rw [ih r3 _ h4]
        rfl

theorem counts_exception {runF : Run} {pF : PRun} (hf : Sims dbg runF pF) {countF countX : Reader → Nat} {cF cX : PCount}
    (hcF : Counts dbg countF cF) (hcX : Counts dbg countX cX) :
    Counts dbg (exceptionSteps runF countF countX) (fun here rest =>
      cF here rest +
        match pF here rest with
        | some (.ok _ n) => cX here (rest.take n)
        | _ => 0) := by
  intro r c h
  obtain ⟨m, r1, h1, h2, ha⟩ := mark_run hf h
  have hc' := hcF r1 _ h2
  unfold exceptionSteps
  simp only [h1]
  rw [hc']
  congr 1
  generalize runF r1 = x at ha
  generalize pF c.location c.rest = o at ha
  obtain ⟨res, r2⟩ := x
  cases o with
  | none => simp only [AgreesM] at ha; subst ha; rfl
  | some o =>
    cases o with
    | abort e => obtain ⟨ha1, _⟩ := ha; simp only at ha1; subst ha1; rfl
    | panic q => simp only [AgreesM] at ha; subst ha; rfl
    | fail e evs n => obtain ⟨ha1, _⟩ := ha; simp only at ha1; subst ha1; rfl
    | ok evs n =>
      obtain ⟨ha1, ha2, own, ha3⟩ := ha
      simp only at ha1; subst ha1
      obtain ⟨k, r3, own', h3, h4⟩ := reset_back ha3
      obtain ⟨m', r4, h5, h6⟩ := mark_at h4
      have hsz := size_at h6.1
      have hrest : (⟨c.start, c.text, c.pos, (m', c.pos) :: (own' ++ c.marks)⟩ : Cursor).rest = c.rest := rfl
      have hloc : (⟨c.start, c.text, c.pos, (m', c.pos) :: (own' ++ c.marks)⟩ : Cursor).location = c.location := rfl
      simp only at hsz
      rw [hrest] at hsz
      obtain ⟨r5, h7, h8⟩ := capture_at n (r4.size + 1) r4 _ h6 (by simp) ha2 (by omega)
      simp only [hrest, hloc] at h7
      have hl2 : r2.buffer.location = _ := ha3.1.loc
      rw [moved_location ha2] at hl2
      have hl5 := h8.1.loc
      rw [show (⟨c.start, c.text, c.pos + n, (m', c.pos) :: (own' ++ c.marks)⟩ : Cursor).location = lineColumn c.location (c.rest.take n)
        from moved_location (c := c) ha2] at hl5
      simp only [h3, h5, hl2, h7, hl5, h.1.loc]
      rw [if_neg (by simp), h6.2]
      have hrep : Stands dbg (Reader.withLocation c.location (.buffered (c.rest.take n)) dbg)
          ⟨c.location, c.rest.take n, 0, []⟩ :=
        ⟨(new_rep ⟨[], rfl, by simp [Source.buffered]⟩ dbg).toRep, rfl⟩
      have hxx := hcX _ _ hrep
      have hr0 : (⟨c.location, c.rest.take n, 0, []⟩ : Cursor).rest = c.rest.take n := rfl
      have hl0 : (⟨c.location, c.rest.take n, 0, []⟩ : Cursor).location = c.location := by
        simp [Cursor.location, lineColumn_nil]
      rw [hr0, hl0] at hxx
      exact hxx

theorem counts_special {g : Graph} {instr : Instruction} {scanner : SpecialScanner} {f : Recognizer}
    (hb : Behaves dbg scanner f) {count : Nat → Reader → Nat} {pc : Nat → PCount} (hc : ∀ a, Counts dbg (count a) (pc a)) :
    Counts dbg (specialSteps g instr scanner count) (fun here rest =>
      match f instr.definition here rest with
      | .forward name n =>
        match g.indexOfLabel name with
        | some address => pc address (lineColumn here (rest.take n)) (rest.drop n)
        | none => 0
      | _ => 0) := by
  intro r c h
  obtain ⟨m, r1, h1, h2⟩ := mark_at h
  have hb' := hb instr.definition r1 _ h2.1 h2.2 (by simp)
  have e1 : (⟨c.start, c.text, c.pos, (m, c.pos) :: c.marks⟩ : Cursor).location = c.location := rfl
  have e2 : (⟨c.start, c.text, c.pos, (m, c.pos) :: c.marks⟩ : Cursor).rest = c.rest := rfl
  rw [e1, e2] at hb'
  unfold specialSteps
  simp only [h1]
  generalize f instr.definition c.location c.rest = o at hb'
  cases o with
  | accept evs n => obtain ⟨r2, own, h3, _⟩ := hb'; simp only [h3]
  | unmatched => obtain ⟨r2, own, pp, h3, _⟩ := hb'; simp only [h3]
  | error e => obtain ⟨r2, own, p, h3, _⟩ := hb'; simp only [h3]
  | forward name n =>
    obtain ⟨r2, own, h3, h4, h5, h6⟩ := hb'
    have h56 : Stands dbg r2 ⟨c.start, c.text, c.pos + n, own ++ (m, c.pos) :: c.marks⟩ := ⟨h5, h6⟩
    simp only [h3]
    cases hl : g.indexOfLabel name with
    | none => rfl
    | some address =>
      obtain ⟨r3, own', h7, h8⟩ := unmark_back h56
      have hnn : n ≤ c.rest.length := h4
      simp only [h7]
      rw [hc address r3 _ h8, moved_location hnn, moved_rest]

theorem counts_step {sem : SpecialScanner → Recognizer} {g : Graph} (hg : GraphBehaves dbg sem g) {run : Nat → Run}
    {p : Nat → PRun} (hs : ∀ a, Sims dbg (run a) (p a)) {count : Nat → Reader → Nat} {pc : Nat → PCount}
    (hc : ∀ a, Counts dbg (count a) (pc a)) (fuel addr : Nat) (instr : Instruction) (hi : g.instruction addr = some instr) :
    Counts dbg (callSteps g run count fuel instr) (cExec sem g p pc fuel instr) := by
  intro r c h
  unfold callSteps cExec
  cases hst : instr.step with
  | repetition min max sub => exact counts_loop (hs sub) (hc sub) max fuel 0 r c h
  | or subs => exact counts_or hs hc subs r c h
  | alias name =>
    simp only
    cases g.indexOfLabel name with
    | none => rfl
    | some address =>
      cases g.canonicalName name with
      | none => rfl
      | some label => exact hc address r c h
  | scan sc =>
    cases sc with
    | terminal s => rfl
    | special scanner => exact counts_special (hg addr instr scanner hi hst) hc r c h
    | empty => rfl
    | exception f x => exact counts_exception (hs f) (hc f) (hc x) r c h

/-- The machine on a reader executes as many instructions as the pure machine. -/
theorem counts_steps {sem : SpecialScanner → Recognizer} {g : Graph} (hg : GraphBehaves dbg sem g) (fuel : Nat) :
    ∀ next, Counts dbg (stepsFrom g fuel next) (csteps sem g fuel next) := by
  induction fuel with
  | zero => intro next r c h; rfl
  | succ fuel ih =>
    intro next r c h
    cases next with
    | none => rfl
    | some addr =>
      unfold stepsFrom csteps
      cases hi : g.instruction addr with
      | none => rfl
      | some instr =>
        simp only
        rw [counts_step hg (fun a => sims_run hg fuel (some a)) (fun a => ih (some a)) fuel addr instr hi r c h]
        congr 1
        have ha := sims_step hg (fun a => sims_run hg fuel (some a)) fuel addr instr hi r c h
        generalize execStep g (fun a => runFrom g fuel (some a)) fuel addr instr r = x at ha
        generalize pexec sem g (fun a => prun sem g fuel (some a)) fuel addr instr c.location c.rest = o at ha
        obtain ⟨res, r1⟩ := x
        cases o with
        | none => have : res = .diverge := ha; subst this; rfl
        | some o =>
          cases o with
          | ok evs n =>
            obtain ⟨a1, a2, own, a3⟩ := ha
            simp only at a1; subst a1
            simp only
            rw [ih instr.next r1 _ a3, moved_location a2, moved_rest]
          | fail e evs k => obtain ⟨a1, a2⟩ := ha; simp only at a1; subst a1; rfl
          | abort e => obtain ⟨a1, a2⟩ := ha; simp only at a1; subst a1; rfl
          | panic q => have : res = .panic q := ha; subst this; rfl

end Ebnf
