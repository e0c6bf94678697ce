import Verif.Model.MeterInner
import Verif.Proofs.MeterWork

set_option autoImplicit false

/-! # Lemmas: what a parse costs, with the readers that exceptions make (C105) -/

namespace Ebnf.Meter

open Ebnf.Spec Ebnf.Dyn

variable {N C A K W Q : Nat} {s : Metered}

/-! ## Instructions executed on one reader -/

/-- `callSteps` without what is executed on the readers of exceptions. -/
def directStep (g : Graph) (run : Nat → Run) (count : Nat → Reader → Nat) (fuel : Nat) (instr : Instruction) (r : Reader) : Nat :=
  match instr.step with
  | .scan (.exception factor _) => exceptionSteps (run factor) (count factor) (fun _ => 0) r
  | _ => callSteps g run count fuel instr r

/-- `stepsFrom` without what is executed on the readers of exceptions. -/
def directFrom (g : Graph) : Nat → Option Nat → Reader → Nat
  | 0, _, _ => 0
  | _ + 1, none, _ => 0
  | fuel + 1, some addr, r =>
    match g.instruction addr with
    | none => 0
    | some instr =>
      1 + directStep g (fun a => Ebnf.runFrom g fuel (some a)) (fun a => directFrom g fuel (some a)) fuel instr r +
        match Ebnf.execStep g (fun a => Ebnf.runFrom g fuel (some a)) fuel addr instr r with
        | (.ok (.proceed, _), r') => directFrom g fuel instr.next r'
        | _ => 0

theorem exception_zero (run : Run) (count : Reader → Nat) (r : Reader) :
    exceptionSteps run count (fun _ => 0) r = match Reader.mark r with | (.ok _, r1) => count r1 | _ => 0 := by
  unfold exceptionSteps
  obtain ⟨x, r1⟩ := Reader.mark r
  cases x with
  | ok m =>
    simp only
    obtain ⟨y, r2⟩ := run r1
    cases y with
    | ok pe =>
      obtain ⟨p, evs⟩ := pe
      cases p with
      | proceed =>
        simp only
        obtain ⟨z, r3⟩ := Reader.resetToMark m r2
        cases z with
        | ok z =>
          simp only
          obtain ⟨w, r4⟩ := Reader.mark r3
          cases w with
          | ok w =>
            simp only
            obtain ⟨v, r5⟩ := Ebnf.captureLoop r2.buffer.location (r4.size + 1) r4
            cases v <;> simp
          | _ => rfl
        | _ => rfl
      | notThisWay e => rfl
    | _ => rfl
  | _ => rfl

/-! ## Capturing -/

theorem loop_capture (endLoc : Location) (fuel : Nat) : ∀ {s : Metered}, Sound s.reader →
    LoopFacts (left s.reader) s (Dyn.captureLoop Metered.required.methods endLoc fuel s) := by
  induction fuel with
  | zero => intro s hs; exact loop_pure hs _ _
  | succ fuel ih =>
    intro s hs
    unfold Dyn.captureLoop
    simp only [RM.bind_run, tell]
    by_cases hc : s.reader.buffer.location.lines < endLoc.lines ∨ s.reader.buffer.location.columns < endLoc.columns
    · rw [if_pos hc]
      have h1 := read_got hs
      have h2 := (read_left hs).1
      refine loop_bind (x := Metered.required.read) (fun _ => left s.reader - left (Metered.required.read s).2.reader) h1 (Nat.sub_le _ _) fun o _ => ?_
      have h3 := ih h1.sound
      have e : left s.reader - (left s.reader - left (Metered.required.read s).2.reader) = left (Metered.required.read s).2.reader := by omega
      rw [e]
      cases o with
      | none => exact h3
      | some ch => exact loop_bind (fun _ => left (Metered.required.read s).2.reader) h3 (Nat.le_refl _) fun _ _ => loop_pure h3.sound _ _
    · rw [if_neg hc]
      exact loop_pure hs _ _

theorem capture_length (endLoc : Location) (fuel : Nat) : ∀ {s : Metered}, Sound s.reader → ∀ buffer,
    (Dyn.captureLoop Metered.required.methods endLoc fuel s).1 = .ok buffer → buffer.length ≤ left s.reader := by
  induction fuel with
  | zero => intro s hs buffer h; cases h
  | succ fuel ih =>
    intro s hs buffer h
    unfold Dyn.captureLoop at h
    simp only [RM.bind_run, tell] at h
    by_cases hc : s.reader.buffer.location.lines < endLoc.lines ∨ s.reader.buffer.location.columns < endLoc.columns
    · rw [if_pos hc] at h
      obtain ⟨o, h1, h2, _⟩ := bind_ok h
      have h3 := read_left hs
      have h4 := ih (read_got hs).sound
      change (Metered.required.read s).1 = .ok o at h1
      cases o with
      | none => have := h4 buffer h2; omega
      | some ch =>
        obtain ⟨more, h5, h6, _⟩ := bind_ok h2
        have h7 := h4 more h5
        have h8 := h3.2 ch h1
        cases h6
        simp only [List.length_cons]
        omega
    · rw [if_neg hc] at h
      cases h
      exact Nat.zero_le _

/-! ## What happens on one reader -/

theorem works_exception {g : Graph} {addr : Nat} {run : RM Metered (Prospect × List Event)} {plain inner : Run} {count : Reader → Nat}
    (hC : 2 * N + 20 ≤ C) (hA : 10 ≤ A) (hp : Plain run plain) (hw : Works N C A run count) (hs : Sound s.reader) (hN : s.reader.size ≤ N) :
    Cost (C * exceptionSteps plain count (fun _ => 0) s.reader + C) (A * exceptionSteps plain count (fun _ => 0) s.reader + (A - 2)) s
      (Dyn.scanException Metered.required.methods g addr run inner s) := by
  rw [exception_zero]
  unfold Dyn.scanException
  rw [plain_mark s hs]
  simp only [RM.bind_run, tell]
  have h1 : Cost 0 2 s (Metered.required.methods.mark s) := cost_mark hs
  generalize Metered.required.methods.mark s = x at h1
  obtain ⟨x, s1⟩ := x
  cases x with
  | err e => exact (h1.stop nofun).mono (by omega) (by omega)
  | panic e => exact (h1.stop nofun).mono (by omega) (by omega)
  | diverge => exact (h1.stop nofun).mono (by omega) (by omega)
  | ok m =>
    simp only
    have hN1 := Nat.le_trans h1.size hN
    obtain ⟨h2, _⟩ := hw s1 h1.sound hN1
    generalize run s1 = y at h2
    obtain ⟨y, s2⟩ := y
    have h4 := h1.trans h2
    have hN2 := Nat.le_trans h2.size hN1
    cases y with
    | err e => exact (h4.stop nofun).mono (by omega) (by omega)
    | panic e => exact (h4.stop nofun).mono (by omega) (by omega)
    | diverge => exact (h4.stop nofun).mono (by omega) (by omega)
    | ok pe =>
      obtain ⟨p, evs⟩ := pe
      have h5 : Cost 0 0 s2 (Metered.required.methods.resetToMark m s2) := cost_reset m h2.sound
      cases p with
      | notThisWay e =>
        simp only [RM.bind_run]
        generalize Metered.required.methods.resetToMark m s2 = z at h5
        obtain ⟨z, s3⟩ := z
        have h6 := (h4.trans h5).mono (c' := C * count s1.reader + C) (d' := A * count s1.reader + (A - 2)) (by omega) (by omega)
        cases z with
        | ok z => exact h6.pure _
        | err e => exact h6.stop nofun
        | panic e => exact h6.stop nofun
        | diverge => exact h6.stop nofun
      | proceed =>
        simp only [RM.bind_run, tell]
        generalize Metered.required.methods.resetToMark m s2 = z at h5
        obtain ⟨z, s3⟩ := z
        have h6 := h4.trans h5
        cases z with
        | err e => exact (h6.stop nofun).mono (by omega) (by omega)
        | panic e => exact (h6.stop nofun).mono (by omega) (by omega)
        | diverge => exact (h6.stop nofun).mono (by omega) (by omega)
        | ok z =>
          simp only
          have h7 : Cost 0 2 s3 (Metered.required.methods.mark s3) := cost_mark h5.sound
          have hN3 := Nat.le_trans h5.size hN2
          generalize Metered.required.methods.mark s3 = w at h7
          obtain ⟨w, s4⟩ := w
          have h8 := h6.trans h7
          cases w with
          | err e => exact (h8.stop nofun).mono (by omega) (by omega)
          | panic e => exact (h8.stop nofun).mono (by omega) (by omega)
          | diverge => exact (h8.stop nofun).mono (by omega) (by omega)
          | ok m2 =>
            simp only [RM.get_run]
            have hl := loop_capture s2.reader.buffer.location (Metered.required.methods.size s4 + 1) h7.sound (s := s4)
            have hN4 : left s4.reader ≤ N := Nat.le_trans left_le (Nat.le_trans h7.size hN3)
            have h9 := cost_loop hl
            generalize Dyn.captureLoop Metered.required.methods s2.reader.buffer.location (Metered.required.methods.size s4 + 1) s4 = v at h9
            obtain ⟨v, s5⟩ := v
            have h10 := (h8.trans h9).mono (c' := C * count s1.reader + 2 * N) (d' := A * count s1.reader + 4) (by omega) (by omega)
            cases v with
            | err e => exact (h10.stop nofun).mono (by omega) (by omega)
            | panic e => exact (h10.stop nofun).mono (by omega) (by omega)
            | diverge => exact (h10.stop nofun).mono (by omega) (by omega)
            | ok buffer =>
              simp only
              by_cases hd : (Metered.required.methods.debug s4 && decide (s5.reader.buffer.location ≠ s2.reader.buffer.location)) = true
              · rw [if_pos hd]
                exact (h10.pure _).mono (by omega) (by omega)
              · rw [if_neg hd]
                simp only [RM.bind_run, RM.lift_run]
                generalize (_ : Res Bool × Reader).1 = t
                cases t with
                | err e => exact (h10.stop nofun).mono (by omega) (by omega)
                | panic e => exact (h10.stop nofun).mono (by omega) (by omega)
                | diverge => exact (h10.stop nofun).mono (by omega) (by omega)
                | ok excluded =>
                  cases excluded with
                  | false => exact (h10.pure _).mono (by omega) (by omega)
                  | true =>
                    simp only [if_true, RM.bind_run]
                    have h11 : Cost 0 0 s5 (Metered.required.methods.resetToMark m2 s5) := cost_reset m2 h9.sound
                    generalize Metered.required.methods.resetToMark m2 s5 = u at h11
                    obtain ⟨u, s6⟩ := u
                    have h12 := h10.trans h11
                    cases u with
                    | err e => exact (h12.stop nofun).mono (by omega) (by omega)
                    | panic e => exact (h12.stop nofun).mono (by omega) (by omega)
                    | diverge => exact (h12.stop nofun).mono (by omega) (by omega)
                    | ok u =>
                      simp only
                      have h13 := cost_errExpected g (some addr) h11.sound
                      simp only at h13
                      generalize Dyn.errExpected Metered.required.methods g (some addr) s6 = q at h13
                      obtain ⟨q, s7⟩ := q
                      have h14 := (h12.trans h13).mono (c' := C * count s1.reader + C) (d' := A * count s1.reader + (A - 2)) (by omega) (by omega)
                      cases q with
                      | ok q => exact h14.pure _
                      | err e => exact h14.stop nofun
                      | panic e => exact h14.stop nofun
                      | diverge => exact h14.stop nofun

theorem works_direct {scan : SpecialScanner → Location → RM Metered Reaction} {g : Graph} {D : Nat} (hC : 4 * D + 2 * N + 20 ≤ C)
    (hA : 2 * D + 12 ≤ A) {run : Nat → RM Metered (Prospect × List Event)} {plain : Nat → Run} {inner : Nat → Run} {count : Nat → Reader → Nat}
    (hp : ∀ a, Plain (run a) (plain a)) (hw : ∀ a, Works N C A (run a) (count a)) (fuel addr : Nat) {instr : Instruction}
    (hl : match instr.step with
      | .scan (.terminal p) => p.length ≤ D
      | .scan (.special scanner) => ScanWithin N D scanner (scan scanner)
      | _ => True)
    (hscan : ∀ scanner, instr.step = .scan (.special scanner) → Plain (scan scanner instr.definition) (scanner.scan instr.definition))
    (hs : Sound s.reader) (hN : s.reader.size ≤ N) :
    Cost (C * directStep g plain count fuel instr s.reader + C) (A * directStep g plain count fuel instr s.reader + (A - 2)) s
      (Dyn.execStep Metered.required.methods scan g run inner fuel addr instr s) := by
  have key : (∀ a b, instr.step ≠ .scan (.exception a b)) → directStep g plain count fuel instr s.reader = callSteps g plain count fuel instr s.reader →
      Cost (C * directStep g plain count fuel instr s.reader + C) (A * directStep g plain count fuel instr s.reader + (A - 2)) s
        (Dyn.execStep Metered.required.methods scan g run inner fuel addr instr s) := by
    intro hne e
    rw [e]
    refine works_step (by omega) hA hp hw fuel addr ?_ hscan hs hN
    revert hl hne
    cases instr.step with
    | scan sc =>
      cases sc with
      | exception a b => intro _ hne; exact absurd rfl (hne a b)
      | _ => intro hl _; exact hl
    | _ => intro hl _; exact hl
  cases hstep : instr.step with
  | scan sc =>
    cases sc with
    | exception a b =>
      unfold directStep Dyn.execStep
      rw [hstep]
      exact works_exception (by omega) (by omega) (hp a) (hw a) hs hN
    | _ => exact key (fun _ _ h => by rw [hstep] at h; cases h) (by unfold directStep; rw [hstep])
  | _ => exact key (fun _ _ h => by rw [hstep] at h; cases h) (by unfold directStep; rw [hstep])

theorem library_reads {scan : SpecialScanner → Location → RM Metered Reaction} {g : Graph} {D : Nat} (hl : ReadsWithin N D scan g) :
    LibraryScanners Metered.required.methods scan g := by
  intro addr instr scanner h1 h2
  have := hl addr instr h1
  rw [h2] at this
  exact library_of this

theorem works_all {scan : SpecialScanner → Location → RM Metered Reaction} {g : Graph} {D : Nat} (hC : 4 * D + 2 * N + 20 ≤ C)
    (hA : 2 * D + 12 ≤ A) (hl : ReadsWithin N D scan g) (fuel : Nat) : ∀ addr,
    Works N C A (Dyn.runFrom Metered.required.methods scan g fuel (some addr)) (directFrom g fuel (some addr)) := by
  have hlib := library_reads hl
  induction fuel with
  | zero => intro addr s hs _; exact ⟨(cost_here hs _).mono (Nat.zero_le _) (Nat.zero_le _), nofun⟩
  | succ fuel ih =>
    intro addr s hs hN
    rw [Dyn.runFrom, directFrom]
    cases hi : g.instruction addr with
    | none => exact ⟨(cost_here hs _).mono (Nat.zero_le _) (Nat.zero_le _), nofun⟩
    | some instr =>
      simp only
      refine ⟨?_, fun _ _ => by omega⟩
      have h1 := works_direct (g := g) hC hA (inner := fun a => Ebnf.runFrom g fuel (some a)) (fun a => plain_run hlib fuel (some a)) ih fuel addr (hl addr instr hi)
        (fun scanner h2 => plain_of (paid_scan (hlib addr instr scanner hi h2) _)) hs hN (s := s)
      rw [plain_step hlib fuel fuel addr hi s hs]
      simp only [RM.bind_run]
      generalize Dyn.execStep Metered.required.methods scan g (fun a => Dyn.runFrom Metered.required.methods scan g fuel (some a))
        (fun a => Ebnf.runFrom g fuel (some a)) fuel addr instr s = x at h1
      generalize directStep g (fun a => Ebnf.runFrom g fuel (some a)) (fun a => directFrom g fuel (some a)) fuel instr s.reader = k at h1
      have e1 : ∀ n, C * k + C + C * n = C * (1 + k + n) := fun n => by simp only [Nat.mul_add]; omega
      have e2 : ∀ n, A * k + A + A * n = A * (1 + k + n) := fun n => by simp only [Nat.mul_add]; omega
      obtain ⟨x, s1⟩ := x
      have h0 := h1.mono (c' := C * (1 + k + 0)) (d' := A * (1 + k + 0) - 2) (by have := e1 0; omega) (by have := e2 0; omega)
      cases x with
      | ok out =>
        obtain ⟨p, evs⟩ := out
        cases p with
        | notThisWay e => exact h0.pure _
        | proceed =>
          simp only [RM.bind_run]
          have h2 : Cost (C * directFrom g fuel instr.next s1.reader) (A * directFrom g fuel instr.next s1.reader) s1
              (Dyn.runFrom Metered.required.methods scan g fuel instr.next s1) := by
            cases instr.next with
            | some a => exact (ih a s1 h1.sound (Nat.le_trans h1.size hN)).1.mono (Nat.le_refl _) (Nat.sub_le _ _)
            | none =>
              cases fuel with
              | zero => exact (cost_here h1.sound _).mono (Nat.zero_le _) (Nat.zero_le _)
              | succ fuel => exact (cost_here h1.sound _).mono (Nat.zero_le _) (Nat.zero_le _)
          generalize Dyn.runFrom Metered.required.methods scan g fuel instr.next s1 = y at h2
          generalize directFrom g fuel instr.next s1.reader = n at h2
          obtain ⟨y, s2⟩ := y
          have h3 := (h1.trans h2).mono (c' := C * (1 + k + n)) (d' := A * (1 + k + n) - 2) (by have := e1 n; omega) (by have := e2 n; omega)
          cases y with
          | ok y => exact h3.pure _
          | err e => exact h3.stop nofun
          | panic e => exact h3.stop nofun
          | diverge => exact h3.stop nofun
      | err e => exact h0.stop nofun
      | panic e => exact h0.stop nofun
      | diverge => exact h0.stop nofun

/-! ## The readers of exceptions -/

/-- Readers stay in order, and do not get more to read. -/
def Stays (N : Nat) {α : Type} (x : RM Reader α) : Prop := ∀ r, Sound r → r.size ≤ N → Sound (x r).2 ∧ (x r).2.size ≤ N

theorem stays_of {α : Type} {x : RM Metered α} {y : RM Reader α} (hp : Plain x y)
    (hc : ∀ s, Sound s.reader → s.reader.size ≤ N → ∃ c d, Cost c d s (x s)) : Stays N y := by
  intro r hs hN
  obtain ⟨c, d, h⟩ := hc (Metered.start r) hs hN
  have e : y r = _ := hp (Metered.start r) hs
  rw [e]
  exact ⟨h.sound, Nat.le_trans h.size hN⟩

theorem stays_mark : Stays N Reader.mark := stays_of plain_mark fun _ hs _ => ⟨_, _, cost_mark hs⟩

theorem stays_reset (m : Nat) : Stays N (Reader.resetToMark m) := stays_of (plain_reset m) fun _ hs _ => ⟨_, _, cost_reset m hs⟩

theorem stays_unmark (m : Nat) : Stays N (Reader.unmark m) := stays_of (plain_unmark m) fun _ hs _ => ⟨_, _, cost_unmark m hs⟩

theorem stays_run {scan : SpecialScanner → Location → RM Metered Reaction} {g : Graph} {D : Nat} (hl : ReadsWithin N D scan g) (fuel addr : Nat) :
    Stays N (Ebnf.runFrom g fuel (some addr)) :=
  stays_of (plain_run (library_reads hl) fuel (some addr)) fun s hs hN =>
    ⟨_, _, (works_all (C := 4 * D + 2 * N + 20) (A := 2 * D + 12) (Nat.le_refl _) (Nat.le_refl _) hl fuel addr s hs hN).1⟩

/-- The three numbers of one call: of steps on the readers of exceptions, of instructions on this reader, of instructions in all. -/
def Weighs (N K W : Nat) (c1 c2 c3 : Reader → Nat) : Prop := ∀ r, Sound r → r.size ≤ N → c1 r + K * c2 r ≤ W * c3 r

theorem weighs_loop {body : Run} {c1 c2 c3 : Reader → Nat} (hb : Stays N body) (hw : Weighs N K W c1 c2 c3) (max fuel : Nat) : ∀ i,
    Weighs N K W (repetitionSteps body c1 max fuel i) (repetitionSteps body c2 max fuel i) (repetitionSteps body c3 max fuel i) := by
  induction fuel with
  | zero => intro i r _ _; simp [repetitionSteps]
  | succ fuel ih =>
    intro i r hs hN
    unfold repetitionSteps
    by_cases hi : i < max
    · rw [if_pos hi, if_pos hi, if_pos hi]
      have h1 := stays_mark r hs hN
      generalize Reader.mark r = x at h1
      obtain ⟨x, r1⟩ := x
      cases x with
      | ok m =>
        simp only
        have h2 := hw r1 h1.1 h1.2
        have h3 := hb r1 h1.1 h1.2
        generalize body r1 = y at h3
        obtain ⟨y, r2⟩ := y
        cases y with
        | ok pe =>
          obtain ⟨p, evs⟩ := pe
          cases p with
          | proceed =>
            simp only
            by_cases hx : max = u32Max ∧ r2.buffer.location = r.buffer.location
            · rw [if_pos hx, if_pos hx, if_pos hx]; exact h2
            · rw [if_neg hx, if_neg hx, if_neg hx]
              have h4 := ih (i + 1) r2 h3.1 h3.2
              rw [Nat.mul_add, Nat.mul_add]
              omega
          | notThisWay e => exact h2
        | err e => exact h2
        | panic e => exact h2
        | diverge => exact h2
      | err e => simp
      | panic e => simp
      | diverge => simp
    · rw [if_neg hi, if_neg hi, if_neg hi]
      simp

theorem weighs_or {run : Nat → Run} {c1 c2 c3 : Nat → Reader → Nat} (hb : ∀ a, Stays N (run a)) (hw : ∀ a, Weighs N K W (c1 a) (c2 a) (c3 a)) :
    ∀ subs, Weighs N K W (orSteps run c1 subs) (orSteps run c2 subs) (orSteps run c3 subs)
  | [], r, _, _ => by simp [orSteps]
  | sub :: subs, r, hs, hN => by
    unfold orSteps
    have h1 := stays_mark r hs hN
    generalize Reader.mark r = x at h1
    obtain ⟨x, r1⟩ := x
    cases x with
    | ok m =>
      simp only
      have h2 := hw sub r1 h1.1 h1.2
      have h3 := hb sub r1 h1.1 h1.2
      generalize run sub r1 = y at h3
      obtain ⟨y, r2⟩ := y
      cases y with
      | ok pe =>
        obtain ⟨p, evs⟩ := pe
        cases p with
        | proceed => exact h2
        | notThisWay e =>
          simp only
          have h4 := stays_reset m r2 h3.1 h3.2
          generalize Reader.resetToMark m r2 = z at h4
          obtain ⟨z, r3⟩ := z
          cases z with
          | ok z =>
            simp only
            have h5 := weighs_or hb hw subs r3 h4.1 h4.2
            rw [Nat.mul_add, Nat.mul_add]
            omega
          | err e => exact h2
          | panic e => exact h2
          | diverge => exact h2
      | err e => exact h2
      | panic e => exact h2
      | diverge => exact h2
    | err e => simp
    | panic e => simp
    | diverge => simp

theorem weighs_special {g : Graph} {instr : Instruction} {scanner : SpecialScanner} {c1 c2 c3 : Nat → Reader → Nat}
    (hb : Stays N (scanner.scan instr.definition)) (hw : ∀ a, Weighs N K W (c1 a) (c2 a) (c3 a)) :
    Weighs N K W (specialSteps g instr scanner c1) (specialSteps g instr scanner c2) (specialSteps g instr scanner c3) := by
  intro r hs hN
  unfold specialSteps
  have h1 := stays_mark r hs hN
  generalize Reader.mark r = x at h1
  obtain ⟨x, r1⟩ := x
  cases x with
  | ok m =>
    simp only
    have h3 := hb r1 h1.1 h1.2
    generalize scanner.scan instr.definition r1 = y at h3
    obtain ⟨y, r2⟩ := y
    cases y with
    | ok reaction =>
      cases reaction with
      | forward name =>
        simp only
        cases g.indexOfLabel name with
        | none => simp
        | some next =>
          simp only
          have h4 := stays_unmark m r2 h3.1 h3.2
          generalize Reader.unmark m r2 = z at h4
          obtain ⟨z, r3⟩ := z
          cases z with
          | ok z => exact hw next r3 h4.1 h4.2
          | err e => simp
          | panic e => simp
          | diverge => simp
      | «match» evs => simp
      | unmatch => simp
    | err e => simp
    | panic e => simp
    | diverge => simp
  | err e => simp
  | panic e => simp
  | diverge => simp

theorem plain_capture (endLoc : Location) (fuel : Nat) :
    Plain (Dyn.captureLoop Metered.required.methods endLoc fuel) (Ebnf.captureLoop endLoc fuel) := by
  rw [← capture_same, ← own_eq]
  exact plain_of (same_capture paid_agree endLoc fuel)

theorem weighs_exception {run : Run} {c1 c2 c3 e1 e3 : Reader → Nat} (hb : Stays N run) (hw : Weighs N K W c1 c2 c3)
    (he : ∀ location buffer dbg, buffer.length ≤ N →
      e1 (Reader.withLocation location (.buffered buffer) dbg) ≤ W * e3 (Reader.withLocation location (.buffered buffer) dbg) + Q) : ∀ r, Sound r → r.size ≤ N →
    exceptionSteps run c1 e1 r + K * exceptionSteps run c2 (fun _ => 0) r ≤ W * exceptionSteps run c3 e3 r + Q := by
  intro r hs hN
  rw [exception_zero]
  unfold exceptionSteps
  have h1 := stays_mark r hs hN
  generalize Reader.mark r = x at h1
  obtain ⟨x, r1⟩ := x
  cases x with
  | err e => simp
  | panic e => simp
  | diverge => simp
  | ok m =>
    simp only
    have h2 := hw r1 h1.1 h1.2
    have h3 := hb r1 h1.1 h1.2
    generalize run r1 = y at h3
    obtain ⟨y, r2⟩ := y
    cases y with
    | err e => simp only [Nat.add_zero]; omega
    | panic e => simp only [Nat.add_zero]; omega
    | diverge => simp only [Nat.add_zero]; omega
    | ok pe =>
      obtain ⟨p, evs⟩ := pe
      cases p with
      | notThisWay e => simp only [Nat.add_zero]; omega
      | proceed =>
        simp only
        have h4 := stays_reset m r2 h3.1 h3.2
        generalize Reader.resetToMark m r2 = z at h4
        obtain ⟨z, r3⟩ := z
        cases z with
        | err e => simp only [Nat.add_zero]; omega
        | panic e => simp only [Nat.add_zero]; omega
        | diverge => simp only [Nat.add_zero]; omega
        | ok z =>
          simp only
          have h5 := stays_mark r3 h4.1 h4.2
          generalize Reader.mark r3 = w at h5
          obtain ⟨w, r4⟩ := w
          cases w with
          | err e => simp only [Nat.add_zero]; omega
          | panic e => simp only [Nat.add_zero]; omega
          | diverge => simp only [Nat.add_zero]; omega
          | ok m2 =>
            simp only
            have h6 := plain_capture r2.buffer.location (r4.size + 1) (Metered.start r4) h5.1
            have h7 := capture_length r2.buffer.location (r4.size + 1) (s := Metered.start r4) h5.1
            change Ebnf.captureLoop r2.buffer.location (r4.size + 1) r4 = _ at h6
            rw [h6]
            generalize Dyn.captureLoop Metered.required.methods r2.buffer.location (r4.size + 1) (Metered.start r4) = v at h7
            obtain ⟨v, s5⟩ := v
            cases v with
            | err e => simp only [Nat.add_zero]; omega
            | panic e => simp only [Nat.add_zero]; omega
            | diverge => simp only [Nat.add_zero]; omega
            | ok buffer =>
              have h7 : buffer.length ≤ left r4 := h7 buffer rfl
              simp only
              by_cases hd : (r4.buffer.dbg && decide (s5.reader.buffer.location ≠ r2.buffer.location)) = true
              · rw [if_pos hd, if_pos hd, Nat.add_zero, Nat.add_zero]; omega
              · rw [if_neg hd, if_neg hd]
                have h8 := he r.buffer.location buffer r4.buffer.dbg (by have : left r4 ≤ N := Nat.le_trans left_le h5.2; omega)
                rw [Nat.mul_add]
                omega

theorem stays_step {scan : SpecialScanner → Location → RM Metered Reaction} {g : Graph} {D : Nat} (hl : ReadsWithin N D scan g) (fuel addr : Nat)
    {instr : Instruction} (hi : g.instruction addr = some instr) :
    Stays N (Ebnf.execStep g (fun a => Ebnf.runFrom g fuel (some a)) fuel addr instr) := by
  have hlib := library_reads hl
  exact stays_of (plain_step hlib fuel fuel addr hi) fun s hs hN =>
    ⟨_, _, works_direct (C := 4 * D + 2 * N + 20) (A := 2 * D + 12) (Nat.le_refl _) (Nat.le_refl _) (inner := fun a => Ebnf.runFrom g fuel (some a))
      (fun a => plain_run hlib fuel (some a)) (works_all (Nat.le_refl _) (Nat.le_refl _) hl fuel) fuel addr (hl addr instr hi)
      (fun scanner h2 => plain_of (paid_scan (hlib addr instr scanner hi h2) _)) hs hN⟩

theorem isEof_eq : Reader.required.isEof = Reader.isEof := congrArg Methods.isEof Props.c98_same

theorem same_test {scan : SpecialScanner → Location → RM Metered Reaction} {g : Graph} (hlib : LibraryScanners Metered.required.methods scan g)
    (fuel exception : Nat) (P : Nat → Prop) :
    Same (Paid P) (testException scan g fuel exception) (do
      let (p, _) ← Ebnf.runFrom g fuel (some exception)
      match p with
      | .proceed => Reader.required.isEof
      | .notThisWay _ => pure false) := by
  have h := same_run (R := Paid P) paid_agree (fun addr instr scanner h1 h2 d => paid_scan (hlib addr instr scanner h1 h2) d) fuel (some exception)
  rw [own_eq, run_same] at h
  unfold testException
  refine same_bind h fun out => ?_
  obtain ⟨p, evs⟩ := out
  cases p with
  | proceed => exact paid_isEof
  | notThisWay e => exact same_pure _

theorem works_test {scan : SpecialScanner → Location → RM Metered Reaction} {g : Graph} {D : Nat} (hl : ReadsWithin N D scan g) (fuel exception : Nat)
    (location : Location) {buffer : Str} (dbg : Bool) (hN : buffer.length ≤ N) :
    (testException scan g fuel exception (Metered.start (Reader.withLocation location (.buffered buffer) dbg))).2.total ≤
      (10 * D + 2 * N + 56) * directFrom g fuel (some exception) (Reader.withLocation location (.buffered buffer) dbg) +
        (N * (N + 1) / 2 + 11) := by
  have hs : Sound (Reader.withLocation location (.buffered buffer) dbg) := sound_new _ _ _
  have hsize : (Reader.withLocation location (.buffered buffer) dbg).size ≤ N := by
    rw [size_eq]
    simp [Reader.withLocation, UnreadBuffer.new, leftIn, Source.buffered]
    exact hN
  have h1 := (same_test (library_reads hl) fuel exception (fun k => k ≤ buffer.length * (buffer.length + 1))
    (Metered.start (Reader.withLocation location (.buffered buffer) dbg)) _ ⟨rfl, by
      simp [Metered.start, Reader.withLocation, stepsTwice, Source.buffered], hs⟩).2.2.1
  have h2 := (works_all (C := 4 * D + 2 * N + 20) (A := 2 * D + 12) (Nat.le_refl _) (Nat.le_refl _) hl fuel exception
    (Metered.start (Reader.withLocation location (.buffered buffer) dbg)) hs hsize).1
  have h3 : Cost ((4 * D + 2 * N + 20) * directFrom g fuel (some exception) (Reader.withLocation location (.buffered buffer) dbg) + 2)
      ((2 * D + 12) * directFrom g fuel (some exception) (Reader.withLocation location (.buffered buffer) dbg) + 2)
      (Metered.start (Reader.withLocation location (.buffered buffer) dbg))
      (testException scan g fuel exception (Metered.start (Reader.withLocation location (.buffered buffer) dbg))) := by
    unfold testException
    refine (cost_bind (c' := 2) (d' := 2) h2 fun out _ => ?_).mono (Nat.le_refl _) (by
      change (2 * D + 12) * directFrom g fuel (some exception) (Reader.withLocation location (.buffered buffer) dbg) - 2 + 2 ≤ _
      omega)
    obtain ⟨p, evs⟩ := out
    cases p with
    | proceed => exact (cost_eof h2.sound).1
    | notThisWay e => exact (cost_here h2.sound _).mono (Nat.zero_le _) (Nat.zero_le _)
  have h4 := h3.copied
  have h5 := h3.all
  have e1 : (Metered.start (Reader.withLocation location (.buffered buffer) dbg)).copied = 0 := rfl
  have e2 : phi (Metered.start (Reader.withLocation location (.buffered buffer) dbg)) = 0 := rfl
  rw [e1] at h4
  rw [e2] at h5
  have h6 : buffer.length * (buffer.length + 1) ≤ N * (N + 1) := Nat.mul_le_mul hN (by omega)
  unfold Metered.total
  generalize testException scan g fuel exception (Metered.start (Reader.withLocation location (.buffered buffer) dbg)) = x at *
  generalize directFrom g fuel (some exception) (Reader.withLocation location (.buffered buffer) dbg) = k at *
  have e3 : (10 * D + 2 * N + 56) * k = (4 * D + 2 * N + 20) * k + 3 * ((2 * D + 12) * k) := by
    rw [← Nat.mul_assoc, ← Nat.add_mul]; congr 1; omega
  omega

/-- What the readers of exceptions cost, and what this reader does. -/
theorem weighs_run {scan : SpecialScanner → Location → RM Metered Reaction} {g : Graph} {D : Nat} (hl : ReadsWithin N D scan g) (fuel : Nat) : ∀ next,
    Weighs N (10 * D + 2 * N + 56) (10 * D + 2 * N + 67 + N * (N + 1) / 2) (innerFrom scan g fuel next) (directFrom g fuel next) (stepsFrom g fuel next) := by
  induction fuel with
  | zero => intro next r _ _; simp [innerFrom, directFrom, stepsFrom]
  | succ fuel ih =>
    intro next r hs hN
    cases next with
    | none => simp [innerFrom, directFrom, stepsFrom]
    | some addr =>
      rw [innerFrom, directFrom, stepsFrom]
      cases hi : g.instruction addr with
      | none => simp
      | some instr =>
        simp only
        have h1 : innerStep g (fun a => Ebnf.runFrom g fuel (some a)) (fun a => innerFrom scan g fuel (some a))
            (fun a test => (testException scan g fuel a (Metered.start test)).2.total) fuel instr r +
            (10 * D + 2 * N + 56) * directStep g (fun a => Ebnf.runFrom g fuel (some a)) (fun a => directFrom g fuel (some a)) fuel instr r ≤
            (10 * D + 2 * N + 67 + N * (N + 1) / 2) *
              callSteps g (fun a => Ebnf.runFrom g fuel (some a)) (fun a => stepsFrom g fuel (some a)) fuel instr r + (N * (N + 1) / 2 + 11) := by
          unfold innerStep directStep callSteps
          cases hstep : instr.step with
          | repetition min max sub =>
            exact Nat.le_trans (weighs_loop (stays_run hl fuel sub) (ih (some sub)) max fuel 0 r hs hN) (Nat.le_add_right _ _)
          | or subs => exact Nat.le_trans (weighs_or (stays_run hl fuel) (fun a => ih (some a)) subs r hs hN) (Nat.le_add_right _ _)
          | alias name =>
            simp only
            cases g.indexOfLabel name with
            | none => simp
            | some a =>
              cases g.canonicalName name with
              | none => simp
              | some n => exact Nat.le_trans (ih (some a) r hs hN) (Nat.le_add_right _ _)
          | scan sc =>
            cases sc with
            | terminal p => simp
            | empty => simp
            | special scanner =>
              refine Nat.le_trans (weighs_special ?_ (fun a => ih (some a)) r hs hN) (Nat.le_add_right _ _)
              have hx := hl addr instr hi
              rw [hstep] at hx
              exact stays_of (plain_of (paid_scan (library_of hx) _)) fun s hs hN => ⟨_, _, cost_scan hx hs hN _⟩
            | exception a b =>
              refine weighs_exception (stays_run hl fuel a) (ih (some a)) (fun location buffer dbg hb => ?_) r hs hN
              have h2 := works_test hl fuel b location dbg hb
              have h3 := ih (some b) (Reader.withLocation location (.buffered buffer) dbg) (sound_new _ _ _) (by
                rw [size_eq]
                simp [Reader.withLocation, UnreadBuffer.new, leftIn, Source.buffered]
                exact hb)
              dsimp only
              omega
        have h2 := stays_step hl fuel addr hi r hs hN
        generalize innerStep g (fun a => Ebnf.runFrom g fuel (some a)) (fun a => innerFrom scan g fuel (some a))
            (fun a test => (testException scan g fuel a (Metered.start test)).2.total) fuel instr r = k1 at h1 ⊢
        generalize directStep g (fun a => Ebnf.runFrom g fuel (some a)) (fun a => directFrom g fuel (some a)) fuel instr r = k2 at h1 ⊢
        generalize callSteps g (fun a => Ebnf.runFrom g fuel (some a)) (fun a => stepsFrom g fuel (some a)) fuel instr r = k3 at h1 ⊢
        generalize Ebnf.execStep g (fun a => Ebnf.runFrom g fuel (some a)) fuel addr instr r = x at h2 ⊢
        obtain ⟨x, r'⟩ := x
        have hW : 10 * D + 2 * N + 67 + N * (N + 1) / 2 = 10 * D + 2 * N + 56 + (N * (N + 1) / 2 + 11) := by omega
        have key : ∀ n1 n2 n3, n1 + (10 * D + 2 * N + 56) * n2 ≤ (10 * D + 2 * N + 67 + N * (N + 1) / 2) * n3 →
            k1 + n1 + (10 * D + 2 * N + 56) * (1 + k2 + n2) ≤ (10 * D + 2 * N + 67 + N * (N + 1) / 2) * (1 + k3 + n3) := by
          intro n1 n2 n3 hn
          generalize 10 * D + 2 * N + 67 + N * (N + 1) / 2 = W at *
          generalize 10 * D + 2 * N + 56 = K at *
          have e1 : K * (1 + k2 + n2) = K + K * k2 + K * n2 := by rw [Nat.mul_add, Nat.mul_add, Nat.mul_one]
          have e2 : W * (1 + k3 + n3) = W + W * k3 + W * n3 := by rw [Nat.mul_add, Nat.mul_add, Nat.mul_one]
          omega
        have h0 := key 0 0 0 (by simp)
        cases x with
        | err e => exact h0
        | panic e => exact h0
        | diverge => exact h0
        | ok pe =>
          obtain ⟨p, evs⟩ := pe
          cases p with
          | notThisWay e => exact h0
          | proceed =>
            simp only
            have h3 := ih instr.next r' h2.1 h2.2
            exact key _ _ _ h3

/-- What `parse` costs, the readers of exceptions included. -/
theorem works_total {scan : SpecialScanner → Location → RM Metered Reaction} {m : Machine} {D : Nat} (hl : ReadsWithin N D scan m.graph) (fuel : Nat)
    (hs : Sound s.reader) (hN : s.reader.size ≤ N) :
    (Dyn.parse Metered.required.methods scan m fuel s).2.copied + (Dyn.parse Metered.required.methods scan m fuel s).2.marks +
        m.inner scan fuel s.reader ≤
      s.copied + 3 * phi s + ((10 * D + 2 * N + 67 + N * (N + 1) / 2) * m.steps fuel s.reader + 43) := by
  have h1 := (works_all (C := 4 * D + 2 * N + 20) (A := 2 * D + 12) (Nat.le_refl _) (Nat.le_refl _) hl fuel m.entry s hs hN).1
  have h2 := cost_parse h1
  have h3 := h2.copied
  have h4 := h2.all
  have h5 := weighs_run hl fuel (some m.entry) s.reader hs hN
  unfold Machine.inner Machine.steps
  generalize directFrom m.graph fuel (some m.entry) s.reader = k at *
  have e3 : (10 * D + 2 * N + 56) * k = (4 * D + 2 * N + 20) * k + 3 * ((2 * D + 12) * k) := by
    rw [← Nat.mul_assoc, ← Nat.add_mul]; congr 1; omega
  omega

end Ebnf.Meter
