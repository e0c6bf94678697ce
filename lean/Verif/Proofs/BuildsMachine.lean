import Verif.Proofs.Builds
import Verif.Model.Machine

set_option autoImplicit false

/-! # Debug builds of the machine -/

namespace Ebnf

open Spec

theorem mirrors_streamPrefix : Mirrors streamPrefix := by
  refine mirrors_bind mirrors_isEof fun b => ?_
  cases b with
  | true => exact mirrors_pure _
  | false => exact mirrors_bind (mirrors_peek 9) fun _ => mirrors_pure _

theorem mirrors_errExpected (g : Graph) (current : Option Nat) : Mirrors (errExpected g current) := by
  intro r
  have hl : (rel r).buffer.location = r.buffer.location := rfl
  unfold errExpected
  rw [hl]
  rcases mirrors_streamPrefix r with h | ⟨h1, h2, h3⟩
  · left
    generalize streamPrefix r = x at h
    obtain ⟨x, r1⟩ := x
    simp only at h; subst h; rfl
  · right
    generalize streamPrefix (rel r) = y at h1 h2
    generalize streamPrefix r = x at h1 h2 h3
    obtain ⟨x, r1⟩ := x
    obtain ⟨y, r2⟩ := y
    simp only at h1 h2 h3
    subst h1 h2
    cases y <;> exact ⟨rfl, rfl, h3⟩

theorem mirrors_repetition {body : Run} (hb : Mirrors body) (min max fuel : Nat) :
    ∀ i temp, Mirrors (repetitionLoop body min max fuel i temp) := by
  induction fuel with
  | zero => intro i temp; exact mirrors_lift _
  | succ fuel ih =>
    intro i temp
    unfold repetitionLoop
    by_cases hi : i < max
    · rw [if_pos hi]
      refine mirrors_bind mirrors_location fun loc => mirrors_bind mirrors_mark fun m => mirrors_bind hb fun x => ?_
      obtain ⟨p, evs⟩ := x
      cases p with
      | notThisWay e =>
        simp only
        by_cases hm : i < min
        · rw [if_pos hm]; exact mirrors_pure _
        · rw [if_neg hm]; exact mirrors_bind (mirrors_reset m) fun _ => mirrors_pure _
      | proceed =>
        refine mirrors_bind mirrors_location fun loc' => ?_
        by_cases hl : max = u32Max ∧ loc' = loc
        · simp only [if_pos hl]; exact mirrors_lift _
        · simp only [if_neg hl]; exact ih _ _
    · rw [if_neg hi]; exact mirrors_pure _

theorem mirrors_or {run : Nat → Run} (hr : ∀ a, Mirrors (run a)) (subs : List Nat) :
    ∀ errors, Mirrors (orLoop run subs errors) := by
  induction subs with
  | nil => intro errors; exact mirrors_pure _
  | cons a subs ih =>
    intro errors
    refine mirrors_bind mirrors_mark fun m => mirrors_bind (hr a) fun x => ?_
    obtain ⟨p, evs⟩ := x
    cases p with
    | proceed => exact mirrors_pure _
    | notThisWay e => exact mirrors_bind (mirrors_reset m) fun _ => ih _

theorem mirrors_capture (endLoc : Location) (fuel : Nat) : Mirrors (captureLoop endLoc fuel) := by
  induction fuel with
  | zero => exact mirrors_lift _
  | succ fuel ih =>
    refine mirrors_bind mirrors_location fun here => ?_
    by_cases hc : here.lines < endLoc.lines ∨ here.columns < endLoc.columns
    · simp only [if_pos hc]
      refine mirrors_bind mirrors_read fun ch => ?_
      cases ch with
      | none => exact ih
      | some ch => exact mirrors_bind ih fun _ => mirrors_pure _
    · simp only [if_neg hc]; exact mirrors_pure _

/-- Two methods, one for each build. -/
def MirrorsTwo {α : Type} (f f' : RM Reader α) : Prop :=
  ∀ r, (f r).1 = .panic .debugAssert ∨
    ((f' (rel r)).1 = (f r).1 ∧ (f' (rel r)).2 = rel (f r).2 ∧ (f r).2.buffer.dbg = r.buffer.dbg)

theorem mirrorsTwo_bind {α β : Type} {f : RM Reader α} {k k' : α → RM Reader β} (hf : Mirrors f)
    (hk : ∀ a, MirrorsTwo (k a) (k' a)) : MirrorsTwo (f >>= k) (f >>= k') := by
  intro r
  simp only [RM.bind_run]
  rcases hf r with h | ⟨h1, h2, h3⟩
  · left
    generalize f r = x at h
    obtain ⟨x, r1⟩ := x
    simp only at h; subst h; rfl
  · generalize f (rel r) = y at h1 h2
    generalize f r = x at h1 h2 h3
    obtain ⟨x, r1⟩ := x
    obtain ⟨y, r2⟩ := y
    simp only at h1 h2 h3
    subst h1 h2
    cases y with
    | ok a =>
      simp only
      rcases hk a r1 with h | ⟨a1, a2, a3⟩
      · exact .inl h
      · exact .inr ⟨a1, a2, a3.trans h3⟩
    | err e => exact .inr ⟨rfl, rfl, h3⟩
    | panic p => exact .inr ⟨rfl, rfl, h3⟩
    | diverge => exact .inr ⟨rfl, rfl, h3⟩

theorem mirrors_get {α : Type} {k : Reader → RM Reader α} (hk : ∀ r, MirrorsTwo (k r) (k (rel r))) :
    Mirrors (RM.get >>= k) := by
  intro r
  simp only [RM.bind_run, RM.get_run]
  exact hk r r

/-- A panic of the second run in the debug build. -/
theorem mirrors_second {α β : Type} {f : RM Reader α} (hf : Mirrors f) {k : α → RM Reader β} (hk : ∀ a, Mirrors (k a))
    (loc : Location) (s : Source) (dbg : Bool) :
    MirrorsTwo (do let x ← RM.lift (f (Reader.withLocation loc s dbg)).1; k x)
      (do let x ← RM.lift (f (Reader.withLocation loc s false)).1; k x) := by
  intro r
  simp only [RM.bind_run, RM.lift_run]
  have e : rel (Reader.withLocation loc s dbg) = Reader.withLocation loc s false := rfl
  rcases hf (Reader.withLocation loc s dbg) with h | ⟨h1, h2, h3⟩
  · left
    rw [h]
  · rw [e] at h1
    rw [h1]
    generalize (f (Reader.withLocation loc s dbg)).1 = x
    cases x with
    | ok a => exact hk a r
    | err e => exact .inr ⟨rfl, rfl, rfl⟩
    | panic p => exact .inr ⟨rfl, rfl, rfl⟩
    | diverge => exact .inr ⟨rfl, rfl, rfl⟩

theorem mirrors_exception {g : Graph} {addr : Nat} {runF runX : Run} (hf : Mirrors runF) (hx : Mirrors runX) :
    Mirrors (scanException g addr runF runX) := by
  refine mirrors_bind mirrors_location fun begin => mirrors_bind mirrors_mark fun m => mirrors_bind hf fun x => ?_
  obtain ⟨p, temp⟩ := x
  cases p with
  | notThisWay e => exact mirrors_bind (mirrors_reset m) fun _ => mirrors_pure _
  | proceed =>
    refine mirrors_bind mirrors_location fun endLoc => mirrors_bind (mirrors_reset m) fun _ =>
      mirrors_bind mirrors_mark fun m' => mirrors_get fun r => ?_
    have hsz : (rel r).size = r.size := rfl
    rw [hsz]
    refine mirrorsTwo_bind (mirrors_capture endLoc _) fun buffer => mirrorsTwo_bind mirrors_location fun here => ?_
    by_cases hd : (r.buffer.dbg && decide (here ≠ endLoc)) = true
    · intro r'
      left
      rw [if_pos hd]; rfl
    · have hd' : ((rel r).buffer.dbg && decide (here ≠ endLoc)) = false := rfl
      simp only [if_neg hd, hd', Bool.false_eq_true, if_false]
      refine mirrors_second (f := do
          let (p, _) ← runX
          match p with
          | .proceed => Reader.isEof
          | .notThisWay _ => pure false) (mirrors_bind hx fun x => ?_) (fun excluded => ?_) _ _ _
      · obtain ⟨p, evs⟩ := x
        cases p with
        | proceed => exact mirrors_isEof
        | notThisWay e => exact mirrors_pure _
      · cases excluded with
        | true => exact mirrors_bind (mirrors_reset m') fun _ => mirrors_bind (mirrors_errExpected g _) fun _ => mirrors_pure _
        | false => exact mirrors_pure _

theorem mirrors_special {g : Graph} {addr : Nat} {instr : Instruction} {scanner : SpecialScanner} {run : Nat → Run}
    (hs : BuildIndependent scanner) (hr : ∀ a, Mirrors (run a)) : Mirrors (scanSpecial g addr instr scanner run) := by
  refine mirrors_bind mirrors_mark fun m => mirrors_bind (hs _) fun x => ?_
  cases x with
  | «match» evts => exact mirrors_bind (mirrors_unmark m) fun _ => mirrors_pure _
  | unmatch => exact mirrors_bind (mirrors_reset m) fun _ => mirrors_bind (mirrors_errExpected g _) fun _ => mirrors_pure _
  | forward name =>
    simp only
    cases g.indexOfLabel name with
    | none => exact mirrors_bind (mirrors_reset m) fun _ => mirrors_bind mirrors_location fun _ => mirrors_lift _
    | some a => exact mirrors_bind (mirrors_unmark m) fun _ => mirrors_bind (hr a) fun _ => mirrors_pure _

theorem mirrors_terminal {g : Graph} {addr : Nat} {instr : Instruction} {s : Str} : Mirrors (scanTerminal g addr instr s) := by
  refine mirrors_bind (mirrors_prefixMatches s) fun b => ?_
  cases b with
  | true => exact mirrors_bind mirrors_location fun _ => mirrors_bind (mirrors_skip _) fun _ => mirrors_pure _
  | false => exact mirrors_bind (mirrors_errExpected g _) fun _ => mirrors_pure _

theorem mirrors_step {g : Graph} (hg : GraphIndependent g) {run : Nat → Run} (hr : ∀ a, Mirrors (run a)) (fuel addr : Nat)
    {instr : Instruction} (hi : g.instruction addr = some instr) : Mirrors (execStep g run fuel addr instr) := by
  unfold execStep
  cases hst : instr.step with
  | repetition min max sub => exact mirrors_repetition (hr sub) min max fuel 0 []
  | or subs =>
    refine mirrors_bind (mirrors_or hr subs []) fun x => ?_
    cases x with
    | ok evs => exact mirrors_pure _
    | error errors =>
      simp only
      cases errors.reverse with
      | nil => exact mirrors_lift _
      | cons last others =>
        refine mirrors_bind mirrors_location fun here => ?_
        by_cases hc : (pickError last others).location = here
        · simp only [if_pos hc]; exact mirrors_bind (mirrors_errExpected g _) fun _ => mirrors_pure _
        · simp only [if_neg hc]; exact mirrors_pure _
  | alias name =>
    simp only
    cases g.indexOfLabel name with
    | none => exact mirrors_lift _
    | some address =>
      simp only
      cases g.canonicalName name with
      | none => exact mirrors_lift _
      | some label =>
        refine mirrors_bind mirrors_location fun _ => mirrors_bind (hr address) fun x => ?_
        obtain ⟨p, evs⟩ := x
        cases p with
        | proceed => exact mirrors_bind mirrors_location fun _ => mirrors_pure _
        | notThisWay e => exact mirrors_pure _
  | scan sc =>
    cases sc with
    | terminal s => exact mirrors_terminal
    | special scanner => exact mirrors_special (hg addr instr scanner hi hst) hr
    | empty => exact mirrors_pure _
    | exception f x => exact mirrors_exception (hr f) (hr x)

theorem mirrors_run {g : Graph} (hg : GraphIndependent g) (fuel : Nat) : ∀ next, Mirrors (runFrom g fuel next) := by
  induction fuel with
  | zero => intro next; exact mirrors_lift _
  | succ fuel ih =>
    intro next
    cases next with
    | none => exact mirrors_pure _
    | some addr =>
      unfold runFrom
      cases hi : g.instruction addr with
      | none => exact mirrors_lift _
      | some instr =>
        refine mirrors_bind (mirrors_step hg (fun a => ih (some a)) fuel addr hi) fun x => ?_
        obtain ⟨p, evs⟩ := x
        cases p with
        | notThisWay e => exact mirrors_pure _
        | proceed => exact mirrors_bind (ih _) fun _ => mirrors_pure _

/-- The debug build of `parse` fails an assertion, or does what the release build does. -/
theorem mirrors_parse {m : Machine} (hg : GraphIndependent m.graph) (fuel : Nat) : Mirrors (m.parse fuel) := by
  refine mirrors_bind (mirrors_run hg fuel _) fun x => ?_
  obtain ⟨p, evs⟩ := x
  cases p with
  | notThisWay e => exact mirrors_lift _
  | proceed =>
    refine mirrors_bind mirrors_isEof fun b => ?_
    cases b with
    | true =>
      refine mirrors_get fun r => ?_
      by_cases hd : (r.buffer.dbg && !labelsAgree evs) = true
      · intro r'
        left
        rw [if_pos hd]; rfl
      · have hd' : ((rel r).buffer.dbg && !labelsAgree evs) = false := rfl
        simp only [if_neg hd, hd', Bool.false_eq_true, if_false]
        exact mirrors_pure _
    | false => exact mirrors_bind (mirrors_errExpected _ _) fun _ => mirrors_lift _

/-! ## The scanners of the library -/

theorem mirrors_charsLoop (allowed : Char → Bool) (max : Option Nat) (fuel : Nat) :
    ∀ count, Mirrors (charsLoop allowed max fuel count) := by
  induction fuel with
  | zero => intro count; exact mirrors_lift _
  | succ fuel ih =>
    intro count
    unfold charsLoop
    by_cases hm : (max.map fun m => decide (count < m)).getD true = true
    · rw [if_pos hm]
      refine mirrors_bind mirrors_mark fun m => mirrors_bind mirrors_read fun ch => ?_
      cases ch with
      | none => exact mirrors_pure _
      | some ch =>
        simp only
        cases allowed ch with
        | true => exact mirrors_bind (mirrors_unmark m) fun _ => mirrors_bind (ih _) fun _ => mirrors_pure _
        | false => exact mirrors_bind (mirrors_reset m) fun _ => mirrors_pure _
    · rw [if_neg hm]; exact mirrors_pure _

theorem library_independent {s : SpecialScanner} (h : LibraryScanner s) : BuildIndependent s := by
  cases h with
  | default content => exact fun _ => mirrors_pure _
  | chars allowed min max =>
    intro d
    refine mirrors_bind mirrors_mark fun m => mirrors_bind mirrors_location fun loc => mirrors_get fun r => ?_
    have hsz : (rel r).size = r.size := rfl
    rw [hsz]
    refine mirrors_bind (mirrors_charsLoop allowed max _ _) fun buffer => ?_
    cases (min.map fun m => decide (buffer.length < m)).getD false with
    | true => exact mirrors_bind (mirrors_reset m) fun _ => mirrors_pure _
    | false => exact mirrors_pure _
  | regex source find =>
    intro d
    refine mirrors_bind mirrors_location fun loc => mirrors_bind (mirrors_peek 257) fun text => ?_
    cases find text with
    | none => exact mirrors_pure _
    | some x =>
      obtain ⟨off, len⟩ := x
      cases off with
      | succ off => exact mirrors_pure _
      | zero =>
        simp only
        by_cases hl : (text.take len).length > 256
        · rw [if_pos hl]; exact mirrors_bind mirrors_location fun _ => mirrors_lift _
        · rw [if_neg hl]; exact mirrors_bind (mirrors_skip _) fun _ => mirrors_pure _

end Ebnf
