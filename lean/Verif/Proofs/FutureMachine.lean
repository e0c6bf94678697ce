import Verif.Proofs.Future
import Verif.Spec.Builds

set_option autoImplicit false

/-! # What a parse has not asked for -/

namespace Ebnf.Future

open Spec Ebnf.Meter

theorem causal_streamPrefix : Causal streamPrefix := by
  refine causal_bind causal_isEof fun b => ?_
  cases b with
  | true => exact causal_pure _
  | false => exact causal_bind (causal_peek 9) fun _ => causal_pure _

theorem causal_errExpected (g : Graph) (current : Option Nat) : Causal (errExpected g current) := by
  intro r hs
  have hl : ∀ rest, (withFuture r rest).buffer.location = r.buffer.location := fun _ => rfl
  have h := causal_streamPrefix r hs
  unfold errExpected
  simp only [hl]
  generalize hx : streamPrefix r = x at h
  obtain ⟨x, r1⟩ := x
  obtain ⟨h1, t, h2, h3⟩ := h
  cases x <;> exact ⟨h1, t, h2, fun hn rest => by rw [h3 hn rest]⟩

theorem causal_repetition {body : Run} (hb : Causal body) (min max fuel : Nat) :
    ∀ i temp, Causal (repetitionLoop body min max fuel i temp) := by
  induction fuel with
  | zero => intro i temp; exact causal_lift _
  | succ fuel ih =>
    intro i temp
    unfold repetitionLoop
    by_cases hi : i < max
    · rw [if_pos hi]
      refine causal_bind causal_location fun loc => causal_bind causal_mark fun m => causal_bind hb fun x => ?_
      obtain ⟨p, evs⟩ := x
      cases p with
      | notThisWay e =>
        simp only
        by_cases hm : i < min
        · rw [if_pos hm]; exact causal_pure _
        · rw [if_neg hm]; exact causal_bind (causal_reset m) fun _ => causal_pure _
      | proceed =>
        refine causal_bind causal_location fun loc' => ?_
        by_cases hl : max = u32Max ∧ loc' = loc
        · simp only [if_pos hl]; exact causal_lift _
        · simp only [if_neg hl]; exact ih _ _
    · rw [if_neg hi]; exact causal_pure _

theorem causal_or {run : Nat → Run} (hr : ∀ a, Causal (run a)) (subs : List Nat) :
    ∀ errors, Causal (orLoop run subs errors) := by
  induction subs with
  | nil => intro errors; exact causal_pure _
  | cons a subs ih =>
    intro errors
    refine causal_bind causal_mark fun m => causal_bind (hr a) fun x => ?_
    obtain ⟨p, evs⟩ := x
    cases p with
    | proceed => exact causal_pure _
    | notThisWay e => exact causal_bind (causal_reset m) fun _ => ih _

theorem causal_exception {g : Graph} {addr : Nat} {runF runX : Run} (hf : Causal runF) : Causal (scanException g addr runF runX) := by
  refine causal_bind causal_location fun begin => causal_bind causal_mark fun m => causal_bind hf fun x => ?_
  obtain ⟨p, temp⟩ := x
  cases p with
  | notThisWay e => exact causal_bind (causal_reset m) fun _ => causal_pure _
  | proceed =>
    refine causal_bind causal_location fun endLoc => causal_bind (causal_reset m) fun _ => causal_bind causal_mark fun m' => ?_
    have key : ∀ dbg : Bool, Causal ((fun r => captureLoop endLoc (r.size + 1) r : RM Reader Str) >>= fun buffer => (do
        let here ← Reader.location
        if dbg && here ≠ endLoc then RM.lift (.panic .debugAssert)
        else do
          let excluded ← RM.lift
            ((do
              let (p, _) ← runX
              match p with
              | .proceed => Reader.isEof
              | .notThisWay _ => pure false) (Reader.withLocation begin (.buffered buffer) dbg)).1
          if excluded then do
            let _ ← Reader.resetToMark m'
            let e ← errExpected g (some addr)
            pure (.notThisWay e, [])
          else pure (.proceed, temp) : Run)) := by
      intro dbg
      refine causal_bind (causal_capture endLoc) fun buffer => causal_bind causal_location fun here => ?_
      by_cases hd : (dbg && decide (here ≠ endLoc)) = true
      · rw [if_pos hd]; exact causal_lift _
      · rw [if_neg hd]
        refine causal_bind (causal_lift _) fun excluded => ?_
        cases excluded with
        | true => exact causal_bind (causal_reset m') fun _ => causal_bind (causal_errExpected g _) fun _ => causal_pure _
        | false => exact causal_pure _
    exact causal_at (g := fun r => r.buffer.dbg) (fun _ _ => rfl) key

theorem causal_special {g : Graph} {addr : Nat} {instr : Instruction} {scanner : SpecialScanner} {run : Nat → Run}
    (hs : ∀ d, Causal (scanner.scan d)) (hr : ∀ a, Causal (run a)) : Causal (scanSpecial g addr instr scanner run) := by
  refine causal_bind causal_mark fun m => causal_bind (hs _) fun x => ?_
  cases x with
  | «match» evts => exact causal_bind (causal_unmark m) fun _ => causal_pure _
  | unmatch => exact causal_bind (causal_reset m) fun _ => causal_bind (causal_errExpected g _) fun _ => causal_pure _
  | forward name =>
    simp only
    cases g.indexOfLabel name with
    | none => exact causal_bind (causal_reset m) fun _ => causal_bind causal_location fun _ => causal_lift _
    | some a => exact causal_bind (causal_unmark m) fun _ => causal_bind (hr a) fun _ => causal_pure _

theorem causal_terminal {g : Graph} {addr : Nat} {instr : Instruction} {s : Str} : Causal (scanTerminal g addr instr s) := by
  refine causal_bind (causal_prefixMatches s) fun b => ?_
  cases b with
  | true => exact causal_bind causal_location fun _ => causal_bind (causal_skip _) fun _ => causal_pure _
  | false => exact causal_bind (causal_errExpected g _) fun _ => causal_pure _

theorem causal_step {g : Graph} (hg : CausalScanners g) {run : Nat → Run} (hr : ∀ a, Causal (run a)) (fuel addr : Nat)
    {instr : Instruction} (hi : g.instruction addr = some instr) : Causal (execStep g run fuel addr instr) := by
  unfold execStep
  cases hst : instr.step with
  | repetition min max sub => exact causal_repetition (hr sub) min max fuel 0 []
  | or subs =>
    refine causal_bind (causal_or hr subs []) fun x => ?_
    cases x with
    | ok evs => exact causal_pure _
    | error errors =>
      simp only
      cases errors.reverse with
      | nil => exact causal_lift _
      | cons last others =>
        refine causal_bind causal_location fun here => ?_
        by_cases hc : (pickError last others).location = here
        · simp only [if_pos hc]; exact causal_bind (causal_errExpected g _) fun _ => causal_pure _
        · simp only [if_neg hc]; exact causal_pure _
  | alias name =>
    simp only
    cases g.indexOfLabel name with
    | none => exact causal_lift _
    | some address =>
      simp only
      cases g.canonicalName name with
      | none => exact causal_lift _
      | some label =>
        refine causal_bind causal_location fun _ => causal_bind (hr address) fun x => ?_
        obtain ⟨p, evs⟩ := x
        cases p with
        | proceed => exact causal_bind causal_location fun _ => causal_pure _
        | notThisWay e => exact causal_pure _
  | scan sc =>
    cases sc with
    | terminal s => exact causal_terminal
    | special scanner => exact causal_special (hg addr instr scanner hi hst) hr
    | empty => exact causal_pure _
    | exception f x => exact causal_exception (hr f)

theorem causal_run {g : Graph} (hg : CausalScanners g) (fuel : Nat) : ∀ next, Causal (runFrom g fuel next) := by
  induction fuel with
  | zero => intro next; exact causal_lift _
  | succ fuel ih =>
    intro next
    cases next with
    | none => exact causal_pure _
    | some addr =>
      unfold runFrom
      cases hi : g.instruction addr with
      | none => exact causal_lift _
      | some instr =>
        refine causal_bind (causal_step hg (fun a => ih (some a)) fuel addr hi) fun x => ?_
        obtain ⟨p, evs⟩ := x
        cases p with
        | notThisWay e => exact causal_pure _
        | proceed => exact causal_bind (ih _) fun _ => causal_pure _

/-- A parse depends on nothing it has not asked for. -/
theorem causal_parse {m : Machine} (hg : CausalScanners m.graph) (fuel : Nat) : Causal (m.parse fuel) := by
  refine causal_bind (causal_run hg fuel _) fun x => ?_
  obtain ⟨p, evs⟩ := x
  cases p with
  | notThisWay e => exact causal_lift _
  | proceed =>
    refine causal_bind causal_isEof fun b => ?_
    cases b with
    | true =>
      refine causal_at (g := fun r => r.buffer.dbg && !labelsAgree evs) (f := fun b => if b then RM.lift (.panic .debugAssert) else pure (removeEmpty evs)) (fun _ _ => rfl) fun b => ?_
      cases b with
      | true => exact causal_lift _
      | false => exact causal_pure _
    | false => exact causal_bind (causal_errExpected _ _) fun _ => causal_lift _

/-! ## The scanners of the library -/

theorem library_causal {s : SpecialScanner} (h : LibraryScanner s) : ∀ d, Causal (s.scan d) := by
  cases h with
  | default content => exact fun _ => causal_pure _
  | chars allowed min max =>
    intro d
    refine causal_bind causal_mark fun m => causal_bind causal_location fun loc => ?_
    refine (causal_bind (causal_chars allowed max) fun buffer => ?_ : Causal ((fun r => charsLoop allowed max (r.size + 1) 0 r : RM Reader Str) >>= _))
    cases (min.map fun m => decide (buffer.length < m)).getD false with
    | true => exact causal_bind (causal_reset m) fun _ => causal_pure _
    | false => exact causal_pure _
  | regex source find =>
    intro d
    refine causal_bind causal_location fun loc => causal_bind (causal_peek 257) fun text => ?_
    cases find text with
    | none => exact causal_pure _
    | some x =>
      obtain ⟨off, len⟩ := x
      cases off with
      | succ off => exact causal_pure _
      | zero =>
        simp only
        by_cases hl : (text.take len).length > 256
        · rw [if_pos hl]; exact causal_bind causal_location fun _ => causal_lift _
        · rw [if_neg hl]; exact causal_bind (causal_skip _) fun _ => causal_pure _

/-! ## Histories -/

theorem perform_causal (op : ReaderOp) : ∀ r : Reader, r.buffer.next ≤ r.buffer.buffer.length →
    (perform op r).2.buffer.next ≤ (perform op r).2.buffer.buffer.length ∧
    ∃ taken, r.source.rounds = taken ++ (perform op r).2.source.rounds ∧
      ((perform op r).2.source.rounds ≠ [] → ∀ rest, perform op (withFuture r (taken ++ rest)) =
        ((perform op r).1, withFuture (perform op r).2 rest)) := by
  intro r hs
  have key : ∀ {α : Type} {f : RM Reader α} (g : α → ReaderAns), Causal f →
      (answer g (f r)).2.buffer.next ≤ (answer g (f r)).2.buffer.buffer.length ∧
      ∃ taken, r.source.rounds = taken ++ (answer g (f r)).2.source.rounds ∧
        ((answer g (f r)).2.source.rounds ≠ [] → ∀ rest, answer g (f (withFuture r (taken ++ rest))) =
          ((answer g (f r)).1, withFuture (answer g (f r)).2 rest)) := by
    intro α f g hf
    have h := hf r hs
    generalize hx : f r = x at h
    obtain ⟨x, r1⟩ := x
    obtain ⟨h1, t, h2, h3⟩ := h
    cases x <;> exact ⟨h1, t, h2, fun hn rest => by rw [h3 hn rest]; rfl⟩
  cases op with
  | read => exact key _ causal_read
  | readChars n => exact key _ (causal_readChars n)
  | readAll => exact key _ causal_readAll
  | peek n => exact key _ (causal_peek n)
  | prefixMatches p => exact key _ (causal_prefixMatches p)
  | isEof => exact key _ causal_isEof
  | skip n => exact key _ (causal_skip n)
  | mark => exact key _ causal_mark
  | resetToMark m => exact key _ (causal_reset m)
  | unmark m => exact key _ (causal_unmark m)
  | location => exact key _ causal_location

theorem performAll_causal (ops : List ReaderOp) : ∀ r : Reader, r.buffer.next ≤ r.buffer.buffer.length →
    (performAll ops r).2.buffer.next ≤ (performAll ops r).2.buffer.buffer.length ∧
    ∃ taken, r.source.rounds = taken ++ (performAll ops r).2.source.rounds ∧
      ((performAll ops r).2.source.rounds ≠ [] → ∀ rest, performAll ops (withFuture r (taken ++ rest)) =
        ((performAll ops r).1, withFuture (performAll ops r).2 rest)) := by
  induction ops with
  | nil => intro r hs; exact ⟨hs, [], rfl, fun _ _ => rfl⟩
  | cons op ops ih =>
    intro r hs
    obtain ⟨h1, t1, h2, h3⟩ := perform_causal op r hs
    obtain ⟨h4, t2, h5, h6⟩ := ih _ h1
    simp only [performAll]
    refine ⟨h4, t1 ++ t2, by rw [List.append_assoc, ← h5]; exact h2, fun hn rest => ?_⟩
    have hn1 : (perform op r).2.source.rounds ≠ [] := by rw [h5]; simp [hn]
    rw [List.append_assoc, h3 hn1 (t2 ++ rest)]
    simp only [h6 hn rest]

end Ebnf.Future
