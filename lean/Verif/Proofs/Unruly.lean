import Verif.Spec.Unruly
import Verif.Spec.Addresses
import Verif.Proofs.FaultsRun
import Verif.Proofs.CodeOrigin
import Verif.Proofs.Linear
import Verif.Proofs.Origin
import Verif.Proofs.LeftoverCases
import Verif.Spec.Builds

set_option autoImplicit false

/-! # Scanners that do what they like -/

namespace Ebnf.Unruly

open Spec

variable {α β : Type}

theorem answer_snd (g : α → ReaderAns) (x : Res α × Reader) : (answer g x).2 = x.2 := by
  obtain ⟨x, r⟩ := x
  cases x <;> rfl

theorem performAll_append (a b : List ReaderOp) : ∀ r, performAll (a ++ b) r =
    ((performAll a r).1 ++ (performAll b (performAll a r).2).1, (performAll b (performAll a r).2).2) := by
  induction a with
  | nil => intro r; rfl
  | cons op a ih => intro r; simp only [List.cons_append, performAll, ih]

/-! ## What is done by calls -/

/-- `ByCalls` for one reader. -/
def CallsAt (f : RM Reader α) (r : Reader) : Prop := ∃ ops, (f r).2 = (performAll ops r).2 ∧
  ∀ p, (f r).1 = .panic p → r.buffer.dbg = true ∨ .crash ∈ (performAll ops r).1

/-- The method leaves the build as it is. -/
def SameBuild (f : RM Reader α) : Prop := ∀ r, (f r).2.buffer.dbg = r.buffer.dbg

theorem build_pure (a : α) : SameBuild (pure a : RM Reader α) := fun _ => rfl
theorem build_lift (x : Res α) : SameBuild (RM.lift x : RM Reader α) := fun _ => rfl
theorem build_bind {f : RM Reader α} {k : α → RM Reader β} (hf : SameBuild f) (hk : ∀ a, SameBuild (k a)) : SameBuild (f >>= k) := by
  intro r
  have h1 := hf r
  rw [RM.bind_run]
  generalize f r = x at h1
  obtain ⟨x, r1⟩ := x
  cases x with
  | ok a => exact (hk a r1).trans h1
  | _ => exact h1

theorem removeMark_build (b : UnreadBuffer) (m : Nat) : (b.removeMark m).2.dbg = b.dbg := by
  unfold UnreadBuffer.removeMark
  by_cases h : m < b.head ∨ m > b.head + b.buffer.length
  · rw [if_pos h]
  · rw [if_neg h]
    cases UnreadBuffer.findMark m b.stack with
    | none => rfl
    | some x => rfl

theorem build_location : SameBuild Reader.location := fun _ => rfl
theorem build_mark : SameBuild Reader.mark := by
  intro r
  simp only [Reader.mark, UnreadBuffer.mark]
  split <;> split <;> rfl
theorem build_reset (m : Nat) : SameBuild (Reader.resetToMark m) := by
  intro r
  simp only [Reader.resetToMark, UnreadBuffer.revert]
  have h := removeMark_build r.buffer m
  generalize r.buffer.removeMark m = x at h
  obtain ⟨x, b⟩ := x
  cases x with
  | ok l => simp only; split <;> exact h
  | _ => exact h
theorem build_unmark (m : Nat) : SameBuild (Reader.unmark m) := by
  intro r
  simp only [Reader.unmark]
  have h := removeMark_build r.buffer m
  generalize r.buffer.removeMark m = x at h
  obtain ⟨x, b⟩ := x
  cases x <;> exact h
theorem build_readChars (n : Nat) : SameBuild (Reader.readChars n) := by
  intro r
  unfold Reader.readChars
  by_cases h : r.buffer.remains = true
  · rw [if_pos h]
    simp only [UnreadBuffer.read]
    split
    · simp only [UnreadBuffer.truncateIfStackEmpty]; split <;> rfl
    · rfl
  · rw [if_neg h]
    generalize r.source.readChars n = x
    obtain ⟨x, s⟩ := x
    cases x with
    | ok cs =>
      simp only
      by_cases hc : cs.isEmpty = true
      · rw [if_pos hc]
      · rw [if_neg hc]
        have ha : (r.buffer.append cs).2.dbg = r.buffer.dbg := by
          unfold UnreadBuffer.append
          split <;> split <;> rfl
        generalize r.buffer.append cs = y at ha
        obtain ⟨y, b⟩ := y
        cases y <;> exact ha
    | _ => rfl
theorem build_read : SameBuild Reader.read := build_bind (build_readChars 1) fun _ => build_pure _
theorem build_isEof : SameBuild Reader.isEof :=
  build_bind build_mark fun m => build_bind build_read fun _ => build_bind (build_reset m) fun _ => build_pure _
theorem build_prefixLoop (p : Str) : SameBuild (Reader.prefixLoop p) := by
  induction p with
  | nil => exact build_pure _
  | cons c p ih =>
    refine build_bind build_read fun x => ?_
    by_cases h : x ≠ some c
    · rw [if_pos h]; exact build_pure _
    · rw [if_neg h]; exact ih
theorem build_prefixMatches (p : Str) : SameBuild (Reader.prefixMatches p) :=
  build_bind build_mark fun m => build_bind (build_prefixLoop p) fun _ => build_bind (build_reset m) fun _ => build_pure _
theorem build_peekLoop (n : Nat) : SameBuild (Reader.peekLoop n) := by
  induction n with
  | zero => exact build_pure _
  | succ n ih =>
    refine build_bind build_read fun x => ?_
    cases x with
    | none => exact build_pure _
    | some c => exact build_bind ih fun _ => build_pure _
theorem build_peek (n : Nat) : SameBuild (Reader.peek n) :=
  build_bind build_mark fun m => build_bind (build_peekLoop n) fun _ => build_bind (build_reset m) fun _ => build_pure _
theorem build_skipLoop (fuel : Nat) : ∀ n, SameBuild (Reader.skipLoop fuel n) := by
  induction fuel with
  | zero => intro n; cases n with
    | zero => exact build_pure _
    | succ n => exact build_lift _
  | succ fuel ih =>
    intro n
    cases n with
    | zero => exact build_pure _
    | succ n =>
      refine build_bind (build_readChars _) fun cs => ?_
      by_cases h : cs.isEmpty = true
      · rw [if_pos h]; exact build_pure _
      · rw [if_neg h]; exact ih _
theorem build_skip (n : Nat) : SameBuild (Reader.skip n) := build_bind (build_skipLoop n n) fun _ => build_pure _
theorem build_readAllLoop (fuel : Nat) : SameBuild (Reader.readAllLoop fuel) := by
  induction fuel with
  | zero => exact build_lift _
  | succ fuel ih =>
    refine build_bind (build_readChars _) fun cs => ?_
    by_cases h : cs.isEmpty = true
    · rw [if_pos h]; exact build_pure _
    · rw [if_neg h]; exact build_bind ih fun _ => build_pure _
theorem build_readAll : SameBuild Reader.readAll := fun r => build_readAllLoop _ r

theorem perform_build (op : ReaderOp) (r : Reader) : (perform op r).2.buffer.dbg = r.buffer.dbg := by
  cases op <;> simp only [perform, answer_snd]
  · exact build_read r
  · exact build_readChars _ r
  · exact build_readAll r
  · exact build_peek _ r
  · exact build_prefixMatches _ r
  · exact build_isEof r
  · exact build_skip _ r
  · exact build_mark r
  · exact build_reset _ r
  · exact build_unmark _ r
  · exact build_location r

theorem performAll_build (ops : List ReaderOp) : ∀ r, (performAll ops r).2.buffer.dbg = r.buffer.dbg := by
  induction ops with
  | nil => intro r; rfl
  | cons op ops ih => intro r; simp only [performAll]; rw [ih, perform_build]

theorem calls_pure (a : α) (r : Reader) : CallsAt (pure a : RM Reader α) r := ⟨[], rfl, fun _ h => by cases h⟩

theorem calls_lift {x : Res α} (hx : ∀ p, x ≠ .panic p) (r : Reader) : CallsAt (RM.lift x : RM Reader α) r :=
  ⟨[], rfl, fun p h => absurd h (hx p)⟩

theorem calls_bind {f : RM Reader α} {k : α → RM Reader β} {r : Reader} (hf : CallsAt f r)
    (hk : ∀ a r1, f r = (.ok a, r1) → CallsAt (k a) r1) : CallsAt (f >>= k) r := by
  obtain ⟨ops, h1, h2⟩ := hf
  unfold CallsAt
  rw [RM.bind_run]
  rcases hx : f r with ⟨x, r1⟩
  rw [hx] at h1 h2
  simp only at h1 h2
  cases x with
  | ok a =>
    obtain ⟨ops', h3, h4⟩ := hk a r1 hx
    refine ⟨ops ++ ops', by rw [performAll_append]; simp only; rw [h3, h1], fun p hp => ?_⟩
    have hb := performAll_build ops r
    rw [← h1] at hb
    rw [performAll_append]
    simp only [List.mem_append]
    rcases h4 p hp with h5 | h5
    · exact .inl (hb ▸ h5)
    · exact .inr (.inr (h1 ▸ h5))
  | err e => exact ⟨ops, h1, fun p hp => by cases hp⟩
  | panic q => exact ⟨ops, h1, fun p _ => h2 q rfl⟩
  | diverge => exact ⟨ops, h1, fun p hp => by cases hp⟩

theorem calls_op {f : RM Reader α} {g : α → ReaderAns} {op : ReaderOp} (h : ∀ r, perform op r = answer g (f r)) (r : Reader) : CallsAt f r := by
  refine ⟨[op], ?_, fun p hp => .inr ?_⟩
  · simp only [performAll, h, answer_snd]
  · simp only [performAll, h]
    rcases hx : f r with ⟨x, r1⟩
    rw [hx] at hp
    simp only at hp
    subst hp
    simp [answer]

theorem calls_read (r : Reader) : CallsAt Reader.read r := calls_op (op := .read) (fun _ => rfl) r
theorem calls_readChars (n : Nat) (r : Reader) : CallsAt (Reader.readChars n) r := calls_op (op := .readChars n) (fun _ => rfl) r
theorem calls_peek (n : Nat) (r : Reader) : CallsAt (Reader.peek n) r := calls_op (op := .peek n) (fun _ => rfl) r
theorem calls_prefixMatches (s : Str) (r : Reader) : CallsAt (Reader.prefixMatches s) r := calls_op (op := .prefixMatches s) (fun _ => rfl) r
theorem calls_isEof (r : Reader) : CallsAt Reader.isEof r := calls_op (op := .isEof) (fun _ => rfl) r
theorem calls_skip (n : Nat) (r : Reader) : CallsAt (Reader.skip n) r := calls_op (op := .skip n) (fun _ => rfl) r
theorem calls_mark (r : Reader) : CallsAt Reader.mark r := calls_op (op := .mark) (fun _ => rfl) r
theorem calls_reset (m : Nat) (r : Reader) : CallsAt (Reader.resetToMark m) r := calls_op (op := .resetToMark m) (fun _ => rfl) r
theorem calls_unmark (m : Nat) (r : Reader) : CallsAt (Reader.unmark m) r := calls_op (op := .unmark m) (fun _ => rfl) r
theorem calls_location (r : Reader) : CallsAt Reader.location r := calls_op (op := .location) (fun _ => rfl) r

/-! ## Release builds do not panic -/

theorem supplies_some (s : Source) : ∃ text faults, Supplies s text faults := by
  have : ∀ rounds : List (Except Nat Str), ∃ more faults, SuppliesIn rounds more faults := by
    intro rounds
    induction rounds with
    | nil => exact ⟨_, _, .nil⟩
    | cons x rounds ih =>
      obtain ⟨more, faults, h⟩ := ih
      cases x with
      | ok cs => exact ⟨_, _, .piece h⟩
      | error code => exact ⟨_, _, .fault h⟩
  obtain ⟨more, faults, h⟩ := this s.rounds
  exact ⟨_, faults, more, h, rfl⟩

theorem faulty_no_crash {c c' : Cursor} {faults left : List Nat} {ops : List ReaderOp} {as : List ReaderAns}
    (h : FaultySteps c faults ops as c' left) : .crash ∉ as := by
  induction h with
  | nil => simp
  | step hs _ ih =>
    intro hm
    rcases List.mem_cons.mp hm with hm | hm
    · subst hm; cases hs
    · exact ih hm
  | fault hs _ ih =>
    intro hm
    rcases List.mem_cons.mp hm with hm | hm
    · cases hm
    · exact ih hm

/-- A history stays in the text. -/
theorem faulty_text {c c' : Cursor} {faults left : List Nat} {ops : List ReaderOp} {as : List ReaderAns}
    (h : FaultySteps c faults ops as c' left) : c'.start = c.start ∧ c'.text = c.text := by
  induction h with
  | nil => exact ⟨rfl, rfl⟩
  | step hs _ ih => refine ⟨ih.1.trans ?_, ih.2.trans ?_⟩ <;> cases hs <;> rfl
  | fault hs _ ih => refine ⟨ih.1.trans ?_, ih.2.trans ?_⟩ <;> cases hs <;> rfl

theorem release_no_crash (location : Location) (s : Source) (ops : List ReaderOp) :
    .crash ∉ (performAll ops (Reader.withLocation location s false)).1 := by
  obtain ⟨text, faults, h⟩ := supplies_some s
  obtain ⟨c, h1, _⟩ := performAll_faulty ops (supplies_steady h location false).1
  exact faulty_no_crash h1

/-! ## The machine -/

/-- Every look-up of the machine succeeds. -/
structure Complete (g : Graph) : Prop where
  targets : ∀ addr x, g.instruction addr = some x → ∀ i ∈ Spec.targets x, ∃ y, g.instruction i = some y
  labels : ∀ name i, g.indexOfLabel name = some i → ∃ y, g.instruction i = some y
  aliases : ∀ addr x name, g.instruction addr = some x → x.step = .alias name →
    ∃ i label, g.indexOfLabel name = some i ∧ g.canonicalName name = some label
  choices : ∀ addr x subs, g.instruction addr = some x → x.step = .or subs → subs ≠ []

/-- The scanners. -/
def Scanners (g : Graph) : Prop :=
  ∀ addr instr scanner, g.instruction addr = some instr → instr.step = .scan (.special scanner) → ∀ definition, ByCalls (scanner.scan definition)

/-- The address is that of an instruction. -/
def There (g : Graph) (a : Nat) : Prop := ∃ y, g.instruction a = some y

theorem calls_streamPrefix (r : Reader) : CallsAt streamPrefix r := by
  refine calls_bind (calls_isEof r) fun b r1 _ => ?_
  cases b with
  | true => exact calls_pure _ _
  | false => exact calls_bind (calls_peek 9 r1) fun _ _ _ => calls_pure _ _

theorem calls_errExpected (g : Graph) (current : Option Nat) (r : Reader) : CallsAt (errExpected g current) r := by
  obtain ⟨ops, h1, h2⟩ := calls_streamPrefix r
  refine ⟨ops, ?_, fun p hp => ?_⟩
  · rw [← h1]; unfold errExpected
    generalize streamPrefix r = x
    obtain ⟨x, r1⟩ := x
    cases x <;> rfl
  · refine h2 p ?_
    unfold errExpected at hp
    generalize streamPrefix r = x at hp
    obtain ⟨x, r1⟩ := x
    cases x <;> cases hp <;> rfl

theorem calls_repetition {body : Run} (hb : ∀ r, CallsAt body r) (min max fuel : Nat) :
    ∀ i temp r, CallsAt (repetitionLoop body min max fuel i temp) r := by
  induction fuel with
  | zero => intro i temp r; exact calls_lift (by simp) r
  | succ fuel ih =>
    intro i temp r
    unfold repetitionLoop
    by_cases hi : i < max
    · rw [if_pos hi]
      refine calls_bind (calls_location r) fun loc r1 _ => calls_bind (calls_mark r1) fun m r2 _ => calls_bind (hb r2) fun x r3 _ => ?_
      obtain ⟨p, evs⟩ := x
      cases p with
      | notThisWay e =>
        simp only
        by_cases hm : i < min
        · rw [if_pos hm]; exact calls_pure _ _
        · rw [if_neg hm]; exact calls_bind (calls_reset m r3) fun _ _ _ => calls_pure _ _
      | proceed =>
        refine calls_bind (calls_location r3) fun loc' r4 _ => ?_
        by_cases hl : max = u32Max ∧ loc' = loc
        · simp only [if_pos hl]; exact calls_lift (by simp [Res.fail]) _
        · simp only [if_neg hl]; exact ih _ _ _
    · rw [if_neg hi]; exact calls_pure _ _

theorem calls_or {run : Nat → Run} (subs : List Nat) (hr : ∀ a ∈ subs, ∀ r, CallsAt (run a) r) :
    ∀ errors r, CallsAt (orLoop run subs errors) r := by
  induction subs with
  | nil => intro errors r; exact calls_pure _ _
  | cons a subs ih =>
    intro errors r
    refine calls_bind (calls_mark r) fun m r1 _ => calls_bind (hr a (by simp) r1) fun x r2 _ => ?_
    obtain ⟨p, evs⟩ := x
    cases p with
    | proceed => exact calls_pure _ _
    | notThisWay e => exact calls_bind (calls_reset m r2) fun _ r3 _ => ih (fun a h => hr a (by simp [h])) _ r3

theorem or_errors {run : Nat → Run} (subs : List Nat) : ∀ errors r r1 out, orLoop run subs errors r = (.ok (.error out), r1) →
    out.length = errors.length + subs.length := by
  induction subs with
  | nil => intro errors r r1 out h; simp [orLoop] at h; simp [h.1]
  | cons a subs ih =>
    intro errors r r1 out h
    simp only [orLoop] at h
    rw [RM.bind_run] at h
    rcases hx : Reader.mark r with ⟨x, r2⟩
    rw [hx] at h
    cases x with
    | ok m =>
      simp only at h
      rw [RM.bind_run] at h
      rcases hy : run a r2 with ⟨y, r3⟩
      rw [hy] at h
      cases y with
      | ok y =>
        obtain ⟨p, evs⟩ := y
        cases p with
        | proceed => simp at h
        | notThisWay e =>
          simp only at h
          rw [RM.bind_run] at h
          rcases hz : Reader.resetToMark m r3 with ⟨z, r4⟩
          rw [hz] at h
          cases z with
          | ok z =>
            have := ih _ _ _ _ h
            simp at this ⊢; omega
          | _ => simp at h
      | _ => simp at h
    | _ => simp at h

theorem calls_capture (e : Location) (fuel : Nat) : ∀ r, CallsAt (captureLoop e fuel) r := by
  induction fuel with
  | zero => intro r; exact calls_lift (by simp) r
  | succ fuel ih =>
    intro r
    refine calls_bind (calls_location r) fun here r1 _ => ?_
    by_cases h : here.lines < e.lines ∨ here.columns < e.columns
    · rw [if_pos h]
      refine calls_bind (calls_read r1) fun x r2 _ => ?_
      cases x with
      | none => exact ih r2
      | some c => exact calls_bind (ih r2) fun _ _ _ => calls_pure _ _
    · rw [if_neg h]; exact calls_pure _ _

theorem calls_exception {g : Graph} {addr : Nat} {runF runX : Run} (hf : ∀ r, CallsAt runF r) (hx : ∀ r, CallsAt runX r) (r : Reader) :
    CallsAt (scanException g addr runF runX) r := by
  refine calls_bind (calls_location r) fun begin r1 _ => calls_bind (calls_mark r1) fun m r2 _ => calls_bind (hf r2) fun x r3 _ => ?_
  obtain ⟨p, temp⟩ := x
  cases p with
  | notThisWay e => exact calls_bind (calls_reset m r3) fun _ _ _ => calls_pure _ _
  | proceed =>
    refine calls_bind (calls_location r3) fun endLoc r4 _ => calls_bind (calls_reset m r4) fun _ r5 _ => calls_bind (calls_mark r5) fun m' r6 _ => ?_
    refine calls_bind (f := RM.get) ⟨[], rfl, fun p h => by cases h⟩ fun r7 r8 h78 => ?_
    injection h78 with h7 h8
    injection h7 with h7
    subst h7; subst h8
    refine calls_bind (calls_capture endLoc _ r6) fun buffer r9 h9 => calls_bind (calls_location r9) fun here r10 h10 => ?_
    have hb : r10.buffer.dbg = r6.buffer.dbg := by
      obtain ⟨ops, h1, _⟩ := calls_capture endLoc (r6.size + 1) r6
      have h2 := performAll_build ops r6
      rw [h9] at h1
      rw [← h1] at h2
      injection h10 with _ h10
      rw [← h10]; exact h2
    by_cases hd : (r6.buffer.dbg && decide (here ≠ endLoc)) = true
    · rw [if_pos hd]
      exact ⟨[], rfl, fun _ _ => .inl (hb.trans (by simp at hd; exact hd.1))⟩
    · rw [if_neg hd]
      refine calls_bind ⟨[], rfl, fun p hp => ?_⟩ fun excluded r11 _ => ?_
      · have hc : CallsAt (do
            let (p, _) ← runX
            match p with
            | .proceed => Reader.isEof
            | .notThisWay _ => pure false : RM Reader Bool) (Reader.withLocation begin (.buffered buffer) r6.buffer.dbg) := by
          refine calls_bind (hx _) fun x r12 _ => ?_
          obtain ⟨p, evs⟩ := x
          cases p with
          | proceed => exact calls_isEof _
          | notThisWay e => exact calls_pure _ _
        obtain ⟨ops, _, h2⟩ := hc
        cases hdb : r6.buffer.dbg with
        | true => exact .inl (hb.trans hdb)
        | false =>
          rw [hdb] at h2
          rcases h2 p (by rw [hdb] at hp; exact hp) with h3 | h3
          · cases h3
          · exact absurd h3 (release_no_crash _ _ _)
      · cases excluded with
        | true => exact calls_bind (calls_reset m' r11) fun _ r12 _ => calls_bind (calls_errExpected g _ r12) fun _ _ _ => calls_pure _ _
        | false => exact calls_pure _ _

theorem calls_special {g : Graph} (hg : Complete g) {addr : Nat} {instr : Instruction} {scanner : SpecialScanner} {run : Nat → Run}
    (hs : ∀ d, ByCalls (scanner.scan d)) (hr : ∀ a, There g a → ∀ r, CallsAt (run a) r) (r : Reader) :
    CallsAt (scanSpecial g addr instr scanner run) r := by
  refine calls_bind (calls_mark r) fun m r1 _ => calls_bind (hs _ r1) fun x r2 _ => ?_
  cases x with
  | «match» evts => exact calls_bind (calls_unmark m r2) fun _ _ _ => calls_pure _ _
  | unmatch => exact calls_bind (calls_reset m r2) fun _ r3 _ => calls_bind (calls_errExpected g _ r3) fun _ _ _ => calls_pure _ _
  | forward name =>
    simp only
    cases hl : g.indexOfLabel name with
    | none => exact calls_bind (calls_reset m r2) fun _ r3 _ => calls_bind (calls_location r3) fun _ r4 _ => calls_lift (by simp [Res.fail]) r4
    | some a => exact calls_bind (calls_unmark m r2) fun _ r3 _ => calls_bind (hr a (hg.labels _ _ hl) r3) fun _ _ _ => calls_pure _ _

theorem calls_terminal {g : Graph} {addr : Nat} {instr : Instruction} {s : Str} (r : Reader) : CallsAt (scanTerminal g addr instr s) r := by
  refine calls_bind (calls_prefixMatches s r) fun b r1 _ => ?_
  cases b with
  | true => exact calls_bind (calls_location r1) fun _ r2 _ => calls_bind (calls_skip _ r2) fun _ _ _ => calls_pure _ _
  | false => exact calls_bind (calls_errExpected g _ r1) fun _ _ _ => calls_pure _ _

theorem calls_step {g : Graph} (hg : Complete g) (hs : Scanners g) {run : Nat → Run} (hr : ∀ a, There g a → ∀ r, CallsAt (run a) r) (fuel addr : Nat)
    {instr : Instruction} (hi : g.instruction addr = some instr) (r : Reader) : CallsAt (execStep g run fuel addr instr) r := by
  have ht := hg.targets addr instr hi
  unfold Spec.targets at ht
  unfold execStep
  cases hst : instr.step with
  | repetition min max sub =>
    rw [hst] at ht
    exact calls_repetition (hr sub (ht sub (by simp))) min max fuel 0 [] r
  | or subs =>
    rw [hst] at ht
    refine calls_bind (calls_or subs (fun a ha => hr a (ht a (by simp [ha]))) [] r) fun x r1 h1 => ?_
    cases x with
    | ok evs => exact calls_pure _ _
    | error errors =>
      have hn := or_errors subs _ _ _ _ h1
      have h2 := hg.choices addr instr subs hi hst
      simp only
      cases he : errors.reverse with
      | nil =>
        rw [List.reverse_eq_nil_iff] at he
        subst he
        cases subs with
        | nil => exact absurd rfl h2
        | cons a s => simp at hn
      | cons last others =>
        refine calls_bind (calls_location r1) fun here r2 _ => ?_
        by_cases hc : (pickError last others).location = here
        · simp only [if_pos hc]; exact calls_bind (calls_errExpected g _ r2) fun _ _ _ => calls_pure _ _
        · simp only [if_neg hc]; exact calls_pure _ _
  | alias name =>
    obtain ⟨address, label, h1, h2⟩ := hg.aliases addr instr name hi hst
    simp only [h1, h2]
    refine calls_bind (calls_location r) fun _ r1 _ => calls_bind (hr address (hg.labels _ _ h1) r1) fun x r2 _ => ?_
    obtain ⟨p, evs⟩ := x
    cases p with
    | proceed => exact calls_bind (calls_location r2) fun _ _ _ => calls_pure _ _
    | notThisWay e => exact calls_pure _ _
  | scan sc =>
    cases sc with
    | terminal s => exact calls_terminal r
    | special scanner => exact calls_special hg (hs addr instr scanner hi hst) hr r
    | empty => exact calls_pure _ _
    | exception f x =>
      rw [hst] at ht
      exact calls_exception (hr f (ht f (by simp))) (hr x (ht x (by simp))) r

theorem calls_run {g : Graph} (hg : Complete g) (hs : Scanners g) (fuel : Nat) :
    ∀ next, (∀ a, next = some a → There g a) → ∀ r, CallsAt (runFrom g fuel next) r := by
  induction fuel with
  | zero => intro next _ r; exact calls_lift (by simp) r
  | succ fuel ih =>
    intro next hn r
    cases next with
    | none => exact calls_pure _ _
    | some addr =>
      unfold runFrom
      obtain ⟨instr, hi⟩ := hn addr rfl
      simp only [hi]
      refine calls_bind (calls_step hg hs (fun a ha => ih (some a) (fun b hb => by cases hb; exact ha)) fuel addr hi r) fun x r1 _ => ?_
      obtain ⟨p, evs⟩ := x
      cases p with
      | notThisWay e => exact calls_pure _ _
      | proceed =>
        refine calls_bind (ih _ (fun a ha => ?_) r1) fun _ _ _ => calls_pure _ _
        exact hg.targets addr instr hi a (by simp [Spec.targets, ha])

theorem calls_parse {m : Machine} (hg : Complete m.graph) (hs : Scanners m.graph) (he : There m.graph m.entry) (fuel : Nat) :
    ByCalls (m.parse fuel) := by
  intro r
  show CallsAt (m.parse fuel) r
  refine calls_bind (calls_run hg hs fuel _ (fun a ha => by cases ha; exact he) r) fun x r1 _ => ?_
  obtain ⟨p, evs⟩ := x
  cases p with
  | notThisWay e => exact calls_lift (by simp) _
  | proceed =>
    refine calls_bind (calls_isEof r1) fun b r2 _ => ?_
    cases b with
    | true =>
      refine calls_bind (f := RM.get) ⟨[], rfl, fun p h => by cases h⟩ fun r3 r4 h34 => ?_
      injection h34 with h3 h4
      injection h3 with h3
      subst h3; subst h4
      by_cases hd : (r2.buffer.dbg && !labelsAgree evs) = true
      · simp only [if_pos hd]
        exact ⟨[], rfl, fun _ _ => .inl (by simp at hd; exact hd.1)⟩
      · simp only [if_neg hd]
        exact calls_pure _ _
    | false => exact calls_bind (calls_errExpected _ _ r2) fun _ r3 _ => calls_lift (by simp) r3

/-! ## Compiled grammars -/

theorem complete_compiled {config : Config} {rules : List SyntaxRule} {s : Syntax} {g : Graph} (hr : ∀ r ∈ rules, RuleShape r)
    (hd : AllDefined rules) (hs : Syntax.new rules = .ok s) (hg : Graph.compile s config = .ok g) : Complete g := by
  let G : Language := ⟨rules, fun _ _ => defaultRecognizer, fun l s => (config l s).symbol⟩
  obtain ⟨g', h1, h2⟩ := compile_ok (config := config) (G := G) (fun _ _ => rfl) hs hr
  rw [hg, Res.ok.injEq] at h1
  subst h1
  have h3 : AllCome config G g.instructions := compile_comes (G := G) hs hg
  have name : ∀ n, Defines rules n → ∃ i label, g.indexOfLabel n = some i ∧ g.canonicalName n = some label := by
    rintro n ⟨r, a1, a2⟩
    obtain ⟨i, a3, _⟩ := h2.rule r a1
    have a4 := h2.name r a1
    rw [(keyed_eq_iff _ _).mpr a2] at a3 a4
    exact ⟨i, _, a3, a4⟩
  refine ⟨?_, ?_, ?_, ?_⟩
  · intro addr x hx i hi
    have hx := List.mem_of_getElem? hx
    have hlt : i < g.instructions.length := by
      obtain ⟨a1, a2⟩ := h2.closed x hx
      simp only [targets, List.mem_append, Option.mem_toList] at hi
      rcases hi with hi | hi
      · exact a1 i hi
      · revert a2 hi
        cases x.step with
        | repetition a b c => simp; omega
        | or subs => exact fun a2 hi => a2 i hi
        | alias n => simp
        | scan sc =>
          cases sc with
          | exception a b =>
            simp only [List.mem_cons, List.not_mem_nil, or_false]
            rintro ⟨a1, a2⟩ (rfl | rfl) <;> assumption
          | _ => simp
    exact ⟨_, List.getElem?_eq_getElem hlt⟩
  · intro name i hi
    exact ⟨_, List.getElem?_eq_getElem (h2.labels _ _ hi).1⟩
  · intro addr x n hx hst
    have a := h3 x (List.mem_of_getElem? hx)
    unfold Comes at a
    rw [hst] at a
    rcases a with ⟨loc, a⟩ | ⟨r, a1, a2⟩
    · obtain ⟨r, a1, a2⟩ := occurs_primary a
      exact name n (hd r a1 loc n a2)
    · exact name n ⟨r, a1, a2 ▸ .refl _⟩
  · intro addr x subs hx hst
    have a := h3 x (List.mem_of_getElem? hx)
    unfold Comes at a
    rw [hst] at a
    rcases a with a | a
    · exact a
    · exact absurd rfl (occurs_shape (G := G) hr a).1

theorem scanners_compiled {config : Config} {rules : List SyntaxRule} {s : Syntax} {g : Graph} (hr : ∀ r ∈ rules, RuleShape r)
    (hs : Syntax.new rules = .ok s) (hg : Graph.compile s config = .ok g) (hc : ∀ l t d, ByCalls ((config l t).scan d)) : Scanners g := by
  obtain ⟨g', h5, h6⟩ := compile_ok (config := config)
    (G := ⟨rules, fun _ _ => defaultRecognizer, fun l s => (config l s).symbol⟩) (fun _ _ => rfl) hs hr
  rw [hg, Res.ok.injEq] at h5
  subst h5
  intro addr instr scanner hi hst
  have h7 := (h6.closed instr (List.mem_of_getElem? hi)).2
  rw [hst] at h7
  obtain ⟨l, t, rfl⟩ := h7
  exact hc l t

theorem entry_there {g : Graph} (hg : Complete g) {query : Str} {m : Machine} (h : Machine.new g query = .ok (some m)) : There m.graph m.entry := by
  unfold Machine.new at h
  cases hl : g.indexOfLabel ('$' :: query) with
  | none => rw [hl] at h; simp at h
  | some i =>
    rw [hl] at h
    simp only at h
    cases hn : g.canonicalName query with
    | none => rw [hn] at h; cases h
    | some n =>
      rw [hn] at h
      simp only [Res.ok.injEq, Option.some.injEq] at h
      subst h
      exact hg.labels _ _ hl

/-- The last thing an accepting parse does is to find the end of the input. -/
theorem accepted_calls {m : Machine} (hg : Complete m.graph) (hs : Scanners m.graph) (he : There m.graph m.entry) {fuel : Nat} {r r' : Reader}
    {evs : List Event} (h : m.parse fuel r = (.ok evs, r')) :
    ∃ ops, (performAll ops r).2.buffer.dbg = r.buffer.dbg ∧ perform .isEof (performAll ops r).2 = (.bool true, r') := by
  obtain ⟨ops, h1, _⟩ := calls_run hg hs fuel (some m.entry) (fun a ha => by cases ha; exact he) r
  refine ⟨ops, performAll_build ops r, ?_⟩
  unfold Machine.parse at h
  rw [RM.bind_run] at h
  rcases hx : runFrom m.graph fuel (some m.entry) r with ⟨x, r1⟩
  rw [hx] at h h1
  simp only at h1
  rw [← h1]
  cases x with
  | ok x =>
    obtain ⟨p, evs'⟩ := x
    cases p with
    | notThisWay e => simp [RM.lift] at h
    | proceed =>
      simp only at h
      rw [RM.bind_run] at h
      rcases hy : Reader.isEof r1 with ⟨y, r2⟩
      rw [hy] at h
      cases y with
      | ok b =>
        cases b with
        | true =>
          simp only [↓reduceIte] at h
          rw [RM.bind_run] at h
          simp only [RM.get] at h
          by_cases hd : (r2.buffer.dbg && !labelsAgree evs') = true
          · rw [if_pos hd] at h; simp [RM.lift] at h
          · rw [if_neg hd] at h
            simp only [RM.pure_run, Prod.mk.injEq] at h
            rw [← h.2, perform, hy]
            rfl
        | false =>
          simp only [Bool.false_eq_true, ↓reduceIte] at h
          rw [RM.bind_run] at h
          rcases hz : errExpected m.graph none r2 with ⟨z, r3⟩
          rw [hz] at h
          cases z <;> simp [RM.lift] at h
      | _ => simp at h
  | _ => simp at h

/-! ## Programs and the scanners of the library -/

theorem follow_calls (next : List ReaderAns → Move) (fuel : Nat) : ∀ seen, ByCalls (follow next fuel seen) := by
  induction fuel with
  | zero => intro seen r; exact calls_lift (by simp) r
  | succ fuel ih =>
    intro seen r
    unfold follow
    cases next seen with
    | finish x => exact ⟨[], rfl, fun p h => by cases h⟩
    | fail e => exact ⟨[], rfl, fun p h => by cases h⟩
    | call op =>
      simp only
      rcases hx : perform op r with ⟨a, r1⟩
      have hb := perform_build op r
      rw [hx] at hb
      have go : ∃ ops, (follow next fuel (seen ++ [a]) r1).2 = (performAll ops r).2 ∧
          ∀ p, (follow next fuel (seen ++ [a]) r1).1 = .panic p → r.buffer.dbg = true ∨ .crash ∈ (performAll ops r).1 := by
        obtain ⟨ops, h1, h2⟩ := ih (seen ++ [a]) r1
        refine ⟨op :: ops, by simp only [performAll, hx]; exact h1, fun p hp => ?_⟩
        rcases h2 p hp with h3 | h3
        · exact .inl (hb ▸ h3)
        · exact .inr (by simp only [performAll, hx]; exact List.mem_cons_of_mem _ h3)
      cases a with
      | crash => exact ⟨[op], by simp [performAll, hx], fun _ _ => .inr (by simp [performAll, hx])⟩
      | _ => exact go

theorem calls_chars (allowed : Char → Bool) (max : Option Nat) (fuel : Nat) : ∀ count r, CallsAt (charsLoop allowed max fuel count) r := by
  induction fuel with
  | zero => intro count r; exact calls_lift (by simp) r
  | succ fuel ih =>
    intro count r
    unfold charsLoop
    by_cases hm : (max.map fun m => decide (count < m)).getD true = true
    · rw [if_pos hm]
      refine calls_bind (calls_mark r) fun m r1 _ => calls_bind (calls_read r1) fun ch r2 _ => ?_
      cases ch with
      | none => exact calls_pure _ _
      | some ch =>
        simp only
        cases allowed ch with
        | true => exact calls_bind (calls_unmark m r2) fun _ r3 _ => calls_bind (ih _ r3) fun _ _ _ => calls_pure _ _
        | false => exact calls_bind (calls_reset m r2) fun _ _ _ => calls_pure _ _
    · rw [if_neg hm]; exact calls_pure _ _

theorem library_calls {s : SpecialScanner} (h : LibraryScanner s) : ∀ d, ByCalls (s.scan d) := by
  cases h with
  | default content => exact fun _ r => calls_pure _ r
  | chars allowed min max =>
    intro d r
    refine calls_bind (calls_mark r) fun m r1 _ => calls_bind (calls_location r1) fun loc r2 _ => ?_
    refine (calls_bind (calls_chars allowed max _ 0 r2) fun buffer r3 _ => ?_ : CallsAt ((fun r => charsLoop allowed max (r.size + 1) 0 r : RM Reader Str) >>= _) r2)
    cases (min.map fun m => decide (buffer.length < m)).getD false with
    | true => exact calls_bind (calls_reset m r3) fun _ _ _ => calls_pure _ _
    | false => exact calls_pure _ _
  | regex source find =>
    intro d r
    refine calls_bind (calls_location r) fun loc r1 _ => calls_bind (calls_peek 257 r1) fun text r2 _ => ?_
    cases find text with
    | none => exact calls_pure _ _
    | some x =>
      obtain ⟨off, len⟩ := x
      cases off with
      | succ off => exact calls_pure _ _
      | zero =>
        simp only
        by_cases hl : (text.take len).length > 256
        · rw [if_pos hl]; exact calls_bind (calls_location r2) fun _ r3 _ => calls_lift (by simp [Res.fail]) r3
        · rw [if_neg hl]; exact calls_bind (calls_skip _ r2) fun _ _ _ => calls_pure _ _

end Ebnf.Unruly
