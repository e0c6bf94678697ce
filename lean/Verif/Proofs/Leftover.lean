import Verif.Spec.Leftover
import Verif.Proofs.Compile

set_option autoImplicit false

/-! # How many marks a parse leaves -/

namespace Ebnf

open Spec

variable {α β : Type}

/-- At most `k` marks for a value, and at most `j` otherwise. -/
def room (x : Res α) (k j : Nat) : Nat :=
  match x with
  | .ok _ => k
  | _ => j

/-- `f` leaves at most `k` marks when it returns a value, and at most `j` otherwise. -/
def Grows (f : RM Reader α) (k j : Nat) : Prop := ∀ r, liveMarks (f r).2 ≤ liveMarks r + room (f r).1 k j

theorem grows_pure (a : α) : Grows (pure a : RM Reader α) 0 0 := fun _ => Nat.le_refl _

theorem grows_lift (x : Res α) : Grows (RM.lift x : RM Reader α) 0 0 := fun r => by
  show liveMarks r ≤ _
  omega

theorem room_mono {x : Res α} {k j k' j' : Nat} (hk : k ≤ k') (hj : j ≤ j') : room x k j ≤ room x k' j' := by
  cases x <;> simpa [room]

theorem Grows.mono {f : RM Reader α} {k j k' j' : Nat} (h : Grows f k j) (hk : k ≤ k') (hj : j ≤ j') : Grows f k' j' :=
  fun r => Nat.le_trans (h r) (Nat.add_le_add_left (room_mono hk hj) _)

theorem Grows.any {f : RM Reader α} {k : Nat} (h : Grows f k k) (r : Reader) : liveMarks (f r).2 ≤ liveMarks r + k := by
  have := h r
  generalize (f r).1 = x at this
  cases x <;> simpa [room] using this

theorem grows_bind {f : RM Reader α} {g : α → RM Reader β} {k j k' j' : Nat} (hf : Grows f k j) (hg : ∀ a, Grows (g a) k' j') :
    Grows (f >>= g) (k + k') (max j (k + j')) := by
  intro r
  rw [RM.bind_run]
  have h := hf r
  generalize f r = x at h
  obtain ⟨x, r1⟩ := x
  cases x with
  | ok a =>
    simp only [room] at h ⊢
    have h2 := hg a r1
    generalize g a r1 = y at h2
    obtain ⟨y, r2⟩ := y
    cases y <;> simp only [room] at h2 ⊢ <;> omega
  | err e => simp only [room] at h ⊢; omega
  | panic p => simp only [room] at h ⊢; omega
  | diverge => simp only [room] at h ⊢; omega

theorem grows_then {f : RM Reader α} {g : α → RM Reader β} (hf : Grows f 0 0) (hg : ∀ a, Grows (g a) 0 0) : Grows (f >>= g) 0 0 := by
  simpa using grows_bind hf hg

/-! ## The reader -/

theorem grows_location : Grows Reader.location 0 0 := fun _ => Nat.le_refl _

theorem grows_mark : Grows Reader.mark 1 0 := by
  intro r
  unfold Reader.mark UnreadBuffer.mark
  simp only
  generalize (!match r.buffer.stack with | [] => true | (p, _) :: _ => decide (p ≤ r.buffer.head + r.buffer.next)) = b
  cases r.buffer.dbg && b <;> simp [room, liveMarks]

theorem findMark_shorter (m : Nat) : ∀ (st : List (Nat × Location)) l st', UnreadBuffer.findMark m st = some (l, st') →
    st'.length < st.length
  | [], l, st', h => by cases h
  | (p, l0) :: st, l, st', h => by
    unfold UnreadBuffer.findMark at h
    by_cases h1 : p = m
    · rw [if_pos h1] at h; injection h with h; injection h with h2 h3; subst h3; simp
    · rw [if_neg h1] at h
      by_cases h2 : p < m
      · rw [if_pos h2] at h; cases h
      · rw [if_neg h2] at h
        have := findMark_shorter m st l st' h
        simp; omega

theorem removeMark_shrinks (b : UnreadBuffer) (m : Nat) :
    (b.removeMark m).2.stack.length + room (b.removeMark m).1 1 0 ≤ b.stack.length := by
  unfold UnreadBuffer.removeMark
  split
  · simp [room, Res.fail]
  · cases h : UnreadBuffer.findMark m b.stack with
    | none => simp [room, Res.fail]
    | some x =>
      obtain ⟨l, st⟩ := x
      have := findMark_shorter m _ _ _ h
      simp [room]; omega

/-- Going back removes a mark. -/
theorem reset_shrinks (m : Nat) (r : Reader) :
    liveMarks (Reader.resetToMark m r).2 + room (Reader.resetToMark m r).1 1 0 ≤ liveMarks r := by
  unfold Reader.resetToMark UnreadBuffer.revert liveMarks
  have h := removeMark_shrinks r.buffer m
  generalize r.buffer.removeMark m = x at h
  obtain ⟨x, b⟩ := x
  cases x with
  | ok l =>
    simp only [room] at h ⊢
    split <;> simp only <;> omega
  | err e => simpa [room] using h
  | panic p => simpa [room] using h
  | diverge => simpa [room] using h

theorem grows_reset (m : Nat) : Grows (Reader.resetToMark m) 0 0 := fun r => by
  have := reset_shrinks m r
  omega

theorem grows_unmark (m : Nat) : Grows (Reader.unmark m) 0 0 := fun r => by
  unfold Reader.unmark liveMarks
  have h := removeMark_shrinks r.buffer m
  generalize r.buffer.removeMark m = x at h
  obtain ⟨x, b⟩ := x
  cases x <;> simp only [room] at h ⊢ <;> omega

theorem bufferRead_stack (b : UnreadBuffer) (n : Nat) : (b.read n).2.stack = b.stack := by
  unfold UnreadBuffer.read UnreadBuffer.truncateIfStackEmpty
  simp only
  split
  · split <;> rfl
  · rfl

theorem append_stack (b : UnreadBuffer) (cs : Str) : (b.append cs).2.stack = b.stack := by
  unfold UnreadBuffer.append
  split <;> split <;> rfl

theorem grows_readChars (n : Nat) : Grows (Reader.readChars n) 0 0 := by
  intro r
  have : liveMarks (Reader.readChars n r).2 = liveMarks r := by
    unfold Reader.readChars liveMarks
    split
    · simp [bufferRead_stack]
    · generalize r.source.readChars n = x
      obtain ⟨x, s⟩ := x
      cases x with
      | ok cs =>
        simp only
        split
        · rfl
        · have h := append_stack r.buffer cs
          generalize r.buffer.append cs = y at h
          obtain ⟨y, b⟩ := y
          cases y <;> simpa using congrArg List.length h
      | _ => rfl
  omega

theorem grows_read : Grows Reader.read 0 0 := grows_then (grows_readChars 1) fun _ => grows_pure _

/-- Mark, look ahead, go back. -/
theorem grows_under {f : RM Reader α} (hf : Grows f 0 0) (g : α → β) :
    Grows (do let m ← Reader.mark; let a ← f; let _ ← Reader.resetToMark m; pure (g a) : RM Reader β) 0 1 := by
  intro r
  simp only [RM.bind_run]
  have h1 := grows_mark r
  generalize Reader.mark r = x at h1
  obtain ⟨x, r1⟩ := x
  cases x with
  | ok m =>
    simp only [room] at h1 ⊢
    have h2 := hf r1
    generalize f r1 = y at h2
    obtain ⟨y, r2⟩ := y
    cases y with
    | ok a =>
      simp only [room] at h2 ⊢
      have h3 := reset_shrinks m r2
      generalize Reader.resetToMark m r2 = z at h3
      obtain ⟨z, r3⟩ := z
      cases z <;> simp only [room, RM.pure_run] at h3 ⊢ <;> omega
    | err e => simp only [room] at h2 ⊢; omega
    | panic p => simp only [room] at h2 ⊢; omega
    | diverge => simp only [room] at h2 ⊢; omega
  | err e => simp only [room] at h1 ⊢; omega
  | panic p => simp only [room] at h1 ⊢; omega
  | diverge => simp only [room] at h1 ⊢; omega

theorem grows_isEof : Grows Reader.isEof 0 1 := grows_under grows_read Option.isNone

theorem grows_prefixLoop (p : Str) : Grows (Reader.prefixLoop p) 0 0 := by
  induction p with
  | nil => exact grows_pure _
  | cons c p ih =>
    unfold Reader.prefixLoop
    refine grows_then grows_read fun ch => ?_
    split
    · exact grows_pure _
    · exact ih

theorem grows_prefixMatches (p : Str) : Grows (Reader.prefixMatches p) 0 1 := grows_under (grows_prefixLoop p) id

theorem grows_peekLoop (n : Nat) : Grows (Reader.peekLoop n) 0 0 := by
  induction n with
  | zero => exact grows_pure _
  | succ n ih =>
    unfold Reader.peekLoop
    refine grows_then grows_read fun ch => ?_
    cases ch with
    | none => exact grows_pure _
    | some c => exact grows_then ih fun _ => grows_pure _

theorem grows_peek (n : Nat) : Grows (Reader.peek n) 0 1 := grows_under (grows_peekLoop n) id

theorem grows_skipLoop (fuel : Nat) : ∀ n, Grows (Reader.skipLoop fuel n) 0 0 := by
  induction fuel with
  | zero =>
    intro n
    cases n with
    | zero => unfold Reader.skipLoop; exact grows_pure _
    | succ n => unfold Reader.skipLoop; exact grows_lift _
  | succ fuel ih =>
    intro n
    cases n with
    | zero => unfold Reader.skipLoop; exact grows_pure _
    | succ n =>
      unfold Reader.skipLoop
      refine grows_then (grows_readChars _) fun cs => ?_
      split
      · exact grows_pure _
      · exact ih _

theorem grows_skip (n : Nat) : Grows (Reader.skip n) 0 0 := grows_then (grows_skipLoop n n) fun _ => grows_pure _

theorem grows_streamPrefix : Grows streamPrefix 0 1 := by
  have : Grows streamPrefix (0 + 0) (max 1 (0 + 1)) := by
    refine grows_bind grows_isEof fun b => ?_
    cases b with
    | true => exact (grows_pure _).mono (by omega) (by omega)
    | false => exact (grows_bind (grows_peek 9) fun _ => grows_pure _).mono (by omega) (by omega)
  exact this

theorem grows_errExpected (g : Graph) (current : Option Nat) : Grows (errExpected g current) 1 1 := by
  intro r
  unfold errExpected
  have h := grows_streamPrefix r
  generalize streamPrefix r = x at h
  obtain ⟨x, r1⟩ := x
  cases x <;> simp only [room] at h ⊢ <;> omega

/-! ## The scanners of the library -/

theorem leaves_default (content : Str) : LeavesAtMost 0 (defaultScanner content) := fun _ _ => Nat.le_refl _

theorem grows_charsLoop (predicator : Char → Bool) (max : Option Nat) (fuel : Nat) : ∀ count, Grows (charsLoop predicator max fuel count) 1 1 := by
  induction fuel with
  | zero => intro count; exact (grows_lift _).mono (by omega) (by omega)
  | succ fuel ih =>
    intro count
    unfold charsLoop
    split
    · intro r
      simp only [RM.bind_run]
      have h1 := grows_mark r
      generalize Reader.mark r = x at h1
      obtain ⟨x, r1⟩ := x
      cases x with
      | ok m =>
        simp only [room] at h1 ⊢
        have h2 := grows_read r1
        generalize Reader.read r1 = y at h2
        obtain ⟨y, r2⟩ := y
        cases y with
        | ok ch =>
          simp only [room] at h2 ⊢
          cases ch with
          | none => simp only [RM.pure_run]; omega
          | some c =>
            simp only
            split
            · have h3 := (grows_then (grows_reset m) fun _ => grows_pure ([] : Str)) r2
              generalize (Reader.resetToMark m >>= fun _ => pure ([] : Str)) r2 = z at h3
              obtain ⟨z, r3⟩ := z
              cases z <;> simp only [room] at h3 ⊢ <;> omega
            · simp only [RM.bind_run]
              have h3 : liveMarks (Reader.unmark m r2).2 + room (Reader.unmark m r2).1 1 0 ≤ liveMarks r2 := by
                unfold Reader.unmark liveMarks
                have h := removeMark_shrinks r2.buffer m
                generalize r2.buffer.removeMark m = x at h
                obtain ⟨x, b⟩ := x
                cases x <;> simp only [room] at h ⊢ <;> omega
              generalize Reader.unmark m r2 = z at h3
              obtain ⟨z, r3⟩ := z
              cases z with
              | ok u =>
                simp only [room] at h3 ⊢
                have h4 := ih (count + 1) r3
                generalize charsLoop predicator max fuel (count + 1) r3 = w at h4
                obtain ⟨w, r4⟩ := w
                cases w <;> simp only [room, RM.pure_run] at h4 ⊢ <;> omega
              | err e => simp only [room] at h3 ⊢; omega
              | panic p => simp only [room] at h3 ⊢; omega
              | diverge => simp only [room] at h3 ⊢; omega
        | err e => simp only [room] at h2 ⊢; omega
        | panic p => simp only [room] at h2 ⊢; omega
        | diverge => simp only [room] at h2 ⊢; omega
      | err e => simp only [room] at h1 ⊢; omega
      | panic p => simp only [room] at h1 ⊢; omega
      | diverge => simp only [room] at h1 ⊢; omega
    · exact (grows_pure _).mono (by omega) (by omega)

theorem leaves_chars (predicator : Char → Bool) (min max : Option Nat) : LeavesAtMost 2 (charsScanner predicator min max) := by
  intro definition
  have : Grows ((charsScanner predicator min max).scan definition) 2 2 := by
    unfold charsScanner
    refine (grows_bind (k' := 1) (j' := 1) grows_mark fun m => ?_).mono (by omega) (by omega)
    refine (grows_bind (k' := 1) (j' := 1) grows_location fun l => ?_).mono (by omega) (by omega)
    refine (grows_bind (k := 0) (j := 0) (k' := 1) (j' := 1) (fun r => Nat.le_refl _) fun r0 => ?_).mono (by omega) (by omega)
    refine (grows_bind (k' := 0) (j' := 0) (grows_charsLoop predicator max _ 0) fun buffer => ?_).mono (by omega) (by omega)
    split
    · exact grows_then (grows_reset m) fun _ => grows_pure _
    · exact grows_pure _
  exact this.any

theorem leaves_regex (source : Str) (find : Str → Option (Nat × Nat)) : LeavesAtMost 1 (regexScanner source find) := by
  intro definition
  have : Grows ((regexScanner source find).scan definition) 1 1 := by
    unfold regexScanner
    refine (grows_bind (k' := 0) (j' := 1) grows_location fun l => ?_).mono (by omega) (by omega)
    refine (grows_bind (k' := 0) (j' := 0) (grows_peek 257) fun text => ?_).mono (by omega) (by omega)
    split
    · dsimp only
      split
      · exact grows_then grows_location fun _ => grows_lift _
      · exact grows_then (grows_skip _) fun _ => grows_pure _
    · exact grows_pure _
  exact this.any

/-! ## The machine -/

theorem tell_location (r : Reader) : Reader.location r = (.ok r.buffer.location, r) := rfl

/-- With `count` instructions executed, the run leaves fewer than `A * count` marks. -/
def Adds (A : Nat) (run : Run) (count : Reader → Nat) : Prop :=
  ∀ r, liveMarks (run r).2 ≤ liveMarks r + A * count r ∧ (1 ≤ count r → liveMarks (run r).2 + 1 ≤ liveMarks r + A * count r) ∧
    (∀ x, (run r).1 = .ok x → 1 ≤ count r)

theorem adds_loop {A : Nat} {body : Run} {count : Reader → Nat} (hb : Adds A body count) (min max fuel : Nat) : ∀ i temp r,
    liveMarks (repetitionLoop body min max fuel i temp r).2 ≤ liveMarks r + A * repetitionSteps body count max fuel i r + 1 := by
  induction fuel with
  | zero => intro i temp r; simp only [repetitionLoop, RM.lift_run]; omega
  | succ fuel ih =>
    intro i temp r
    unfold repetitionLoop repetitionSteps
    by_cases hi : i < max
    · rw [if_pos hi, if_pos hi]
      simp only [RM.bind_run, tell_location]
      have h1 := grows_mark r
      generalize Reader.mark r = x at h1
      obtain ⟨x, r1⟩ := x
      cases x with
      | ok m =>
        simp only [room] at h1 ⊢
        obtain ⟨h2, h3, h4⟩ := hb r1
        generalize body r1 = y at h2 h3 h4
        obtain ⟨y, r2⟩ := y
        simp only at h2 h3 h4
        cases y with
        | ok pe =>
          have h3 := h3 (h4 _ rfl)
          obtain ⟨p, evs⟩ := pe
          cases p with
          | notThisWay e =>
            simp only
            split
            · simp only [RM.pure_run, Nat.mul_add]; omega
            · simp only [RM.bind_run]
              have h5 := grows_reset m r2
              generalize Reader.resetToMark m r2 = z at h5
              obtain ⟨z, r3⟩ := z
              cases z <;> simp only [room, RM.pure_run, Nat.mul_add] at h5 ⊢ <;> omega
          | proceed =>
            simp only [RM.bind_run, tell_location]
            by_cases hl : max = u32Max ∧ r2.buffer.location = r.buffer.location
            · rw [if_pos hl, if_pos hl]
              simp only [RM.lift_run, Nat.mul_add]; omega
            · rw [if_neg hl, if_neg hl]
              have := ih (i + 1) (temp ++ evs) r2
              rw [Nat.mul_add]
              omega
        | err e => simp only [Nat.mul_add]; omega
        | panic p => simp only [Nat.mul_add]; omega
        | diverge => simp only [Nat.mul_add]; omega
      | err e => simp only [room] at h1 ⊢; omega
      | panic p => simp only [room] at h1 ⊢; omega
      | diverge => simp only [room] at h1 ⊢; omega
    · rw [if_neg hi, if_neg hi]
      simp only [RM.pure_run]; omega

theorem adds_or {A : Nat} {run : Nat → Run} {count : Nat → Reader → Nat} (hb : ∀ a, Adds A (run a) (count a)) : ∀ subs errors r,
    liveMarks (orLoop run subs errors r).2 ≤ liveMarks r + A * orSteps run count subs r + room (orLoop run subs errors r).1 0 1
  | [], errors, r => by simp only [orLoop, RM.pure_run]; omega
  | sub :: subs, errors, r => by
    unfold orLoop orSteps
    simp only [RM.bind_run]
    have h1 := grows_mark r
    generalize Reader.mark r = x at h1
    obtain ⟨x, r1⟩ := x
    cases x with
    | ok m =>
      simp only [room] at h1 ⊢
      obtain ⟨h2, h3, h4⟩ := hb sub r1
      generalize run sub r1 = y at h2 h3 h4
      obtain ⟨y, r2⟩ := y
      simp only at h2 h3 h4
      cases y with
      | ok pe =>
        have h3 := h3 (h4 _ rfl)
        obtain ⟨p, evs⟩ := pe
        cases p with
        | proceed => simp only [RM.pure_run, Nat.mul_add]; omega
        | notThisWay e =>
          simp only [RM.bind_run]
          have h5 := grows_reset m r2
          generalize Reader.resetToMark m r2 = z at h5
          obtain ⟨z, r3⟩ := z
          cases z with
          | ok n =>
            simp only [room, Nat.mul_add] at h5 ⊢
            have h6 := adds_or hb subs (errors ++ [e]) r3
            unfold room at h6
            omega
          | err e => simp only [room, Nat.mul_add] at h5 ⊢; omega
          | panic e => simp only [room, Nat.mul_add] at h5 ⊢; omega
          | diverge => simp only [room, Nat.mul_add] at h5 ⊢; omega
      | err e => simp only [Nat.mul_add]; omega
      | panic p => simp only [Nat.mul_add]; omega
      | diverge => simp only [Nat.mul_add]; omega
    | err e => simp only [room] at h1 ⊢; omega
    | panic p => simp only [room] at h1 ⊢; omega
    | diverge => simp only [room] at h1 ⊢; omega

theorem grows_capture (endLoc : Location) (fuel : Nat) : Grows (captureLoop endLoc fuel) 0 0 := by
  induction fuel with
  | zero => exact grows_lift _
  | succ fuel ih =>
    unfold captureLoop
    refine grows_then grows_location fun here => ?_
    split
    · refine grows_then grows_read fun ch => ?_
      cases ch with
      | none => exact ih
      | some c => exact grows_then ih fun _ => grows_pure _
    · exact grows_pure _

theorem adds_exception {A : Nat} {g : Graph} {addr : Nat} {runF runX : Run} {countF countX : Reader → Nat} (hf : Adds A runF countF)
    (r : Reader) : liveMarks (scanException g addr runF runX r).2 ≤ liveMarks r + A * exceptionSteps runF countF countX r + 2 := by
  unfold scanException exceptionSteps
  simp only [RM.bind_run, tell_location]
  have h1 := grows_mark r
  generalize Reader.mark r = x at h1
  obtain ⟨x, r1⟩ := x
  cases x with
  | ok m =>
    simp only [room] at h1 ⊢
    obtain ⟨h2, h3, h4⟩ := hf r1
    generalize runF r1 = y at h2 h3 h4
    obtain ⟨y, r2⟩ := y
    simp only at h2 h3 h4
    cases y with
    | ok pe =>
      have h3 := h3 (h4 _ rfl)
      obtain ⟨p, evs⟩ := pe
      cases p with
      | notThisWay e =>
        simp only [RM.bind_run]
        have h5 := grows_reset m r2
        generalize Reader.resetToMark m r2 = z at h5
        obtain ⟨z, r3⟩ := z
        cases z <;> simp only [room, RM.pure_run, Nat.mul_add] at h5 ⊢ <;> omega
      | proceed =>
        simp only [RM.bind_run, tell_location]
        have h5 := grows_reset m r2
        generalize Reader.resetToMark m r2 = z at h5
        obtain ⟨z, r3⟩ := z
        cases z with
        | ok n =>
          simp only [room] at h5 ⊢
          have h6 := grows_mark r3
          generalize Reader.mark r3 = w at h6
          obtain ⟨w, r4⟩ := w
          cases w with
          | ok m2 =>
            simp only [room, RM.get_run] at h6 ⊢
            have h7 := grows_capture r2.buffer.location (r4.size + 1) r4
            generalize captureLoop r2.buffer.location (r4.size + 1) r4 = v at h7
            obtain ⟨v, r5⟩ := v
            cases v with
            | ok buffer =>
              simp only [room] at h7 ⊢
              have key : ∀ q, liveMarks q ≤ liveMarks r + A * countF r1 + 2 → ∀ k, liveMarks q ≤ liveMarks r + A * (countF r1 + k) + 2 := by
                intro q hq k; rw [Nat.mul_add]; omega
              apply key
              by_cases hl : (r4.buffer.dbg && r5.buffer.location ≠ r2.buffer.location) = true
              · rw [if_pos hl]
                simp only [RM.lift_run]; omega
              · rw [if_neg hl]
                suffices h : ∀ ex : Res Bool, liveMarks ((RM.lift ex >>= fun excluded =>
                    if excluded then do
                      let _ ← Reader.resetToMark m2
                      let e ← errExpected g (some addr)
                      pure (Prospect.notThisWay e, [])
                    else pure (Prospect.proceed, evs)) r5).2 ≤ liveMarks r + A * countF r1 + 2 from h _
                intro ex
                simp only [RM.bind_run, RM.lift_run]
                cases ex with
                | ok b =>
                  cases b with
                  | true =>
                    simp only [if_true, RM.bind_run]
                    have h8 := grows_reset m2 r5
                    generalize Reader.resetToMark m2 r5 = u at h8
                    obtain ⟨u, r6⟩ := u
                    cases u with
                    | ok n =>
                      simp only [room] at h8 ⊢
                      have h9 := (grows_errExpected g (some addr)).any r6
                      generalize errExpected g (some addr) r6 = t at h9
                      obtain ⟨t, r7⟩ := t
                      cases t <;> simp only [RM.pure_run] at h9 ⊢ <;> omega
                    | err e => simp only [room] at h8 ⊢; omega
                    | panic e => simp only [room] at h8 ⊢; omega
                    | diverge => simp only [room] at h8 ⊢; omega
                  | false => simp only [Bool.false_eq_true, if_false, RM.pure_run]; omega
                | err e => simp only; omega
                | panic e => simp only; omega
                | diverge => simp only; omega
            | err e => simp only [room, Nat.mul_add] at h7 ⊢; omega
            | panic e => simp only [room, Nat.mul_add] at h7 ⊢; omega
            | diverge => simp only [room, Nat.mul_add] at h7 ⊢; omega
          | err e => simp only [room, Nat.mul_add] at h6 ⊢; omega
          | panic e => simp only [room, Nat.mul_add] at h6 ⊢; omega
          | diverge => simp only [room, Nat.mul_add] at h6 ⊢; omega
        | err e => simp only [room, Nat.mul_add] at h5 ⊢; omega
        | panic e => simp only [room, Nat.mul_add] at h5 ⊢; omega
        | diverge => simp only [room, Nat.mul_add] at h5 ⊢; omega
    | err e => simp only [Nat.mul_add]; omega
    | panic p => simp only [Nat.mul_add]; omega
    | diverge => simp only [Nat.mul_add]; omega
  | err e => simp only [room] at h1 ⊢; omega
  | panic p => simp only [room] at h1 ⊢; omega
  | diverge => simp only [room] at h1 ⊢; omega

theorem adds_terminal {g : Graph} {addr : Nat} {instr : Instruction} {s : Str} : Grows (scanTerminal g addr instr s) 1 1 := by
  unfold scanTerminal
  refine (grows_bind (k' := 1) (j' := 1) (grows_prefixMatches s) fun b => ?_).mono (by omega) (by omega)
  cases b with
  | true =>
    simp only [if_true]
    exact (grows_then grows_location fun _ => grows_then (grows_skip _) fun _ => grows_pure _).mono (by omega) (by omega)
  | false =>
    simp only [Bool.false_eq_true, if_false]
    exact (grows_bind (k' := 0) (j' := 0) (grows_errExpected g (some addr)) fun _ => grows_pure _).mono (by omega) (by omega)

theorem adds_special {A k : Nat} {g : Graph} {addr : Nat} {instr : Instruction} {scanner : SpecialScanner} (hk : LeavesAtMost k scanner)
    {run : Nat → Run} {count : Nat → Reader → Nat} (hb : ∀ a, Adds A (run a) (count a)) (r : Reader) :
    liveMarks (scanSpecial g addr instr scanner run r).2 ≤ liveMarks r + A * specialSteps g instr scanner count r + (k + 2) := by
  unfold scanSpecial specialSteps
  simp only [RM.bind_run]
  have h1 := grows_mark r
  generalize Reader.mark r = x at h1
  obtain ⟨x, r1⟩ := x
  cases x with
  | ok m =>
    simp only [room] at h1 ⊢
    have h2 := hk instr.definition r1
    generalize scanner.scan instr.definition r1 = y at h2
    obtain ⟨y, r2⟩ := y
    cases y with
    | ok reaction =>
      simp only at h2 ⊢
      cases reaction with
      | «match» evs =>
        simp only [RM.bind_run]
        have h3 := grows_unmark m r2
        generalize Reader.unmark m r2 = z at h3
        obtain ⟨z, r3⟩ := z
        cases z <;> simp only [room, RM.pure_run] at h3 ⊢ <;> omega
      | unmatch =>
        simp only [RM.bind_run]
        have h3 := grows_reset m r2
        generalize Reader.resetToMark m r2 = z at h3
        obtain ⟨z, r3⟩ := z
        cases z with
        | ok n =>
          simp only [room] at h3 ⊢
          have h4 := (grows_errExpected g (some addr)).any r3
          generalize errExpected g (some addr) r3 = t at h4
          obtain ⟨t, r4⟩ := t
          cases t <;> simp only [RM.pure_run] at h4 ⊢ <;> omega
        | err e => simp only [room] at h3 ⊢; omega
        | panic e => simp only [room] at h3 ⊢; omega
        | diverge => simp only [room] at h3 ⊢; omega
      | forward name =>
        simp only
        cases g.indexOfLabel name with
        | none =>
          simp only [RM.bind_run]
          have h3 := grows_reset m r2
          generalize Reader.resetToMark m r2 = z at h3
          obtain ⟨z, r3⟩ := z
          cases z <;> simp only [room, tell_location, RM.lift_run] at h3 ⊢ <;> omega
        | some next =>
          simp only [RM.bind_run]
          have h3 := grows_unmark m r2
          generalize Reader.unmark m r2 = z at h3
          obtain ⟨z, r3⟩ := z
          cases z with
          | ok u =>
            simp only [room] at h3 ⊢
            have h4 := (hb next r3).1
            generalize run next r3 = t at h4
            obtain ⟨t, r4⟩ := t
            cases t <;> simp only [RM.pure_run] at h4 ⊢ <;> omega
          | err e => simp only [room] at h3 ⊢; omega
          | panic e => simp only [room] at h3 ⊢; omega
          | diverge => simp only [room] at h3 ⊢; omega
    | err e => simp only at h2 ⊢; omega
    | panic e => simp only at h2 ⊢; omega
    | diverge => simp only at h2 ⊢; omega
  | err e => simp only [room] at h1 ⊢; omega
  | panic p => simp only [room] at h1 ⊢; omega
  | diverge => simp only [room] at h1 ⊢; omega

/-- Every scanner of the graph leaves at most `k` marks. -/
def GraphLeaves (k : Nat) (g : Graph) : Prop :=
  ∀ addr instr scanner, g.instruction addr = some instr → instr.step = .scan (.special scanner) → LeavesAtMost k scanner

theorem adds_step {k : Nat} {g : Graph} (hg : GraphLeaves k g) {run : Nat → Run} {count : Nat → Reader → Nat}
    (hb : ∀ a, Adds (k + 3) (run a) (count a)) (fuel addr : Nat) (instr : Instruction) (hi : g.instruction addr = some instr) (r : Reader) :
    liveMarks (execStep g run fuel addr instr r).2 ≤ liveMarks r + (k + 3) * callSteps g run count fuel instr r + (k + 2) := by
  unfold execStep callSteps
  cases hst : instr.step with
  | repetition min max sub =>
    have := adds_loop (hb sub) min max fuel 0 [] r
    simp only
    omega
  | or subs =>
    simp only [RM.bind_run]
    have ho := adds_or hb subs [] r
    generalize orLoop run subs [] r = x at ho
    obtain ⟨x, r1⟩ := x
    cases x with
    | ok y =>
      simp only [room] at ho ⊢
      cases y with
      | ok evs => simp only [RM.pure_run]; omega
      | error errors =>
        simp only
        cases errors.reverse with
        | nil => simp only [RM.lift_run]; omega
        | cons last others =>
          simp only [RM.bind_run, tell_location]
          split
          · simp only [RM.bind_run]
            have h4 := (grows_errExpected g (some addr)).any r1
            generalize errExpected g (some addr) r1 = t at h4
            obtain ⟨t, r4⟩ := t
            cases t <;> simp only [RM.pure_run] at h4 ⊢ <;> omega
          · simp only [RM.pure_run]; omega
    | err e => simp only [room] at ho ⊢; omega
    | panic p => simp only [room] at ho ⊢; omega
    | diverge => simp only [room] at ho ⊢; omega
  | alias name =>
    simp only
    cases g.indexOfLabel name with
    | none => simp only [RM.lift_run]; omega
    | some address =>
      simp only
      cases g.canonicalName name with
      | none => simp only [RM.lift_run]; omega
      | some label =>
        simp only [RM.bind_run, tell_location]
        have h := (hb address r).1
        generalize run address r = x at h
        obtain ⟨x, r1⟩ := x
        cases x with
        | ok pe =>
          obtain ⟨p, evs⟩ := pe
          cases p <;> simp only [RM.bind_run, tell_location, RM.pure_run] at h ⊢ <;> omega
        | err e => simp only at h ⊢; omega
        | panic p => simp only at h ⊢; omega
        | diverge => simp only at h ⊢; omega
  | scan sc =>
    cases sc with
    | terminal s => have := (adds_terminal (g := g) (addr := addr) (instr := instr) (s := s)).any r; simp only; omega
    | special scanner => exact adds_special (hg addr instr scanner hi hst) hb r
    | empty => simp only [RM.pure_run]; omega
    | exception f x =>
      have := adds_exception (g := g) (addr := addr) (runX := run x) (countX := count x) (hb f) r
      simp only; omega

theorem adds_run {k : Nat} {g : Graph} (hg : GraphLeaves k g) (fuel : Nat) :
    (∀ a, Adds (k + 3) (runFrom g fuel (some a)) (stepsFrom g fuel (some a))) ∧
    ∀ next r, liveMarks (runFrom g fuel next r).2 ≤ liveMarks r + (k + 3) * stepsFrom g fuel next r := by
  induction fuel with
  | zero =>
    refine ⟨fun a r => ⟨?_, ?_, ?_⟩, fun next r => ?_⟩
    · simp [runFrom, stepsFrom]
    · simp [stepsFrom]
    · intro x hx; simp [runFrom] at hx
    · simp [runFrom, stepsFrom]
  | succ fuel ih =>
    have main : ∀ a, Adds (k + 3) (runFrom g (fuel + 1) (some a)) (stepsFrom g (fuel + 1) (some a)) := by
      intro addr r
      unfold runFrom stepsFrom
      cases hi : g.instruction addr with
      | none => exact ⟨by simp, by simp, by intro x hx; simp at hx⟩
      | some instr =>
        simp only [RM.bind_run]
        have h1 := adds_step hg ih.1 fuel addr instr hi r
        generalize execStep g (fun a => runFrom g fuel (some a)) fuel addr instr r = x at h1
        generalize callSteps g (fun a => runFrom g fuel (some a)) (fun a => stepsFrom g fuel (some a)) fuel instr r = c at h1
        obtain ⟨x, r1⟩ := x
        refine (fun h => ⟨by omega, fun _ => h, fun _ _ => by omega⟩ : _ + 1 ≤ _ → _) ?_
        cases x with
        | ok pe =>
          obtain ⟨p, evs⟩ := pe
          cases p with
          | notThisWay e => simp only [RM.pure_run, Nat.mul_add] at h1 ⊢; omega
          | proceed =>
            simp only [RM.bind_run] at h1 ⊢
            have h2 := ih.2 instr.next r1
            generalize runFrom g fuel instr.next r1 = y at h2
            generalize stepsFrom g fuel instr.next r1 = d at h2
            obtain ⟨y, r2⟩ := y
            cases y <;> simp only [RM.pure_run, Nat.mul_add] at h1 h2 ⊢ <;> omega
        | err e => simp only [Nat.mul_add] at h1 ⊢; omega
        | panic p => simp only [Nat.mul_add] at h1 ⊢; omega
        | diverge => simp only [Nat.mul_add] at h1 ⊢; omega
    refine ⟨main, fun next r => ?_⟩
    cases next with
    | none => simp [runFrom, stepsFrom]
    | some a => exact (main a r).1

theorem adds_parse {k : Nat} {m : Machine} (hg : GraphLeaves k m.graph) (fuel : Nat) (r : Reader) :
    liveMarks (m.parse fuel r).2 ≤ liveMarks r + (k + 3) * m.steps fuel r := by
  unfold Machine.parse Machine.steps
  simp only [RM.bind_run]
  obtain ⟨h1, h2, h3⟩ := (adds_run hg fuel).1 m.entry r
  generalize runFrom m.graph fuel (some m.entry) r = x at h1 h2 h3
  obtain ⟨x, r1⟩ := x
  cases x with
  | ok pe =>
    have h2 := h2 (h3 _ rfl)
    obtain ⟨p, evs⟩ := pe
    cases p with
    | notThisWay e => simp only [RM.lift_run] at h2 ⊢; omega
    | proceed =>
      simp only [RM.bind_run] at h2 ⊢
      have h4 := grows_isEof r1
      generalize Reader.isEof r1 = y at h4
      obtain ⟨y, r2⟩ := y
      cases y with
      | ok b =>
        simp only [room] at h4 ⊢
        cases b with
        | true =>
          simp only [if_true, RM.bind_run, RM.get_run]
          split <;> simp only [RM.lift_run, RM.pure_run] <;> omega
        | false =>
          simp only [Bool.false_eq_true, if_false, RM.bind_run]
          have h5 := (grows_errExpected m.graph none).any r2
          generalize errExpected m.graph none r2 = t at h5
          obtain ⟨t, r3⟩ := t
          cases t <;> simp only [RM.lift_run] at h5 ⊢ <;> omega
      | err e => simp only [room] at h4 ⊢; omega
      | panic p => simp only [room] at h4 ⊢; omega
      | diverge => simp only [room] at h4 ⊢; omega
  | err e => simpa using h1
  | panic p => simpa using h1
  | diverge => simpa using h1

end Ebnf
