import Verif.Model.Machine
import Verif.Spec.Semantics
import Verif.Proofs.Builds

set_option autoImplicit false

/-! # The machine without its reader

On a source without I/O errors, the machine is a function of the location and of the text left (`prun`).  `dbg` tells
whether it is a debug build. -/

namespace Ebnf

open Spec

variable {dbg : Bool}

/-- A run as a function of the place and the text left; `none` stands for divergence. -/
abbrev PRun := Location → Str → Option Outcome

/-- The result of a run on a reader at `c` with the marks `ms` is the outcome. -/
def AgreesM (dbg : Bool) (c : Cursor) (ms : List (Nat × Nat)) (x : Res (Prospect × List Event) × Reader) : Option Outcome → Prop
  | none => x.1 = .diverge
  | some (.ok evs n) => x.1 = .ok (.proceed, evs) ∧ n ≤ c.rest.length ∧
      ∃ own, Stands dbg x.2 ⟨c.start, c.text, c.pos + n, own ++ ms⟩
  | some (.fail e evs n) => x.1 = .ok (.notThisWay e, evs) ∧ n ≤ c.rest.length ∧
      ∃ own, Stands dbg x.2 ⟨c.start, c.text, c.pos + n, own ++ ms⟩
  | some (.abort e) => x.1 = .err e ∧ ∃ p own, Stands dbg x.2 ⟨c.start, c.text, p, own ++ ms⟩
  | some (.panic p) => x.1 = .panic p

/-- The result of a run on a reader at `c` is the outcome. -/
abbrev Agrees (dbg : Bool) (c : Cursor) (x : Res (Prospect × List Event) × Reader) (o : Option Outcome) : Prop :=
  AgreesM dbg c c.marks x o

/-- The run on a reader is the pure run. -/
def Sims (dbg : Bool) (run : Run) (p : PRun) : Prop := ∀ r c, Stands dbg r c → Agrees dbg c (run r) (p c.location c.rest)

/-! ## Cursors -/

theorem rest_advance (c : Cursor) (n : Nat) : (c.advance n).rest = c.rest.drop n := by
  simp [Cursor.rest, Cursor.advance, List.drop_drop]

theorem loc_advance {c : Cursor} {n : Nat} (h : n ≤ c.rest.length) :
    (c.advance n).location = lineColumn c.location (c.rest.take n) := by
  have hl : (c.rest.take n).length = n := by simp [Nat.min_eq_left h]
  have := location_advance (c := c) (cs := c.rest.take n) (List.take_prefix _ _)
  rw [hl] at this
  rw [this, Location.pushStr_eq_lineColumn]

theorem lineColumn_self_iff (here : Location) (w : Str) : lineColumn here w = here ↔ w = [] := by
  constructor
  · intro h
    apply Classical.byContradiction
    intro hw
    exact Location.pushStr_ne here w hw (by rw [Location.pushStr_eq_lineColumn, h])
  · rintro rfl; exact lineColumn_nil here

/-! ## Marks -/

/-- Mark, then run. -/
theorem mark_run {run : Run} {p : PRun} (hs : Sims dbg run p) {r : Reader} {c : Cursor} (h : Stands dbg r c) :
    ∃ m r', Reader.mark r = (.ok m, r') ∧ Stands dbg r' ⟨c.start, c.text, c.pos, (m, c.pos) :: c.marks⟩ ∧
      AgreesM dbg c ((m, c.pos) :: c.marks) (run r') (p c.location c.rest) := by
  obtain ⟨m, r', h1, h2⟩ := mark_at h
  exact ⟨m, r', h1, h2, hs r' _ h2⟩

/-- The location of a moved cursor. -/
theorem moved_location {c : Cursor} {n : Nat} {ms : List (Nat × Nat)} (h : n ≤ c.rest.length) :
    (⟨c.start, c.text, c.pos + n, ms⟩ : Cursor).location = lineColumn c.location (c.rest.take n) := loc_advance h

/-- The rest of a moved cursor. -/
theorem moved_rest {c : Cursor} {n : Nat} {ms : List (Nat × Nat)} :
    (⟨c.start, c.text, c.pos + n, ms⟩ : Cursor).rest = c.rest.drop n := rest_advance c n

/-! ## Errors -/

theorem ahead_peek (rest : Str) (h : rest ≠ []) : actualOfPeek (rest.take 9) = ahead rest := by
  unfold actualOfPeek ahead
  rw [if_neg h]
  simp only [List.length_take, List.take_take]
  by_cases h8 : rest.length ≤ 8
  · rw [if_pos (by omega), if_pos h8, List.take_of_length_le (by omega)]
  · rw [if_neg (by omega), if_neg h8]; rfl

theorem streamPrefix_at {r : Reader} {c : Cursor} (h : Stands dbg r c) :
    ∃ r', streamPrefix r = (.ok (ahead c.rest), r') ∧ Stands dbg r' c := by
  obtain ⟨r1, h1, h2⟩ := isEof_at h
  unfold streamPrefix
  simp only [RM.bind_run, h1]
  by_cases hr : c.rest = []
  · rw [decide_eq_true hr]
    simp only [if_true, RM.pure_run]
    refine ⟨r1, ?_, h2⟩
    simp [ahead, hr]
  · rw [decide_eq_false hr]
    simp only [Bool.false_eq_true, if_false]
    obtain ⟨r2, h4, h5, _⟩ := peek_at h2 9
    simp only [RM.bind_run, h4, RM.pure_run]
    exact ⟨r2, by rw [ahead_peek _ hr], h5⟩

/-- The expected symbol at an address. -/
def symbolAt (g : Graph) (current : Option Nat) : Str :=
  ((current.bind g.instruction).map (·.symbol)).getD "EOF".toList

theorem errExpected_at {g : Graph} {current : Option Nat} {r : Reader} {c : Cursor} (h : Stands dbg r c) :
    ∃ r', errExpected g current r = (.ok (expectedAt (symbolAt g current) c.location c.rest), r') ∧ Stands dbg r' c := by
  obtain ⟨r1, h1, h2⟩ := streamPrefix_at h
  unfold errExpected
  simp only [h1]
  exact ⟨r1, by rw [h.1.loc]; rfl, h2⟩

/-! ## The pure machine -/

/-- Add earlier events to a success. -/
def withEvents (temp : List Event) : Outcome → Outcome
  | .ok evs n => .ok (temp ++ evs) n
  | o => o

/-- `repetitionLoop` without reader. -/
def ploop (body : PRun) (min max : Nat) : Nat → Nat → PRun
  | 0, _, _, _ => none
  | fuel + 1, i, here, rest =>
    if i < max then
      match body here rest with
      | none => none
      | some (.ok evs n) =>
        if max = u32Max ∧ n = 0 then some (.abort ⟨here, .livelock⟩)
        else (ploop body min max fuel (i + 1) (lineColumn here (rest.take n)) (rest.drop n)).map (.afterRound evs n)
      | some (.fail e evs n) => if i < min then some (.fail e [] n) else some (.ok evs 0)
      | some (.abort e) => some (.abort e)
      | some (.panic p) => some (.panic p)
    else some (.ok [] 0)

/-- `orLoop` and the selection of the error, without reader. -/
def por (run : Nat → PRun) : List Nat → PRun
  | [], _, _ => some (.panic .missing)
  | [a], here, rest =>
    match run a here rest with
    | some (.fail e _ _) => some (.fail e [] 0)
    | o => o
  | a :: b :: l, here, rest =>
    match run a here rest with
    | some (.fail e _ _) =>
      match por run (b :: l) here rest with
      | some (.fail e' _ _) => some (.fail (laterError e e') [] 0)
      | o => o
    | o => o

/-- `execStep` without reader. -/
def pexec (sem : SpecialScanner → Recognizer) (g : Graph) (run : Nat → PRun) (fuel : Nat) (addr : Nat)
    (instr : Instruction) : PRun := fun here rest =>
  match instr.step with
  | .repetition min max sub => ploop (run sub) min max fuel 0 here rest
  | .or subs =>
    match por run subs here rest with
    | some (.fail e _ _) =>
      some (.fail (if e.location = here then expectedAt (symbolAt g (some addr)) here rest else e) [] 0)
    | o => o
  | .alias name =>
    match g.indexOfLabel name with
    | none => some (.panic .missing)
    | some address =>
      match g.canonicalName name with
      | none => some (.panic .missing)
      | some label =>
        match run address here rest with
        | some (.ok evs n) =>
          some (.ok (.begin instr.definition here label :: evs ++
            [.end instr.definition (lineColumn here (rest.take n)) label]) n)
        | some (.fail e _ n) => some (.fail e [] n)
        | o => o
  | .scan (.terminal s) =>
    if s <+: rest then some (.ok [.token instr.definition here s] s.length)
    else some (.fail (expectedAt (symbolAt g (some addr)) here rest) [] 0)
  | .scan (.special scanner) =>
    match sem scanner instr.definition here rest with
    | .accept evs n => some (.ok evs n)
    | .unmatched => some (.fail (expectedAt (symbolAt g (some addr)) here rest) [] 0)
    | .error e => some (.abort e)
    | .forward name n =>
      match g.indexOfLabel name with
      | none => some (.abort ⟨here, .forwardUndefined name instr.symbol instr.definition⟩)
      | some address =>
        match run address (lineColumn here (rest.take n)) (rest.drop n) with
        | some (.ok evs m) => some (.ok evs (n + m))
        | some (.fail _ evs m) => some (.ok evs (n + m))
        | o => o
  | .scan .empty => some (.ok [] 0)
  | .scan (.exception factor exception) =>
    match run factor here rest with
    | some (.ok evs n) =>
      match run exception here (rest.take n) with
      | some (.ok _ m) =>
        if m = n then some (.fail (expectedAt (symbolAt g (some addr)) here rest) [] 0) else some (.ok evs n)
      | some (.fail _ _ _) => some (.ok evs n)
      | o => o
    | some (.fail e _ _) => some (.fail e [] 0)
    | o => o

/-- `runFrom` without reader. -/
def prun (sem : SpecialScanner → Recognizer) (g : Graph) : Nat → Option Nat → PRun
  | 0, _, _, _ => none
  | _ + 1, none, _, _ => some (.ok [] 0)
  | fuel + 1, some addr, here, rest =>
    match g.instruction addr with
    | none => some (.panic .missing)
    | some instr =>
      match pexec sem g (fun a => prun sem g fuel (some a)) fuel addr instr here rest with
      | some (.ok evs n) =>
        (prun sem g fuel instr.next (lineColumn here (rest.take n)) (rest.drop n)).map (.after evs n)
      | o => o

end Ebnf
