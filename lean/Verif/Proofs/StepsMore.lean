import Verif.Proofs.Steps

set_option autoImplicit false

/-! # More fuel and more stack do not change the number of instructions -/

namespace Ebnf

open Spec

/-- The same number, unless the run ends badly. -/
def CountUpTo (bad : Option Outcome) (p : PRun) (c c' : PCount) : Prop := ∀ here rest, p here rest ≠ bad → c here rest = c' here rest

theorem cOr_cons (run : Nat → PRun) (count : Nat → PCount) (a : Nat) (l : List Nat) (here : Location) (rest : Str) :
    cOr run count (a :: l) here rest = count a here rest +
      match run a here rest with
      | some (.fail _ _ _) => cOr run count l here rest
      | _ => 0 := rfl

section
variable {bad : Option Outcome} (hbad : IsBad bad)
include hbad

theorem cLoop_upTo {p p' : PRun} (h : UpTo bad p p') {c c' : PCount} (hc : CountUpTo bad p c c') (min max fuel : Nat) :
    ∀ fuel' i, FuelFor bad fuel fuel' →
    CountUpTo bad (ploop p min max fuel i) (cLoop p c max fuel i) (cLoop p' c' max fuel' i) := by
  induction fuel with
  | zero =>
    rintro fuel' i (rfl | ⟨rfl, _⟩) here rest hn
    · rfl
    · exact absurd rfl hn
  | succ fuel ih =>
    intro fuel' i hf here rest hn
    obtain ⟨fuel', rfl⟩ : ∃ k, fuel' = k + 1 := ⟨fuel' - 1, by rcases hf with h | ⟨_, h⟩ <;> omega⟩
    have hf' : FuelFor bad fuel fuel' := hf.imp (by omega) (fun h => ⟨h.1, by omega⟩)
    unfold ploop at hn
    unfold cLoop
    by_cases hi : i < max
    · rw [if_pos hi] at hn
      rw [if_pos hi, if_pos hi]
      have hp : p here rest ≠ bad := by
        intro hp
        rw [hp] at hn
        rcases hbad with rfl | rfl <;> exact hn rfl
      rw [hc here rest hp, ← (h here rest).resolve_right hp]
      congr 1
      cases ho : p here rest with
      | none => rfl
      | some o =>
        rw [ho] at hn
        cases o with
        | ok evs n =>
          simp only at hn ⊢
          by_cases hz : max = u32Max ∧ n = 0
          · rw [if_pos hz, if_pos hz]
          · rw [if_neg hz] at hn
            rw [if_neg hz, if_neg hz]
            refine ih fuel' (i + 1) hf' _ _ ?_
            intro hb
            rw [hb] at hn
            rcases hbad with rfl | rfl <;> exact hn rfl
        | _ => rfl
    · rw [if_neg hi, if_neg hi]

theorem cOr_upTo {run run' : Nat → PRun} (h : ∀ a, UpTo bad (run a) (run' a)) {c c' : Nat → PCount}
    (hc : ∀ a, CountUpTo bad (run a) (c a) (c' a)) : ∀ subs, CountUpTo bad (por run subs) (cOr run c subs) (cOr run' c' subs)
  | [] => fun _ _ _ => rfl
  | [a] => by
    intro here rest hn
    simp only [por] at hn
    have hp : run a here rest ≠ bad := by
      intro hp
      rw [hp] at hn
      rcases hbad with rfl | rfl <;> exact hn rfl
    simp only [cOr]
    rw [hc a here rest hp, ← (h a here rest).resolve_right hp]
  | a :: b :: l => by
    intro here rest hn
    have ih := cOr_upTo h hc (b :: l) here rest
    have hp : run a here rest ≠ bad := by
      intro hp
      simp only [por] at hn
      rw [hp] at hn
      rcases hbad with rfl | rfl <;> exact hn rfl
    rw [cOr_cons run c a (b :: l), cOr_cons run' c' a (b :: l), hc a here rest hp, ← (h a here rest).resolve_right hp]
    congr 1
    cases ho : run a here rest with
    | none => rfl
    | some o =>
      cases o with
      | fail e evs n =>
        simp only
        apply ih
        intro hb
        simp only [por, ho] at hn
        rw [hb] at hn
        rcases hbad with rfl | rfl <;> exact hn rfl
      | _ => rfl

theorem cExec_upTo {sem : SpecialScanner → Recognizer} {g : Graph} {run run' : Nat → PRun} (h : ∀ a, UpTo bad (run a) (run' a))
    {c c' : Nat → PCount} (hc : ∀ a, CountUpTo bad (run a) (c a) (c' a))
    {fuel fuel' : Nat} (hf : FuelFor bad fuel fuel') (addr : Nat) (instr : Instruction) :
    CountUpTo bad (pexec sem g run fuel addr instr) (cExec sem g run c fuel instr) (cExec sem g run' c' fuel' instr) := by
  intro here rest hn
  unfold pexec at hn
  unfold cExec
  cases hst : instr.step with
  | repetition min max sub =>
    rw [hst] at hn
    exact cLoop_upTo hbad (h sub) (hc sub) min max fuel fuel' 0 hf here rest hn
  | or subs =>
    rw [hst] at hn
    refine cOr_upTo hbad h hc subs here rest ?_
    intro hb
    simp only [hb] at hn
    rcases hbad with rfl | rfl <;> exact hn rfl
  | alias name =>
    rw [hst] at hn
    simp only at hn ⊢
    cases hl : g.indexOfLabel name with
    | none => rfl
    | some a =>
      cases hm : g.canonicalName name with
      | none => rfl
      | some label =>
        simp only [hl, hm] at hn ⊢
        refine hc a here rest ?_
        intro hb
        rw [hb] at hn
        rcases hbad with rfl | rfl <;> exact hn rfl
  | scan sc =>
    rw [hst] at hn
    cases sc with
    | terminal s => rfl
    | empty => rfl
    | special scanner =>
      simp only at hn ⊢
      cases hs : sem scanner instr.definition here rest with
      | forward name n =>
        simp only [hs] at hn ⊢
        cases hl : g.indexOfLabel name with
        | none => rfl
        | some a =>
          simp only [hl] at hn ⊢
          refine hc a _ _ ?_
          intro hb
          rw [hb] at hn
          rcases hbad with rfl | rfl <;> exact hn rfl
      | _ => rfl
    | exception f x =>
      simp only at hn ⊢
      have hp : run f here rest ≠ bad := by
        intro hp
        rw [hp] at hn
        rcases hbad with rfl | rfl <;> exact hn rfl
      rw [hc f here rest hp, ← (h f here rest).resolve_right hp]
      congr 1
      cases ho : run f here rest with
      | none => rfl
      | some o =>
        rw [ho] at hn
        cases o with
        | ok evs n =>
          simp only at hn ⊢
          refine hc x here (rest.take n) ?_
          intro hb
          rw [hb] at hn
          rcases hbad with rfl | rfl <;> exact hn rfl
        | _ => rfl

end

/-- `csteps` with a bounded stack. -/
def cstepsDeep (sem : SpecialScanner → Recognizer) (g : Graph) : Nat → Nat → Option Nat → PCount
  | _, 0, _, _, _ => 0
  | _, _ + 1, none, _, _ => 0
  | room, fuel + 1, some addr, here, rest =>
    match g.instruction addr with
    | none => 0
    | some instr =>
      1 + cExec sem g (pcall sem g room fuel) (fun a => if room = 0 then fun _ _ => 0 else cstepsDeep sem g (room - 1) fuel (some a))
          fuel instr here rest +
        match pexec sem g (pcall sem g room fuel) fuel addr instr here rest with
        | some (.ok _ n) => cstepsDeep sem g room fuel instr.next (lineColumn here (rest.take n)) (rest.drop n)
        | _ => 0

/-- The instructions of a call. -/
def ccall (sem : SpecialScanner → Recognizer) (g : Graph) (room fuel : Nat) (a : Nat) : PCount :=
  if room = 0 then fun _ _ => 0 else cstepsDeep sem g (room - 1) fuel (some a)

theorem cstepsDeep_step {sem : SpecialScanner → Recognizer} {g : Graph} {addr : Nat} {instr : Instruction} (h : g.instruction addr = some instr)
    (room f : Nat) (here : Location) (rest : Str) :
    cstepsDeep sem g room (f + 1) (some addr) here rest =
      1 + cExec sem g (pcall sem g room f) (ccall sem g room f) f instr here rest +
        match pexec sem g (pcall sem g room f) f addr instr here rest with
        | some (.ok _ n) => cstepsDeep sem g room f instr.next (lineColumn here (rest.take n)) (rest.drop n)
        | _ => 0 := by
  rw [cstepsDeep, h]
  rfl

/-- More fuel and more stack give the same number, unless one runs out of the fuel (`bad = none`) or of the stack. -/
theorem cstepsDeep_upTo {bad : Option Outcome} (hbad : IsBad bad) {sem : SpecialScanner → Recognizer} {g : Graph} (fuel : Nat) :
    ∀ fuel' room room', FuelFor bad fuel fuel' → (room = room' ∨ (bad = some overflow ∧ room ≤ room')) → ∀ a,
    CountUpTo bad (prunDeep sem g room fuel a) (cstepsDeep sem g room fuel a) (cstepsDeep sem g room' fuel' a) := by
  induction fuel with
  | zero =>
    rintro fuel' room room' (rfl | ⟨rfl, _⟩) _ a here rest hn
    · rfl
    · exact absurd rfl hn
  | succ fuel ih =>
    intro fuel' room room' hf hle a here rest hn
    obtain ⟨fuel', rfl⟩ : ∃ k, fuel' = k + 1 := ⟨fuel' - 1, by rcases hf with h | ⟨_, h⟩ <;> omega⟩
    have hf' : FuelFor bad fuel fuel' := hf.imp (by omega) (fun h => ⟨h.1, by omega⟩)
    cases a with
    | none => rfl
    | some addr =>
      cases hi : g.instruction addr with
      | none =>
        unfold cstepsDeep
        rw [hi]
      | some instr =>
        rw [cstepsDeep_step hi, cstepsDeep_step hi]
        rw [prunDeep_step hi] at hn
        have hcall : ∀ a, UpTo bad (pcall sem g room fuel a) (pcall sem g room' fuel' a) := by
          intro a
          unfold pcall
          by_cases h0 : room = 0
          · rcases hle with rfl | ⟨rfl, hle⟩
            · rw [if_pos h0, if_pos h0]; exact fun _ _ => .inl rfl
            · intro here rest; rw [if_pos h0]; exact .inr rfl
          · rw [if_neg h0, if_neg (by omega)]
            exact prunDeep_upTo hbad _ _ _ _ hf' (hle.imp (by omega) (fun h => ⟨h.1, by omega⟩)) _
        have hcount : ∀ a, CountUpTo bad (pcall sem g room fuel a) (ccall sem g room fuel a) (ccall sem g room' fuel' a) := by
          intro a here rest hn
          unfold pcall at hn
          unfold ccall
          by_cases h0 : room = 0
          · rcases hle with rfl | ⟨rfl, hle⟩
            · rw [if_pos h0, if_pos h0]
            · rw [if_pos h0] at hn; exact absurd rfl hn
          · rw [if_neg h0] at hn
            rw [if_neg h0, if_neg (by omega)]
            exact ih _ _ _ hf' (hle.imp (by omega) (fun h => ⟨h.1, by omega⟩)) _ here rest hn
        have hp : pexec sem g (pcall sem g room fuel) fuel addr instr here rest ≠ bad := by
          intro hp
          rw [hp] at hn
          rcases hbad with rfl | rfl <;> exact hn rfl
        rw [cExec_upTo hbad hcall hcount hf' addr instr here rest hp,
          ← (pexec_upTo hbad hcall hf' addr instr here rest).resolve_right hp]
        congr 1
        cases ho : pexec sem g (pcall sem g room fuel) fuel addr instr here rest with
        | none => rfl
        | some o =>
          cases o with
          | ok evs n =>
            simp only
            refine ih fuel' room room' hf' hle instr.next _ _ ?_
            intro hb
            rw [ho] at hn
            simp only [Option.bind_some, continDeep, Bool.false_eq_true, if_false] at hn
            rw [hb] at hn
            rcases hbad with rfl | rfl <;> exact hn rfl
          | _ => rfl

/-- As much stack as fuel. -/
theorem cstepsDeep_fuel {sem : SpecialScanner → Recognizer} {g : Graph} (fuel : Nat) : ∀ room, fuel ≤ room → ∀ a here rest,
    cstepsDeep sem g room fuel a here rest = csteps sem g fuel a here rest := by
  induction fuel with
  | zero => intro room _ a here rest; rfl
  | succ fuel ih =>
    intro room hle a here rest
    cases a with
    | none => rfl
    | some addr =>
      unfold cstepsDeep csteps
      cases g.instruction addr with
      | none => rfl
      | some instr =>
        have h1 : pcall sem g room fuel = fun a => prun sem g fuel (some a) := by
          funext a here rest
          exact pcall_fuel (by omega) here rest
        have h2 : (fun a => if room = 0 then fun _ _ => 0 else cstepsDeep sem g (room - 1) fuel (some a)) =
            fun a => csteps sem g fuel (some a) := by
          funext a here rest
          rw [if_neg (by omega)]
          exact ih (room - 1) (by omega) _ _ _
        simp only [h1, h2]
        congr 1
        cases pexec sem g (fun a => prun sem g fuel (some a)) fuel addr instr here rest with
        | none => rfl
        | some o =>
          cases o with
          | ok evs n => simp only; rw [ih room (by omega)]
          | _ => rfl

/-- With a stack that is not exhausted, the number of instructions is that with a bounded stack. -/
theorem ccall_plain {sem : SpecialScanner → Recognizer} {g : Graph} {room fuel a : Nat} {here : Location} {rest : Str}
    (h : pcall sem g room fuel a here rest ≠ some overflow) : ccall sem g room fuel a here rest = csteps sem g fuel (some a) here rest := by
  unfold pcall at h
  unfold ccall
  by_cases h0 : room = 0
  · rw [if_pos h0] at h; exact absurd rfl h
  · rw [if_neg h0] at h
    rw [if_neg h0, ← cstepsDeep_fuel fuel (max (room - 1) fuel) (by omega)]
    exact cstepsDeep_upTo (.inr rfl) _ _ _ _ (.inl rfl) (.inr ⟨rfl, by omega⟩) _ _ _ h

/-- A run that ends executes the same number of instructions with more fuel. -/
theorem csteps_longer {sem : SpecialScanner → Recognizer} {g : Graph} {fuel fuel' : Nat} {a : Option Nat} {here : Location} {rest : Str}
    (hf : fuel ≤ fuel') (h : prun sem g fuel a here rest ≠ none) : csteps sem g fuel' a here rest = csteps sem g fuel a here rest := by
  rw [← cstepsDeep_fuel fuel fuel' hf, ← cstepsDeep_fuel fuel' fuel' (Nat.le_refl _)]
  symm
  refine cstepsDeep_upTo (.inl rfl) _ _ _ _ (.inr ⟨rfl, hf⟩) (.inl rfl) _ _ _ ?_
  rw [prunDeep_fuel fuel fuel' hf]
  exact h

end Ebnf
