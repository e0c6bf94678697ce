import Verif.Proofs.StepsMore
import Verif.Proofs.Descend

set_option autoImplicit false

/-! # How many instructions are executed with a bounded stack -/

namespace Ebnf

open Spec

/-- How many calls the instruction makes at most, apart from the rounds of an unlimited repetition. -/
def fan (x : Instruction) : Nat :=
  match x.step with
  | .repetition _ max _ => if max = u32Max then 0 else max
  | .or subs => subs.length
  | _ => 0

/-- … for all the instructions. -/
def fans : List Instruction → Nat
  | [] => 0
  | x :: l => fan x + fans l

theorem fan_le {x : Instruction} : ∀ {l : List Instruction}, x ∈ l → fan x ≤ fans l
  | y :: l, h => by
    rcases List.mem_cons.mp h with rfl | h
    · simp [fans]
    · have := fan_le h
      simp only [fans]; omega

/-- The run consumes no more than there is. -/
def Consumes (p : PRun) : Prop := ∀ here rest evs k, p here rest = some (.ok evs k) → k ≤ rest.length

/-- The count is at most `T` on texts of up to `n` characters. -/
def AtMost (n T : Nat) (c : PCount) : Prop := ∀ here (rest : Str), rest.length ≤ n → c here rest ≤ T

theorem cLoop_limited {p : PRun} {c : PCount} {n T : Nat} (hc : AtMost n T c) (max fuel : Nat) : ∀ i here rest,
    rest.length ≤ n → cLoop p c max fuel i here rest ≤ (max - i) * T := by
  induction fuel with
  | zero => intro i here rest _; exact Nat.zero_le _
  | succ fuel ih =>
    intro i here rest hr
    unfold cLoop
    by_cases hi : i < max
    · rw [if_pos hi]
      have h1 := hc here rest hr
      have e : max - i = (max - (i + 1)) + 1 := by omega
      rw [e, Nat.add_mul, Nat.one_mul]
      have h2 : (match p here rest with
          | some (.ok _ n) =>
            if max = u32Max ∧ n = 0 then 0
            else cLoop p c max fuel (i + 1) (lineColumn here (rest.take n)) (rest.drop n)
          | _ => 0) ≤ (max - (i + 1)) * T := by
        cases p here rest with
        | none => exact Nat.zero_le _
        | some o =>
          cases o with
          | ok evs k =>
            simp only
            by_cases hz : max = u32Max ∧ k = 0
            · rw [if_pos hz]; exact Nat.zero_le _
            · rw [if_neg hz]
              exact ih _ _ _ (by rw [List.length_drop]; omega)
          | _ => exact Nat.zero_le _
      rw [Nat.add_comm (_ * T) T]
      exact Nat.add_le_add h1 h2
    · rw [if_neg hi]; exact Nat.zero_le _

theorem cLoop_unlimited {p : PRun} (hp : Consumes p) {c : PCount} {n T : Nat} (hc : AtMost n T c) (fuel : Nat) : ∀ i here rest,
    rest.length ≤ n → cLoop p c u32Max fuel i here rest ≤ (rest.length + 1) * T := by
  induction fuel with
  | zero => intro i here rest _; exact Nat.zero_le _
  | succ fuel ih =>
    intro i here rest hr
    unfold cLoop
    by_cases hi : i < u32Max
    · rw [if_pos hi]
      have h1 := hc here rest hr
      rw [Nat.add_mul, Nat.one_mul]
      have h2 : (match p here rest with
          | some (.ok _ n) =>
            if u32Max = u32Max ∧ n = 0 then 0
            else cLoop p c u32Max fuel (i + 1) (lineColumn here (rest.take n)) (rest.drop n)
          | _ => 0) ≤ rest.length * T := by
        cases ho : p here rest with
        | none => exact Nat.zero_le _
        | some o =>
          cases o with
          | ok evs k =>
            show (if u32Max = u32Max ∧ k = 0 then 0 else _) ≤ _
            by_cases hz : u32Max = u32Max ∧ k = 0
            · rw [if_pos hz]; exact Nat.zero_le _
            · rw [if_neg hz]
              have hk := hp here rest evs k ho
              have hk0 : k ≠ 0 := fun h => hz ⟨rfl, h⟩
              refine Nat.le_trans (ih _ _ _ (by rw [List.length_drop]; omega)) (Nat.mul_le_mul_right T ?_)
              rw [List.length_drop]; omega
          | _ => exact Nat.zero_le _
      rw [Nat.add_comm (_ * T) T]
      exact Nat.add_le_add h1 h2
    · rw [if_neg hi]; exact Nat.zero_le _

theorem cOr_bound {run : Nat → PRun} {c : Nat → PCount} {n T : Nat} (hc : ∀ a, AtMost n T (c a)) : ∀ (subs : List Nat) here rest,
    rest.length ≤ n → cOr run c subs here rest ≤ subs.length * T
  | [], _, _, _ => Nat.zero_le _
  | a :: l, here, rest, hr => by
    have h1 := hc a here rest hr
    have ih := cOr_bound (run := run) hc l here rest hr
    rw [cOr_cons, List.length_cons, Nat.add_mul, Nat.one_mul]
    have h2 : (match run a here rest with
        | some (.fail _ _ _) => cOr run c l here rest
        | _ => 0) ≤ l.length * T := by
      cases run a here rest with
      | none => exact Nat.zero_le _
      | some o =>
        cases o with
        | fail e evs k => exact ih
        | _ => exact Nat.zero_le _
    rw [Nat.add_comm (_ * T) T]
    exact Nat.add_le_add h1 h2

/-- The calls of one instruction. -/
theorem cExec_bound {sem : SpecialScanner → Recognizer} {g : Graph} {run : Nat → PRun} (hp : ∀ a, Consumes (run a)) {c : Nat → PCount}
    {n T : Nat} (hc : ∀ a, AtMost n T (c a)) {A : Nat} (fuel : Nat) {instr : Instruction} (hA : fan instr ≤ A) :
    AtMost n ((A + n + 2) * T) (cExec sem g run c fuel instr) := by
  intro here rest hr
  have one : T ≤ (A + n + 2) * T := by
    have := Nat.mul_le_mul_right T (show 1 ≤ A + n + 2 by omega)
    omega
  unfold cExec
  unfold fan at hA
  cases hst : instr.step with
  | repetition min max sub =>
    rw [hst] at hA
    simp only at hA ⊢
    by_cases hm : max = u32Max
    · subst hm
      exact Nat.le_trans (cLoop_unlimited (hp sub) (hc sub) fuel 0 here rest hr) (Nat.mul_le_mul_right T (by omega))
    · rw [if_neg hm] at hA
      exact Nat.le_trans (cLoop_limited (hc sub) max fuel 0 here rest hr) (Nat.mul_le_mul_right T (by omega))
  | or subs =>
    rw [hst] at hA
    simp only at hA ⊢
    exact Nat.le_trans (cOr_bound hc subs here rest hr) (Nat.mul_le_mul_right T (by omega))
  | alias name =>
    simp only
    cases g.indexOfLabel name with
    | none => exact Nat.zero_le _
    | some a =>
      cases g.canonicalName name with
      | none => exact Nat.zero_le _
      | some label => exact Nat.le_trans (hc a here rest hr) one
  | scan sc =>
    cases sc with
    | terminal s => exact Nat.zero_le _
    | empty => exact Nat.zero_le _
    | special scanner =>
      simp only
      cases sem scanner instr.definition here rest with
      | forward name k =>
        simp only
        cases g.indexOfLabel name with
        | none => exact Nat.zero_le _
        | some a => exact Nat.le_trans (hc a _ _ (by rw [List.length_drop]; omega)) one
      | _ => exact Nat.zero_le _
    | exception f x =>
      simp only
      have h1 := hc f here rest hr
      have h2 : (match run f here rest with
          | some (.ok _ k) => c x here (rest.take k)
          | _ => 0) ≤ T := by
        cases run f here rest with
        | none => exact Nat.zero_le _
        | some o =>
          cases o with
          | ok evs k => exact hc x _ _ (by rw [List.length_take]; omega)
          | _ => exact Nat.zero_le _
      have h3 := Nat.mul_le_mul_right T (show 2 ≤ A + n + 2 by omega)
      exact Nat.le_trans (Nat.add_le_add h1 h2) (by omega)

/-- A bound for the instructions of one call. -/
def callBound (size fan n : Nat) : Nat → Nat
  | 0 => 0
  | room + 1 => size * (1 + (fan + n + 2) * callBound size fan n room)

theorem callBound_le (size fan n : Nat) : ∀ room, callBound size fan n room ≤ ((size + 1) * (fan + n + 3)) ^ room
  | 0 => Nat.zero_le _
  | room + 1 => by
    have ih := callBound_le size fan n room
    rw [callBound, Nat.pow_succ]
    generalize hX : ((size + 1) * (fan + n + 3)) ^ room = X at ih
    have hX1 : 1 ≤ X := by
      rw [← hX]
      exact Nat.one_le_pow _ _ (Nat.mul_pos (by omega) (by omega))
    have h1 : 1 + (fan + n + 2) * callBound size fan n room ≤ (fan + n + 3) * X := by
      have h2 := Nat.mul_le_mul_left (fan + n + 2) ih
      have h3 : (fan + n + 3) * X = (fan + n + 2) * X + X := by rw [show fan + n + 3 = (fan + n + 2) + 1 by omega, Nat.add_mul, Nat.one_mul]
      omega
    have h4 := Nat.mul_le_mul (show size ≤ size + 1 by omega) h1
    rw [Nat.mul_comm X, Nat.mul_assoc]
    exact h4

section
variable {sem : SpecialScanner → Recognizer} {g : Graph}

theorem call_bound {dbg : Bool} (hg : GraphBehaves dbg sem g) (hd : Descends g.instructions) (n : Nat) (room : Nat) : ∀ fuel a,
    AtMost n (callBound g.instructions.length (fans g.instructions) n room) (ccall sem g room fuel a) := by
  induction room with
  | zero => intro fuel a here rest _; exact Nat.zero_le _
  | succ room ih =>
    -- the chain from `a`
    have hcons : ∀ fuel a, Consumes (pcall sem g room fuel a) := by
      intro fuel a here rest evs k h
      have hrep : Stands dbg (Reader.withLocation here (.buffered rest) dbg) ⟨here, rest, 0, []⟩ :=
        ⟨(new_rep ⟨[], rfl, by simp [Source.buffered]⟩ dbg).toRep, rfl⟩
      unfold pcall at h
      by_cases h0 : room = 0
      · rw [if_pos h0] at h; simp at h
      · rw [if_neg h0] at h
        have := sims_deep hg fuel (room - 1) (some a) _ _ hrep
        have hl0 : (⟨here, rest, 0, []⟩ : Cursor).location = here := by simp [Cursor.location, lineColumn_nil]
        have hr0 : (⟨here, rest, 0, []⟩ : Cursor).rest = rest := rfl
        rw [hl0, hr0, h] at this
        exact this.2.1
    generalize hT : callBound g.instructions.length (fans g.instructions) n room = T at ih
    have chain : ∀ fuel (next : Option Nat) size, (∀ a, next = some a → a < size) →
        AtMost n (size * (1 + (fans g.instructions + n + 2) * T)) (cstepsDeep sem g room fuel next) := by
      intro fuel
      induction fuel with
      | zero => intro next size _ here rest _; exact Nat.zero_le _
      | succ fuel ihf =>
        intro next size hn here rest hr
        cases next with
        | none => exact Nat.zero_le _
        | some addr =>
          cases hi : g.instruction addr with
          | none =>
            unfold cstepsDeep
            rw [hi]
            exact Nat.zero_le _
          | some instr =>
            have hlt := hn addr rfl
            obtain ⟨size, rfl⟩ : ∃ k, size = k + 1 := ⟨size - 1, by omega⟩
            rw [cstepsDeep_step hi, Nat.add_mul, Nat.one_mul]
            have h1 := cExec_bound (sem := sem) (g := g) (hcons fuel) (c := ccall sem g room fuel) (ih fuel) fuel
              (fan_le (List.mem_of_getElem? hi)) here rest hr
            have h2 : (match pexec sem g (pcall sem g room fuel) fuel addr instr here rest with
                | some (.ok _ k) => cstepsDeep sem g room fuel instr.next (lineColumn here (rest.take k)) (rest.drop k)
                | _ => 0) ≤ size * (1 + (fans g.instructions + n + 2) * T) := by
              cases pexec sem g (pcall sem g room fuel) fuel addr instr here rest with
              | none => exact Nat.zero_le _
              | some o =>
                cases o with
                | ok evs k =>
                  refine ihf instr.next size ?_ _ _ (by rw [List.length_drop]; omega)
                  intro j hj
                  have := hd addr instr j hi hj
                  omega
                | _ => exact Nat.zero_le _
            refine Nat.le_trans (Nat.add_le_add (Nat.add_le_add_left h1 1) h2) (by omega)
    intro fuel a here rest hr
    rw [callBound, hT]
    show cstepsDeep sem g room fuel (some a) here rest ≤ _
    by_cases ha : a < g.instructions.length
    · exact chain fuel (some a) _ (fun b hb => by injection hb with hb; omega) here rest hr
    · cases fuel with
      | zero => exact Nat.zero_le _
      | succ fuel =>
        unfold cstepsDeep
        rw [show g.instruction a = none from List.getElem?_eq_none (by omega)]
        exact Nat.zero_le _

end

/-! ## A run that does not end executes ever more instructions -/

section
variable {sem : SpecialScanner → Recognizer} {g : Graph}

theorem csteps_pos {f a : Nat} {here : Location} {rest : Str} {evs : List Event} {n : Nat}
    (h : prun sem g f (some a) here rest = some (.ok evs n)) : 1 ≤ csteps sem g f (some a) here rest := by
  cases f with
  | zero => simp [prun] at h
  | succ f =>
    rw [csteps]
    rw [prun] at h
    cases hi : g.instruction a with
    | none => rw [hi] at h; simp at h
    | some instr => simp only; omega

theorem cLoop_forever {p : PRun} {c : PCount} {K : Nat} (h1 : ∀ here rest, p here rest = none → K ≤ c here rest)
    (h2 : ∀ here rest evs n, p here rest = some (.ok evs n) → 1 ≤ c here rest) (min max fuel : Nat) (hf : fuel ≤ K) : ∀ i here rest,
    ploop p min max fuel i here rest = none → fuel ≤ cLoop p c max fuel i here rest := by
  induction fuel with
  | zero => intro i here rest _; exact Nat.zero_le _
  | succ fuel ih =>
    intro i here rest hn
    rw [ploop] at hn
    rw [cLoop]
    by_cases hi : i < max
    · rw [if_pos hi] at hn
      rw [if_pos hi]
      cases ho : p here rest with
      | none => have := h1 here rest ho; simp only; omega
      | some o =>
        rw [ho] at hn
        cases o with
        | ok evs n =>
          simp only at hn ⊢
          by_cases hz : max = u32Max ∧ n = 0
          · rw [if_pos hz] at hn; cases hn
          · rw [if_neg hz] at hn
            rw [if_neg hz]
            have a1 := ih (by omega) (i + 1) _ _ (Option.map_eq_none_iff.mp hn)
            have a2 := h2 here rest evs n ho
            omega
        | fail e evs n =>
          simp only at hn
          by_cases hm : i < min
          · rw [if_pos hm] at hn; cases hn
          · rw [if_neg hm] at hn; cases hn
        | abort e => cases hn
        | panic q => cases hn
    · rw [if_neg hi] at hn; cases hn

theorem cOr_forever {run : Nat → PRun} {c : Nat → PCount} {K : Nat} (h1 : ∀ a here rest, run a here rest = none → K ≤ c a here rest) :
    ∀ (subs : List Nat) here rest, por run subs here rest = none → K ≤ cOr run c subs here rest
  | [], _, _, hn => by simp [por] at hn
  | [a], here, rest, hn => by
    have : run a here rest = none := by
      simp only [por] at hn
      cases ho : run a here rest with
      | none => rfl
      | some o => rw [ho] at hn; cases o <;> cases hn
    have := h1 a here rest this
    rw [cOr_cons]; omega
  | a :: b :: l, here, rest, hn => by
    have ih := cOr_forever h1 (b :: l) here rest
    rw [cOr_cons]
    simp only [por] at hn
    cases ho : run a here rest with
    | none => have := h1 a here rest ho; simp only; omega
    | some o =>
      rw [ho] at hn
      cases o with
      | fail e evs n =>
        have : por run (b :: l) here rest = none := by
          simp only at hn
          cases hp : por run (b :: l) here rest with
          | none => rfl
          | some o => rw [hp] at hn; cases o <;> cases hn
        have := ih this
        simp only
        omega
      | _ => cases hn

theorem cExec_forever {run : Nat → PRun} {c : Nat → PCount} {fuel : Nat} (h1 : ∀ a here rest, run a here rest = none → fuel ≤ c a here rest)
    (h2 : ∀ a here rest evs n, run a here rest = some (.ok evs n) → 1 ≤ c a here rest) (addr : Nat) (instr : Instruction)
    (here : Location) (rest : Str) (hn : pexec sem g run fuel addr instr here rest = none) : fuel ≤ cExec sem g run c fuel instr here rest := by
  unfold pexec at hn
  unfold cExec
  cases hst : instr.step with
  | repetition min max sub =>
    rw [hst] at hn
    exact cLoop_forever (h1 sub) (h2 sub) min max fuel (Nat.le_refl _) 0 here rest hn
  | or subs =>
    rw [hst] at hn
    refine cOr_forever h1 subs here rest ?_
    simp only at hn
    cases hp : por run subs here rest with
    | none => rfl
    | some o => rw [hp] at hn; cases o <;> cases hn
  | alias name =>
    rw [hst] at hn
    simp only at hn ⊢
    cases hl : g.indexOfLabel name with
    | none => rw [hl] at hn; cases hn
    | some a =>
      cases hm : g.canonicalName name with
      | none => rw [hl, hm] at hn; cases hn
      | some label =>
        simp only [hl, hm] at hn ⊢
        refine h1 a here rest ?_
        cases hp : run a here rest with
        | none => rfl
        | some o => rw [hp] at hn; cases o <;> cases hn
  | scan sc =>
    rw [hst] at hn
    cases sc with
    | terminal s =>
      simp only at hn
      by_cases hs : s <+: rest
      · rw [if_pos hs] at hn; cases hn
      · rw [if_neg hs] at hn; cases hn
    | empty => cases hn
    | special scanner =>
      simp only at hn ⊢
      cases hs : sem scanner instr.definition here rest with
      | forward name n =>
        simp only [hs] at hn ⊢
        cases hl : g.indexOfLabel name with
        | none => rw [hl] at hn; cases hn
        | some a =>
          simp only [hl] at hn ⊢
          refine h1 a _ _ ?_
          cases hp : run a (lineColumn here (rest.take n)) (rest.drop n) with
          | none => rfl
          | some o => rw [hp] at hn; cases o <;> cases hn
      | _ => rw [hs] at hn; cases hn
    | exception f x =>
      simp only at hn ⊢
      cases ho : run f here rest with
      | none => have := h1 f here rest ho; simp only; omega
      | some o =>
        rw [ho] at hn
        cases o with
        | ok evs n =>
          simp only at hn ⊢
          have : run x here (rest.take n) = none := by
            cases hp : run x here (rest.take n) with
            | none => rfl
            | some o =>
              rw [hp] at hn
              cases o with
              | ok evs' k =>
                simp only at hn
                by_cases hk : k = n
                · rw [if_pos hk] at hn; cases hn
                · rw [if_neg hk] at hn; cases hn
              | _ => cases hn
          have := h1 x here _ this
          omega
        | _ => cases hn

/-- A run that has not ended when the fuel is used up has executed as many instructions as there was fuel. -/
theorem csteps_forever (fuel : Nat) : ∀ a here rest, prun sem g fuel a here rest = none → fuel ≤ csteps sem g fuel a here rest := by
  induction fuel with
  | zero => intro a here rest _; exact Nat.zero_le _
  | succ fuel ih =>
    intro a here rest hn
    cases a with
    | none => simp [prun] at hn
    | some addr =>
      rw [prun] at hn
      rw [csteps]
      cases hi : g.instruction addr with
      | none => rw [hi] at hn; cases hn
      | some instr =>
        rw [hi] at hn
        simp only at hn ⊢
        cases ho : pexec sem g (fun a => prun sem g fuel (some a)) fuel addr instr here rest with
        | none =>
          have := cExec_forever (sem := sem) (g := g) (c := fun a => csteps sem g fuel (some a))
            (fun a here rest h => ih (some a) here rest h) (fun a here rest evs n h => csteps_pos h) addr instr here rest ho
          omega
        | some o =>
          rw [ho] at hn
          cases o with
          | ok evs n =>
            have := ih _ _ _ (Option.map_eq_none_iff.mp hn)
            simp only
            omega
          | _ => cases hn

end

end Ebnf
