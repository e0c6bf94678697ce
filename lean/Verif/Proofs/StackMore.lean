import Verif.Proofs.StackBound
import Verif.Proofs.Parsing
import Verif.Proofs.Running

set_option autoImplicit false

/-! # More stack does not change the outcome -/

namespace Ebnf

open Spec

/-- The same, or one of the two bad ends: no end, or an exhausted stack. -/
def SameOr (bad o o' : Option Outcome) : Prop := o = o' ∨ o = bad

/-- The same everywhere, or the bad end. -/
def UpTo (bad : Option Outcome) (p p' : PRun) : Prop := ∀ here rest, SameOr bad (p here rest) (p' here rest)

/-- The bad ends. -/
def IsBad (bad : Option Outcome) : Prop := bad = none ∨ bad = some overflow

/-- More fuel does not matter if running out of it is the bad end. -/
def FuelFor (bad : Option Outcome) (fuel fuel' : Nat) : Prop := fuel = fuel' ∨ (bad = none ∧ fuel ≤ fuel')

section
variable {bad : Option Outcome} (hbad : IsBad bad)
include hbad

theorem ploop_upTo {p p' : PRun} (h : UpTo bad p p') (min max fuel : Nat) : ∀ fuel' i, FuelFor bad fuel fuel' →
    UpTo bad (ploop p min max fuel i) (ploop p' min max fuel' i) := by
  induction fuel with
  | zero =>
    rintro fuel' i (rfl | ⟨rfl, _⟩) here rest
    · exact .inl rfl
    · exact .inr rfl
  | succ fuel ih =>
    intro fuel' i hf here rest
    obtain ⟨fuel', rfl⟩ : ∃ k, fuel' = k + 1 := ⟨fuel' - 1, by rcases hf with h | ⟨_, h⟩ <;> omega⟩
    have hf' : FuelFor bad fuel fuel' := hf.imp (by omega) (fun h => ⟨h.1, by omega⟩)
    unfold ploop
    by_cases hi : i < max
    · rw [if_pos hi, if_pos hi]
      rcases h here rest with h | h
      · rw [h]
        cases p' here rest with
        | none => exact .inl rfl
        | some o =>
          cases o with
          | ok evs n =>
            simp only
            by_cases hz : max = u32Max ∧ n = 0
            · rw [if_pos hz, if_pos hz]; exact .inl rfl
            · rw [if_neg hz, if_neg hz]
              rcases ih fuel' (i + 1) hf' (lineColumn here (rest.take n)) (rest.drop n) with h | h
              · rw [h]; exact .inl rfl
              · rw [h]; rcases hbad with rfl | rfl <;> exact .inr rfl
          | _ => exact .inl rfl
      · rw [h]; rcases hbad with rfl | rfl <;> exact .inr rfl
    · rw [if_neg hi, if_neg hi]; exact .inl rfl

theorem por_upTo {run run' : Nat → PRun} (h : ∀ a, UpTo bad (run a) (run' a)) : ∀ subs, UpTo bad (por run subs) (por run' subs)
  | [] => fun _ _ => .inl rfl
  | [a] => by
    intro here rest
    simp only [por]
    rcases h a here rest with h | h
    · rw [h]; exact .inl rfl
    · rw [h]; rcases hbad with rfl | rfl <;> exact .inr rfl
  | a :: b :: l => by
    intro here rest
    have ih := por_upTo h (b :: l) here rest
    simp only [por]
    rcases h a here rest with h | h
    · rw [h]
      cases run' a here rest with
      | none => exact .inl rfl
      | some o =>
        cases o with
        | fail e evs n =>
          simp only
          rcases ih with ih | ih
          · rw [ih]; exact .inl rfl
          · rw [ih]; rcases hbad with rfl | rfl <;> exact .inr rfl
        | _ => exact .inl rfl
    · rw [h]; rcases hbad with rfl | rfl <;> exact .inr rfl

theorem pexec_upTo {sem : SpecialScanner → Recognizer} {g : Graph} {run run' : Nat → PRun} (h : ∀ a, UpTo bad (run a) (run' a))
    {fuel fuel' : Nat} (hf : FuelFor bad fuel fuel') (addr : Nat)
    (instr : Instruction) : UpTo bad (pexec sem g run fuel addr instr) (pexec sem g run' fuel' addr instr) := by
  intro here rest
  unfold pexec
  cases instr.step with
  | repetition min max sub => exact ploop_upTo hbad (h sub) min max fuel fuel' 0 hf here rest
  | or subs =>
    simp only
    rcases por_upTo hbad h subs here rest with h | h
    · rw [h]; exact .inl rfl
    · rw [h]; rcases hbad with rfl | rfl <;> exact .inr rfl
  | alias name =>
    simp only
    cases g.indexOfLabel name with
    | none => exact .inl rfl
    | some a =>
      simp only
      cases g.canonicalName name with
      | none => exact .inl rfl
      | some label =>
        simp only
        rcases h a here rest with h | h
        · rw [h]; exact .inl rfl
        · rw [h]; rcases hbad with rfl | rfl <;> exact .inr rfl
  | scan sc =>
    cases sc with
    | terminal s => exact .inl rfl
    | empty => exact .inl rfl
    | special scanner =>
      simp only
      cases sem scanner instr.definition here rest with
      | forward name n =>
        simp only
        cases g.indexOfLabel name with
        | none => exact .inl rfl
        | some a =>
          simp only
          rcases h a (lineColumn here (rest.take n)) (rest.drop n) with h | h
          · rw [h]; exact .inl rfl
          · rw [h]; rcases hbad with rfl | rfl <;> exact .inr rfl
      | _ => exact .inl rfl
    | exception f x =>
      simp only
      rcases h f here rest with h1 | h1
      · rw [h1]
        cases run' f here rest with
        | none => exact .inl rfl
        | some o =>
          cases o with
          | ok evs n =>
            simp only
            rcases h x here (rest.take n) with h | h
            · rw [h]; exact .inl rfl
            · rw [h]; rcases hbad with rfl | rfl <;> exact .inr rfl
          | _ => exact .inl rfl
      · rw [h1]; rcases hbad with rfl | rfl <;> exact .inr rfl

end

theorem prunDeep_step {sem : SpecialScanner → Recognizer} {g : Graph} {addr : Nat} {instr : Instruction} (h : g.instruction addr = some instr)
    (room f : Nat) (here : Location) (rest : Str) :
    prunDeep sem g room (f + 1) (some addr) here rest =
      (pexec sem g (pcall sem g room f) f addr instr here rest).bind (continDeep sem g room f false instr.next here rest) :=
  prunDeep_succ h room f here rest

/-- More fuel and more stack give the same, unless one runs out of the fuel (`bad = none`) or of the stack. -/
theorem prunDeep_upTo {bad : Option Outcome} (hbad : IsBad bad) {sem : SpecialScanner → Recognizer} {g : Graph} (fuel : Nat) :
    ∀ fuel' room room', FuelFor bad fuel fuel' → (room = room' ∨ (bad = some overflow ∧ room ≤ room')) → ∀ a,
    UpTo bad (prunDeep sem g room fuel a) (prunDeep sem g room' fuel' a) := by
  induction fuel with
  | zero =>
    rintro fuel' room room' (rfl | ⟨rfl, _⟩) _ a here rest
    · exact .inl rfl
    · exact .inr rfl
  | succ fuel ih =>
    intro fuel' room room' hf hle a here rest
    obtain ⟨fuel', rfl⟩ : ∃ k, fuel' = k + 1 := ⟨fuel' - 1, by rcases hf with h | ⟨_, h⟩ <;> omega⟩
    have hf' : FuelFor bad fuel fuel' := hf.imp (by omega) (fun h => ⟨h.1, by omega⟩)
    cases a with
    | none => exact .inl rfl
    | some addr =>
      cases hi : g.instruction addr with
      | none =>
        refine .inl ?_
        unfold prunDeep
        rw [hi]
      | some instr =>
        rw [prunDeep_step hi, prunDeep_step hi]
        have hcall : ∀ a, UpTo bad (pcall sem g room fuel a) (pcall sem g room' fuel' a) := by
          intro a
          unfold pcall
          by_cases h0 : room = 0
          · rcases hle with rfl | ⟨rfl, hle⟩
            · rw [if_pos h0, if_pos h0]; exact fun _ _ => .inl rfl
            · intro here rest; rw [if_pos h0]; exact .inr rfl
          · rw [if_neg h0, if_neg (by omega)]
            exact ih _ _ _ hf' (hle.imp (by omega) (fun h => ⟨h.1, by omega⟩)) _
        rcases pexec_upTo hbad hcall hf' addr instr here rest with h | h
        · rw [h]
          cases pexec sem g (pcall sem g room' fuel') fuel' addr instr here rest with
          | none => exact .inl rfl
          | some o =>
            cases o with
            | ok evs n =>
              simp only [Option.bind_some, continDeep, Bool.false_eq_true, if_false]
              rcases ih fuel' room room' hf' hle instr.next (lineColumn here (rest.take n)) (rest.drop n) with h | h
              · rw [h]; exact .inl rfl
              · rw [h]; rcases hbad with rfl | rfl <;> exact .inr rfl
            | _ => exact .inl rfl
        · rw [h]; rcases hbad with rfl | rfl <;> exact .inr rfl

/-- As much stack as fuel. -/
theorem prunDeep_fuel {sem : SpecialScanner → Recognizer} {g : Graph} (fuel : Nat) : ∀ room, fuel ≤ room → ∀ a here rest,
    prunDeep sem g room fuel a here rest = prun sem g fuel a here rest := by
  induction fuel with
  | zero => intro room _ a here rest; rfl
  | succ fuel ih =>
    intro room hle a here rest
    cases a with
    | none => rfl
    | some addr =>
      unfold prunDeep prun
      cases g.instruction addr with
      | none => rfl
      | some instr =>
        have h1 : (fun a => if room = 0 then fun _ _ => some overflow else prunDeep sem g (room - 1) fuel (some a)) =
            fun a => prun sem g fuel (some a) := by
          funext a here rest
          rw [if_neg (by omega)]
          exact ih (room - 1) (by omega) _ _ _
        simp only [h1]
        cases pexec sem g (fun a => prun sem g fuel (some a)) fuel addr instr here rest with
        | none => rfl
        | some o =>
          cases o with
          | ok evs n => simp only; rw [ih room (by omega)]
          | _ => rfl

theorem pcall_more {sem : SpecialScanner → Recognizer} {g : Graph} {fuel room room' a : Nat} (h : room ≤ room') (here : Location)
    (rest : Str) : SameOr (some overflow) (pcall sem g room fuel a here rest) (pcall sem g room' fuel a here rest) := by
  unfold pcall
  by_cases h0 : room = 0
  · rw [if_pos h0]; exact .inr rfl
  · rw [if_neg h0, if_neg (by omega)]
    exact prunDeep_upTo (.inr rfl) _ _ _ _ (.inl rfl) (.inr ⟨rfl, by omega⟩) _ _ _

theorem pcall_longer {sem : SpecialScanner → Recognizer} {g : Graph} {fuel fuel' room a : Nat} (h : fuel ≤ fuel') (here : Location)
    (rest : Str) : SameOr none (pcall sem g room fuel a here rest) (pcall sem g room fuel' a here rest) := by
  unfold pcall
  by_cases h0 : room = 0
  · rw [if_pos h0, if_pos h0]; exact .inl rfl
  · rw [if_neg h0, if_neg h0]
    exact prunDeep_upTo (.inl rfl) _ _ _ _ (.inr ⟨rfl, h⟩) (.inl rfl) _ _ _

theorem pcall_fuel {sem : SpecialScanner → Recognizer} {g : Graph} {fuel room a : Nat} (h : fuel < room) (here : Location) (rest : Str) :
    pcall sem g room fuel a here rest = prun sem g fuel (some a) here rest := by
  unfold pcall
  rw [if_neg (by omega)]
  exact prunDeep_fuel _ _ (by omega) _ _ _

/-! ## The parser -/

section
variable {dbg : Bool} {G : Language} {start : SyntaxRule} {m : Machine}

theorem conclude_ne {here : Location} {rest : Str} (o : Outcome) : conclude dbg here rest (some o) ≠ .diverge := by
  cases o with
  | ok evs n =>
    simp only [conclude]
    split
    · split <;> simp
    · simp
  | _ => simp [conclude]

/-- What the parser does with a bounded stack. -/
theorem deep_ends (hp : ParserFor dbg G start m) {Fits : Nat → Task → Nat → Prop} (K : Suffices G Fits) {r : Reader} {here : Location}
    {text : Str} (hi : InputAt dbg r here text) (frames : Nat) :
    (ReturnsWithin frames m r (.panic .stackOverflow) ∧
      ¬ Within Fits frames (.primary (.metaIdentifier start.location start.metaIdentifier)) text.length) ∨
    ∃ x, Returns m r x ∧ ReturnsWithin frames m r x := by
  obtain ⟨config, L, hb, hz, _, hc⟩ := parser_linked hp
  obtain ⟨c, hs, rfl, rfl⟩ := input_stands hi
  obtain ⟨o, f0, h1, h2⟩ := (calls_all L K frames).primary _ _ hc c.location c.rest
  simp only at h1
  have hdeep : ∀ fuel, f0 ≤ fuel → (m.parseDeep frames fuel r).1 = conclude dbg c.location c.rest (some o) := fun fuel hf => by
    rw [parse_deep hb frames fuel hs, h1 fuel hf]
  rcases h2 with ⟨rfl, h2⟩ | h2
  · exact .inl ⟨⟨by simp, f0, hdeep⟩, h2⟩
  · refine .inr ⟨conclude dbg c.location c.rest (some o), ⟨conclude_ne o, ?_⟩, conclude_ne o, f0, hdeep⟩
    obtain ⟨f1, h3⟩ := reaches_task (task := .primary _) (complete L h2) hc
    refine ⟨f1, fun fuel hf => ?_⟩
    rw [parse_pure hb fuel hs, conclude_prun, h3 fuel hf]

theorem returnsWithin_unique {frames : Nat} {r : Reader} {x y : Res (List Event)} (h : ReturnsWithin frames m r x)
    (h' : ReturnsWithin frames m r y) : x = y := by
  obtain ⟨_, n, h⟩ := h
  obtain ⟨_, n', h'⟩ := h'
  rw [← h (max n n') (by omega), h' (max n n') (by omega)]

/-- Enough frames for the fuel of a parse that returns. -/
theorem deep_large (hp : ParserFor dbg G start m) {r : Reader} {here : Location} {text : Str} (hi : InputAt dbg r here text)
    {x : Res (List Event)} (h : Returns m r x) : ∃ frames, ReturnsWithin frames m r x := by
  obtain ⟨config, L, hb, hz, _, hc⟩ := parser_linked hp
  obtain ⟨c, hs, rfl, rfl⟩ := input_stands hi
  obtain ⟨hx, f0, h1⟩ := h
  have h2 := h1 f0 (Nat.le_refl _)
  rw [parse_pure hb f0 hs, conclude_prun] at h2
  have key : conclude dbg c.location c.rest (pcall (semOf dbg) m.graph (f0 + 1) f0 m.entry c.location c.rest) = x := by
    rw [pcall_fuel (by omega)]; exact h2
  refine ⟨f0 + 1, hx, f0, fun fuel hf => ?_⟩
  rw [parse_deep hb _ fuel hs]
  rcases pcall_longer (sem := semOf dbg) (g := m.graph) (room := f0 + 1) (a := m.entry) hf c.location c.rest with h | h
  · rw [← h]; exact key
  · rw [h] at key; exact absurd key.symm hx

/-- More frames give the same. -/
theorem deep_more (hp : ParserFor dbg G start m) {r : Reader} {here : Location} {text : Str} (hi : InputAt dbg r here text)
    {x : Res (List Event)} {frames frames' : Nat} (hf : frames ≤ frames') (h : ReturnsWithin frames m r x)
    (hx : x ≠ .panic .stackOverflow) : ReturnsWithin frames' m r x := by
  obtain ⟨config, L, hb, hz, _, hc⟩ := parser_linked hp
  obtain ⟨c, hs, rfl, rfl⟩ := input_stands hi
  obtain ⟨h0, n, h1⟩ := h
  refine ⟨h0, n, fun fuel hn => ?_⟩
  have h2 := h1 fuel hn
  rw [parse_deep hb _ fuel hs] at h2 ⊢
  rcases pcall_more (sem := semOf dbg) (g := m.graph) (fuel := fuel) (a := m.entry) hf c.location c.rest with h | h
  · rw [← h]; exact h2
  · rw [h] at h2; exact absurd h2.symm hx

end

end Ebnf
