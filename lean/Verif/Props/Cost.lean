import Verif.Proofs.Cost
import Verif.Props.Steps

set_option autoImplicit false

/-! # C91: exactly how many instructions a parse executes -/

namespace Ebnf.Props

open Ebnf Ebnf.Spec

variable {dbg : Bool}

/-- A run that ends has executed the instructions. -/
private theorem executes_run {G : Language} {start : SyntaxRule} {m : Machine} (hp : ParserFor dbg G start m) {r : Reader} {here : Location}
    {text : Str} (hi : InputAt dbg r here text) {fuel : Nat} (h : (m.parse fuel r).1 ≠ .diverge) : Executes m r (m.steps fuel r) := by
  obtain ⟨config, L, hb, _⟩ := parser_linked hp
  obtain ⟨c, hs, rfl, rfl⟩ := input_stands hi
  have hst : ∀ fuel, m.steps fuel r = csteps (semOf dbg) m.graph fuel (some m.entry) c.location c.rest :=
    fun fuel => counts_steps hb fuel (some m.entry) r c hs
  refine ⟨fuel, fun fuel' hf => ?_⟩
  rw [hst, hst]
  refine csteps_longer hf fun hn => h ?_
  rw [parse_pure hb fuel hs, conclude_prun, hn]
  rfl

/-- C91: the number of instructions that a parse executes is the cost of the start rule on the text, as the specification `Costs` says: one
for every terminal, special sequence, reference, exception, choice, bracket, brace and count that is carried out. -/
theorem c91_cost {G : Language} {start : SyntaxRule} {m : Machine} (hp : ParserFor dbg G start m) {r : Reader} {here : Location}
    {text : Str} (hi : InputAt dbg r here text) (k : Nat) :
    Executes m r k ↔ Costs G (.primary (.metaIdentifier start.location start.metaIdentifier)) here text k := by
  have run : ∀ {x}, Returns m r x → ∃ n, Executes m r n ∧ Costs G (.primary (.metaIdentifier start.location start.metaIdentifier)) here text n := by
    rintro x ⟨hx, f, hf⟩
    have hd : (m.parse f r).1 ≠ .diverge := by rw [hf f (Nat.le_refl _)]; exact hx
    refine ⟨_, executes_run hp hi hd, ?_⟩
    obtain ⟨config, L, hb, hz, _, hc⟩ := parser_linked hp
    obtain ⟨c, hs, rfl, rfl⟩ := input_stands hi
    rw [show m.steps f r = _ from counts_steps hb f (some m.entry) r c hs]
    cases ho : prun (semOf dbg) m.graph f (some m.entry) c.location c.rest with
    | none => rw [parse_pure hb f hs, conclude_prun, ho] at hd; exact absurd rfl hd
    | some o => exact (cost_all L f).2.2.1 _ _ _ _ _ hc ho
  have same : ∀ {n n'}, Executes m r n → Executes m r n' → n = n' := by
    rintro n n' ⟨f, h⟩ ⟨f', h'⟩
    rw [← h (max f f') (by omega), ← h' (max f f') (by omega)]
  constructor
  · intro h
    have : ¬ Loops m r := by
      intro hl
      obtain ⟨f, h⟩ := h
      obtain ⟨f', h'⟩ := c82_forever hp hi hl (k + 1)
      have h1 := h (max f f') (by omega)
      have h2 := h' (max f f') (by omega)
      omega
    rw [loops_iff hp hi] at this
    have : ∃ x, Parses asBuilt G start here text x := by
      apply Classical.byContradiction
      intro hn
      exact this fun x hx => hn ⟨x, hx⟩
    obtain ⟨x, hx⟩ := this
    obtain ⟨n, h1, h2⟩ := run ((returns_iff hp hi x).mpr hx)
    rw [same h h1]
    exact h2
  · intro h
    obtain ⟨o, ho⟩ := costs_ev h
    obtain ⟨n, h1, h2⟩ := run ((returns_iff hp hi _).mpr (parses_of_ev (parser_bounded hp) ho))
    rw [costs_unique (parser_oneMeaning hp) h h2]
    exact h1

/-- C91: it depends on the grammar, the start rule, the place and the text only, not on how the text is delivered, nor on how the parser was
made. -/
theorem c91_same {G : Language} {start : SyntaxRule} {m m' : Machine} {dbg' : Bool} (hp : ParserFor dbg G start m) (hp' : ParserFor dbg' G start m')
    {r r' : Reader} {here : Location} {text : Str} (hi : InputAt dbg r here text) (hi' : InputAt dbg' r' here text) (k : Nat) :
    Executes m r k ↔ Executes m' r' k := by
  rw [c91_cost hp hi, c91_cost hp' hi']

/-- C91: a parse has a cost iff it returns. -/
theorem c91_returns {G : Language} {start : SyntaxRule} {m : Machine} (hp : ParserFor dbg G start m) {r : Reader} {here : Location}
    {text : Str} (hi : InputAt dbg r here text) :
    (∃ k, Costs G (.primary (.metaIdentifier start.location start.metaIdentifier)) here text k) ↔ ∃ x, Returns m r x := by
  constructor
  · rintro ⟨k, h⟩
    obtain ⟨o, ho⟩ := costs_ev h
    exact ⟨_, (returns_iff hp hi _).mpr (parses_of_ev (parser_bounded hp) ho)⟩
  · rintro ⟨x, h⟩
    obtain ⟨n, h⟩ := c82_executes hp hi h
    exact ⟨n, (c91_cost hp hi n).mp h⟩

/-- The rule `A='(',{A},')'|2*'x'-'y';`. -/
private def nested : SyntaxRule :=
  ⟨⟨[], 1, 1⟩, ['A'], .cons (.cons (.plain (.mk 1 (.terminalString ⟨[], 1, 3⟩ ['('])))
    (.cons (.plain (.mk 1 (.repeated ⟨[], 1, 7⟩ (.cons (.cons (.plain (.mk 1 (.metaIdentifier ⟨[], 1, 8⟩ ['A']))) .nil) .nil))))
      (.cons (.plain (.mk 1 (.terminalString ⟨[], 1, 11⟩ [')']))) .nil)))
    (.cons (.cons (.except (.mk 2 (.terminalString ⟨[], 1, 17⟩ ['x'])) (.mk 1 (.terminalString ⟨[], 1, 21⟩ ['y']))) .nil) .nil)⟩

-- C91: on the text `(xx)`, 19 instructions are executed: 1 for the reference to `A`, 1 for its choice, 1 for `(`, 1 for the braces, 8 for the
-- first round (reference, choice, `(`, the exception, the count, `x` twice, `y`), 6 for the second, which fails, and 1 for `)`.
example : ∃ m, ParserFor false (plainLanguage [nested]) nested m ∧ InputAt false (readerOn "(xx)") (Location.new []) "(xx)".toList ∧
    Executes m (readerOn "(xx)") 19 ∧
    Costs (plainLanguage [nested]) (.primary (.metaIdentifier nested.location nested.metaIdentifier)) (Location.new []) "(xx)".toList 19 := by
  have hi := input_readerOn "(xx)"
  have h0 : ((sampleMachine .default "A='(',{A},')'|2*'x'-'y';").map fun x => (x.1, x.2.2.steps 100 (readerOn "(xx)"),
      decide ((x.2.2.parse 100 (readerOn "(xx)")).1 = .diverge))) = some ([nested], 19, false) := by decide +kernel
  cases hm : sampleMachine .default "A='(',{A},')'|2*'x'-'y';" with
  | none => rw [hm] at h0; cases h0
  | some x =>
    obtain ⟨rules, start, m⟩ := x
    obtain ⟨_, h2, h3⟩ := sampleMachine_parser .default _ _ (fun _ => plain_realizes _) _ _ _ _ hm
    rw [hm] at h0
    simp only [Option.map_some, Option.some.injEq, Prod.mk.injEq, decide_eq_false_iff_not] at h0
    obtain ⟨rfl, h4, h5⟩ := h0
    simp only [List.head?_cons, Option.some.injEq] at h3
    subst h3
    have h6 := executes_run h2 hi h5
    rw [h4] at h6
    exact ⟨m, h2, hi, h6, (c91_cost h2 hi 19).mp h6⟩

end Ebnf.Props
