import Verif.Proofs.Leftover
import Verif.Proofs.Session

set_option autoImplicit false

/-! # Which marks a parse leaves -/

namespace Ebnf

open Spec

variable {dbg : Bool}

/-! ## What one can go back to -/

theorem goes_back {r : Reader} {c : Cursor} (h : Stands dbg r c) {m p : Nat} (hm : (m, p) ∈ c.marks) : GoesBack r m (c.pos - p) := by
  obtain ⟨own, ms, hc⟩ := List.append_of_mem hm
  obtain ⟨newer, own', h1, h2⟩ := split_mark (own := own) (ms := ms) (m := m) (p := p) (fun p' hp =>
    mark_position h.1 (by rw [hc]; exact hp) hm)
  obtain ⟨r', h3, h4, _⟩ := resetToMark_rep (rel_rep h.1) (hc.trans h1) h2
  obtain ⟨r2, a1, _, _⟩ := in_build (mirrors_reset m) (reset_quiet m r) h3 h4 h.2
  simp only [GoesBack, perform, a1, answer]

theorem goes_back_iff {r : Reader} {c : Cursor} (h : Stands dbg r c) (m : Nat) : (∃ n, GoesBack r m n) ↔ ∃ p, (m, p) ∈ c.marks := by
  constructor
  · rintro ⟨n, hn⟩
    apply Classical.byContradiction
    intro hc
    have h1 := resetToMark_missing (rel_rep h.1) (m := m) (fun x hx he => hc ⟨x.2, by rw [← he]; exact hx⟩)
    rcases perform_mirrors (.resetToMark m) r with h2 | ⟨h2, _⟩
    · rw [GoesBack, h2] at hn; cases hn
    · rw [h1] at h2
      simp only [Prod.mk.injEq] at h2
      rw [GoesBack, ← h2.1] at hn
      cases hn
  · rintro ⟨p, hp⟩
    exact ⟨_, goes_back h hp⟩

/-! ## Straight grammars -/

/-- Instructions that take no mark of their own. -/
def StraightInstr (x : Instruction) : Prop :=
  match x.step with
  | .alias _ => True
  | .scan (.terminal _) => True
  | .scan .empty => True
  | _ => False

private theorem straight_snoc {steps : List Instruction} {x : Instruction} (h : ∀ y ∈ steps, StraightInstr y) (hx : StraightInstr x) :
    ∀ y ∈ steps ++ [x], StraightInstr y := by
  intro y hy
  rcases List.mem_append.mp hy with hy | hy
  · exact h y hy
  · simp only [List.mem_singleton] at hy; subst hy; exact hx

mutual
theorem straight_primary (config : Config) : ∀ (p : Primary) (steps : List Instruction) (next : Option Nat) (i : Nat) (out : List Instruction),
    StraightPrimary p → (∀ y ∈ steps, StraightInstr y) → registerPrimary config steps next p = .ok (i, out) → ∀ y ∈ out, StraightInstr y
  | .optional _ _, _, _, _, _, hs, _, _ => by simp [StraightPrimary] at hs
  | .repeated _ _, _, _, _, _, hs, _, _ => by simp [StraightPrimary] at hs
  | .specialSequence _ _, _, _, _, _, hs, _, _ => by simp [StraightPrimary] at hs
  | .grouped _ l, steps, next, i, out, hs, h, hr => by
    simp only [StraightPrimary] at hs
    exact straight_list config l steps none i out hs h (by simpa [registerPrimary] using hr)
  | .metaIdentifier loc name, steps, next, i, out, _, h, hr => by
    simp only [registerPrimary, Res.ok.injEq, Prod.mk.injEq] at hr
    rw [← hr.2]; exact straight_snoc h trivial
  | .terminalString loc s, steps, next, i, out, _, h, hr => by
    simp only [registerPrimary, Res.ok.injEq, Prod.mk.injEq] at hr
    rw [← hr.2]; exact straight_snoc h trivial
  | .empty loc, steps, next, i, out, _, h, hr => by
    simp only [registerPrimary, Res.ok.injEq, Prod.mk.injEq] at hr
    rw [← hr.2]; exact straight_snoc h trivial
theorem straight_terms (config : Config) : ∀ (d : SingleDefinition) (steps : List Instruction) (next i : Option Nat) (out : List Instruction),
    StraightTerms d → (∀ y ∈ steps, StraightInstr y) → registerTerms config steps next d = .ok (i, out) → ∀ y ∈ out, StraightInstr y
  | .nil, steps, next, i, out, _, h, hr => by
    simp only [registerTerms, Res.ok.injEq, Prod.mk.injEq] at hr
    rw [← hr.2]; exact h
  | .cons (.except _ _) _, _, _, _, _, hs, _, _ => by simp [StraightTerms] at hs
  | .cons (.plain (.mk n p)) d, steps, next, i, out, hs, h, hr => by
    simp only [StraightTerms] at hs
    obtain ⟨rfl, hp, hd⟩ := hs
    simp only [registerTerms] at hr
    obtain ⟨⟨next', steps'⟩, h1, hr⟩ := Res.bind_eq_ok.mp hr
    obtain ⟨⟨index, steps''⟩, h2, hr⟩ := Res.bind_eq_ok.mp hr
    simp only [Res.ok.injEq, Prod.mk.injEq] at hr
    rw [← hr.2]
    simp only [registerTerm, registerFactor, if_true] at h2
    exact straight_primary config p steps' next' index steps'' hp (straight_terms config d steps next next' steps' hd h h1) h2
theorem straight_list (config : Config) : ∀ (l : DefinitionList) (steps : List Instruction) (next : Option Nat) (i : Nat) (out : List Instruction),
    StraightList l → (∀ y ∈ steps, StraightInstr y) → registerDefinitionList config steps next l = .ok (i, out) → ∀ y ∈ out, StraightInstr y
  | .nil, _, _, _, _, hs, _, _ => by simp [StraightList] at hs
  | .cons _ (.cons _ _), _, _, _, _, hs, _, _ => by simp [StraightList] at hs
  | .cons d .nil, steps, next, i, out, hs, h, hr => by
    simp only [StraightList] at hs
    simp only [registerDefinitionList] at hr
    by_cases hd : d = .nil
    · rw [if_pos hd] at hr; cases hr
    · rw [if_neg hd] at hr
      obtain ⟨⟨index, steps'⟩, h1, hr⟩ := Res.bind_eq_ok.mp hr
      have h2 := straight_terms config d steps next index steps' hs h h1
      cases index with
      | none => cases hr
      | some j =>
        simp only [Res.ok.injEq, Prod.mk.injEq] at hr
        rw [← hr.2]; exact h2
end

theorem straight_loop {s : Syntax} {config : Config} (rules : List SyntaxRule) : ∀ (g g' : Graph), (∀ r ∈ rules, StraightList r.definitionList) →
    (∀ y ∈ g.instructions, StraightInstr y) → Graph.compileLoop s config rules g = .ok g' → ∀ y ∈ g'.instructions, StraightInstr y := by
  induction rules with
  | nil =>
    intro g g' _ h hc
    simp only [Graph.compileLoop, Res.ok.injEq] at hc
    rw [← hc]; exact h
  | cons r rs ih =>
    intro g g' hr h hc
    simp only [Graph.compileLoop] at hc
    cases hn : s.canonicalName r.metaIdentifier with
    | none => rw [hn] at hc; cases hc
    | some name =>
      rw [hn] at hc
      obtain ⟨⟨index, steps⟩, h1, hc⟩ := Res.bind_eq_ok.mp hc
      refine ih _ _ (fun r h => hr r (by simp [h])) ?_ hc
      exact straight_snoc (straight_list config _ _ _ _ _ (hr r (by simp)) h h1) trivial

/-- It keeps the marks. -/
def KeepsMarksOf {α : Type} (dbg : Bool) (f : RM Reader α) : Prop :=
  ∀ r c, Stands dbg r c → ∃ c', Stands dbg (f r).2 c' ∧ c'.marks = c.marks

variable {α β : Type}

theorem keeps_pure (a : α) : KeepsMarksOf dbg (pure a : RM Reader α) := fun _ c h => ⟨c, h, rfl⟩

theorem keeps_lift (x : Res α) : KeepsMarksOf dbg (RM.lift x : RM Reader α) := fun _ c h => ⟨c, h, rfl⟩

theorem keeps_bind {f : RM Reader α} {k : α → RM Reader β} (hf : KeepsMarksOf dbg f) (hk : ∀ a, KeepsMarksOf dbg (k a)) :
    KeepsMarksOf dbg (f >>= k) := by
  intro r c h
  rw [RM.bind_run]
  obtain ⟨c1, h1, h2⟩ := hf r c h
  generalize f r = x at h1
  obtain ⟨x, r1⟩ := x
  cases x with
  | ok a =>
    obtain ⟨c2, h3, h4⟩ := hk a r1 c1 h1
    exact ⟨c2, h3, h4.trans h2⟩
  | err e => exact ⟨c1, h1, h2⟩
  | panic p => exact ⟨c1, h1, h2⟩
  | diverge => exact ⟨c1, h1, h2⟩

theorem keeps_location : KeepsMarksOf dbg Reader.location := fun _ c h => ⟨c, h, rfl⟩

theorem keeps_expected (g : Graph) (current : Option Nat) : KeepsMarksOf dbg (errExpected g current) := by
  intro r c h
  obtain ⟨r', h1, h2⟩ := errExpected_at (g := g) (current := current) h
  exact ⟨c, by rw [h1]; exact h2, rfl⟩

theorem keeps_terminal (g : Graph) (addr : Nat) (instr : Instruction) (s : Str) : KeepsMarksOf dbg (scanTerminal g addr instr s) := by
  intro r c h
  unfold scanTerminal
  rw [RM.bind_run]
  obtain ⟨r1, h1, h2, h3⟩ := prefixMatches_at h s
  rw [h1]
  by_cases hp : s <+: c.rest
  · simp only [decide_eq_true hp, if_true, RM.bind_run, location_at h2]
    obtain ⟨r2, h4, h5⟩ := skip_at h2 (h3 hp)
    rw [h4]
    exact ⟨_, h5, rfl⟩
  · simp only [decide_eq_false hp, Bool.false_eq_true, if_false]
    exact keeps_bind (keeps_expected g _) (fun _ => keeps_pure _) r1 c h2

theorem keeps_run {g : Graph} (hg : ∀ x ∈ g.instructions, StraightInstr x) (fuel : Nat) : ∀ next, KeepsMarksOf dbg (runFrom g fuel next) := by
  induction fuel with
  | zero => intro next; exact keeps_lift _
  | succ fuel ih =>
    intro next
    cases next with
    | none => exact keeps_pure _
    | some addr =>
      unfold runFrom
      cases hi : g.instruction addr with
      | none => exact keeps_lift _
      | some instr =>
        have hx := hg instr (List.mem_of_getElem? hi)
        refine keeps_bind ?_ fun pe => ?_
        · unfold execStep
          revert hx
          unfold StraightInstr
          cases instr.step with
          | repetition min max sub => exact fun h => h.elim
          | or subs => exact fun h => h.elim
          | alias name =>
            intro _
            simp only
            cases g.indexOfLabel name with
            | none => exact keeps_lift _
            | some address =>
              simp only
              cases g.canonicalName name with
              | none => exact keeps_lift _
              | some label =>
                refine keeps_bind keeps_location fun _ => keeps_bind (ih _) fun pe => ?_
                obtain ⟨p, evs⟩ := pe
                cases p with
                | proceed => exact keeps_bind keeps_location fun _ => keeps_pure _
                | notThisWay e => exact keeps_pure _
          | scan sc =>
            cases sc with
            | terminal s => exact fun _ => keeps_terminal g addr instr s
            | special sc => exact fun h => h.elim
            | empty => exact fun _ => keeps_pure _
            | exception a b => exact fun h => h.elim
        · obtain ⟨p, evs⟩ := pe
          cases p with
          | proceed => exact keeps_bind (ih _) fun _ => keeps_pure _
          | notThisWay e => exact keeps_pure _

theorem keeps_parse {m : Machine} (hg : ∀ x ∈ m.graph.instructions, StraightInstr x) (fuel : Nat) : KeepsMarksOf dbg (m.parse fuel) := by
  unfold Machine.parse
  refine keeps_bind (keeps_run hg _ _) fun pe => ?_
  obtain ⟨p, evs⟩ := pe
  cases p with
  | notThisWay e => exact keeps_lift _
  | proceed =>
    refine keeps_bind (fun r c h => ?_) fun b => ?_
    · obtain ⟨r', h1, h2⟩ := isEof_at h
      exact ⟨c, by rw [h1]; exact h2, rfl⟩
    · cases b with
      | true =>
        refine keeps_bind (fun r c h => ⟨c, h, rfl⟩) fun r => ?_
        split
        · exact keeps_lift _
        · exact keeps_pure _
      | false => exact keeps_bind (keeps_expected _ _) fun _ => keeps_lift _

theorem machine_graph {g : Graph} {query : Str} {m : Machine} (h : Machine.new g query = .ok (some m)) : m.graph = g := by
  unfold Machine.new at h
  cases ha : g.indexOfLabel ('$' :: query) with
  | none => rw [ha] at h; simp at h
  | some a =>
    rw [ha] at h
    simp only at h
    cases hn : g.canonicalName query with
    | none => rw [hn] at h; simp at h
    | some n => rw [hn] at h; simp at h; subst h; rfl

/-- The scanners of a compiled graph are those of the configuration. -/
theorem leaves_compiled {config : Config} {m : Machine} (hp : ParserOf config m) {k : Nat} (hk : ∀ l t, LeavesAtMost k (config l t)) :
    GraphLeaves k m.graph := by
  obtain ⟨rules, s, g, query, h1, h2, h3, h4⟩ := hp
  obtain ⟨g', h5, h6⟩ := compile_ok (config := config)
    (G := ⟨rules, fun _ _ => defaultRecognizer, fun l s => (config l s).symbol⟩) (fun _ _ => rfl) h2 h1
  rw [h3, Res.ok.injEq] at h5
  subst h5
  intro addr instr scanner hi hs
  rw [machine_graph h4] at hi
  have h7 := (h6.closed instr (List.mem_of_getElem? hi)).2
  rw [hs] at h7
  obtain ⟨l, t, rfl⟩ := h7
  exact hk l t

end Ebnf
