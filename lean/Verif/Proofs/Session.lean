import Verif.Spec.Session
import Verif.Proofs.Running

set_option autoImplicit false

/-! # Sessions -/

namespace Ebnf

open Spec

variable {dbg : Bool}

theorem perform_at {r : Reader} {c : Cursor} (h : Stands dbg r c) (o : ReaderOp) (hn : (perform o r).1 ≠ .crash) :
    ∃ c', CursorStep c o (perform o r).1 c' ∧ Stands dbg (perform o r).2 c' := by
  obtain ⟨a, r1, c1, h1, h2, h3, _⟩ := perform_rep (rel_rep h.1) o (by simp [rel])
  rcases perform_mirrors o r with h4 | ⟨h4, h5⟩
  · exact absurd h4 hn
  · rw [h1] at h4
    simp only [Prod.mk.injEq] at h4
    obtain ⟨rfl, rfl⟩ := h4
    exact ⟨c1, h2, rep_of_rel h3.toRep, h5.trans h.2⟩

/-- `returns_iff` for a reader that was used in any way. -/
theorem returns_at {G : Language} {start : SyntaxRule} {m : Machine} (hp : ParserFor dbg G start m) {r : Reader} {c : Cursor}
    (hs : Stands dbg r c) (x : Res (List Event)) : Returns m r x ↔ Parses asBuilt G start c.location c.rest x := by
  constructor
  · rintro ⟨hx, f, hf⟩
    exact (parse_iff hp hs.1 hs.2 x hx).mp ⟨f, hf f (Nat.le_refl _)⟩
  · intro h
    refine ⟨parses_ne_diverge h, ?_⟩
    obtain ⟨config, L, hb, hz, _, hc⟩ := parser_linked hp
    obtain ⟨o, h1, rfl⟩ := parses_verdict h
    obtain ⟨f0, h2⟩ := reaches_task (task := .primary _) (complete L h1) hc
    refine ⟨f0, fun fuel hf => ?_⟩
    rw [parse_pure hb fuel hs, pparse, h2 fuel hf]
    cases o with
    | ok evs n => simp only [verdict, realizes_agree hz h1, Bool.false_eq_true, if_false]
    | _ => rfl

/-- Where a parse leaves the reader. -/
theorem parse_leaves {sem : SpecialScanner → Recognizer} {m : Machine} (hg : GraphBehaves dbg sem m.graph) (fuel : Nat)
    {r : Reader} {c : Cursor} (h : Stands dbg r c) (hn : ¬ (Reply.parse (m.parse fuel r).1).IsStop) :
    ∃ pos more, Stands dbg (m.parse fuel r).2 ⟨c.start, c.text, pos, more ++ c.marks⟩ ∧
      ∀ out, (m.parse fuel r).1 = .ok out → pos = c.text.length := by
  have ha := sims_run hg fuel (some m.entry) r c h
  unfold Machine.parse at hn ⊢
  simp only [RM.bind_run] at hn ⊢
  generalize runFrom m.graph fuel (some m.entry) r = x at ha hn
  generalize prun sem m.graph fuel (some m.entry) c.location c.rest = o at ha
  obtain ⟨res, r1⟩ := x
  cases o with
  | none => have : res = .diverge := ha; subst this; exact absurd trivial hn
  | some o =>
    cases o with
    | ok evs n =>
      obtain ⟨a1, a2, own, a3⟩ := ha
      simp only at a1; subst a1
      obtain ⟨r2, b1, b2'⟩ := isEof_at a3
      simp only [RM.bind_run, b1, moved_rest] at hn ⊢
      have he : c.rest.drop n = [] ↔ n = c.rest.length := by
        rw [List.drop_eq_nil_iff]; omega
      have hlen : c.rest.length = c.text.length - c.pos := by simp [Cursor.rest]
      have hpos := h.1.pos_le
      by_cases hx : n = c.rest.length
      · rw [decide_eq_true (he.mpr hx), if_pos rfl] at hn ⊢
        simp only [RM.bind_run, RM.get_run, b2'.2] at hn ⊢
        cases hl : dbg && !labelsAgree evs with
        | true => rw [hl] at hn; exact absurd trivial hn
        | false => exact ⟨_, own, b2', fun _ _ => by omega⟩
      · rw [decide_eq_false (fun hc => hx (he.mp hc))]
        simp only [Bool.false_eq_true, if_false]
        obtain ⟨r3, b4, b5⟩ := errExpected_at (g := m.graph) (current := none) b2'
        simp only [RM.bind_run, b4, RM.lift_run]
        exact ⟨_, own, b5, by intro _ h; cases h⟩
    | fail e evs k =>
      obtain ⟨a1, a2, own, a3⟩ := ha
      simp only at a1; subst a1
      exact ⟨_, own, a3, by intro _ h; cases h⟩
    | abort e =>
      obtain ⟨a1, p, own, a3⟩ := ha
      simp only at a1; subst a1
      exact ⟨_, own, a3, by intro _ h; cases h⟩
    | panic q => have : res = .panic q := ha; subst this; exact absurd trivial hn

theorem act_at {r : Reader} {c : Cursor} (h : Stands dbg r c) (a : Action)
    (hp : ∀ m fuel, a = .parse m fuel → ∃ G start, ParserFor dbg G start m) (hn : ¬ (act a r).1.IsStop) :
    ∃ c', SessionStep dbg c a (act a r).1 c' ∧ Stands dbg (act a r).2 c' := by
  cases a with
  | op o =>
    obtain ⟨c', h1, h2⟩ := perform_at h o hn
    exact ⟨c', .op h1, h2⟩
  | parse m fuel =>
    obtain ⟨G, start, hp⟩ := hp m fuel rfl
    obtain ⟨config, L, hb, _⟩ := parser_linked hp
    obtain ⟨pos, more, h1, h2⟩ := parse_leaves hb fuel h hn
    refine ⟨_, .parse (fun G start hp => (parse_iff hp h.1 h.2 _ ?_).mp ⟨fuel, rfl⟩) h1.1.pos_le h2, h1⟩
    intro hd
    rw [act, hd] at hn
    exact hn trivial

theorem actAll_at (as : List Action) : ∀ {r : Reader} {c : Cursor}, Stands dbg r c →
    (∀ m fuel, .parse m fuel ∈ as → ∃ G start, ParserFor dbg G start m) → (∀ x ∈ (actAll as r).1, ¬ x.IsStop) →
    ∃ c', SessionSteps dbg c as (actAll as r).1 c' ∧ Stands dbg (actAll as r).2 c' := by
  induction as with
  | nil => intro r c h _ _; exact ⟨c, .nil, h⟩
  | cons a as ih =>
    intro r c h hp hn
    obtain ⟨c1, h1, h2⟩ := act_at h a (fun m fuel e => hp m fuel (by simp [e])) (hn _ (by simp [actAll]))
    obtain ⟨c2, h3, h4⟩ := ih h2 (fun m fuel e => hp m fuel (by simp [e])) (fun x hx => hn x (by simp [actAll, hx]))
    exact ⟨c2, .cons h1 h3, h4⟩

end Ebnf
