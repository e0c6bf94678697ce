import Verif.Proofs.Cut
import Verif.Props.Partials
import Verif.Props.Parsing

set_option autoImplicit false

/-! # C36, C35: what follows a bare group might as well not be written -/

namespace Ebnf.Props

open Ebnf Ebnf.Spec

variable {dbg : Bool}

/-- C36, every grammar: exactly what happens with bare groups, at any depth.  Without all that follows bare groups, the grammar compiles as well, and its
parser does the same for every input: it accepts the same texts with the same events, returns errors at the same places, and runs forever for the same. -/
theorem c36_as_if_not_written {G : Language} {start : SyntaxRule} {m : Machine} (hp : ParserFor dbg G start m) :
    ∃ m', ParserFor dbg (cutLanguage G) (cutRule start) m' ∧
      ∀ {r : Reader} {here : Location} {text : Str}, InputAt dbg r here text →
        (∀ out, Returns m r (.ok out) ↔ Returns m' r (.ok out)) ∧
        (∀ l, (∃ e, Returns m r (.err e) ∧ e.location = l) ↔ ∃ e, Returns m' r (.err e) ∧ e.location = l) ∧
        (∀ p, Returns m r (.panic p) ↔ Returns m' r (.panic p)) ∧
        (Loops m r ↔ Loops m' r) := by
  obtain ⟨m', hp'⟩ := Cut.parser_cut hp
  refine ⟨m', hp', fun {r here text} hi => ?_⟩
  have a1 : ∀ x, Returns m r x → ∃ x', Returns m' r x' ∧ SameButWording x x' := by
    intro x h
    obtain ⟨x', h1, h2⟩ := Cut.parses_same (q := asBuilt) rfl (Cut.sameCut G) (Cut.cutRule_twice start).symm ((returns_iff hp hi _).mp h)
    exact ⟨x', (returns_iff hp' hi _).mpr h1, h2⟩
  have a2 : ∀ x, Returns m' r x → ∃ x', Returns m r x' ∧ SameButWording x x' := by
    intro x h
    obtain ⟨x', h1, h2⟩ := Cut.parses_same (q := asBuilt) rfl (Cut.sameCut G).symm (Cut.cutRule_twice start) ((returns_iff hp' hi _).mp h)
    exact ⟨x', (returns_iff hp hi _).mpr h1, h2⟩
  refine ⟨fun out => ⟨fun h => ?_, fun h => ?_⟩, fun l => ⟨fun ⟨e, h, he⟩ => ?_, fun ⟨e, h, he⟩ => ?_⟩, fun p => ⟨fun h => ?_, fun h => ?_⟩, ?_⟩
  · obtain ⟨_, h1, h2⟩ := a1 _ h; cases h2; exact h1
  · obtain ⟨_, h1, h2⟩ := a2 _ h; cases h2; exact h1
  · obtain ⟨_, h1, h2⟩ := a1 _ h
    cases h2 with
    | error h2 => exact ⟨_, h1, h2 ▸ he⟩
  · obtain ⟨_, h1, h2⟩ := a2 _ h
    cases h2 with
    | error h2 => exact ⟨_, h1, h2 ▸ he⟩
  · obtain ⟨_, h1, h2⟩ := a1 _ h; cases h2; exact h1
  · obtain ⟨_, h1, h2⟩ := a2 _ h; cases h2; exact h1
  · rw [loops_iff hp hi, loops_iff hp' hi]
    constructor
    · intro h x hx
      obtain ⟨x', h1, _⟩ := a2 x ((returns_iff hp' hi _).mpr hx)
      exact h x' ((returns_iff hp hi _).mp h1)
    · intro h x hx
      obtain ⟨x', h1, _⟩ := a1 x ((returns_iff hp hi _).mpr hx)
      exact h x' ((returns_iff hp' hi _).mp h1)

/-- C36: in the grammar without what follows bare groups, nothing follows a bare group, and rules in which nothing did are as before. -/
theorem c36_cut (G : Language) :
    Everywhere groupsLast (cutLanguage G) ∧ (∀ r ∈ (cutLanguage G).rules, ∃ r' ∈ G.rules, r = cutRule r') ∧
      ∀ r ∈ G.rules, EveryList groupsLast r.definitionList → cutRule r = r := by
  refine ⟨Cut.cut_last G, fun r hr => ?_, fun r _ h => ?_⟩
  · obtain ⟨r0, h1, rfl⟩ := List.mem_map.mp hr
    exact ⟨r0, h1, rfl⟩
  · unfold cutRule
    rw [Cut.cut_same h]

/-- In `A={('a'),'b'},2*('c'),('d'|'e'),'f',g;` the `'b'`, the `'f'` and the `g` go. -/
example : ∃ rules, parseStr [] "A={('a'),'b'},2*('c'),('d'|'e'),'f',g;g='h';".toList = .ok rules ∧
    parseStr [] "A={('a')    },2*('c'),('d'|'e')      ;g='h';".toList = .ok (rules.map cutRule) := by
  have h : ∃ rules, parseStr [] "A={('a'),'b'},2*('c'),('d'|'e'),'f',g;g='h';".toList = .ok rules := by
    cases h : parseStr [] "A={('a'),'b'},2*('c'),('d'|'e'),'f',g;g='h';".toList with
    | ok rules => exact ⟨rules, rfl⟩
    | _ =>
      have : (match parseStr [] "A={('a'),'b'},2*('c'),('d'|'e'),'f',g;g='h';".toList with | .ok _ => true | _ => false) = true := by decide +kernel
      rw [h] at this
      simp at this
  obtain ⟨rules, h⟩ := h
  refine ⟨rules, h, ?_⟩
  have h2 : (match parseStr [] "A={('a'),'b'},2*('c'),('d'|'e'),'f',g;g='h';".toList with
      | .ok rules => decide (parseStr [] "A={('a')    },2*('c'),('d'|'e')      ;g='h';".toList = .ok (rules.map cutRule)) | _ => false) = true := by
    decide +kernel
  rw [h] at h2
  exact of_decide_eq_true h2

/-- C35 for every grammar whose scanners do not forward and whose counts are below 2^32-1, on texts shorter than 2^32-1 characters: `parse` does what the
intended reading of the grammar without all that follows bare groups says: it accepts the same texts, fails at the same places and runs forever for the
same texts; the events of the intended reading are, in order, among those that it returns. -/
theorem c35_groups_and_events {G : Language} {start : SyntaxRule} {m : Machine} (hp : ParserFor dbg G start m) (hb : ScannersBalanced G)
    (ht : Everywhere (unforwarded G) G) {r : Reader} {here : Location} {text : Str} (hi : InputAt dbg r here text) (hl : text.length < 4294967295) :
    (∀ x, Returns m r x → ∃ x', Parses ideal (cutLanguage G) (cutRule start) here text x' ∧ RoughlySame x' x) ∧
      (∀ x', Parses ideal (cutLanguage G) (cutRule start) here text x' → ∃ x, Returns m r x ∧ RoughlySame x' x) ∧
      (Loops m r ↔ ∀ x, ¬ Parses ideal (cutLanguage G) (cutRule start) here text x) := by
  obtain ⟨m', hp', h⟩ := c36_as_if_not_written hp
  obtain ⟨h1, h2, h3, h4⟩ := h hi
  obtain ⟨h5, h6, h7⟩ := c35_but_for_events hp' (G := cutLanguage G) (fun l s d here rest evs n h => hb l s d here rest evs n h) (Cut.cut_tidy ht) hi hl
  refine ⟨fun x hx => ?_, fun x' hx => ?_, h4.trans h7⟩
  · cases x with
    | ok out =>
      obtain ⟨x', a1, a2⟩ := h5 _ ((h1 out).mp hx)
      cases a2 with
      | accepted a2 => exact ⟨_, a1, .accepted a2⟩
    | err e =>
      obtain ⟨e', a1, a2⟩ := (h2 _).mp ⟨e, hx, rfl⟩
      obtain ⟨x', a3, a4⟩ := h5 _ a1
      cases a4
      exact ⟨_, a3, .error a2⟩
    | panic p =>
      obtain ⟨x', a1, a2⟩ := h5 _ ((h3 p).mp hx)
      cases a2
      exact ⟨_, a1, .crash⟩
    | diverge => exact absurd rfl hx.1
  · obtain ⟨x, a1, a2⟩ := h6 _ hx
    cases a2 with
    | accepted a2 => exact ⟨_, (h1 _).mpr a1, .accepted a2⟩
    | error =>
      obtain ⟨e', a3, a4⟩ := (h2 _).mpr ⟨_, a1, rfl⟩
      exact ⟨_, a3, .error a4.symm⟩
    | crash => exact ⟨_, (h3 _).mpr a1, .crash⟩

/-- The grammar of `c36_continuation_dropped` meets the hypotheses: the parser accepts `a`, which it should not, and so does the intended reading of
`A=('a');`. -/
example : ∃ rules start m out, parseStr [] "A=('a'),'b';".toList = .ok rules ∧ ParserFor false (plainLanguage rules) start m ∧
    ScannersBalanced (plainLanguage rules) ∧ Everywhere (unforwarded (plainLanguage rules)) (plainLanguage rules) ∧
    Returns m (readerOn "a") (.ok out) ∧ ∃ out', Parses ideal (cutLanguage (plainLanguage rules)) (cutRule start) (Location.new []) "a".toList (.ok out') := by
  obtain ⟨rules, start, m, h1, h2, ⟨out, h3⟩, _⟩ := c36_continuation_dropped
  have hb : ScannersBalanced (plainLanguage rules) := (c37_built_in_scanners fun _ _ => .default).2
  have h5 : parseStr [] "A=('a'),'b';".toList = .ok [⟨⟨[], 1, 1⟩, ['A'], .cons
      (.cons (.plain (.mk 1 (.grouped ⟨[], 1, 3⟩ (.cons (.cons (.plain (.mk 1 (.terminalString ⟨[], 1, 4⟩ ['a']))) .nil) .nil))))
      (.cons (.plain (.mk 1 (.terminalString ⟨[], 1, 9⟩ ['b']))) .nil)) .nil⟩] := by
    decide +kernel
  have ht : Everywhere (unforwarded (plainLanguage rules)) (plainLanguage rules) := by
    rw [h1] at h5
    injection h5 with h5
    subst h5
    intro r hr
    simp [plainLanguage] at hr
    subst hr
    simp [EveryList, EverySingle, EveryTerm, EveryFactor, EveryPrimary, unforwarded, smallCounts, noForwards]
  refine ⟨rules, start, m, out, h1, h2, hb, ht, h3, ?_⟩
  obtain ⟨x', h6, h7⟩ := (c35_groups_and_events h2 hb ht (input_readerOn "a") (by decide)).1 _ h3
  cases h7
  exact ⟨_, h6⟩

end Ebnf.Props
