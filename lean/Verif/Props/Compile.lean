import Verif.Spec.Addresses
import Verif.Proofs.Running

set_option autoImplicit false

/-! # C50, C51: compiling a syntax, making a parser -/

namespace Ebnf.Props

open Ebnf Ebnf.Spec

private theorem compiled (config : Config) {rules : List SyntaxRule} {s : Syntax} (hs : Syntax.new rules = .ok s)
    (hr : ∀ r ∈ rules, RuleShape r) :
    ∃ g, Graph.compile s config = .ok g ∧
      Compiled config ⟨rules, fun _ _ => defaultRecognizer, fun l s => (config l s).symbol⟩ rules g :=
  compile_ok (G := ⟨rules, fun _ _ => defaultRecognizer, fun l s => (config l s).symbol⟩) (fun _ _ => rfl) hs hr

/-! ## C51 -/

/-- C51: for every configuration, a syntax of well-shaped rules compiles, and all addresses and labels refer to
instructions. -/
theorem c51_compiles_closed (config : Config) {rules : List SyntaxRule} {s : Syntax} (hs : Syntax.new rules = .ok s)
    (hr : ∀ r ∈ rules, RuleShape r) : ∃ g, Graph.compile s config = .ok g ∧ ClosedGraph g := by
  obtain ⟨g, h1, h2⟩ := compiled config hs hr
  refine ⟨g, h1, ?_, ?_⟩
  · intro x hx i hi
    have hlt : i < g.instructions.length := by
      obtain ⟨a1, a2⟩ := h2.closed x hx
      simp only [targets, List.mem_append, Option.mem_toList] at hi
      rcases hi with hi | hi
      · exact a1 i hi
      · revert a2 hi
        cases x.step with
        | repetition a b c => simp; omega
        | or subs => exact fun a2 hi => a2 i hi
        | alias n => simp
        | scan sc =>
          cases sc with
          | exception a b =>
            simp only [List.mem_cons, List.not_mem_nil, or_false]
            rintro ⟨a1, a2⟩ (rfl | rfl) <;> assumption
          | _ => simp
    exact ⟨_, List.getElem?_eq_getElem hlt⟩
  · intro name i hi
    exact ⟨_, List.getElem?_eq_getElem (h2.labels _ _ hi).1⟩

/-- C51 for the rules of an EBNF text: compiling does not panic. -/
theorem c51_lexed_compiles (config : Config) (name text : Str) {rules : List SyntaxRule} (h : parseStr name text = .ok rules)
    {s : Syntax} (hs : Syntax.new rules = .ok s) : ∃ g, Graph.compile s config = .ok g ∧ ClosedGraph g :=
  c51_compiles_closed config hs (fun r hr => (c12_shape name text rules h r hr).1)

/-- The empty definition list, which the lexer never produces, makes compiling panic. -/
example : ∃ s, Syntax.new [⟨⟨[], 1, 1⟩, ['A'], .nil⟩] = .ok s ∧
    (∃ p, Graph.compile s .default = .panic p) :=
  ⟨⟨[(['A'], ['A'])], [(['A'], 0)], [⟨⟨[], 1, 1⟩, ['A'], .nil⟩]⟩, by decide +kernel, _, rfl⟩

example : ∃ rules s g, parseStr [] "A=(B|2*'b'),{A-B};B=[?x?];".toList = .ok rules ∧ Syntax.new rules = .ok s ∧
    Graph.compile s .default = .ok g ∧ 10 ≤ g.instructions.length := by
  have : (match parseStr [] "A=(B|2*'b'),{A-B};B=[?x?];".toList with
    | .ok rs => (match Syntax.new rs with
      | .ok s => (match Graph.compile s .default with | .ok g => decide (10 ≤ g.instructions.length) | _ => false)
      | _ => false)
    | _ => false) = true := by decide +kernel
  split at this
  · rename_i rs h1
    split at this
    · rename_i s h2
      split at this
      · rename_i g h3; exact ⟨rs, s, g, h1, h2, h3, by simpa using this⟩
      · simp at this
    · simp at this
  · simp at this

/-! ## C50 -/

/-- C50: a parser for `q` exists iff `q` is the name of a rule up to gaps; its name is then the name of that rule as
written in its definition.  Making a parser does not panic. -/
theorem c50_parser_new (config : Config) {rules : List SyntaxRule} {s : Syntax} {g : Graph} (hs : Syntax.new rules = .ok s)
    (hr : ∀ r ∈ rules, RuleShape r) (hg : Graph.compile s config = .ok g) (q : Str) :
    (∀ r ∈ rules, SameName r.metaIdentifier q → ∃ m, Machine.new g q = .ok (some m) ∧ m.metaIdentifier = r.metaIdentifier) ∧
      ((∀ r ∈ rules, ¬ SameName r.metaIdentifier q) → Machine.new g q = .ok none) := by
  obtain ⟨g', h1, h2⟩ := compiled config hs hr
  rw [hg] at h1; injection h1 with h1; subst h1
  constructor
  · intro r hm hn
    have hk := (keyed_eq_iff _ _).mpr hn
    obtain ⟨a, b1, _⟩ := h2.marked r hm
    have b2 := h2.name r hm
    rw [hk] at b1 b2
    refine ⟨⟨g, r.metaIdentifier, a⟩, ?_, rfl⟩
    simp only [Machine.new, Graph.indexOfLabel, keyed_dollar, b1, Graph.canonicalName, b2]
  · intro hn
    have : g.indexOfLabel ('$' :: q) = none := by
      cases hc : g.indexOfLabel ('$' :: q) with
      | none => rfl
      | some i =>
        obtain ⟨_, r, h3, h4⟩ := h2.labels _ _ hc
        rw [keyed_dollar] at h4
        rcases h4 with h4 | h4
        · exact absurd h4.symm (keyed_no_dollar (hr r h3).1 _)
        · injection h4 with _ h4
          exact absurd ((keyed_eq_iff _ _).mp h4.symm) (hn r h3)
    simp only [Machine.new, this]

example : ∃ rules s g m, parseStr [] "a b='x';c=;".toList = .ok rules ∧ Syntax.new rules = .ok s ∧
    Graph.compile s .default = .ok g ∧ Machine.new g "\tab".toList = .ok (some m) ∧ m.metaIdentifier = "a b".toList ∧
    Machine.new g "d".toList = .ok none := by
  have : (match parseStr [] "a b='x';c=;".toList with
    | .ok rs => (match Syntax.new rs with
      | .ok s => (match Graph.compile s .default with
        | .ok g => (match Machine.new g "\tab".toList, Machine.new g "d".toList with
          | .ok (some m), .ok none => decide (m.metaIdentifier = "a b".toList)
          | _, _ => false)
        | _ => false)
      | _ => false)
    | _ => false) = true := by decide +kernel
  split at this
  · rename_i rs h1
    split at this
    · rename_i s h2
      split at this
      · rename_i g h3
        split at this
        · rename_i m h4 h5; exact ⟨rs, s, g, m, h1, h2, h3, h4, by simpa using this, h5⟩
        · simp at this
      · simp at this
    · simp at this
  · simp at this

end Ebnf.Props
