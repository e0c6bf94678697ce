import Verif.Proofs.Syntax

set_option autoImplicit false

/-! # C20–C23: `Syntax::new` and lookup of rules -/

namespace Ebnf.Props

open Ebnf Ebnf.Spec

/-! ## C20 Duplicate rules -/

/-- C20: the first rule (smallest index `j`) that repeats the name of an earlier rule `i` is reported, with
its own location and name and with the position of that earlier rule. -/
theorem c20_first_duplicate (rs : List SyntaxRule) (hn : NormalNames rs) (i j : Nat) (ri rj : SyntaxRule)
    (hi : rs[i]? = some ri) (hj : rs[j]? = some rj) (hr : Repeats rs i j)
    (hfirst : ∀ i' j', j' < j → ¬ Repeats rs i' j') :
    Syntax.new rs = .err ⟨rj.location, .duplicate rj.metaIdentifier ri.location.lines ri.location.columns⟩ := by
  rcases new_cases rs hn with ⟨s, _, _, _, h, _⟩ | ⟨_, _, _, _, _, h, _⟩ | ⟨a, b, ra, rb, h1, h2, h3, h4, h5⟩
  · exact absurd hr (h i j)
  · exact absurd hr (h i j)
  · rcases Nat.lt_trichotomy b j with hlt | rfl | hlt
    · exact absurd h1 (hfirst a b hlt)
    · have hab : a = i := by
        rcases Nat.lt_trichotomy a i with hlt | hab | hlt
        · refine absurd ⟨hlt, ra, ri, h2, hi, ?_⟩ (h4 a i hr.1)
          obtain ⟨_, x, y, hx, hy, hxy⟩ := h1
          obtain ⟨_, x', y', hx', hy', hxy'⟩ := hr
          simp_all
          exact (keyed_eq_iff _ _).mp (((keyed_eq_iff _ _).mpr hxy).trans ((keyed_eq_iff _ _).mpr hxy').symm)
        · exact hab
        · refine absurd ⟨hlt, ri, ra, hi, h2, ?_⟩ (h4 i a h1.1)
          obtain ⟨_, x, y, hx, hy, hxy⟩ := h1
          obtain ⟨_, x', y', hx', hy', hxy'⟩ := hr
          simp_all
          exact (keyed_eq_iff _ _).mp (((keyed_eq_iff _ _).mpr hxy').trans ((keyed_eq_iff _ _).mpr hxy).symm)
      subst hab
      rw [h2] at hi; rw [h3] at hj
      injection hi with hi; injection hj with hj
      subst hi hj
      exact h5
    · exact absurd hr (h4 i j hlt)

/-- C20: `Syntax::new` fails with a duplicate error iff two rules have the same name. -/
theorem c20_duplicate_iff (rs : List SyntaxRule) (hn : NormalNames rs) :
    (∃ l n ln cn, Syntax.new rs = .err ⟨l, .duplicate n ln cn⟩) ↔ ∃ i j, Repeats rs i j := by
  rcases new_cases rs hn with ⟨s, h0, _, _, h, _⟩ | ⟨_, _, _, _, _, h, _, _, h0⟩ | ⟨a, b, ra, rb, h1, h2, h3, h4, h0⟩
  · rw [h0]
    simp only [reduceCtorEq, exists_false, false_iff, not_exists]
    exact h
  · rw [h0]
    simp only [Res.err.injEq, Error.mk.injEq, reduceCtorEq, and_false, exists_false, false_iff, not_exists]
    exact h
  · exact ⟨fun _ => ⟨a, b, h1⟩, fun _ => ⟨_, _, _, _, h0⟩⟩

/-- A small rule `name = ;` at a line, used in examples. -/
private def emptyRule (line : Nat) (n : String) : SyntaxRule :=
  ⟨⟨[], line, 1⟩, n.toList, .cons (.cons (.plain (.mk 1 (.empty ⟨[], line, 1⟩))) .nil) .nil⟩

example : NormalNames [emptyRule 1 "a b", emptyRule 2 "c", emptyRule 3 "ab"] ∧
    Repeats [emptyRule 1 "a b", emptyRule 2 "c", emptyRule 3 "ab"] 0 2 ∧
    Syntax.new [emptyRule 1 "a b", emptyRule 2 "c", emptyRule 3 "ab"] =
      .err ⟨⟨[], 3, 1⟩, .duplicate "ab".toList 1 1⟩ := by
  refine ⟨?_, ⟨by decide, _, _, rfl, rfl, .delete ['a'] ['b'] ' ' (by decide) (.refl _)⟩, by decide +kernel⟩
  intro r hr
  rw [normal_iff]
  simp [emptyRule] at hr
  rcases hr with rfl | rfl | rfl <;> decide

/-! ## C21 References are defined -/

/-- The rule `A=[B];`. -/
private def optionalB : SyntaxRule :=
  ⟨⟨[], 1, 1⟩, ['A'], .cons (.cons (.plain (.mk 1 (.optional ⟨[], 1, 3⟩ (.cons (.cons (.plain
    (.mk 1 (.metaIdentifier ⟨[], 1, 4⟩ ['B']))) .nil) .nil)))) .nil) .nil⟩

/-- C21 fails: a reference inside brackets is not checked. -/
theorem c21_undefined_accepted :
    ∃ rs s, Syntax.new rs = .ok s ∧ ¬ AllDefined rs ∧ parseStr [] "A=[B];".toList = .ok rs := by
  refine ⟨[optionalB], ⟨[(['A'], ['A'])], [(['A'], 0)], [optionalB]⟩, by decide +kernel, ?_, by decide +kernel⟩
  intro h
  obtain ⟨r, hr, hs⟩ := h _ (List.mem_singleton.mpr rfl) ⟨[], 1, 4⟩ ['B']
    (by simp [optionalB, primariesOfList, primariesOfSingle, primariesOfTerm, primariesOfFactor, primariesIn])
  simp at hr
  subst hr
  rw [SameName, ← keyed_eq_iff] at hs
  revert hs; decide

/-- C21 (partial): references outside brackets, including those in exceptions, are defined.  What is
missing is references inside brackets: `c21_undefined_accepted`. -/
theorem c21_top_level_defined_partial (rs : List SyntaxRule) (s : Syntax) (h : Syntax.new rs = .ok s) :
    TopDefined rs := (new_ok h).2.2.2.2

/-- C21 (partial): for grammars without brackets every reference is defined. -/
theorem c21_all_defined_partial (rs : List SyntaxRule) (s : Syntax) (h : Syntax.new rs = .ok s)
    (hb : ∀ r ∈ rs, ∀ p ∈ topOfList r.definitionList, ¬ IsBracket p) : AllDefined rs := by
  intro r hr l n hm
  rw [top_eq_list _ (hb r hr)] at hm
  exact (new_ok h).2.2.2.2 r hr l n hm

/-- C21: a not-defined error is reported only for the first reference (outside brackets) without a rule. -/
theorem c21_error_is_justified_partial (rs : List SyntaxRule) (hn : NormalNames rs) (l : Location) (n : Str)
    (h : Syntax.new rs = .err ⟨l, .notDefined n⟩) :
    ¬ Defines rs n ∧ ∃ pre post, rs.flatMap (fun r => topOfList r.definitionList) =
      pre ++ .metaIdentifier l n :: post ∧ ∀ l' n', .metaIdentifier l' n' ∈ pre → Defines rs n' := by
  rcases new_cases rs hn with ⟨s, h0, _⟩ | ⟨pre, l', n', post, h1, _, h2, h3, h0⟩ | ⟨_, _, _, _, _, _, _, _, h0⟩
  · rw [h0] at h; simp at h
  · rw [h0] at h; simp at h
    obtain ⟨rfl, rfl⟩ := h
    exact ⟨h2, pre, post, h1, h3⟩
  · rw [h0] at h; simp at h

/-- C20, C21: exactly which rule lists are accepted. -/
theorem c21_accepts_iff_partial (rs : List SyntaxRule) :
    (∃ s, Syntax.new rs = .ok s) ↔ NormalNames rs ∧ DistinctNames rs ∧ TopDefined rs := by
  constructor
  · rintro ⟨s, h⟩; exact (new_ok h).2.2
  · rintro ⟨h1, h2, h3⟩
    rcases new_cases rs h1 with ⟨s, h0, _⟩ | ⟨pre, l, n, post, h4, _, h5, _, _⟩ | ⟨a, b, _, _, h4, _⟩
    · exact ⟨s, h0⟩
    · have : Primary.metaIdentifier l n ∈ rs.flatMap (fun r => topOfList r.definitionList) := by simp [h4]
      obtain ⟨r, hr, hm⟩ := List.mem_flatMap.mp this
      exact absurd (h3 r hr l n hm) h5
    · exact absurd h4 (h2 a b)

example : ∃ rs s, parseStr [] "A=B-C,[A];B='b';C=B;".toList = .ok rs ∧ Syntax.new rs = .ok s ∧
    Syntax.ofStr [] "A=B-C;B='b';".toList = .err ⟨⟨[], 1, 5⟩, .notDefined ['C']⟩ := by
  have h : ∃ rs, parseStr [] "A=B-C,[A];B='b';C=B;".toList = .ok rs ∧ ∃ s, Syntax.new rs = .ok s := by
    have : (match parseStr [] "A=B-C,[A];B='b';C=B;".toList with
      | .ok rs => (match Syntax.new rs with | .ok _ => true | _ => false)
      | _ => false) = true := by decide +kernel
    split at this
    · rename_i rs hrs
      split at this
      · rename_i s hs; exact ⟨rs, hrs, s, hs⟩
      · simp at this
    · simp at this
  obtain ⟨rs, h1, s, h2⟩ := h
  exact ⟨rs, s, h1, h2, by decide +kernel⟩

/-! ## C22 Lookup -/

/-- C22: `get_syntax_rule(q)` returns `r` iff `r` is the rule whose name is `q` up to gaps. -/
theorem c22_lookup_some (rs : List SyntaxRule) (s : Syntax) (h : Syntax.new rs = .ok s) (q : Str) (r : SyntaxRule) :
    s.getSyntaxRule q = .ok (some r) ↔ r ∈ rs ∧ SameName r.metaIdentifier q := by
  rcases getSyntaxRule_cases h q with ⟨r', h1, h2, h3, _, h5⟩ | ⟨h1, h2, _⟩
  · rw [h3]
    constructor
    · intro he; simp at he; subst he; exact ⟨h1, h2⟩
    · rintro ⟨h6, h7⟩; rw [h5 r h6 h7]
  · rw [h2]
    constructor
    · intro he; simp at he
    · rintro ⟨h6, h7⟩; exact absurd ⟨r, h6, h7⟩ h1

/-- C22: `get_syntax_rule(q)` returns nothing iff no rule has that name up to gaps; it never panics. -/
theorem c22_lookup_none (rs : List SyntaxRule) (s : Syntax) (h : Syntax.new rs = .ok s) (q : Str) :
    (s.getSyntaxRule q = .ok none ↔ ¬ Defines rs q) ∧ ∃ o, s.getSyntaxRule q = .ok o := by
  rcases getSyntaxRule_cases h q with ⟨r', h1, h2, h3, _, h5⟩ | ⟨h1, h2, _⟩
  · rw [h3]
    refine ⟨⟨fun he => by simp at he, fun hn => absurd ⟨r', h1, h2⟩ hn⟩, _, rfl⟩
  · exact ⟨⟨fun _ => h1, fun _ => h2⟩, _, h2⟩

/-- C22: `canonical_name(q)` is the name of the rule found by `q`, and nothing if none is found. -/
theorem c22_canonical_name (rs : List SyntaxRule) (s : Syntax) (h : Syntax.new rs = .ok s) (q n : Str) :
    s.canonicalName q = some n ↔ ∃ r ∈ rs, SameName r.metaIdentifier q ∧ n = r.metaIdentifier := by
  rcases getSyntaxRule_cases h q with ⟨r', h1, h2, _, h3, h5⟩ | ⟨h1, _, h2⟩
  · rw [h3]
    constructor
    · intro he; simp at he; exact ⟨r', h1, h2, he.symm⟩
    · rintro ⟨r, h6, h7, rfl⟩; rw [h5 r h6 h7]
  · rw [h2]
    constructor
    · intro he; simp at he
    · rintro ⟨r, h6, h7, _⟩; exact absurd ⟨r, h6, h7⟩ h1

/-- C22: `rules()` and `rule(i)` list the rules in the order given. -/
theorem c22_rules_in_order (rs : List SyntaxRule) (s : Syntax) (h : Syntax.new rs = .ok s) :
    s.syntaxRules = rs ∧ ∀ i, s.rule i = rs[i]? := by
  obtain ⟨h1, _⟩ := new_ok h
  exact ⟨h1, fun i => by rw [Syntax.rule, h1]⟩

example : ∃ s, Syntax.new [emptyRule 1 "a b", emptyRule 2 "c"] = .ok s ∧
    s.getSyntaxRule "\tab ".toList = .ok (some (emptyRule 1 "a b")) ∧ s.getSyntaxRule "C".toList = .ok none ∧
    s.canonicalName "a\nb".toList = some "a b".toList ∧ s.rule 1 = some (emptyRule 2 "c") :=
  ⟨⟨[("c".toList, "c".toList), ("ab".toList, "a b".toList)], [("c".toList, 1), ("ab".toList, 0)],
    [emptyRule 1 "a b", emptyRule 2 "c"]⟩, by decide +kernel, by decide +kernel, by decide +kernel, by decide +kernel,
    by decide +kernel⟩

/-! ## C23 No panic on lexer output -/

/-- C23: rules returned by `parse_str` never make `Syntax::new` panic. -/
theorem c23_no_panic (name text : Str) (rs : List SyntaxRule) (h : parseStr name text = .ok rs) :
    (∃ s, Syntax.new rs = .ok s) ∨ ∃ e, Syntax.new rs = .err e := by
  have hn : NormalNames rs := by
    intro r hr
    obtain ⟨ts, h1, h2⟩ := parseStr_sound h
    obtain ⟨us, h3, h4⟩ := rulesG_forall h2 r hr
    have hs := shape_rule h4 (by
      intro t ht
      rcases List.mem_append.mp (h3 t ht) with h | h
      · exact .inl (lexes_spelled h1 t h)
      · simp at h; exact .inr ⟨_, h⟩)
    exact (normal_iff _).mpr (nameShape_normal hs.1)
  rcases new_cases rs hn with ⟨s, h0, _⟩ | ⟨_, _, _, _, _, _, _, _, h0⟩ | ⟨_, _, _, _, _, _, _, _, h0⟩
  · exact .inl ⟨s, h0⟩
  · exact .inr ⟨_, h0⟩
  · exact .inr ⟨_, h0⟩

/-- The assertion is reachable with rules not made by the lexer. -/
example : Syntax.new [emptyRule 1 "a  b"] = .panic .notNormalized := by decide +kernel

example : ∃ rs, parseStr [] "a b = ; a\tb = ;".toList = .ok rs ∧
    Syntax.new rs = .err ⟨⟨[], 1, 9⟩, .duplicate "a b".toList 1 1⟩ :=
  ⟨[⟨⟨[], 1, 1⟩, "a b".toList, .cons (.cons (.plain (.mk 1 (.empty ⟨[], 1, 7⟩))) .nil) .nil⟩,
    ⟨⟨[], 1, 9⟩, "a b".toList, .cons (.cons (.plain (.mk 1 (.empty ⟨[], 1, 15⟩))) .nil) .nil⟩],
    by decide +kernel, by decide +kernel⟩

end Ebnf.Props
