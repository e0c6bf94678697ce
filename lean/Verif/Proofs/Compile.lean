import Verif.Proofs.Code
import Verif.Proofs.GrammarFacts

set_option autoImplicit false

/-! # The compiled graph -/

namespace Ebnf

open Spec

/-- `g` is the code of the rules. -/
structure Compiled (config : Config) (G : Language) (rules : List SyntaxRule) (g : Graph) : Prop where
  closed : ClosedSteps config g.instructions
  rule : ∀ r ∈ rules, ∃ i, g.labels.get? (keyedMetaIdentifier r.metaIdentifier) = some i ∧
    CodeList config G g.instructions i r.definitionList
  marked : ∀ r ∈ rules, ∃ a, g.labels.get? ('$' :: keyedMetaIdentifier r.metaIdentifier) = some a ∧
    g.instructions[a]? = some ⟨none, r.metaIdentifier, r.location, .alias r.metaIdentifier⟩
  labels : ∀ q i, g.labels.get? q = some i → i < g.instructions.length ∧
    ∃ r ∈ rules, q = keyedMetaIdentifier r.metaIdentifier ∨ q = '$' :: keyedMetaIdentifier r.metaIdentifier
  name : ∀ r ∈ rules, g.canonicalNames.get? (keyedMetaIdentifier r.metaIdentifier) = some r.metaIdentifier
  names : ∀ q n, g.canonicalNames.get? q = some n → ∃ r ∈ rules, q = keyedMetaIdentifier r.metaIdentifier ∧ n = r.metaIdentifier

theorem keyed_no_dollar {n : Str} (h : NameShape n) (q : Str) : keyedMetaIdentifier n ≠ '$' :: q := by
  intro hc
  obtain ⟨ws, h1, h2, h3⟩ := h
  have hd : '$' ∈ n := by
    have : '$' ∈ keyedMetaIdentifier n := by rw [hc]; simp
    exact (List.mem_filter.mp this).1
  have hj : ∀ ws : List Str, (∀ w ∈ ws, ∃ c s, w = c :: s ∧ IsLetter c ∧ ∀ d ∈ s, IsLetter d ∨ IsDigit d) →
      ∀ c ∈ joinSpace ws, IsLetter c ∨ IsDigit c ∨ c = ' ' := by
    intro ws
    induction ws with
    | nil => simp [joinSpace]
    | cons w ws ih =>
      intro hw c hc
      have hword : ∀ c ∈ w, IsLetter c ∨ IsDigit c ∨ c = ' ' := by
        obtain ⟨x, s, rfl, hx, hs⟩ := hw w (by simp)
        intro c hc
        rcases List.mem_cons.mp hc with rfl | hc
        · exact .inl hx
        · rcases hs c hc with h | h
          · exact .inl h
          · exact .inr (.inl h)
      cases ws with
      | nil => exact hword c (by simpa [joinSpace] using hc)
      | cons w' ws =>
        simp only [joinSpace, List.mem_append, List.mem_cons] at hc
        rcases hc with hc | rfl | hc
        · exact hword c hc
        · exact .inr (.inr rfl)
        · exact ih (fun w hw' => hw w (List.mem_cons_of_mem _ hw')) c hc
  rw [h2] at hd
  have := hj ws h3 '$' hd
  revert this
  simp [IsLetter, IsDigit]

theorem keyed_dollar (n : Str) : keyedMetaIdentifier ('$' :: n) = '$' :: keyedMetaIdentifier n := by
  simp [keyedMetaIdentifier, isGapChar]

theorem compile_loop {config : Config} {G : Language} (hn : ∀ l s, (config l s).symbol = G.specialName l s) {s : Syntax} :
    ∀ (rs done : List SyntaxRule) (g : Graph), Compiled config G done g →
      (∀ r ∈ done ++ rs, NameShape r.metaIdentifier) → (∀ r ∈ rs, r.definitionList ≠ .nil ∧ ListShape r.definitionList) →
      (∀ r ∈ rs, s.canonicalName r.metaIdentifier = some r.metaIdentifier) →
      (done ++ rs).Pairwise (fun a b => keyedMetaIdentifier a.metaIdentifier ≠ keyedMetaIdentifier b.metaIdentifier) →
      ∃ g', Graph.compileLoop s config rs g = .ok g' ∧ Compiled config G (done ++ rs) g' := by
  intro rs
  induction rs with
  | nil => intro done g hg _ _ _ _; exact ⟨g, rfl, by simpa using hg⟩
  | cons r rs ih =>
    intro done g hg hshape hlist hname hdist
    obtain ⟨i, s1, h1, h2, h3⟩ := register_list hn r.definitionList g.instructions (hlist r (by simp)).1 (hlist r (by simp)).2 hg.closed
    have hne : ∀ r' ∈ done, keyedMetaIdentifier r'.metaIdentifier ≠ keyedMetaIdentifier r.metaIdentifier :=
      fun r' hr' => (List.pairwise_append.mp hdist).2.2 r' hr' r (by simp)
    have hd1 : ∀ r' ∈ r :: done, ∀ q, keyedMetaIdentifier r'.metaIdentifier ≠ '$' :: q := by
      intro r' hr' q
      apply keyed_no_dollar
      apply hshape
      rcases List.mem_cons.mp hr' with rfl | hr'
      · simp
      · exact List.mem_append_left _ hr'
    have he := emit_one (x := ⟨none, r.metaIdentifier, r.location, .alias r.metaIdentifier⟩) h2.closed
      ⟨by simp, trivial⟩
    have hgrow := h2.grows.trans he.grows
    obtain ⟨g', h4, h5⟩ := ih (done ++ [r])
      { instructions := s1 ++ [⟨none, r.metaIdentifier, r.location, .alias r.metaIdentifier⟩]
        labels := (g.labels.insert (keyedMetaIdentifier r.metaIdentifier) i).insert
          ('$' :: keyedMetaIdentifier r.metaIdentifier) s1.length
        canonicalNames := g.canonicalNames.insert (keyedMetaIdentifier r.metaIdentifier) r.metaIdentifier }
      { closed := he.closed
        rule := by
          intro r' hr'
          rcases List.mem_append.mp hr' with hr' | hr'
          · obtain ⟨j, a1, a2⟩ := hg.rule r' hr'
            refine ⟨j, ?_, codeList_mono hgrow _ a2⟩
            rw [get?_insert, if_neg (Ne.symm (hd1 r' (List.mem_cons_of_mem _ hr') _)), get?_insert,
              if_neg (Ne.symm (hne r' hr')), a1]
          · simp only [List.mem_singleton] at hr'; subst hr'
            refine ⟨i, ?_, codeList_mono he.grows _ h3⟩
            rw [get?_insert, if_neg (Ne.symm (hd1 r' (by simp) _)), get?_insert, if_pos rfl]
        marked := by
          intro r' hr'
          rcases List.mem_append.mp hr' with hr' | hr'
          · obtain ⟨j, a1, a2⟩ := hg.marked r' hr'
            refine ⟨j, ?_, getElem?_prefix hgrow a2⟩
            rw [get?_insert, if_neg (fun hc => hne r' hr' (List.cons.inj hc).2.symm), get?_insert,
              if_neg (hd1 r (by simp) _), a1]
          · simp only [List.mem_singleton] at hr'; subst hr'
            exact ⟨s1.length, by rw [get?_insert, if_pos rfl], get_snoc _ _⟩
        labels := by
          intro q j hq
          rw [get?_insert] at hq
          split at hq
          · rename_i hc
            injection hq with hq
            exact ⟨by simp [← hq], r, by simp, .inr hc.symm⟩
          · rw [get?_insert] at hq
            split at hq
            · rename_i hc
              injection hq with hq
              exact ⟨by subst hq; exact Nat.lt_of_lt_of_le h2.lt (by simp), r, by simp, .inl hc.symm⟩
            · obtain ⟨a1, r', a2, a3⟩ := hg.labels q j hq
              exact ⟨Nat.lt_of_lt_of_le a1 hgrow.length_le, r', List.mem_append_left _ a2, a3⟩
        name := by
          intro r' hr'
          rw [get?_insert]
          rcases List.mem_append.mp hr' with hr' | hr'
          · rw [if_neg (Ne.symm (hne r' hr')), hg.name r' hr']
          · simp only [List.mem_singleton] at hr'; subst hr'; rw [if_pos rfl]
        names := by
          intro q n hq
          rw [get?_insert] at hq
          split at hq
          · rename_i hc
            injection hq with hq
            exact ⟨r, by simp, hc.symm, hq.symm⟩
          · obtain ⟨r', a1, a2⟩ := hg.names q n hq
            exact ⟨r', List.mem_append_left _ a1, a2⟩ }
      (by simpa using hshape) (fun r' hr' => hlist r' (List.mem_cons_of_mem _ hr'))
      (fun r' hr' => hname r' (List.mem_cons_of_mem _ hr')) (by simpa using hdist)
    refine ⟨g', ?_, by simpa using h5⟩
    simp only [Graph.compileLoop, hname r (by simp), h1, Res.bind_ok]
    exact h4

/-- Compiling a syntax of well-shaped rules. -/
theorem compile_ok {config : Config} {G : Language} (hn : ∀ l s, (config l s).symbol = G.specialName l s)
    {rules : List SyntaxRule} {s : Syntax} (hs : Syntax.new rules = .ok s) (hr : ∀ r ∈ rules, RuleShape r) :
    ∃ g, Graph.compile s config = .ok g ∧ Compiled config G rules g := by
  obtain ⟨h1, _, _, h4, _⟩ := new_ok hs
  have h0 : Compiled config G [] ⟨[], [], []⟩ :=
    ⟨by simp [ClosedSteps], by simp, by simp, by simp [Map.get?], by simp, by simp [Map.get?]⟩
  obtain ⟨g, h5, h6⟩ := compile_loop hn (s := s) rules [] _ h0 (fun r h => (hr r (by simpa using h)).1)
    (fun r h => (hr r h).2) (fun r h => by
      rcases getSyntaxRule_cases hs r.metaIdentifier with ⟨r', a1, a2, a3, a4, a5⟩ | ⟨a1, _⟩
      · rw [a5 r h (.refl _)]
        rw [a5 r h (.refl _)] at a4
        exact a4
      · exact absurd ⟨r, h, .refl _⟩ a1) (by
      rw [List.nil_append, List.pairwise_iff_getElem]
      intro i j hi hj hlt hc
      exact h4 i j ⟨hlt, rules[i], rules[j], by simp, by simp, (keyed_eq_iff _ _).mp hc⟩)
  refine ⟨g, ?_, by simpa using h6⟩
  rw [Graph.compile, h1]
  exact h5

end Ebnf
