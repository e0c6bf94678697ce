import Verif.Proofs.GrammarComplete

set_option autoImplicit false

/-! # From token sequences to texts -/

namespace Ebnf

open Spec

theorem append_seg {toks seg rest : List Token} (h : NoTerm seg) :
    Lexer.append toks (seg ++ rest) = Lexer.append (toks ++ seg) rest := by
  induction seg generalizing toks with
  | nil => simp
  | cons t ts ih =>
    rw [List.cons_append, append_cons_other (h t (by simp)), ih (fun u hu => h u (by simp [hu]))]
    simp

/-- The rules returned by `append` derive from the tokens consumed. -/
theorem append_sound {toks ts toks' : List Token} {rs : List SyntaxRule} (h0 : NoTerm toks)
    (hn : NamedOk (toks ++ ts)) (h : Lexer.append toks ts = (.ok rs, toks')) :
    ∃ us, toks ++ ts = us ++ toks' ∧ RulesG us rs := by
  induction ts generalizing toks rs with
  | nil =>
    simp [Lexer.append] at h
    obtain ⟨rfl, rfl⟩ := h
    exact ⟨[], by simp, .nil⟩
  | cons t ts ih =>
    by_cases ht : t.isTerminator = true
    · rw [append_cons_term ht] at h
      cases hb : buildSyntaxRule (toks ++ [t]) with
      | ok r =>
        rw [hb] at h
        simp only at h
        generalize hx : Lexer.append [] ts = x at h
        obtain ⟨r1, t1⟩ := x
        cases r1 with
        | ok r1 =>
          simp only [Prod.mk.injEq] at h
          obtain ⟨h1, rfl⟩ := h
          injection h1 with h1
          subst h1
          obtain ⟨us, h1, h2⟩ := ih (toks := []) (rs := r1) noTerm_nil (hn.sub (by simp +contextual)) hx
          obtain ⟨h3, h4⟩ := buildSyntaxRule_sound ht h0 (hn.sub (by
            intro u hu; simp at hu; rcases hu with h | h <;> simp [h])) hb
          simp only [List.nil_append] at h1
          cases r with
          | some r =>
            exact ⟨toks ++ [t] ++ us, by rw [h1]; simp, .rule (h3 r rfl) h2⟩
          | none =>
            exact ⟨toks ++ t :: us, by rw [h1]; simp, .blank (h4 rfl) ((isTerminator_iff t).mpr ht) h2⟩
        | err e => simp at h
        | panic p => simp at h
        | diverge => simp at h
      | err e => rw [hb] at h; simp at h
      | panic p => rw [hb] at h; simp at h
      | diverge => rw [hb] at h; simp at h
    · have ht : t.isTerminator = false := by simpa using ht
      rw [append_cons_other ht] at h
      obtain ⟨us, h1, h2⟩ := ih (toks := toks ++ [t]) (noTerm_append h0 (noTerm_cons ht noTerm_nil)) (hn.sub (by simp)) h
      exact ⟨us, by rw [← h1]; simp, h2⟩

/-- A derivable rule ends in its only terminator. -/
theorem ruleG_split {ts : List Token} {r : SyntaxRule} (h : RuleG ts r) :
    ∃ us t, ts = us ++ [t] ∧ NoTerm us ∧ t.isTerminator = true := by
  cases h with
  | @rule g ts g' l ts' g'' t loc name list hg hN hg' hl hg'' ht =>
    refine ⟨g ++ ts ++ g' ++ .definingSymbol l :: (ts' ++ g''), t, by simp, ?_, (isTerminator_iff t).mp ht⟩
    exact noTerm_append (noTerm_append (noTerm_append (noTerm_blanks hg) (noTerm_name hN)) (noTerm_blanks hg'))
      (noTerm_cons rfl (noTerm_append (noTerm_list hl) (noTerm_blanks hg'')))

theorem append_complete {us : List Token} {rs : List SyntaxRule} (h : RulesG us rs) (hn : NamedOk us) :
    ∃ rs', Lexer.append [] us = (.ok rs', []) ∧ rs'.map forgetEmpty = rs.map forgetEmpty := by
  induction h with
  | nil => exact ⟨[], rfl, rfl⟩
  | @rule ts r us rs hr _ ih =>
    obtain ⟨rs', h1, h2⟩ := ih hn.right
    obtain ⟨vs, t, rfl, hv, ht⟩ := ruleG_split hr
    obtain ⟨r', h3, h4⟩ := buildSyntaxRule_complete hr hn.left
    refine ⟨r' :: rs', ?_, by simp [h2, h4]⟩
    rw [List.append_assoc, append_seg hv, List.singleton_append, append_cons_term ht, List.nil_append, h3]
    simp only
    rw [h1]
    rfl
  | @blank g t us rs hg ht _ ih =>
    obtain ⟨rs', h1, h2⟩ := ih hn.right.tail
    have ht' := (isTerminator_iff t).mp ht
    refine ⟨rs', ?_, h2⟩
    rw [append_seg (noTerm_blanks hg), append_cons_term ht', List.nil_append, buildSyntaxRule_blank hg ht]
    simp only
    rw [h1]
    rfl

/-- Tokens of a text followed by the end marker have proper identifiers. -/
theorem lexes_named {loc l : Location} {text : Str} {ts : List Token} (h : Lexes loc text ts) :
    NamedOk (ts ++ [.eof l]) := by
  apply spelled_named
  intro t ht
  rcases List.mem_append.mp ht with ht | ht
  · exact .inl (lexes_spelled h t ht)
  · simp at ht; exact .inr ⟨_, ht⟩

theorem parseStr_sound {name text : Str} {rs : List SyntaxRule} (h : parseStr name text = .ok rs) :
    ∃ ts, Lexes (Location.new name) text ts ∧ RulesG (ts ++ [.eof (lineColumn (Location.new name) text)]) rs := by
  obtain ⟨ts, h1, h2⟩ := (parseStr_ok_iff name text rs).mp h
  refine ⟨ts, h1, ?_⟩
  rw [Location.pushStr_eq_lineColumn] at h2
  have hx : Lexer.append [] (ts ++ [.eof (lineColumn (Location.new name) text)]) = (.ok rs, _) := Prod.ext h2 rfl
  have hnil := append_ends_term rfl hx
  rw [hnil] at hx
  obtain ⟨us, h3, h4⟩ := append_sound noTerm_nil (by simpa using lexes_named h1) hx
  simp at h3
  rw [h3]; exact h4

theorem parseStr_complete {name text : Str} {ts : List Token} {l : Location} {rs : List SyntaxRule}
    (h : Lexes (Location.new name) text ts) (hr : RulesG (ts ++ [.eof l]) rs)
    (hl : l = lineColumn (Location.new name) text) :
    ∃ rs', parseStr name text = .ok rs' ∧ rs'.map forgetEmpty = rs.map forgetEmpty := by
  obtain ⟨rs', h1, h2⟩ := append_complete hr (lexes_named h)
  refine ⟨rs', ?_, h2⟩
  rw [parseStr_of_lexes h, Location.pushStr_eq_lineColumn, ← hl, h1]

theorem rulesG_unique {us : List Token} {rs rs' : List SyntaxRule} (hn : NamedOk us) (h : RulesG us rs)
    (h' : RulesG us rs') : rs.map forgetEmpty = rs'.map forgetEmpty := by
  obtain ⟨a, h1, h2⟩ := append_complete h hn
  obtain ⟨b, h3, h4⟩ := append_complete h' hn
  rw [h1] at h3
  injection h3 with h3
  injection h3 with h3
  subst h3
  rw [← h2, ← h4]

end Ebnf
