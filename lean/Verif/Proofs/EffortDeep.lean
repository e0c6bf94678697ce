import Verif.Proofs.EffortRules
import Verif.Spec.Nested

set_option autoImplicit false

/-! # Proofs: brackets inside each other are looked at again and again -/

namespace Ebnf.Effort

open Work Spec

variable {α β : Type}

/-- What has brackets nested `d` deep takes `d * d` steps and `2 * d` tokens. -/
def Deep (depth : α → Nat) (t : Nat) (x : Work (α × List Token)) : Prop :=
  ∀ a next, x.1 = .ok (a, next) → depth a * depth a ≤ x.2 ∧ 2 * depth a + next.length ≤ t

theorem bind_ge (x : Work α) (f : α → Work β) : x.2 ≤ (x >>= f).2 := by
  obtain ⟨r, n⟩ := x
  cases r
  · exact Nat.le_add_right _ _
  · exact Nat.le_refl _
  · exact Nat.le_refl _
  · exact Nat.le_refl _

theorem bind_eq_ok {x : Work α} {f : α → Work β} {b : β} (h : (x >>= f).1 = .ok b) :
    ∃ a, x.1 = .ok a ∧ (f a).1 = .ok b ∧ (x >>= f).2 = x.2 + (f a).2 := by
  obtain ⟨r, n⟩ := x
  cases r with
  | ok a => exact ⟨a, rfl, h, rfl⟩
  | err e => cases h
  | panic e => cases h
  | diverge => cases h

theorem deep_flat {depth : α → Nat} {t : Nat} {x : Work (α × List Token)} (h : ∀ a next, x.1 = .ok (a, next) → depth a = 0 ∧ next.length ≤ t) :
    Deep depth t x := by
  intro a next ha
  obtain ⟨h1, h2⟩ := h a next ha
  rw [h1]
  exact ⟨by omega, by omega⟩

theorem square_max (a b m n : Nat) (h1 : a * a ≤ m) (h2 : b * b ≤ n) : max a b * max a b ≤ m + n := by
  by_cases h : a ≤ b
  · rw [Nat.max_eq_right h]; omega
  · rw [Nat.max_eq_left (by omega)]; omega

section readers

variable {recur : List Token → Work DefinitionList} {last : Location}

theorem readEnclosed_deep (hr : ∀ inner list, (recur inner).1 = .ok list → depthOf list * depthOf list ≤ (recur inner).2 ∧ 2 * depthOf list ≤ inner.length)
    (t : Token) (ts : List Token) (o c : Token → Bool) :
    Deep (fun l => depthOf l + 1) (ts.length + 1) (readEnclosed recur t ts o c) := by
  intro list next h
  unfold readEnclosed at h ⊢
  obtain ⟨_, _, h3⟩ := findClose_eq o c ts 0
  generalize findClose o c 0 ts = x at h h3
  obtain ⟨r, k⟩ := x
  cases r with
  | none => cases h
  | some p =>
    obtain ⟨inner, rest⟩ := p
    obtain ⟨h4, h5⟩ := h3 inner rest rfl
    simp only at h4 h5 h ⊢
    subst h4
    rw [steps_bind] at h ⊢
    obtain ⟨l, h6, h7, h8⟩ := bind_eq_ok h
    cases h7
    obtain ⟨h9, h10⟩ := hr inner list h6
    simp only
    rw [h8]
    have e : (depthOf list + 1) * (depthOf list + 1) = depthOf list * depthOf list + 2 * depthOf list + 1 := by
      rw [Nat.add_mul, Nat.mul_add, Nat.one_mul, Nat.mul_one]; omega
    rw [e]
    refine ⟨?_, by omega⟩
    show _ ≤ inner.length + 1 + ((recur inner).2 + 0)
    omega

theorem bracket_deep {t : Token} {rest : List Token} {o c : Token → Bool} {mk : DefinitionList → Primary} {n : Nat}
    (hm : ∀ l, depthOfPrimary (mk l) = depthOf l + 1)
    (h : Deep (fun l => depthOf l + 1) (rest.length + 1) (readEnclosed recur t rest o c)) :
    Deep depthOfPrimary (t :: rest).length (steps n >>= fun _ => readEnclosed recur t rest o c >>= fun x => pure (mk x.1, x.2)) := by
  intro a next ha
  rw [steps_bind] at ha ⊢
  obtain ⟨⟨l, m⟩, h1, h2, h3⟩ := bind_eq_ok ha
  cases h2
  obtain ⟨h4, h5⟩ := h l m h1
  simp only at h4 h5 ⊢
  rw [h3, hm]
  exact ⟨by omega, h5⟩

theorem readPrimaryAt_deep (hr : ∀ inner list, (recur inner).1 = .ok list → depthOf list * depthOf list ≤ (recur inner).2 ∧ 2 * depthOf list ≤ inner.length)
    (ts : List Token) : Deep depthOfPrimary ts.length (readPrimaryAt recur last ts) := by
  cases ts with
  | nil => exact deep_flat fun a next h => by cases h; exact ⟨rfl, Nat.le_refl _⟩
  | cons t rest =>
    have he := fun t o c => readEnclosed_deep hr t rest o c
    cases t
    case startOptionSymbol loc sym =>
      unfold readPrimaryAt
      dsimp only
      split
      · exact fun a next h => by cases h
      · exact bracket_deep (fun _ => by rw [depthOfPrimary]) (he _ _ _)
    case startRepeatSymbol loc sym =>
      unfold readPrimaryAt
      dsimp only
      split
      · exact fun a next h => by cases h
      · exact bracket_deep (fun _ => by rw [depthOfPrimary]) (he _ _ _)
    case startGroupSymbol loc =>
      unfold readPrimaryAt
      dsimp only
      exact bracket_deep (fun _ => by rw [depthOfPrimary]) (he _ _ _)
    case metaIdentifier loc s =>
      unfold readPrimaryAt
      dsimp only
      rw [steps_bind, of_bind]
      refine deep_flat fun a next h => ?_
      cases h
      exact ⟨by rw [depthOfPrimary], (readMetaIdentifier_eq (.metaIdentifier loc s :: rest)).2.1⟩
    all_goals exact deep_flat fun a next h => by cases h; exact ⟨by rw [depthOfPrimary], by simp only [List.length_cons]; omega⟩

theorem readPrimary_deep (hr : ∀ inner list, (recur inner).1 = .ok list → depthOf list * depthOf list ≤ (recur inner).2 ∧ 2 * depthOf list ≤ inner.length)
    (ts : List Token) : Deep depthOfPrimary ts.length (readPrimary recur last ts) := by
  unfold readPrimary
  rw [of_bind]
  intro a next h
  obtain ⟨h1, h2⟩ := readPrimaryAt_deep (last := last) hr (skipGaps ts).1 a next h
  have := (skipGaps_eq ts).2.1
  simp only
  exact ⟨by omega, by omega⟩

theorem readFactor_deep (hr : ∀ inner list, (recur inner).1 = .ok list → depthOf list * depthOf list ≤ (recur inner).2 ∧ 2 * depthOf list ≤ inner.length)
    (ts : List Token) : Deep depthOfFactor ts.length (readFactor recur last ts) := by
  unfold readFactor
  rw [of_bind]
  intro a next h
  obtain ⟨⟨n, us⟩, h1, h2, h3⟩ := bind_eq_ok h
  obtain ⟨⟨p, vs⟩, h4, h5, h6⟩ := bind_eq_ok h2
  cases h5
  obtain ⟨h7, h8⟩ := readPrimary_deep (last := last) hr us p next h4
  have hl := (skipGaps_eq ts).2.1
  have hc : us.length ≤ (skipGaps ts).1.length := by
    rw [readRepetition_eq, (skipGaps_eq ts).1] at h1
    rw [(skipGaps_eq ts).1]
    generalize Ebnf.skipGaps ts = ws at h1
    have hs : ∀ xs, (Ebnf.skipGaps xs).length ≤ xs.length := fun xs => by rw [← (skipGaps_eq xs).1]; exact (skipGaps_eq xs).2.1
    cases ws with
    | nil => cases h1; exact Nat.le_refl _
    | cons t rest =>
      cases t
      case integer l d =>
        unfold countAt at h1
        dsimp only at h1
        split at h1
        · cases h1
        · have hs1 := hs rest
          split at h1
          · cases h1
          · next t rest' he =>
            rw [he] at hs1
            simp only [List.length_cons] at hs1 ⊢
            have hs2 := hs rest'
            split at h1
            · cases h1; omega
            · cases h1
      all_goals cases h1; exact Nat.le_refl _
  simp only
  rw [h3, h6, depthOfFactor]
  exact ⟨by omega, by omega⟩

theorem readTerm_deep (hr : ∀ inner list, (recur inner).1 = .ok list → depthOf list * depthOf list ≤ (recur inner).2 ∧ 2 * depthOf list ≤ inner.length)
    (ts : List Token) : Deep depthOfTerm ts.length (readTerm recur last ts) := by
  unfold readTerm
  intro a next h
  obtain ⟨⟨f, us⟩, h1, h2, h3⟩ := bind_eq_ok h
  obtain ⟨h4, h5⟩ := readFactor_deep (last := last) hr ts f us h1
  rw [h3]
  dsimp only at h2 ⊢
  rw [of_bind] at h2 ⊢
  have hl := (skipGaps_eq us).2.1
  generalize skipGaps us = y at h2 hl
  obtain ⟨vs, k⟩ := y
  simp only at h2 hl ⊢
  rw [steps_bind] at h2 ⊢
  cases vs with
  | nil =>
    cases h2
    rw [depthOfTerm]
    exact ⟨by simp only; omega, by simp only [List.length_nil]; omega⟩
  | cons t rest =>
    simp only [List.length_cons] at hl
    dsimp only at h2 ⊢
    by_cases ht : t.isExceptSymbol = true
    · rw [if_pos ht] at h2 ⊢
      obtain ⟨⟨x, ws⟩, h6, h7, h8⟩ := bind_eq_ok h2
      cases h7
      obtain ⟨h9, h10⟩ := readFactor_deep (last := last) hr rest x ws h6
      rw [h8, depthOfTerm]
      have := square_max _ _ _ _ h4 h9
      dsimp only
      refine ⟨by omega, ?_⟩
      omega
    · rw [if_neg ht] at h2 ⊢
      cases h2
      rw [depthOfTerm]
      exact ⟨by omega, by simp only [List.length_cons]; omega⟩

theorem readSingle_deep (hr : ∀ inner list, (recur inner).1 = .ok list → depthOf list * depthOf list ≤ (recur inner).2 ∧ 2 * depthOf list ≤ inner.length)
    (fuel : Nat) : ∀ ts : List Token, Deep depthOfSingle ts.length (readSingle recur last fuel ts) := by
  induction fuel with
  | zero => intro ts a next h; cases h
  | succ fuel ih =>
    intro ts a next h
    rw [readSingle_succ] at h ⊢
    obtain ⟨⟨term, us⟩, h1, h2, h3⟩ := bind_eq_ok h
    obtain ⟨h4, h5⟩ := readTerm_deep (last := last) hr ts term us h1
    rw [h3]
    dsimp only at h2 ⊢
    rw [of_bind] at h2 ⊢
    have hl := (skipGaps_eq us).2.1
    generalize skipGaps us = y at h2 hl
    obtain ⟨vs, k⟩ := y
    simp only at h2 hl ⊢
    rw [steps_bind] at h2 ⊢
    simp only at h2 ⊢
    have hone : ∀ {rest : List Token}, rest.length ≤ us.length → depthOfSingle (.cons term .nil) * depthOfSingle (.cons term .nil) ≤
        (readTerm recur last ts).2 ∧ 2 * depthOfSingle (.cons term .nil) + rest.length ≤ ts.length := by
      intro rest hrest
      rw [depthOfSingle, depthOfSingle, Nat.max_eq_left (Nat.zero_le _)]
      exact ⟨h4, by omega⟩
    have hgo : ∀ c {rest : List Token}, rest.length ≤ us.length → depthOfSingle (.cons term .nil) * depthOfSingle (.cons term .nil) ≤
        (readTerm recur last ts).2 + (k + (1 + c)) ∧ 2 * depthOfSingle (.cons term .nil) + rest.length ≤ ts.length := by
      intro c rest hrest
      obtain ⟨h6, h7⟩ := hone hrest
      exact ⟨by omega, h7⟩
    cases vs with
    | nil => cases h2; exact hgo _ hl
    | cons t rest =>
      have hterm : ∀ t : Token, (t :: rest).length ≤ us.length → (if t.isTerminator then pure (SingleDefinition.cons term .nil, t :: rest)
          else free (.fail t.location (.separatorExpected t.name)) : Work (SingleDefinition × List Token)).1 = .ok (a, next) →
          a = .cons term .nil ∧ next.length ≤ us.length := by
        intro t ht h
        split at h
        · cases h; exact ⟨rfl, ht⟩
        · cases h
      cases t
      case concatenateSymbol l =>
        simp only [List.length_cons] at hl
        obtain ⟨⟨x, ws⟩, h6, h7, h8⟩ := bind_eq_ok (x := readSingle recur last fuel rest) h2
        cases h7
        obtain ⟨h9, h10⟩ := ih rest x next h6
        have e : (afterTerm (readSingle recur last fuel) term (Token.concatenateSymbol l :: rest)).2 = (readSingle recur last fuel rest).2 + 0 := h8
        rw [e, depthOfSingle]
        have := square_max _ _ _ _ h4 h9
        exact ⟨by omega, by omega⟩
      case definitionSeparatorSymbol l c => cases h2; exact hgo _ hl
      all_goals
        obtain ⟨e1, e2⟩ := hterm _ hl h2
        rw [e1]
        exact hgo _ e2

theorem readDefinitions_deep (hr : ∀ inner list, (recur inner).1 = .ok list → depthOf list * depthOf list ≤ (recur inner).2 ∧ 2 * depthOf list ≤ inner.length)
    (fuel : Nat) : ∀ (ts : List Token) (list : DefinitionList), (readDefinitions recur last fuel ts).1 = .ok list →
      depthOf list * depthOf list ≤ (readDefinitions recur last fuel ts).2 ∧ 2 * depthOf list ≤ ts.length := by
  induction fuel with
  | zero => intro ts a h; cases h
  | succ fuel ih =>
    intro ts a h
    rw [readDefinitions_succ] at h ⊢
    obtain ⟨⟨single, us⟩, h1, h2, h3⟩ := bind_eq_ok h
    obtain ⟨h4, h5⟩ := readSingle_deep (last := last) hr _ ts single us h1
    rw [h3]
    dsimp only at h2 ⊢
    rw [of_bind] at h2 ⊢
    have hl := (skipGaps_eq us).2.1
    generalize skipGaps us = y at h2 hl
    obtain ⟨vs, k⟩ := y
    simp only at h2 hl ⊢
    rw [steps_bind] at h2 ⊢
    simp only at h2 ⊢
    have hone : ∀ c, depthOf (.cons single .nil) * depthOf (.cons single .nil) ≤
        (readSingle recur last (ts.length + 1) ts).2 + (k + (1 + c)) ∧ 2 * depthOf (.cons single .nil) ≤ ts.length := by
      intro c
      rw [depthOf, depthOf, Nat.max_eq_left (Nat.zero_le _)]
      exact ⟨by omega, by omega⟩
    cases vs with
    | nil => cases h2; exact hone _
    | cons t rest =>
      unfold afterSingle at h2 ⊢
      dsimp only at h2 ⊢
      by_cases ht : t.isTerminator = true
      · rw [if_pos ht] at h2 ⊢
        cases h2
        exact hone _
      · rw [if_neg ht] at h2 ⊢
        obtain ⟨x, h6, h7, h8⟩ := bind_eq_ok h2
        cases h7
        obtain ⟨h9, h10⟩ := ih _ x h6
        rw [h8, depthOf]
        have := square_max _ _ _ _ h4 h9
        have hw : 2 * depthOf x ≤ rest.length + 1 := Nat.le_trans h10 (by cases t <;> simp)
        simp only [List.length_cons] at hl
        refine ⟨by omega, ?_⟩
        omega

end readers

theorem readDefinitionList_deep (fuel : Nat) : ∀ (ts : List Token) (list : DefinitionList), (readDefinitionList fuel ts).1 = .ok list →
    depthOf list * depthOf list ≤ (readDefinitionList fuel ts).2 ∧ 2 * depthOf list ≤ ts.length := by
  induction fuel with
  | zero => intro ts a h; cases h
  | succ fuel ih => intro ts a h; exact readDefinitions_deep ih _ ts a h

theorem buildSyntaxRule_deep (ts : List Token) (r : SyntaxRule) (h : (buildSyntaxRule ts).1 = .ok (some r)) :
    depthOf r.definitionList * depthOf r.definitionList ≤ (buildSyntaxRule ts).2 := by
  rw [build_after] at h ⊢
  rw [of_bind] at h ⊢
  simp only at h ⊢
  rw [of_bind] at h ⊢
  simp only at h ⊢
  rw [steps_bind] at h ⊢
  simp only at h ⊢
  generalize (readMetaIdentifier ts).2 = k
  generalize (readMetaIdentifier ts).1 = x at h
  obtain ⟨name, location, next⟩ := x
  simp only at h ⊢
  generalize (skipGaps next).2 = m
  generalize (skipGaps next).1 = us at h
  unfold afterName at h ⊢
  cases us with
  | nil => cases location <;> cases h
  | cons t rest =>
    cases location with
    | none =>
      dsimp only at h ⊢
      split at h <;> cases h
    | some loc =>
      dsimp only at h ⊢
      split at h
      · cases h
      · next h1 =>
        rw [if_neg h1]
        split at h
        · cases h
        · next h2 =>
          rw [if_neg h2]
          obtain ⟨list, h6, h7, h8⟩ := bind_eq_ok h
          cases h7
          have := (readDefinitions_deep (readDefinitionList_deep _) _ _ list h6).1
          rw [h8]
          simp only
          omega

end Ebnf.Effort
