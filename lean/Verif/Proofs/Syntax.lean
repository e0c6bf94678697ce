import Verif.Spec.Names
import Verif.Model.Syntax
import Verif.Proofs.Text
import Verif.Proofs.GrammarFacts

set_option autoImplicit false

/-! # Lemmas about `Syntax::new` and lookup -/

namespace Ebnf

open Spec

theorem normal_iff (n : Str) :
    (∃ ws, SplitsInto n ws ∧ n = joinSpace ws) ↔ normalizedMetaIdentifier n = n := by
  constructor
  · rintro ⟨ws, h, h'⟩
    rw [normalized_of_splits h, ← h']
  · intro h
    obtain ⟨ws, hws⟩ := splits_exists n
    exact ⟨ws, hws, by rw [← normalized_of_splits hws, h]⟩

theorem get?_insert {V : Type} (m : Map V) (k q : Str) (v : V) :
    (m.insert k v).get? q = if k = q then some v else m.get? q := rfl

/-- Invariant of the loop of `new_syntax` before index `i`. -/
def TableInv (all : List SyntaxRule) (i : Nat) (names : Map Str) (rules : Map Nat) : Prop :=
  ∀ k, (∃ j r, j < i ∧ all[j]? = some r ∧ keyedMetaIdentifier r.metaIdentifier = k ∧
      names.get? k = some r.metaIdentifier ∧ rules.get? k = some j) ∨
    (names.get? k = none ∧ rules.get? k = none ∧
      ∀ j r, j < i → all[j]? = some r → keyedMetaIdentifier r.metaIdentifier ≠ k)

theorem tableInv_nil (all : List SyntaxRule) : TableInv all 0 [] [] :=
  fun _ => .inr ⟨rfl, rfl, fun _ _ h => absurd h (Nat.not_lt_zero _)⟩

theorem tableInv_insert {all : List SyntaxRule} {i : Nat} {names : Map Str} {rules : Map Nat} {r : SyntaxRule}
    (h : TableInv all i names rules) (hr : all[i]? = some r) :
    TableInv all (i + 1) (names.insert (keyedMetaIdentifier r.metaIdentifier) r.metaIdentifier)
      (rules.insert (keyedMetaIdentifier r.metaIdentifier) i) := by
  intro k
  rw [get?_insert, get?_insert]
  by_cases hk : keyedMetaIdentifier r.metaIdentifier = k
  · refine .inl ⟨i, r, by omega, hr, hk, ?_, ?_⟩ <;> simp [hk]
  · rcases h k with ⟨j, r', h1, h2, h3, h4, h5⟩ | ⟨h1, h2, h3⟩
    · exact .inl ⟨j, r', by omega, h2, h3, by simp [hk, h4], by simp [hk, h5]⟩
    · refine .inr ⟨by simp [hk, h1], by simp [hk, h2], fun j r' hj hr' => ?_⟩
      rcases Nat.lt_succ_iff_lt_or_eq.mp hj with hj | rfl
      · exact h3 j r' hj hr'
      · rw [hr] at hr'; injection hr' with hr'; subst hr'; exact hk

/-- What the loop does. -/
theorem newSyntaxLoop_spec (all : List SyntaxRule)
    (hnorm : ∀ r ∈ all, normalizedMetaIdentifier r.metaIdentifier = r.metaIdentifier) :
    ∀ (rs : List SyntaxRule) (i : Nat) (names : Map Str) (rules : Map Nat),
      all.drop i = rs → TableInv all i names rules → (∀ a b, b < i → ¬ Repeats all a b) →
      (∃ names' rules', newSyntaxLoop all i rs names rules = .ok (names', rules') ∧
        TableInv all all.length names' rules' ∧ DistinctNames all) ∨
      (∃ a b ra rb, Repeats all a b ∧ all[a]? = some ra ∧ all[b]? = some rb ∧
        (∀ a' b', b' < b → ¬ Repeats all a' b') ∧
        newSyntaxLoop all i rs names rules =
          .err ⟨rb.location, .duplicate rb.metaIdentifier ra.location.lines ra.location.columns⟩) := by
  intro rs
  induction rs with
  | nil =>
    intro i names rules hd hinv hno
    have hlen : all.length ≤ i := by simpa using hd
    refine .inl ⟨names, rules, rfl, ?_, ?_⟩
    · intro k
      rcases hinv k with ⟨j, r, h1, h2, h3⟩ | ⟨h1, h2, h3⟩
      · exact .inl ⟨j, r, (List.getElem?_eq_some_iff.mp h2).1, h2, h3⟩
      · exact .inr ⟨h1, h2, fun j r hj => h3 j r (by omega)⟩
    · intro a b hab
      obtain ⟨_, _, rb, _, hb, _⟩ := id hab
      exact hno a b (by have := (List.getElem?_eq_some_iff.mp hb).1; omega) hab
  | cons r rs ih =>
    intro i names rules hd hinv hno
    have hi : all[i]? = some r := by
      have := congrArg (·[0]?) hd
      simpa using this
    have hmem : r ∈ all := List.mem_of_getElem? hi
    unfold newSyntaxLoop
    simp only
    rw [hnorm r hmem, if_neg (by simp)]
    rcases hinv (keyedMetaIdentifier r.metaIdentifier) with ⟨j, r', h1, h2, h3, h4, h5⟩ | ⟨h1, h2, h3⟩
    · refine .inr ⟨j, i, r', r, ⟨h1, r', r, h2, hi, (keyed_eq_iff _ _).mp h3⟩, h2, hi, ?_, ?_⟩
      · exact fun a b hb => hno a b hb
      · rw [h4, h5]
        simp [h2, Res.fail]
    · rw [h1]
      simp only
      apply ih
      · have := congrArg List.tail hd
        simpa [List.tail_drop] using this
      · exact tableInv_insert hinv hi
      · intro a b hb hab
        rcases Nat.lt_succ_iff_lt_or_eq.mp hb with hb | rfl
        · exact hno a b hb hab
        · obtain ⟨hlt, ra, rb, ha, hb', hs⟩ := hab
          rw [hi] at hb'; injection hb' with hb'; subst hb'
          exact h3 a ra hlt ha ((keyed_eq_iff _ _).mpr hs)

theorem isDef_ok {d : Str → Bool} {p : Primary} :
    isDef d p = .ok () ↔ ∀ l n, p = .metaIdentifier l n → d (keyedMetaIdentifier n) = true := by
  cases p <;> simp [isDef, Res.fail]

theorem isDef_cases (d : Str → Bool) (p : Primary) :
    isDef d p = .ok () ∨ ∃ l n, p = .metaIdentifier l n ∧ d (keyedMetaIdentifier n) = false ∧
      isDef d p = .err ⟨l, .notDefined n⟩ := by
  cases p <;> simp [isDef, Res.fail]
  rename_i l n
  cases h : d (keyedMetaIdentifier n) <;> simp
  exact ⟨l, n, ⟨rfl, rfl⟩, h, rfl, rfl⟩

/-- A loop over primaries: the first undefined reference, if any. -/
def firstUndefined (d : Str → Bool) (ps : List Primary) : Res Unit :=
  match ps with
  | [] => .ok ()
  | p :: ps => do isDef d p; firstUndefined d ps

theorem firstUndefined_append (d : Str → Bool) (ps qs : List Primary) :
    firstUndefined d (ps ++ qs) = (do firstUndefined d ps; firstUndefined d qs) := by
  induction ps with
  | nil => rfl
  | cons p ps ih =>
    simp only [List.cons_append, firstUndefined, ih]
    cases isDef d p <;> rfl

theorem isDefinedTerms_eq (d : Str → Bool) (sd : SingleDefinition) :
    isDefinedTerms d sd = firstUndefined d (topOfSingle sd) := by
  match sd with
  | .nil => rfl
  | .cons (.plain f) r =>
    simp only [isDefinedTerms, topOfSingle, topOfTerm, isDefinedTerms_eq d r]; rfl
  | .cons (.except f e) r =>
    simp only [isDefinedTerms, topOfSingle, topOfTerm, isDefinedTerms_eq d r]; rfl

theorem isDefined_eq (d : Str → Bool) (l : DefinitionList) :
    isDefined d l = firstUndefined d (topOfList l) := by
  match l with
  | .nil => rfl
  | .cons sd r =>
    simp only [isDefined, topOfList, firstUndefined_append, isDefinedTerms_eq, isDefined_eq d r]

theorem allDefined_eq (d : Str → Bool) (rs : List SyntaxRule) :
    allDefined d rs = firstUndefined d (rs.flatMap (fun r => topOfList r.definitionList)) := by
  induction rs with
  | nil => rfl
  | cons r rs ih =>
    simp only [allDefined, List.flatMap_cons, firstUndefined_append, isDefined_eq, ih]

theorem firstUndefined_cases (d : Str → Bool) (ps : List Primary) :
    (firstUndefined d ps = .ok () ∧ ∀ l n, .metaIdentifier l n ∈ ps → d (keyedMetaIdentifier n) = true) ∨
    (∃ pre l n post, ps = pre ++ .metaIdentifier l n :: post ∧ d (keyedMetaIdentifier n) = false ∧
      (∀ l' n', .metaIdentifier l' n' ∈ pre → d (keyedMetaIdentifier n') = true) ∧
      firstUndefined d ps = .err ⟨l, .notDefined n⟩) := by
  induction ps with
  | nil => exact .inl ⟨rfl, by simp⟩
  | cons p ps ih =>
    rcases isDef_cases d p with h | ⟨l, n, rfl, h1, h2⟩
    · rcases ih with ⟨h1, h2⟩ | ⟨pre, l, n, post, rfl, h1, h2, h3⟩
      · refine .inl ⟨by simp [firstUndefined, h, h1], fun l n hm => ?_⟩
        rcases List.mem_cons.mp hm with rfl | hm
        · exact isDef_ok.mp h l n rfl
        · exact h2 l n hm
      · refine .inr ⟨p :: pre, l, n, post, rfl, h1, fun l' n' hm => ?_, by simp [firstUndefined, h, h3]⟩
        rcases List.mem_cons.mp hm with rfl | hm
        · exact isDef_ok.mp h l' n' rfl
        · exact h2 l' n' hm
    · exact .inr ⟨[], l, n, ps, rfl, h1, by simp, by simp [firstUndefined, h2]⟩

theorem tableInv_defined {all : List SyntaxRule} {names : Map Str} {rules : Map Nat}
    (h : TableInv all all.length names rules) (n : Str) :
    rules.containsKey (keyedMetaIdentifier n) = true ↔ Defines all n := by
  unfold Map.containsKey
  rcases h (keyedMetaIdentifier n) with ⟨j, r, h1, h2, h3, h4, h5⟩ | ⟨h1, h2, h3⟩
  · rw [h5]
    simp only [Option.isSome_some, true_iff]
    exact ⟨r, List.mem_of_getElem? h2, (keyed_eq_iff _ _).mp h3⟩
  · rw [h2]
    simp only [Option.isSome_none, Bool.false_eq_true, false_iff]
    rintro ⟨r, hr, hs⟩
    obtain ⟨j, hj, rfl⟩ := List.mem_iff_getElem.mp hr
    exact h3 j all[j] hj (by simp [hj]) ((keyed_eq_iff _ _).mpr hs)

/-- Everything `Syntax::new` can do on rules with normal names. -/
theorem new_cases (rs : List SyntaxRule) (hn : NormalNames rs) :
    (∃ s, Syntax.new rs = .ok s ∧ s.syntaxRules = rs ∧ TableInv rs rs.length s.canonicalNames s.rules ∧
      DistinctNames rs ∧ TopDefined rs) ∨
    (∃ pre l n post, rs.flatMap (fun r => topOfList r.definitionList) = pre ++ .metaIdentifier l n :: post ∧
      DistinctNames rs ∧ ¬ Defines rs n ∧ (∀ l' n', .metaIdentifier l' n' ∈ pre → Defines rs n') ∧
      Syntax.new rs = .err ⟨l, .notDefined n⟩) ∨
    (∃ a b ra rb, Repeats rs a b ∧ rs[a]? = some ra ∧ rs[b]? = some rb ∧
        (∀ a' b', b' < b → ¬ Repeats rs a' b') ∧
        Syntax.new rs =
          .err ⟨rb.location, .duplicate rb.metaIdentifier ra.location.lines ra.location.columns⟩) := by
  have hnorm := fun r hr => (normal_iff _).mp (hn r hr)
  rcases newSyntaxLoop_spec rs hnorm rs 0 [] [] rfl (tableInv_nil rs) (by simp) with
    ⟨names, rules, h1, h2, h3⟩ | ⟨a, b, ra, rb, h1, h2, h3, h4, h5⟩
  · unfold Syntax.new
    rw [h1, Res.bind_ok]
    simp only
    rw [allDefined_eq]
    rcases firstUndefined_cases rules.containsKey (rs.flatMap (fun r => topOfList r.definitionList)) with
      ⟨h4, h5⟩ | ⟨pre, l, n, post, h4, h5, h6, h7⟩
    · refine .inl ⟨⟨names, rules, rs⟩, by rw [h4]; rfl, rfl, h2, h3, fun r hr l n hm => ?_⟩
      exact (tableInv_defined h2 n).mp (h5 l n (List.mem_flatMap.mpr ⟨r, hr, hm⟩))
    · refine .inr (.inl ⟨pre, l, n, post, h4, h3, ?_, fun l' n' hm => ?_, by rw [h7]; rfl⟩)
      · intro hd
        rw [← tableInv_defined h2 n, h5] at hd; simp at hd
      · exact (tableInv_defined h2 n').mp (h6 l' n' hm)
  · refine .inr (.inr ⟨a, b, ra, rb, h1, h2, h3, h4, ?_⟩)
    unfold Syntax.new
    rw [h5]; rfl

theorem top_eq_single (d : SingleDefinition) (h : ∀ p ∈ topOfSingle d, ¬ IsBracket p) :
    primariesOfSingle d = topOfSingle d := by
  have hp : ∀ p, ¬ IsBracket p → primariesIn p = [p] := by
    intro p hp
    cases p <;> first | rfl | exact absurd trivial hp
  match d with
  | .nil => rfl
  | .cons (.plain (.mk n p)) r =>
    simp only [topOfSingle, topOfTerm, Factor.primary, List.cons_append, List.nil_append, List.mem_cons] at h
    simp only [primariesOfSingle, primariesOfTerm, primariesOfFactor, topOfSingle, topOfTerm, Factor.primary,
      hp p (h p (.inl rfl)), top_eq_single r (fun q hq => h q (.inr hq))]
  | .cons (.except (.mk n p) (.mk m q)) r =>
    simp only [topOfSingle, topOfTerm, Factor.primary, List.cons_append, List.nil_append, List.mem_cons] at h
    simp only [primariesOfSingle, primariesOfTerm, primariesOfFactor, topOfSingle, topOfTerm, Factor.primary,
      hp p (h p (.inl rfl)), hp q (h q (.inr (.inl rfl))), top_eq_single r (fun x hx => h x (.inr (.inr hx))),
      List.cons_append, List.nil_append]

theorem top_eq_list (l : DefinitionList) (h : ∀ p ∈ topOfList l, ¬ IsBracket p) :
    primariesOfList l = topOfList l := by
  match l with
  | .nil => rfl
  | .cons d r =>
    simp only [topOfList, List.mem_append] at h
    simp only [primariesOfList, topOfList, top_eq_single d (fun p hp => h p (.inl hp)),
      top_eq_list r (fun p hp => h p (.inr hp))]

/-- A success leaves the rules as given, with distinct names and defined top-level references. -/
theorem new_ok {rs : List SyntaxRule} {s : Syntax} (h : Syntax.new rs = .ok s) :
    s.syntaxRules = rs ∧ TableInv rs rs.length s.canonicalNames s.rules ∧ NormalNames rs ∧ DistinctNames rs ∧
      TopDefined rs := by
  have hn : NormalNames rs := by
    have hl : ∃ x, newSyntaxLoop rs 0 rs [] [] = .ok x := by
      unfold Syntax.new at h
      obtain ⟨x, hx, _⟩ := Res.bind_eq_ok.mp h
      exact ⟨x, hx⟩
    obtain ⟨x, hx⟩ := hl
    have : ∀ (l : List SyntaxRule) i n r, newSyntaxLoop rs i l n r = .ok x →
        ∀ r ∈ l, normalizedMetaIdentifier r.metaIdentifier = r.metaIdentifier := by
      intro l
      induction l with
      | nil => simp
      | cons a l ih =>
        intro i n r hx
        unfold newSyntaxLoop at hx
        simp only at hx
        split at hx
        · simp at hx
        · rename_i hc
          split at hx
          · split at hx <;> simp [Res.fail] at hx
          · intro r' hr'
            rcases List.mem_cons.mp hr' with rfl | hr'
            · simpa using hc
            · exact ih _ _ _ hx r' hr'
    exact fun r hr => (normal_iff _).mpr (this rs 0 [] [] hx r hr)
  rcases new_cases rs hn with ⟨s', h1, h2, h3, h4, h5⟩ | ⟨_, _, _, _, _, _, _, _, h1⟩ | ⟨_, _, _, _, _, _, _, _, h1⟩
  · rw [h1] at h; injection h with h; subst h
    exact ⟨h2, h3, hn, h4, h5⟩
  · rw [h1] at h; simp at h
  · rw [h1] at h; simp at h

theorem getSyntaxRule_cases {rs : List SyntaxRule} {s : Syntax} (h : Syntax.new rs = .ok s) (q : Str) :
    (∃ r, r ∈ rs ∧ SameName r.metaIdentifier q ∧ s.getSyntaxRule q = .ok (some r) ∧
      s.canonicalName q = some r.metaIdentifier ∧ ∀ r' ∈ rs, SameName r'.metaIdentifier q → r' = r) ∨
    (¬ Defines rs q ∧ s.getSyntaxRule q = .ok none ∧ s.canonicalName q = none) := by
  obtain ⟨h1, h2, _, h4, _⟩ := new_ok h
  unfold Syntax.getSyntaxRule Syntax.canonicalName
  rcases h2 (keyedMetaIdentifier q) with ⟨j, r, h5, h6, h7, h8, h9⟩ | ⟨h5, h6, h7⟩
  · refine .inl ⟨r, List.mem_of_getElem? h6, (keyed_eq_iff _ _).mp h7, ?_, h8, fun r' hr' hs => ?_⟩
    · rw [h9, h1]; simp [h6]
    · obtain ⟨k, hk, rfl⟩ := List.mem_iff_getElem.mp hr'
      have hk' : rs[k]? = some rs[k] := by simp [hk]
      have hkey : keyedMetaIdentifier rs[k].metaIdentifier = keyedMetaIdentifier r.metaIdentifier := by
        rw [h7, (keyed_eq_iff _ _).mpr hs]
      rcases Nat.lt_trichotomy j k with hlt | rfl | hlt
      · exact absurd ⟨hlt, r, rs[k], h6, hk', (keyed_eq_iff _ _).mp hkey.symm⟩ (h4 j k)
      · rw [h6] at hk'; injection hk' with hk'; exact hk'.symm
      · exact absurd ⟨hlt, rs[k], r, hk', h6, (keyed_eq_iff _ _).mp hkey⟩ (h4 k j)
  · refine .inr ⟨?_, by rw [h6], h5⟩
    rintro ⟨r, hr, hs⟩
    obtain ⟨k, hk, rfl⟩ := List.mem_iff_getElem.mp hr
    exact h7 k rs[k] hk (by simp [hk]) ((keyed_eq_iff _ _).mpr hs)

end Ebnf
