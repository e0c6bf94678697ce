import Verif.Proofs.History
import Verif.Spec.Grammar
import Verif.Spec.Trees

set_option autoImplicit false

/-! # What derivable token sequences look like -/

namespace Ebnf

open Spec

theorem blanks_nil : Blanks [] := by simp [Blanks]

theorem blanks_append {a b : List Token} (ha : Blanks a) (hb : Blanks b) : Blanks (a ++ b) := by
  intro t ht
  rcases List.mem_append.mp ht with h | h
  · exact ha t h
  · exact hb t h

theorem isGapToken_iff (t : Token) : IsGapToken t ↔ t.isGapSeparatorSequence = true := by
  cases t <;> simp [IsGapToken, Token.isGapSeparatorSequence]

theorem isBlank_of_gap {t : Token} (h : IsGapToken t) : IsBlank t := by
  cases t <;> simp [IsGapToken] at h; trivial

theorem isTerminator_iff (t : Token) : IsTerminator t ↔ t.isTerminator = true := by
  cases t <;> simp [IsTerminator, Token.isTerminator]

theorem nested_append {a b : List Token} (ha : Nested a) (hb : Nested b) : Nested (a ++ b) := by
  induction ha with
  | nil => exact hb
  | other h1 h2 _ ih => exact .other h1 h2 ih
  | pair h1 h2 h3 _ _ ih => simpa using Nested.pair h1 h2 h3 ih

theorem nested_blanks {g : List Token} (h : Blanks g) : Nested g := by
  induction g with
  | nil => exact .nil
  | cons t ts ih =>
    refine .other ?_ ?_ (ih fun u hu => h u (by simp [hu]))
    · have := h t (by simp)
      intro k hk; cases k <;> cases t <;> simp_all [Opens, IsBlank]
    · have := h t (by simp)
      intro k hk; cases k <;> cases t <;> simp_all [Closes, IsBlank]

theorem nested_name {ts : List Token} {l : Location} {n : Str} (h : Name ts l n) : Nested ts := by
  have word : ∀ l s, Nested [Token.metaIdentifier l s] := fun l s =>
    .other (by intro k; cases k <;> simp [Opens]) (by intro k; cases k <;> simp [Closes]) .nil
  induction h with
  | word l s => exact word l s
  | adjacent l' s _ ih => exact nested_append ih (word l' s)
  | gap gs l' s _ _ hg ih =>
    exact nested_append (nested_append ih (nested_blanks fun t ht => isBlank_of_gap (hg t ht))) (word l' s)

/-- No bracket. -/
theorem nested_cons {t : Token} {ts : List Token} (ho : ∀ k, ¬ Opens k t) (hc : ∀ k, ¬ Closes k t)
    (h : Nested ts) : Nested (t :: ts) := .other ho hc h

mutual
theorem nested_primary {ts : List Token} {p : Primary} : PrimaryG ts p → Nested ts
  | .optional hg hg' hl => by
    exact nested_append (nested_blanks hg) (Nested.pair (k := .option) (o := _) (c := _) (by trivial) (by trivial) (nested_append (nested_list hl) (nested_blanks hg')) .nil)
  | .repeated hg hg' hl => by
    exact nested_append (nested_blanks hg) (Nested.pair (k := .repeat) (o := _) (c := _) (by trivial) (by trivial) (nested_append (nested_list hl) (nested_blanks hg')) .nil)
  | .grouped hg hg' hl => by
    exact nested_append (nested_blanks hg) (Nested.pair (k := .group) (o := _) (c := _) (by trivial) (by trivial) (nested_append (nested_list hl) (nested_blanks hg')) .nil)
  | .metaIdentifier hg hn => nested_append (nested_blanks hg) (nested_name hn)
  | .terminalString hg => nested_append (nested_blanks hg)
      (.other (by intro k; cases k <;> simp [Opens]) (by intro k; cases k <;> simp [Closes]) .nil)
  | .specialSequence hg => nested_append (nested_blanks hg)
      (.other (by intro k; cases k <;> simp [Opens]) (by intro k; cases k <;> simp [Closes]) .nil)
  | .empty _ hg => nested_blanks hg
theorem nested_factor {ts : List Token} {f : Factor} : FactorG ts f → Nested ts
  | .one h => nested_primary h
  | .times hg hg' _ _ _ hp => nested_append (nested_blanks hg)
      (.other (by intro k; cases k <;> simp [Opens]) (by intro k; cases k <;> simp [Closes])
        (nested_append (nested_blanks hg')
          (.other (by intro k; cases k <;> simp [Opens]) (by intro k; cases k <;> simp [Closes]) (nested_primary hp))))
theorem nested_term {ts : List Token} {t : Term} : TermG ts t → Nested ts
  | .plain h => nested_factor h
  | .except h hg h' => nested_append (nested_append (nested_factor h) (nested_blanks hg))
      (.other (by intro k; cases k <;> simp [Opens]) (by intro k; cases k <;> simp [Closes]) (nested_factor h'))
theorem nested_single {ts : List Token} {d : SingleDefinition} : SingleG ts d → Nested ts
  | .one h => nested_term h
  | .more h hg h' => nested_append (nested_append (nested_term h) (nested_blanks hg))
      (.other (by intro k; cases k <;> simp [Opens]) (by intro k; cases k <;> simp [Closes]) (nested_single h'))
theorem nested_list {ts : List Token} {l : DefinitionList} : ListG ts l → Nested ts
  | .one h => nested_single h
  | .more h hg h' => nested_append (nested_append (nested_single h) (nested_blanks hg))
      (.other (by intro k; cases k <;> simp [Opens]) (by intro k; cases k <;> simp [Closes]) (nested_list h'))
end

theorem noTerm_append {a b : List Token} (ha : NoTerm a) (hb : NoTerm b) : NoTerm (a ++ b) := by
  intro t ht
  rcases List.mem_append.mp ht with h | h
  · exact ha t h
  · exact hb t h

theorem noTerm_cons {t : Token} {b : List Token} (ha : t.isTerminator = false) (hb : NoTerm b) : NoTerm (t :: b) := by
  intro u ht
  rcases List.mem_cons.mp ht with rfl | h
  · exact ha
  · exact hb u h

theorem noTerm_nil : NoTerm [] := by simp [NoTerm]

theorem noTerm_blanks {g : List Token} (h : Blanks g) : NoTerm g := by
  intro t ht
  have := h t ht
  cases t <;> simp [IsBlank] at this <;> rfl

theorem noTerm_name {ts : List Token} {l : Location} {n : Str} (h : Name ts l n) : NoTerm ts := by
  induction h with
  | word l s => exact noTerm_cons rfl noTerm_nil
  | adjacent l' s _ ih => exact noTerm_append ih (noTerm_cons rfl noTerm_nil)
  | gap gs l' s _ _ hg ih =>
    exact noTerm_append (noTerm_append ih (noTerm_blanks fun t ht => isBlank_of_gap (hg t ht))) (noTerm_cons rfl noTerm_nil)

mutual
theorem noTerm_primary {ts : List Token} {p : Primary} : PrimaryG ts p → NoTerm ts
  | .optional hg hg' hl => by
    exact noTerm_append (noTerm_blanks hg) (noTerm_cons rfl
      (noTerm_append (noTerm_append (noTerm_list hl) (noTerm_blanks hg')) (noTerm_cons rfl noTerm_nil)))
  | .repeated hg hg' hl => by
    exact noTerm_append (noTerm_blanks hg) (noTerm_cons rfl
      (noTerm_append (noTerm_append (noTerm_list hl) (noTerm_blanks hg')) (noTerm_cons rfl noTerm_nil)))
  | .grouped hg hg' hl => by
    exact noTerm_append (noTerm_blanks hg) (noTerm_cons rfl
      (noTerm_append (noTerm_append (noTerm_list hl) (noTerm_blanks hg')) (noTerm_cons rfl noTerm_nil)))
  | .metaIdentifier hg hn => noTerm_append (noTerm_blanks hg) (noTerm_name hn)
  | .terminalString hg => noTerm_append (noTerm_blanks hg) (noTerm_cons rfl noTerm_nil)
  | .specialSequence hg => noTerm_append (noTerm_blanks hg) (noTerm_cons rfl noTerm_nil)
  | .empty _ hg => noTerm_blanks hg
theorem noTerm_factor {ts : List Token} {f : Factor} : FactorG ts f → NoTerm ts
  | .one h => noTerm_primary h
  | .times hg hg' _ _ _ hp => noTerm_append (noTerm_blanks hg)
      (noTerm_cons rfl (noTerm_append (noTerm_blanks hg') (noTerm_cons rfl (noTerm_primary hp))))
theorem noTerm_term {ts : List Token} {t : Term} : TermG ts t → NoTerm ts
  | .plain h => noTerm_factor h
  | .except h hg h' => noTerm_append (noTerm_append (noTerm_factor h) (noTerm_blanks hg))
      (noTerm_cons rfl (noTerm_factor h'))
theorem noTerm_single {ts : List Token} {d : SingleDefinition} : SingleG ts d → NoTerm ts
  | .one h => noTerm_term h
  | .more h hg h' => noTerm_append (noTerm_append (noTerm_term h) (noTerm_blanks hg))
      (noTerm_cons rfl (noTerm_single h'))
theorem noTerm_list {ts : List Token} {l : DefinitionList} : ListG ts l → NoTerm ts
  | .one h => noTerm_single h
  | .more h hg h' => noTerm_append (noTerm_append (noTerm_single h) (noTerm_blanks hg))
      (noTerm_cons rfl (noTerm_list h'))
end

end Ebnf
