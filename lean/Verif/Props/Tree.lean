import Verif.Model.Tree
import Verif.Proofs.Escape

set_option autoImplicit false

/-! # C55: syntax trees, C56: displayed locations -/

namespace Ebnf.Spec

mutual
/-- `Built a leaves`: `a` was made with `with_token`, `with_name` and `with_children`; `leaves` are the
arguments (location, name if any, token) of its leaves, from left to right. -/
inductive Built : AST → List (Location × Option Str × Str) → Prop
  | token (l t) : Built (.withToken l t) [(l, none, t)]
  | name (l n t) : Built (.withName l n t) [(l, some n, t)]
  | children (l as leaves) : AllBuilt as leaves → Built (.withChildren l as) leaves
/-- The same for a list of trees. -/
inductive AllBuilt : List AST → List (Location × Option Str × Str) → Prop
  | nil : AllBuilt [] []
  | cons {a as x y} : Built a x → AllBuilt as y → AllBuilt (a :: as) (x ++ y)
end

end Ebnf.Spec

namespace Ebnf.Props

open Ebnf Ebnf.Spec

/-! ## C55 -/

private theorem tokens_buffer (cs : Children) : ∀ buffer, AST.tokens buffer cs = buffer ++ AST.tokens [] cs :=
  match cs with
  | .nil => fun buffer => by simp [AST.tokens]
  | .cons a as => fun buffer => by
    rw [AST.tokens, tokens_buffer as, AST.tokens, tokens_buffer as ([] ++ _)]
    simp

private theorem token_built {a : AST} {leaves : List (Location × Option Str × Str)} (h : Built a leaves) :
    a.token = (leaves.map (·.2.2)).flatten := by
  refine Built.rec (motive_1 := fun a leaves _ => a.token = (leaves.map (·.2.2)).flatten)
    (motive_2 := fun as leaves _ => AST.tokens [] (.ofList as) = (leaves.map (·.2.2)).flatten) ?_ ?_ ?_ ?_ ?_ h
  · intro l t; simp [AST.withToken, AST.token]
  · intro l n t; simp [AST.withName, AST.token]
  · intro l as leaves _ ih; rw [AST.withChildren, AST.token]; exact ih
  · simp [Children.ofList, AST.tokens]
  · intro a as x y _ _ ih1 ih2
    rw [Children.ofList, AST.tokens, tokens_buffer, ih1, ih2]
    simp

/-- C55: the token of a tree is the concatenation of the tokens of its leaves, from left to right. -/
theorem c55_token (a : AST) (leaves : List (Location × Option Str × Str)) (h : Built a leaves) :
    a.token = (leaves.map (·.2.2)).flatten := token_built h

/-- C55: a tree is either a leaf or a node; a leaf answers with what it was made of, a node has no name. -/
theorem c55_leaf_or_node (a : AST) (leaves : List (Location × Option Str × Str)) (h : Built a leaves) :
    (a.isLeaf = true ∧ a.isNode = false ∧ leaves = [(a.location, a.name, a.token)]) ∨
    (a.isLeaf = false ∧ a.isNode = true ∧ a.name = none) := by
  cases h with
  | token l t => exact .inl ⟨rfl, rfl, by simp [AST.withToken, AST.token, AST.location, AST.name]⟩
  | name l n t => exact .inl ⟨rfl, rfl, by simp [AST.withName, AST.token, AST.location, AST.name]⟩
  | children l as _ h => exact .inr ⟨rfl, rfl, rfl⟩

/-- C55: `location` answers with what the constructor was given. -/
theorem c55_location (l : Location) (n t : Str) (as : List AST) :
    (AST.withToken l t).location = l ∧ (AST.withName l n t).location = l ∧ (AST.withChildren l as).location = l :=
  ⟨rfl, rfl, rfl⟩

private def one : Location := ⟨[], 1, 1⟩

example : Built (.withChildren one [.withName one ['n'] ['a', 'b'], .withChildren one [], .withToken one ['c']])
    [(one, some ['n'], ['a', 'b']), (one, none, ['c'])] ∧
    (AST.withChildren one [.withName one ['n'] ['a', 'b'], .withChildren one [], .withToken one ['c']]).token =
      ['a', 'b', 'c'] :=
  ⟨.children _ _ _ (.cons (.name _ _ _) (.cons (x := []) (.children _ _ _ .nil) (.cons (.token _ _) .nil))), by
    simp [AST.withChildren, AST.withName, AST.withToken, Children.ofList, AST.token, AST.tokens]⟩

/-! ## C56 -/

/-- C56: different locations are displayed differently, whatever characters their names contain. -/
theorem c56_locations_distinct (l l' : Location) (h : l.display = l'.display) : l = l' := by
  obtain ⟨n, i, j⟩ := l
  obtain ⟨n', i', j'⟩ := l'
  simp only [Location.display, List.append_assoc, List.cons_append] at h
  obtain ⟨h1, h2⟩ := cut_last (by simp [not_digit (c := '(') (by decide)])
    (by simp [not_digit (c := '(') (by decide)]) h
  obtain ⟨h3, h4⟩ := cut_first (not_digit (by decide) _) (not_digit (by decide) _) h2
  rw [h1, digits_inj h3, digits_inj (List.append_cancel_right h4)]

/-- C56: errors in the same source are displayed alike only if both the locations and the messages are equal. -/
theorem c56_errors_distinct (l l' : Location) (m m' : Str) (hn : l.name = l'.name)
    (h : displayError l m = displayError l' m') : l = l' ∧ m = m' := by
  obtain ⟨n, i, j⟩ := l
  obtain ⟨n', i', j'⟩ := l'
  simp only at hn
  subst hn
  simp only [displayError, Location.display, List.append_assoc, List.cons_append] at h
  have h := List.append_cancel_left h
  injection h with _ h
  obtain ⟨h1, h2⟩ := cut_first (not_digit (by decide) _) (not_digit (by decide) _) h
  obtain ⟨h3, h4⟩ := cut_first (not_digit (by decide) _) (not_digit (by decide) _) h2
  injection h4 with _ h4
  exact ⟨by rw [digits_inj h1, digits_inj h3], by simpa using h4⟩

example : (Location.withLocation "a(1,2)".toList 3 40).display = "a(1,2)(3,40)".toList ∧
    displayError ⟨['f'], 3, 40⟩ ['m'] = "f(3,40) m".toList := by
  simp [Location.display, Location.withLocation, displayError, Nat.toDigits, Nat.toDigitsCore, Nat.digitChar]

end Ebnf.Props
