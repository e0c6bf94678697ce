import Verif.Spec.Stack
import Verif.Proofs.Stack
import Verif.Proofs.Recursion
import Verif.Proofs.Origin

set_option autoImplicit false

/-! # How much stack suffices -/

namespace Ebnf

open Spec

/-- The calls of a part. -/
def callsOfTask : Task → Nat
  | .primary p => callsOfPrimary p
  | .factor f => callsOfFactor f
  | .term t => callsOfTerm t
  | .sequence d => callsOfSingle d
  | .list l => callsOfList l
  | _ => 0

theorem callsOfAlternatives_mem {z : SingleDefinition} : ∀ {l : DefinitionList}, z ∈ l.toList → callsOfSingle z ≤ callsOfAlternatives l
  | .nil, h => by cases h
  | .cons d l, h => by
    rw [DefinitionList.toList] at h
    rw [callsOfAlternatives]
    rcases List.mem_cons.mp h with rfl | h
    · omega
    · have := callsOfAlternatives_mem h
      omega

theorem unvisited_le (G : Language) (visited : List SyntaxRule) : unvisited G visited ≤ G.rules.length := List.length_filter_le _ _

/-! ## Grammars that are not left-recursive -/

/-- Enough stack, for grammars that are not left-recursive. -/
def FitsText (G : Language) (N : Nat) (d : Nat) (task : Task) (n : Nat) : Prop :=
  callsOfTask task ≤ N ∧ ∃ visited, Leads G visited task ∧
    (n * (G.rules.length + 1) + unvisited G visited) * N + callsOfTask task ≤ d

theorem fitsText_reset {G : Language} {N d : Nat} {task : Task} {n n' u c : Nat} (hn : n' < n) (hc : callsOfTask task ≤ N)
    (h : (n * (G.rules.length + 1) + u) * N + c ≤ d) : FitsText G N d task n' := by
  refine ⟨hc, [], leads_nil, ?_⟩
  have h1 := unvisited_le G []
  have h2 : n' * (G.rules.length + 1) + unvisited G [] + 1 ≤ n * (G.rules.length + 1) + u := by
    have : (n' + 1) * (G.rules.length + 1) ≤ n * (G.rules.length + 1) := Nat.mul_le_mul_right _ hn
    rw [Nat.succ_mul] at this
    omega
  have h3 := Nat.mul_le_mul_right N h2
  rw [Nat.succ_mul] at h3
  omega

theorem measure_step {a b N : Nat} (h : b < a) : b * N + N ≤ a * N := by
  have := Nat.mul_le_mul_right N (show b + 1 ≤ a from h)
  rw [Nat.succ_mul] at this
  exact this

theorem fitsText_rule {G : Language} {N d n : Nat} {visited : List SyntaxRule} {task : Task} {r : SyntaxRule} (hr : r ∈ G.rules)
    (hN : callsOfList r.definitionList ≤ N) (hG : ¬ LeftRecursive G) (hl : Leads G visited task) (hs : Starts G task r)
    (h : (n * (G.rules.length + 1) + unvisited G visited) * N ≤ d) : FitsText G N d (.list r.definitionList) n := by
  refine ⟨hN, r :: visited, leads_rule hl hr hs, ?_⟩
  have h1 := unvisited_lt hr (leads_fresh hG hl hs)
  have h2 := measure_step (N := N) (show n * (G.rules.length + 1) + unvisited G (r :: visited) <
    n * (G.rules.length + 1) + unvisited G visited by omega)
  have h3 : callsOfTask (.list r.definitionList) = callsOfList r.definitionList := rfl
  omega

theorem fitsText_suffices {G : Language} {N : Nat} (h1 : 1 ≤ N) (hN : ∀ r ∈ G.rules, callsOfList r.definitionList ≤ N)
    (hb : Bounded G) (U : OneMeaning G) (hG : ¬ LeftRecursive G) : Suffices G (FitsText G N) where
  shorter := by
    rintro d t n n' ⟨h, visited, hl, h2⟩ hn
    rcases Nat.lt_or_eq_of_le hn with hn | rfl
    · exact fitsText_reset hn h h2
    · exact ⟨h, visited, hl, h2⟩
  optional := by
    rintro d loc l n ⟨h, visited, hl, h2⟩
    simp only [callsOfTask, callsOfPrimary] at h h2
    exact ⟨d - 1, by omega, by simp only [callsOfTask]; omega, visited, leads_sub hl fun r hr => .optional hr,
      by simp only [callsOfTask]; omega⟩
  repeated := by
    rintro d loc l n ⟨h, visited, hl, h2⟩
    simp only [callsOfTask, callsOfPrimary] at h h2
    exact ⟨d - 1, by omega, by simp only [callsOfTask]; omega, visited, leads_sub hl fun r hr => .repeated hr,
      by simp only [callsOfTask]; omega⟩
  grouped := by
    rintro d loc l n ⟨h, visited, hl, h2⟩
    simp only [callsOfTask, callsOfPrimary] at h h2
    exact ⟨h, visited, leads_sub hl fun r hr => .grouped hr, h2⟩
  reference := by
    rintro d loc name n r hr hs ⟨h, visited, hl, h2⟩
    simp only [callsOfTask, callsOfPrimary] at h h2
    exact ⟨d - 1, by omega, fitsText_rule hr (hN r hr) hG hl (.reference hr hs) (by omega)⟩
  forward := by
    rintro d loc s here rest name k task hf ht ⟨h, visited, hl, h2⟩
    simp only [callsOfTask, callsOfPrimary] at h h2
    refine ⟨d - 1, by omega, ?_⟩
    have hk := (hb loc s loc here rest).2 _ _ hf
    rcases Nat.eq_zero_or_pos k with rfl | h0
    · rw [List.drop_zero]
      cases ht with
      | rule hr hs => exact fitsText_rule hr (hN _ hr) hG hl (.forward hf hr (.inl hs)) (by omega)
      | @marked r hr hs =>
        refine ⟨by simp only [callsOfTask, callsOfPrimary]; omega, visited, leads_sub hl ?_, by simp only [callsOfTask, callsOfPrimary]; omega⟩
        intro r' hr'
        cases hr' with
        | reference h1 h2 =>
          rw [U.rule r' h1 r hr _ h2 (.refl _)]
          exact .forward hf hr (.inr hs)
    · refine fitsText_reset (n := rest.length) (u := unvisited G visited) (c := 0) (by rw [List.length_drop]; omega) ?_ (by omega)
      cases ht with
      | rule hr _ => exact hN _ hr
      | marked _ _ => exact h1
  once := by
    rintro d p n ⟨h, visited, hl, h2⟩
    simp only [callsOfTask, callsOfFactor, if_true] at h h2
    exact ⟨h, visited, leads_sub hl fun r hr => .factor (by omega) hr, h2⟩
  counted := by
    rintro d k p n h0 hk ⟨h, visited, hl, h2⟩
    simp only [callsOfTask, callsOfFactor, if_neg hk] at h h2
    exact ⟨d - 1, by omega, by simp only [callsOfTask]; omega, visited, leads_sub hl fun r hr => .factor h0 hr,
      by simp only [callsOfTask]; omega⟩
  plain := by
    rintro d p n ⟨h, visited, hl, h2⟩
    simp only [callsOfTask, callsOfTerm] at h h2
    exact ⟨h, visited, leads_sub hl fun r hr => .plain hr, h2⟩
  except := by
    rintro d f x n ⟨h, visited, hl, h2⟩
    simp only [callsOfTask, callsOfTerm] at h h2
    exact ⟨d - 1, by omega,
      ⟨by simp only [callsOfTask]; omega, visited, leads_sub hl fun r hr => .except hr, by simp only [callsOfTask]; omega⟩,
      ⟨by simp only [callsOfTask]; omega, visited, leads_sub hl fun r hr => .exception hr, by simp only [callsOfTask]; omega⟩⟩
  first := by
    rintro d t ts n ⟨h, visited, hl, h2⟩
    simp only [callsOfTask, callsOfSingle] at h h2
    exact ⟨by simp only [callsOfTask]; omega, visited, leads_sub hl fun r hr => .first hr, by simp only [callsOfTask]; omega⟩
  later := by
    rintro d t ts here rest evs k ⟨h, visited, hl, h2⟩ hnb hev
    simp only [callsOfTask, callsOfSingle] at h h2
    have hk := ev_bounded_ok hb hev
    rcases Nat.eq_zero_or_pos k with rfl | h0
    · rw [List.drop_zero]
      exact ⟨by simp only [callsOfTask]; omega, visited, leads_sub hl fun r hr => .later (ev_empty hev trivial _ rfl) hnb hr,
        by simp only [callsOfTask]; omega⟩
    · exact fitsText_reset (n := rest.length) (by rw [List.length_drop]; omega) (by simp only [callsOfTask]; omega) h2
  single := by
    rintro d x n ⟨h, visited, hl, h2⟩
    simp only [callsOfTask, callsOfList] at h h2
    exact ⟨h, visited, leads_sub hl fun r hr => .choice (by simp [DefinitionList.toList]) hr, h2⟩
  choice := by
    rintro d x y l n ⟨h, visited, hl, h2⟩
    simp only [callsOfTask, callsOfList] at h h2
    refine ⟨d - 1, by omega, fun z hz => ?_⟩
    have hm := callsOfAlternatives_mem hz
    rw [callsOfAlternatives] at hm
    exact ⟨by simp only [callsOfTask]; omega, visited, leads_sub hl fun r hr => .choice hz hr, by simp only [callsOfTask]; omega⟩

/-! ## Grammars that are not recursive -/

/-- The rules that a part may start. -/
def MayStart (G : Language) (task : Task) (r : SyntaxRule) : Prop := r ∈ G.rules ∧
  ((∃ loc name, Primary.metaIdentifier loc name ∈ primariesOfTask task ∧ SameName r.metaIdentifier name) ∨
   ∃ loc s here rest name n, Primary.specialSequence loc s ∈ primariesOfTask task ∧
     G.special loc s loc here rest = .forward name n ∧
     (SameName r.metaIdentifier name ∨ SameName ('$' :: r.metaIdentifier) name))

theorem mayStart_sub {G : Language} {task task' : Task} (h : ∀ p ∈ primariesOfTask task', p ∈ primariesOfTask task) {r : SyntaxRule}
    (hr : MayStart G task' r) : MayStart G task r := by
  obtain ⟨h1, ⟨loc, name, h2, h3⟩ | ⟨loc, s, here, rest, name, n, h2, h3⟩⟩ := hr
  · exact ⟨h1, .inl ⟨loc, name, h _ h2, h3⟩⟩
  · exact ⟨h1, .inr ⟨loc, s, here, rest, name, n, h _ h2, h3⟩⟩

/-- The rules on the stack lead to what the part may start. -/
def Stacked (G : Language) (visited : List SyntaxRule) (task : Task) : Prop :=
  ∀ v ∈ visited, v ∈ G.rules ∧ ∀ r, MayStart G task r → Relation.TransGen (RefersToRule G) v r

theorem stacked_sub {G : Language} {visited : List SyntaxRule} {task task' : Task} (h : Stacked G visited task)
    (hs : ∀ p ∈ primariesOfTask task', p ∈ primariesOfTask task) : Stacked G visited task' :=
  fun v hv => ⟨(h v hv).1, fun r hr => (h v hv).2 r (mayStart_sub hs hr)⟩

/-- Enough stack, for grammars that are not recursive. -/
def FitsAny (G : Language) (N : Nat) (d : Nat) (task : Task) (_ : Nat) : Prop :=
  ∃ visited, Stacked G visited task ∧ unvisited G visited * N + callsOfTask task ≤ d

theorem fitsAny_rule {G : Language} {N d n : Nat} {visited : List SyntaxRule} {task : Task} {r : SyntaxRule} (hr : r ∈ G.rules)
    (hN : callsOfList r.definitionList ≤ N) (hG : ¬ Recursive G) (hl : Stacked G visited task) (hs : MayStart G task r)
    (h : unvisited G visited * N ≤ d) : FitsAny G N d (.list r.definitionList) n := by
  refine ⟨r :: visited, ?_, ?_⟩
  · intro v hv
    rcases List.mem_cons.mp hv with rfl | hv
    · exact ⟨hr, fun r' hr' => .single ⟨hr, hr'⟩⟩
    · exact ⟨(hl v hv).1, fun r' hr' => .tail ((hl v hv).2 r hs) ⟨hr, hr'⟩⟩
  · have h1 := unvisited_lt hr (fun hv => hG ⟨r, (hl r hv).1, (hl r hv).2 r hs⟩)
    have h2 := measure_step (N := N) h1
    have h3 : callsOfTask (.list r.definitionList) = callsOfList r.definitionList := rfl
    omega

theorem fitsAny_suffices {G : Language} {N : Nat} (hN : ∀ r ∈ G.rules, callsOfList r.definitionList ≤ N)
    (U : OneMeaning G) (hG : ¬ Recursive G) : Suffices G (FitsAny G N) where
  shorter := fun h _ => h
  optional := by
    rintro d loc l n ⟨visited, hl, h2⟩
    simp only [callsOfTask, callsOfPrimary] at h2
    exact ⟨d - 1, by omega, visited, stacked_sub hl fun p hp => by rw [primariesOfTask, primariesIn]; exact List.mem_cons_of_mem _ hp,
      by simp only [callsOfTask]; omega⟩
  repeated := by
    rintro d loc l n ⟨visited, hl, h2⟩
    simp only [callsOfTask, callsOfPrimary] at h2
    exact ⟨d - 1, by omega, visited, stacked_sub hl fun p hp => by rw [primariesOfTask, primariesIn]; exact List.mem_cons_of_mem _ hp,
      by simp only [callsOfTask]; omega⟩
  grouped := by
    rintro d loc l n ⟨visited, hl, h2⟩
    simp only [callsOfTask, callsOfPrimary] at h2
    exact ⟨visited, stacked_sub hl fun p hp => by rw [primariesOfTask, primariesIn]; exact List.mem_cons_of_mem _ hp, h2⟩
  reference := by
    rintro d loc name n r hr hs ⟨visited, hl, h2⟩
    simp only [callsOfTask, callsOfPrimary] at h2
    exact ⟨d - 1, by omega, fitsAny_rule hr (hN r hr) hG hl ⟨hr, .inl ⟨loc, name, self_primaries _, hs⟩⟩ (by omega)⟩
  forward := by
    rintro d loc s here rest name k task hf ht ⟨visited, hl, h2⟩
    simp only [callsOfTask, callsOfPrimary] at h2
    refine ⟨d - 1, by omega, ?_⟩
    cases ht with
    | rule hr hs =>
      exact fitsAny_rule hr (hN _ hr) hG hl ⟨hr, .inr ⟨loc, s, here, rest, name, k, self_primaries _, hf, .inl hs⟩⟩ (by omega)
    | @marked r hr hs =>
      refine ⟨visited, ?_, by simp only [callsOfTask, callsOfPrimary]; omega⟩
      intro v hv
      refine ⟨(hl v hv).1, fun r' hr' => ?_⟩
      obtain ⟨h1, ⟨loc', name', h2, h3⟩ | ⟨loc', s', here', rest', name', n', h2, h3⟩⟩ := hr'
      · simp only [primariesOfTask, primariesIn, List.mem_singleton, Primary.metaIdentifier.injEq] at h2
        rw [U.rule r' h1 r hr _ h3 (by rw [h2.2]; exact .refl _)]
        exact (hl v hv).2 r ⟨hr, .inr ⟨loc, s, here, rest, name, k, self_primaries _, hf, .inr hs⟩⟩
      · simp [primariesOfTask, primariesIn] at h2
  once := by
    rintro d p n ⟨visited, hl, h2⟩
    simp only [callsOfTask, callsOfFactor, if_true] at h2
    exact ⟨visited, stacked_sub hl fun p hp => hp, h2⟩
  counted := by
    rintro d k p n h0 hk ⟨visited, hl, h2⟩
    simp only [callsOfTask, callsOfFactor, if_neg hk] at h2
    exact ⟨d - 1, by omega, visited, stacked_sub hl fun p hp => hp, by simp only [callsOfTask]; omega⟩
  plain := by
    rintro d p n ⟨visited, hl, h2⟩
    simp only [callsOfTask, callsOfTerm] at h2
    exact ⟨visited, stacked_sub hl fun p hp => hp, h2⟩
  except := by
    rintro d f x n ⟨visited, hl, h2⟩
    simp only [callsOfTask, callsOfTerm] at h2
    exact ⟨d - 1, by omega,
      ⟨visited, stacked_sub hl fun p hp => by rw [primariesOfTask, primariesOfTerm]; exact List.mem_append.mpr (.inl hp),
        by simp only [callsOfTask]; omega⟩,
      ⟨visited, stacked_sub hl fun p hp => by rw [primariesOfTask, primariesOfTerm]; exact List.mem_append.mpr (.inr hp),
        by simp only [callsOfTask]; omega⟩⟩
  first := by
    rintro d t ts n ⟨visited, hl, h2⟩
    simp only [callsOfTask, callsOfSingle] at h2
    exact ⟨visited, stacked_sub hl fun p hp => by rw [primariesOfTask, primariesOfSingle]; exact List.mem_append.mpr (.inl hp),
      by simp only [callsOfTask]; omega⟩
  later := by
    rintro d t ts here rest evs k ⟨visited, hl, h2⟩ _ _
    simp only [callsOfTask, callsOfSingle] at h2
    exact ⟨visited, stacked_sub hl fun p hp => by rw [primariesOfTask, primariesOfSingle]; exact List.mem_append.mpr (.inr hp),
      by simp only [callsOfTask]; omega⟩
  single := by
    rintro d x n ⟨visited, hl, h2⟩
    simp only [callsOfTask, callsOfList] at h2
    exact ⟨visited, stacked_sub hl fun p hp => primariesOfList_mem (l := .cons x .nil) (by simp [DefinitionList.toList]) p hp, h2⟩
  choice := by
    rintro d x y l n ⟨visited, hl, h2⟩
    simp only [callsOfTask, callsOfList] at h2
    refine ⟨d - 1, by omega, fun z hz => ?_⟩
    have hm := callsOfAlternatives_mem hz
    rw [callsOfAlternatives] at hm
    exact ⟨visited, stacked_sub hl fun p hp => primariesOfList_mem hz p hp, by simp only [callsOfTask]; omega⟩

end Ebnf
