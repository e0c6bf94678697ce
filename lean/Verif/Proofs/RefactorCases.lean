import Verif.Proofs.Refactor
import Verif.Proofs.Blanks
import Verif.Proofs.Session

set_option autoImplicit false

/-! # Rewriting a grammar keeps what it matches: the laws -/

namespace Ebnf

open Spec

variable {G G' : Language}

/-! ## Verdicts and places -/

theorem Verdict.after_after (n m : Nat) (v : Verdict) : (v.after m).after n = v.after (n + m) := by
  cases v <;> simp [Verdict.after, Nat.add_assoc]

theorem Verdict.after_bad {n : Nat} {v : Verdict} (h : v.Bad) : v.after n = v := by cases v <;> first | rfl | exact h.elim

theorem Verdict.after_unmatched {n : Nat} {v : Verdict} : v.after n = .unmatched ↔ v = .unmatched := by cases v <;> simp [Verdict.after]

theorem place_after (here : Location) (rest : Str) (n m : Nat) :
    lineColumn (lineColumn here (rest.take n)) ((rest.drop n).take m) = lineColumn here (rest.take (n + m)) := by
  rw [lineColumn_append, ← List.take_add]

/-! ## Judging parts -/

theorem judges_next {t : Term} {d : SingleDefinition} {here : Location} {rest : Str} {n : Nat} {v : Verdict} (hb : ¬ IsBareGroup t)
    (h : Judges G (.term t) here rest (.matched n)) (h' : Judges G (.sequence d) (lineColumn here (rest.take n)) (rest.drop n) v) :
    Judges G (.sequence (.cons t d)) here rest (v.after n) := by
  obtain ⟨k, h⟩ := h; obtain ⟨j, h'⟩ := h'
  exact ⟨_, .next hb h.up h'.up'⟩

theorem judges_last {t : Term} {d : SingleDefinition} {here : Location} {rest : Str} {v : Verdict} (h : Judges G (.term t) here rest v)
    (hb : IsBareGroup t ∨ v.Bad) : Judges G (.sequence (.cons t d)) here rest v := by
  obtain ⟨k, h⟩ := h
  exact ⟨_, .last h hb⟩

theorem judges_first {d : SingleDefinition} {l : DefinitionList} {here : Location} {rest : Str} {v : Verdict}
    (h : Judges G (.sequence d) here rest v) (hv : v ≠ .unmatched ∨ l = .nil) : Judges G (.list (.cons d l)) here rest v := by
  obtain ⟨k, h⟩ := h
  exact ⟨_, .first h hv⟩

theorem judges_other {d : SingleDefinition} {l : DefinitionList} {here : Location} {rest : Str} {v : Verdict}
    (h : Judges G (.sequence d) here rest .unmatched) (hl : l ≠ .nil) (h' : Judges G (.list l) here rest v) :
    Judges G (.list (.cons d l)) here rest v := by
  obtain ⟨k, h⟩ := h; obtain ⟨j, h'⟩ := h'
  exact ⟨_, .other h.up hl h'.up'⟩

/-- The first definition does not match: the rest decides. -/
theorem judges_rest {d : SingleDefinition} {l : DefinitionList} {here : Location} {rest : Str} {v : Verdict}
    (h : Judges G (.sequence d) here rest .unmatched) (h' : l = .nil ∧ v = .unmatched ∨ l ≠ .nil ∧ Judges G (.list l) here rest v) :
    Judges G (.list (.cons d l)) here rest v := by
  rcases h' with ⟨h1, rfl⟩ | ⟨h1, h2⟩
  · exact judges_first h (.inr h1)
  · exact judges_other h h1 h2

theorem judges_plain {p : Primary} {here : Location} {rest : Str} {v : Verdict} (h : Judges G (.primary p) here rest v) :
    Judges G (.term (.plain (.mk 1 p))) here rest v := by
  obtain ⟨k, h⟩ := h
  exact ⟨_, .plain (.once h)⟩

theorem judges_grouped {loc : Location} {l : DefinitionList} {here : Location} {rest : Str} {v : Verdict} (h : Judges G (.list l) here rest v) :
    Judges G (.primary (.grouped loc l)) here rest v := by
  obtain ⟨k, h⟩ := h
  exact ⟨_, .grouped h⟩

theorem judges_inParens {loc : Location} {l : DefinitionList} {here : Location} {rest : Str} {v : Verdict} (h : Judges G (.list l) here rest v) :
    Judges G (.sequence (inParens loc l)) here rest v :=
  judges_last (judges_plain (judges_grouped h)) (.inl trivial)

theorem judges_reference {loc : Location} {n : Str} {r : SyntaxRule} {here : Location} {rest : Str} {v : Verdict} (h1 : r ∈ G.rules)
    (h2 : SameName r.metaIdentifier n) (h : Judges G (.list r.definitionList) here rest v) :
    Judges G (.primary (.metaIdentifier loc n)) here rest v := by
  obtain ⟨k, h⟩ := h
  exact ⟨_, .reference h1 h2 h⟩

theorem judges_nothing {loc : Location} {here : Location} {rest : Str} : Judges G (.sequence (nothing loc)) here rest (.matched 0) :=
  judges_next (v := .matched 0) (n := 0) (by simp [IsBareGroup]) (judges_plain ⟨1, .empty⟩) ⟨1, .done⟩

/-! ## Taking judgements apart -/

theorem plain_inv {k : Nat} {p : Primary} {here : Location} {rest : Str} {v : Verdict} (h : Rec G k (.term (.plain (.mk 1 p))) here rest v) :
    ∃ j, j + 2 = k ∧ Rec G j (.primary p) here rest v := by
  cases h with
  | plain h =>
    cases h with
    | once h => exact ⟨_, rfl, h⟩
    | counted hc _ => exact absurd rfl hc

theorem inParens_inv {k : Nat} {loc : Location} {l : DefinitionList} {here : Location} {rest : Str} {v : Verdict}
    (h : Rec G k (.sequence (inParens loc l)) here rest v) : ∃ j, j < k ∧ Rec G j (.list l) here rest v := by
  cases h with
  | next hb => exact absurd trivial hb
  | last h _ =>
    obtain ⟨j, hj, h⟩ := plain_inv h
    cases h with
    | grouped h => exact ⟨_, by omega, h⟩

theorem nil_inv {k : Nat} {here : Location} {rest : Str} {v : Verdict} (h : Rec G k (.sequence .nil) here rest v) : v = .matched 0 := by
  cases h; rfl

theorem nothing_inv {k : Nat} {loc : Location} {here : Location} {rest : Str} {v : Verdict} (h : Rec G k (.sequence (nothing loc)) here rest v) :
    v = .matched 0 := by
  cases h with
  | next hb h h' =>
    obtain ⟨j, _, h⟩ := plain_inv h
    cases h with
    | empty => rw [nil_inv h']; rfl
  | last h hb =>
    obtain ⟨j, _, h⟩ := plain_inv h
    cases h with
    | empty => rfl

theorem positive {k : Nat} {t : Task} {here : Location} {rest : Str} {v : Verdict} (h : Rec G k t here rest v) : 0 < k := by
  cases h <;> omega

/-- A sequence is its first part and then its second part. -/
theorem sequence_split {d₀ d : SingleDefinition} (hn : NoBareGroup d₀) : ∀ {k : Nat} {here : Location} {rest : Str} {v : Verdict},
    Rec G k (.sequence (SingleDefinition.append d₀ d)) here rest v →
    (Rec G k (.sequence d₀) here rest v ∧ v.Bad) ∨
    ∃ n w, Rec G k (.sequence d₀) here rest (.matched n) ∧ Rec G k (.sequence d) (lineColumn here (rest.take n)) (rest.drop n) w ∧ v = w.after n := by
  match d₀, hn with
  | .nil, _ =>
    intro k here rest v h
    right
    refine ⟨0, v, ?_, ?_, ?_⟩
    · obtain ⟨k, rfl⟩ : ∃ j, k = j + 1 := ⟨k - 1, by have := positive h; omega⟩
      exact .done
    · rw [List.take_zero, List.drop_zero, lineColumn_nil]; exact h
    · cases v <;> simp [Verdict.after]
  | .cons t d₀, hn =>
    intro k here rest v h
    cases h with
    | next hb h h' =>
      rcases sequence_split hn.2 h' with ⟨h1, h2⟩ | ⟨m, w, h1, h2, rfl⟩
      · left
        refine ⟨.next hb h h1, ?_⟩
        rw [Verdict.after_bad h2]; exact h2
      · right
        refine ⟨_, w, .next hb h h1, ?_, ?_⟩
        · rw [place_after, List.drop_drop] at h2
          exact h2.mono (by omega)
        · rw [Verdict.after_after]
    | last h hv =>
      rcases hv with hv | hv
      · exact absurd hv hn.1
      · exact .inl ⟨.last h (.inr hv), hv⟩

/-- The first part stops the sequence. -/
theorem sequence_bad {d₀ d : SingleDefinition} (hn : NoBareGroup d₀) : ∀ {k : Nat} {here : Location} {rest : Str} {v : Verdict},
    Rec G k (.sequence d₀) here rest v → v.Bad → Judges G (.sequence (SingleDefinition.append d₀ d)) here rest v := by
  match d₀, hn with
  | .nil, _ =>
    intro k here rest v h hv
    rw [nil_inv h] at hv
    exact hv.elim
  | .cons t d₀, hn =>
    intro k here rest v h hv
    cases h with
    | @next _ _ _ _ _ n w hb h h' =>
      have hw : w.Bad := by cases w <;> first | trivial | exact hv
      exact judges_next hb ⟨_, h⟩ (sequence_bad hn.2 h' hw)
    | last h hv => exact judges_last ⟨_, h⟩ hv

/-- The first part matches. -/
theorem sequence_join {d₀ d : SingleDefinition} (hn : NoBareGroup d₀) : ∀ {k : Nat} {here : Location} {rest : Str} {n : Nat} {w : Verdict},
    Rec G k (.sequence d₀) here rest (.matched n) → Judges G (.sequence d) (lineColumn here (rest.take n)) (rest.drop n) w →
    Judges G (.sequence (SingleDefinition.append d₀ d)) here rest (w.after n) := by
  match d₀, hn with
  | .nil, _ =>
    intro k here rest n w h h'
    have := nil_inv h
    cases this
    rw [List.take_zero, List.drop_zero, lineColumn_nil] at h'
    have e : w.after 0 = w := by cases w <;> simp [Verdict.after]
    rw [e]; exact h'
  | .cons t d₀, hn =>
    intro k here rest n w h h'
    generalize hv : Verdict.matched n = v at h
    cases h with
    | @next _ _ _ _ _ m u hb h h2 =>
      cases u with
      | matched i =>
        simp only [Verdict.after, Verdict.matched.injEq] at hv
        subst hv
        rw [← place_after, ← List.drop_drop] at h'
        have := judges_next hb ⟨_, h⟩ (sequence_join hn.2 h2 h')
        rwa [Verdict.after_after] at this
      | unmatched => cases hv
      | stopped => cases hv
    | last h hb =>
      subst hv
      rcases hb with hb | hb
      · exact absurd hb hn.1
      · exact hb.elim

/-- A list is its first part and then its second part. -/
theorem list_split {l m : DefinitionList} (hl : l ≠ .nil) : ∀ {k : Nat} {here : Location} {rest : Str} {v : Verdict},
    Rec G k (.list (DefinitionList.append l m)) here rest v →
    (Rec G k (.list l) here rest v ∧ (v ≠ .unmatched ∨ m = .nil)) ∨
    (Rec G k (.list l) here rest .unmatched ∧ m ≠ .nil ∧ ∃ j, j < k ∧ Rec G j (.list m) here rest v) := by
  match l, hl with
  | .cons d l, _ =>
    intro k here rest v h
    simp only [DefinitionList.append] at h
    by_cases hl : l = .nil
    · subst hl
      simp only [DefinitionList.append] at h
      cases h with
      | first h hv =>
        rcases hv with hv | hv
        · exact .inl ⟨.first h (.inl hv), .inl hv⟩
        · exact .inl ⟨.first h (.inr rfl), .inr hv⟩
      | other h hm h' => exact .inr ⟨.first h (.inr rfl), hm, _, by omega, h'⟩
    · cases h with
      | first h hv =>
        rcases hv with hv | hv
        · exact .inl ⟨.first h (.inl hv), .inl hv⟩
        · cases l with
          | nil => exact absurd rfl hl
          | cons => cases hv
      | other h hm h' =>
        rcases list_split hl h' with ⟨h1, h2⟩ | ⟨h1, h2, j, hj, h3⟩
        · exact .inl ⟨.other h hl h1, h2⟩
        · exact .inr ⟨.other h hl h1, h2, j, by omega, h3⟩

theorem append_ne_nil {l m : DefinitionList} (hl : l ≠ .nil) : DefinitionList.append l m ≠ .nil := by
  cases l with
  | nil => exact absurd rfl hl
  | cons => simp [DefinitionList.append]

/-- The first part decides. -/
theorem list_decided {l m : DefinitionList} : ∀ {k : Nat} {here : Location} {rest : Str} {v : Verdict},
    Rec G k (.list l) here rest v → v ≠ .unmatched ∨ m = .nil → Judges G (.list (DefinitionList.append l m)) here rest v := by
  match l with
  | .nil => intro k here rest v h; nomatch h
  | .cons d l =>
    intro k here rest v h hv
    simp only [DefinitionList.append]
    cases h with
    | first h hv' =>
      rcases hv with hv | hv
      · exact judges_first ⟨_, h⟩ (.inl hv)
      · refine judges_first ⟨_, h⟩ ?_
        rcases hv' with hv' | hv'
        · exact .inl hv'
        · subst hv' hv; exact .inr rfl
    | other h hl h' => exact judges_other ⟨_, h⟩ (append_ne_nil hl) (list_decided h' hv)

/-- The second part decides. -/
theorem list_undecided {l m : DefinitionList} : ∀ {k : Nat} {here : Location} {rest : Str} {v : Verdict},
    Rec G k (.list l) here rest .unmatched → m ≠ .nil → Judges G (.list m) here rest v →
    Judges G (.list (DefinitionList.append l m)) here rest v := by
  match l with
  | .nil => intro k here rest v h; nomatch h
  | .cons d l =>
    intro k here rest v h hm hv
    simp only [DefinitionList.append]
    generalize hu : Verdict.unmatched = u at h
    cases h with
    | first h hv' =>
      subst hu
      rcases hv' with hv' | hv'
      · exact absurd rfl hv'
      · subst hv'; exact judges_other ⟨_, h⟩ hm hv
    | other h hl h' => subst hu; exact judges_other ⟨_, h⟩ (append_ne_nil hl) (list_undecided h' hm hv)

/-- A list with a first definition. -/
theorem cons_inv {k : Nat} {d : SingleDefinition} {l : DefinitionList} {here : Location} {rest : Str} {v : Verdict}
    (h : Rec G k (.list (.cons d l)) here rest v) :
    ∃ u, (∃ j, j < k ∧ Rec G j (.sequence d) here rest u) ∧
      (u ≠ .unmatched ∧ v = u ∨ u = .unmatched ∧ (l = .nil ∧ v = .unmatched ∨ l ≠ .nil ∧ ∃ j, j < k ∧ Rec G j (.list l) here rest v)) := by
  cases h with
  | first h hv =>
    by_cases hu : v = .unmatched
    · subst hu
      rcases hv with hv | hv
      · exact absurd rfl hv
      · exact ⟨_, ⟨_, by omega, h⟩, .inr ⟨rfl, .inl ⟨hv, rfl⟩⟩⟩
    · exact ⟨_, ⟨_, by omega, h⟩, .inl ⟨hu, rfl⟩⟩
  | other h hl h' => exact ⟨_, ⟨_, by omega, h⟩, .inr ⟨rfl, .inr ⟨hl, _, by omega, h'⟩⟩⟩

theorem judges_cons {d : SingleDefinition} {l : DefinitionList} {here : Location} {rest : Str} {u v : Verdict}
    (h : Judges G (.sequence d) here rest u)
    (h' : u ≠ .unmatched ∧ v = u ∨ u = .unmatched ∧ (l = .nil ∧ v = .unmatched ∨ l ≠ .nil ∧ Judges G (.list l) here rest v)) :
    Judges G (.list (.cons d l)) here rest v := by
  rcases h' with ⟨hu, rfl⟩ | ⟨rfl, h'⟩
  · exact judges_first h (.inl hu)
  · exact judges_rest h h'

/-- A sequence with a first term that is not a bare group. -/
theorem term_inv {k : Nat} {t : Term} {d : SingleDefinition} {here : Location} {rest : Str} {v : Verdict} (hb : ¬ IsBareGroup t)
    (h : Rec G k (.sequence (.cons t d)) here rest v) :
    (∃ n w, (∃ j, j < k ∧ Rec G j (.term t) here rest (.matched n)) ∧
      (∃ j, j < k ∧ Rec G j (.sequence d) (lineColumn here (rest.take n)) (rest.drop n) w) ∧ v = w.after n) ∨
    (v.Bad ∧ ∃ j, j < k ∧ Rec G j (.term t) here rest v) := by
  cases h with
  | next _ h h' => exact .inl ⟨_, _, ⟨_, by omega, h⟩, ⟨_, by omega, h'⟩, rfl⟩
  | last h hv =>
    rcases hv with hv | hv
    · exact absurd hv hb
    · exact .inr ⟨hv, _, by omega, h⟩

/-! ## Repetitions -/

/-- Rounds of a body that is rewritten. -/
theorem rounds_sim {body body' : Task} {K : Nat}
    (hb : ∀ k, k ≤ K → ∀ here rest v, Rec G k body here rest v → Judges G' body' here rest v) {min : Nat} {max : Option Nat} {guarded : Bool} :
    ∀ k, k ≤ K → ∀ i here rest v, Rec G k (.rounds body min max guarded i) here rest v →
      Judges G' (.rounds body' min max guarded i) here rest v := by
  intro k
  induction k with
  | zero => intro _ i here rest v h; nomatch h
  | succ k ih =>
    intro hk i here rest v h
    cases h with
    | enough h => exact ⟨1, .enough h⟩
    | round a b h h' =>
      obtain ⟨x, h⟩ := hb _ (by omega) _ _ _ h
      obtain ⟨y, h'⟩ := ih (by omega) _ _ _ _ h'
      exact ⟨_, .round a b h.up h'.up'⟩
    | livelock a h =>
      obtain ⟨x, h⟩ := hb _ (by omega) _ _ _ h
      exact ⟨_, .livelock a h⟩
    | lastRound a b h =>
      obtain ⟨x, h⟩ := hb _ (by omega) _ _ _ h
      exact ⟨_, .lastRound a b h⟩
    | tooFew a b h =>
      obtain ⟨x, h⟩ := hb _ (by omega) _ _ _ h
      exact ⟨_, .tooFew a b h⟩
    | roundStop a h =>
      obtain ⟨x, h⟩ := hb _ (by omega) _ _ _ h
      exact ⟨_, .roundStop a h⟩

theorem copies_append (ps : List Primary) (d : SingleDefinition) : copies ps d = SingleDefinition.append (copies ps .nil) d := by
  induction ps with
  | nil => rfl
  | cons p ps ih => simp only [copies, SingleDefinition.append]; rw [← ih]

theorem group_bare {p : Primary} (hp : ¬ IsGroup p) : ¬ IsBareGroup (.plain (.mk 1 p)) := by
  intro h
  cases p <;> first | exact h.elim | exact hp trivial

theorem copies_bare {ps : List Primary} (hp : ∀ p ∈ ps, ¬ IsGroup p) : NoBareGroup (copies ps .nil) := by
  induction ps with
  | nil => trivial
  | cons p ps ih => exact ⟨group_bare (hp p (by simp)), ih fun q hq => hp q (by simp [hq])⟩

/-- Counted rounds, written out. -/
theorem unroll_sim {p : Primary} {K c : Nat} :
    ∀ k, k ≤ K → ∀ (ps' : List Primary) i here rest v, i + ps'.length = c → (∀ p' ∈ ps', ¬ IsGroup p') →
      (∀ p' ∈ ps', ∀ k, k ≤ K → ∀ here rest v, Rec G k (.primary p) here rest v → Judges G' (.primary p') here rest v) →
      Rec G k (.rounds (.primary p) c (some c) false i) here rest v → Judges G' (.sequence (copies ps' .nil)) here rest v := by
  intro k
  induction k with
  | zero => intro _ ps' i here rest v _ _ _ h; nomatch h
  | succ k ih =>
    intro hk ps' i here rest v hi hg hb h
    cases ps' with
    | nil =>
      have hi : i = c := hi
      cases h with
      | enough h => exact ⟨1, .done⟩
      | round a => exact absurd (a c rfl) (by omega)
      | lastRound a b h => exact ⟨1, .done⟩
      | tooFew a b h => omega
      | roundStop a h => exact absurd (a c rfl) (by omega)
    | cons p' ps' =>
      rw [List.length_cons] at hi
      have hb' := hb p' (by simp)
      cases h with
      | enough h => omega
      | round a b h h' =>
        exact judges_next (group_bare (hg p' (by simp))) (judges_plain (hb' _ (by omega) _ _ _ h))
          (ih (by omega) ps' _ _ _ _ (by omega) (fun q hq => hg q (by simp [hq])) (fun q hq => hb q (by simp [hq])) h')
      | lastRound a b h => omega
      | tooFew a b h => exact judges_last (judges_plain (hb' _ (by omega) _ _ _ h)) (.inr trivial)
      | roundStop a h => exact judges_last (judges_plain (hb' _ (by omega) _ _ _ h)) (.inr trivial)

/-- Copies, as counted rounds. -/
theorem count_sim {p' : Primary} {K c : Nat} :
    ∀ k, k ≤ K → ∀ (ps : List Primary) i here rest v, i + ps.length = c → (∀ p ∈ ps, ¬ IsGroup p) →
      (∀ p ∈ ps, ∀ k, k ≤ K → ∀ here rest v, Rec G k (.primary p) here rest v → Judges G' (.primary p') here rest v) →
      Rec G k (.sequence (copies ps .nil)) here rest v → Judges G' (.rounds (.primary p') c (some c) false i) here rest v := by
  intro k
  induction k with
  | zero => intro _ ps i here rest v _ _ _ h; nomatch h
  | succ k ih =>
    intro hk ps i here rest v hi hg hb h
    cases ps with
    | nil =>
      have hi : i = c := hi
      subst hi
      rw [nil_inv h]
      exact ⟨1, .enough (Nat.le_refl _)⟩
    | cons p ps =>
      rw [List.length_cons] at hi
      have hlt : ∀ m, some c = some m → i < m := by intro m hm; cases hm; omega
      rcases term_inv (group_bare (hg p (by simp))) h with ⟨n, w, ⟨a, ha, h1⟩, ⟨b, hb2, h2⟩, rfl⟩ | ⟨hv, a, ha, h1⟩
      · obtain ⟨j, hj, h1⟩ := plain_inv h1
        obtain ⟨x, h1⟩ := hb p (by simp) j (by omega) _ _ _ h1
        obtain ⟨y, h2⟩ := ih (by omega) ps (i + 1) _ _ _ (by omega) (fun q hq => hg q (by simp [hq])) (fun q hq => hb q (by simp [hq]))
          (h2.mono (by omega))
        exact ⟨_, .round hlt (by simp) h1.up h2.up'⟩
      · obtain ⟨j, hj, h1⟩ := plain_inv h1
        obtain ⟨x, h1⟩ := hb p (by simp) j (by omega) _ _ _ h1
        cases v with
        | matched n => exact hv.elim
        | unmatched => exact ⟨_, .tooFew hlt (by omega) h1⟩
        | stopped => exact ⟨_, .roundStop hlt h1⟩

/-! ## Empty lists -/

theorem refactors_nil {t t' : Task} (h : Refactors G G' t t') :
    ∀ {l l' : DefinitionList}, t = .list l → t' = .list l' → (l = .nil ↔ l' = .nil) := by
  induction h with
  | none => intro l l' h h'; cases h; cases h'; simp
  | alternative => intro l l' h h'; cases h; cases h'; simp
  | @flatten loc l₁ l₁' m m' hl _ _ ih1 _ =>
    intro l l' h h'
    cases h; cases h'
    have := append_ne_nil (m := m') (fun h => hl ((ih1 rfl rfl).mpr h))
    simp [this]
  | @unflatten loc l₁ l₁' m m' hl _ _ ih1 _ =>
    intro l l' h h'
    cases h; cases h'
    have := append_ne_nil (m := m) (fun h => hl ((ih1 rfl rfl).mp h))
    simp [this]
  | factorOut => intro l l' h h'; cases h; cases h'; simp
  | multiplyOut => intro l l' h h'; cases h; cases h'; simp
  | dropCopy => intro l l' h h'; cases h; cases h'; simp
  | addCopy => intro l l' h h'; cases h; cases h'; simp
  | cut => intro l l' h h'; cases h; cases h'; simp
  | _ => intro l l' h h'; first | cases h | cases h'


/-! ## Names -/

theorem sameName_symm {a b : Str} (h : SameName a b) : SameName b a := (keyed_eq_iff b a).mp ((keyed_eq_iff a b).mpr h).symm

theorem sameName_trans {a b c : Str} (h : SameName a b) (h' : SameName b c) : SameName a c := differs_trans h h'

/-! ## Text -/

theorem prefix_append_iff (s₁ s₂ rest : Str) : s₁ ++ s₂ <+: rest ↔ s₁ <+: rest ∧ s₂ <+: rest.drop s₁.length := by
  constructor
  · rintro ⟨r, rfl⟩
    refine ⟨⟨s₂ ++ r, by simp⟩, ⟨r, by simp⟩⟩
  · rintro ⟨⟨r, rfl⟩, h⟩
    rw [List.drop_left] at h
    obtain ⟨q, rfl⟩ := h
    exact ⟨q, by simp⟩

theorem text_inv {k : Nat} {loc : Location} {s : Str} {here : Location} {rest : Str} {v : Verdict} (h : Rec G k (.term (text loc s)) here rest v) :
    s <+: rest ∧ v = .matched s.length ∨ ¬ s <+: rest ∧ v = .unmatched := by
  obtain ⟨j, _, h'⟩ := plain_inv h
  cases h' with
  | terminal h1 => exact .inl ⟨h1, rfl⟩
  | terminalFail h1 => exact .inr ⟨h1, rfl⟩

theorem judges_text {loc : Location} {s : Str} {here : Location} {rest : Str} (h : s <+: rest) :
    Judges G (.term (text loc s)) here rest (.matched s.length) := judges_plain ⟨1, .terminal h⟩

theorem judges_noText {loc : Location} {s : Str} {here : Location} {rest : Str} (h : ¬ s <+: rest) :
    Judges G (.term (text loc s)) here rest .unmatched := judges_plain ⟨1, .terminalFail h⟩

theorem text_bare {loc : Location} {s : Str} : ¬ IsBareGroup (text loc s) := by simp [text, IsBareGroup]

theorem count_bare {c : Nat} {p : Primary} (hc : c ≠ 1) : ¬ IsBareGroup (.plain (.mk c p)) := by
  intro h
  unfold IsBareGroup at h
  split at h
  · rename_i heq
    injection heq with heq
    injection heq with heq
    exact hc heq
  · exact h

theorem bad_or (v : Verdict) : v.Bad ∨ ∃ n, v = .matched n := by
  cases v with
  | matched n => exact .inr ⟨n, rfl⟩
  | unmatched => exact .inl trivial
  | stopped => exact .inl trivial

theorem bad_cases {v : Verdict} (h : v.Bad) : v = .unmatched ∨ v = .stopped := by
  cases v with
  | matched n => exact h.elim
  | unmatched => exact .inl rfl
  | stopped => exact .inr rfl

/-! ## The laws -/

/-- What a part matches, its rewriting matches. -/
theorem refactors_judges (U : OneMeaning G) (U' : OneMeaning G') (R : RefactoredGrammar G G') : ∀ K : Nat, ∀ t t', Refactors G G' t t' →
    ∀ k, k ≤ K → ∀ here rest v, Rec G k t here rest v → Judges G' t' here rest v := by
  intro K
  induction K using Nat.strongRecOn with
  | _ K IH =>
  intro t t' hR
  induction hR with
  | empty => intro k _ here rest v h; cases h; exact ⟨1, .empty⟩
  | terminal =>
    intro k _ here rest v h
    cases h with
    | terminal h => exact ⟨1, .terminal h⟩
    | terminalFail h => exact ⟨1, .terminalFail h⟩
  | special hs =>
    intro k _ here rest v h
    cases h with
    | special h =>
      have := hs here rest
      rw [h] at this
      generalize hx : G'.special _ _ _ _ _ = x at this
      cases this
      exact ⟨1, .special hx⟩
    | specialFail h =>
      have := hs here rest
      rw [h] at this
      generalize hx : G'.special _ _ _ _ _ = x at this
      cases this
      exact ⟨1, .specialFail hx⟩
    | specialError h =>
      have := hs here rest
      rw [h] at this
      generalize hx : G'.special _ _ _ _ _ = x at this
      cases this
      exact ⟨1, .specialError hx⟩
  | reference hn hd hd' =>
    intro k hk here rest v h
    cases h with
    | @reference k _ _ _ _ r _ h1 h2 h =>
      obtain ⟨r', h1', h2'⟩ := hd'
      have := R r h1 r' h1' (sameName_trans h2 (sameName_trans hn (sameName_symm h2')))
      exact judges_reference h1' h2' (IH k (by omega) _ _ this k (Nat.le_refl k) _ _ _ h)
    | undefined h =>
      obtain ⟨r, h1, h2⟩ := hd
      exact absurd h2 (h r h1)
  | optional _ ih =>
    intro k hk here rest v h
    cases h with
    | optional h =>
      obtain ⟨j, h⟩ := rounds_sim ih _ (by omega) _ _ _ _ h
      exact ⟨_, .optional h⟩
  | repeated _ ih =>
    intro k hk here rest v h
    cases h with
    | repeated h =>
      obtain ⟨j, h⟩ := rounds_sim ih _ (by omega) _ _ _ _ h
      exact ⟨_, .repeated h⟩
  | grouped _ ih =>
    intro k hk here rest v h
    cases h with
    | grouped h => exact judges_grouped (ih _ (by omega) _ _ _ h)
  | factor _ ih =>
    intro k hk here rest v h
    cases h with
    | once h =>
      obtain ⟨j, h⟩ := ih _ (by omega) _ _ _ h
      exact ⟨_, .once h⟩
    | counted hc h =>
      obtain ⟨j, h⟩ := rounds_sim ih _ (by omega) _ _ _ _ h
      exact ⟨_, .counted hc h⟩
  | plain _ ih =>
    intro k hk here rest v h
    cases h with
    | plain h =>
      obtain ⟨j, h⟩ := ih _ (by omega) _ _ _ h
      exact ⟨_, .plain h⟩
  | except _ _ ih1 ih2 =>
    intro k hk here rest v h
    cases h with
    | exceptBad h hv =>
      obtain ⟨j, h⟩ := ih1 _ (by omega) _ _ _ h
      exact ⟨_, .exceptBad h hv⟩
    | except h h' =>
      obtain ⟨j, h⟩ := ih1 _ (by omega) _ _ _ h
      obtain ⟨i, h'⟩ := ih2 _ (by omega) _ _ _ h'
      exact ⟨_, .except h.up h'.up'⟩
  | nil => intro k _ here rest v h; rw [nil_inv h]; exact ⟨1, .done⟩
  | cons hb hb' _ _ ih1 ih2 =>
    intro k hk here rest v h
    rcases term_inv hb h with ⟨n, w, ⟨j, hj, h1⟩, ⟨i, hi, h2⟩, rfl⟩ | ⟨hv, j, hj, h1⟩
    · exact judges_next hb' (ih1 j (by omega) _ _ _ h1) (ih2 i (by omega) _ _ _ h2)
    · exact judges_last (ih1 j (by omega) _ _ _ h1) (.inr hv)
  | closed hb hb' _ _ ih1 _ =>
    intro k hk here rest v h
    cases h with
    | next hn => exact absurd hb hn
    | last h _ => exact judges_last (ih1 _ (by omega) _ _ _ h) (.inl hb')
  | @last t t' _ ih =>
    intro k hk here rest v h
    have key : ∃ j, j < k ∧ Rec G j (.term t) here rest v := by
      cases h with
      | next hb h h' =>
        rw [nil_inv h']
        exact ⟨_, by omega, h⟩
      | last h _ => exact ⟨_, by omega, h⟩
    obtain ⟨j, hj, h⟩ := key
    have h := ih j (by omega) _ _ _ h
    by_cases hb : IsBareGroup t'
    · exact judges_last h (.inl hb)
    · rcases bad_or v with hv | ⟨n, rfl⟩
      · exact judges_last h (.inr hv)
      · exact judges_next (v := .matched 0) hb h ⟨1, .done⟩
  | none => intro k _ here rest v h; nomatch h
  | alternative _ hl ih1 ih2 =>
    intro k hk here rest v h
    obtain ⟨u, ⟨j, hj, h1⟩, h2⟩ := cons_inv h
    refine judges_cons (ih1 j (by omega) _ _ _ h1) ?_
    rcases h2 with h2 | ⟨hu, ⟨h2, h3⟩ | ⟨h2, i, hi, h3⟩⟩
    · exact .inl h2
    · exact .inr ⟨hu, .inl ⟨(refactors_nil hl rfl rfl).mp h2, h3⟩⟩
    · exact .inr ⟨hu, .inr ⟨fun h => h2 ((refactors_nil hl rfl rfl).mpr h), ih2 i (by omega) _ _ _ h3⟩⟩
  | flatten hne hl hm ih1 ih2 =>
    intro k hk here rest v h
    obtain ⟨u, ⟨j, hj, h1⟩, h2⟩ := cons_inv h
    obtain ⟨i, hi, h1⟩ := inParens_inv h1
    obtain ⟨x, h1⟩ := ih1 i (by omega) _ _ _ h1
    rcases h2 with ⟨hu, rfl⟩ | ⟨rfl, ⟨h2, rfl⟩ | ⟨h2, i, hi, h3⟩⟩
    · exact list_decided h1 (.inl hu)
    · exact list_decided h1 (.inr ((refactors_nil hm rfl rfl).mp h2))
    · exact list_undecided h1 (fun h => h2 ((refactors_nil hm rfl rfl).mpr h)) (ih2 i (by omega) _ _ _ h3)
  | unflatten hne hl hm ih1 ih2 =>
    intro k hk here rest v h
    rcases list_split (fun h => hne ((refactors_nil hl rfl rfl).mp h)) h with ⟨h1, h2⟩ | ⟨h1, h2, j, hj, h3⟩
    · refine judges_first (judges_inParens (ih1 k hk _ _ _ h1)) ?_
      rcases h2 with h2 | h2
      · exact .inl h2
      · exact .inr ((refactors_nil hm rfl rfl).mp h2)
    · exact judges_other (judges_inParens (ih1 k hk _ _ _ h1)) (fun h => h2 ((refactors_nil hm rfl rfl).mpr h)) (ih2 j (by omega) _ _ _ h3)
  | inline _ ih =>
    intro k hk here rest v h
    obtain ⟨i, hi, h⟩ := inParens_inv h
    obtain ⟨u, ⟨j, hj, h1⟩, h2⟩ := cons_inv h
    rcases h2 with ⟨hu, rfl⟩ | ⟨rfl, ⟨h2, rfl⟩ | ⟨h2, _⟩⟩
    · exact ih j (by omega) _ _ _ h1
    · exact ih j (by omega) _ _ _ h1
    · exact absurd rfl h2
  | group _ ih =>
    intro k hk here rest v h
    exact judges_inParens (judges_first (ih k hk _ _ _ h) (.inr rfl))
  | @factorOut loc t₁ t₂ t' d₁ d₁' d₂ d₂' l l' hb1 hb2 hb' _ _ _ _ hl it1 it2 id1 id2 il =>
    intro k hk here rest v h
    obtain ⟨u1, ⟨j, hj, h1⟩, h2⟩ := cons_inv h
    -- what the second definition and the rest say
    have second : ∀ {v : Verdict} {i : Nat}, i < k → Rec G i (.list (.cons (.cons t₂ d₂) l)) here rest v →
        ∃ u, ((∃ n w, Judges G' (.term t') here rest (.matched n) ∧
            Judges G' (.sequence d₂') (lineColumn here (rest.take n)) (rest.drop n) w ∧ u = w.after n) ∨ (u.Bad ∧ Judges G' (.term t') here rest u)) ∧
          (u ≠ .unmatched ∧ v = u ∨ u = .unmatched ∧ (l' = .nil ∧ v = .unmatched ∨ l' ≠ .nil ∧ Judges G' (.list l') here rest v)) := by
      intro v i hi h
      obtain ⟨u, ⟨j, hj, h1⟩, h2⟩ := cons_inv h
      refine ⟨u, ?_, ?_⟩
      · rcases term_inv hb2 h1 with ⟨n, w, ⟨a, ha, h3⟩, ⟨b, hb, h4⟩, rfl⟩ | ⟨hv, a, ha, h3⟩
        · exact .inl ⟨n, w, it2 a (by omega) _ _ _ h3, id2 b (by omega) _ _ _ h4, rfl⟩
        · exact .inr ⟨hv, it2 a (by omega) _ _ _ h3⟩
      · rcases h2 with h2 | ⟨hu, ⟨h2, h3⟩ | ⟨h2, i, hi, h3⟩⟩
        · exact .inl h2
        · exact .inr ⟨hu, .inl ⟨(refactors_nil hl rfl rfl).mp h2, h3⟩⟩
        · exact .inr ⟨hu, .inr ⟨fun h => h2 ((refactors_nil hl rfl rfl).mpr h), il i (by omega) _ _ _ h3⟩⟩
    rcases term_inv hb1 h1 with ⟨n, w, ⟨a, ha, h3⟩, ⟨b, hb, h4⟩, rfl⟩ | ⟨hv, a, ha, h3⟩
    · have h3 := it1 a (by omega) _ _ _ h3
      have h4 := id1 b (by omega) _ _ _ h4
      rcases h2 with ⟨hu, rfl⟩ | ⟨hu, ⟨h2, _⟩ | ⟨_, i, hi, h5⟩⟩
      · exact judges_first (judges_next hb' h3 (judges_inParens (judges_first h4 (.inl fun h => hu (Verdict.after_unmatched.mpr h))))) (.inl hu)
      · cases h2
      · rw [Verdict.after_unmatched.mp hu] at h4
        obtain ⟨u, ⟨m, x, h6, h7, rfl⟩ | ⟨h6, h7⟩, h8⟩ := second hi h5
        · have := judges_unique U' h3 h6
          cases this
          exact judges_cons (judges_next hb' h3 (judges_inParens (judges_other h4 (by simp) (judges_first h7 (.inr rfl))))) h8
        · rw [← judges_unique U' h3 h7] at h6
          exact h6.elim
    · have h3 := it1 a (by omega) _ _ _ h3
      rcases h2 with ⟨hu, rfl⟩ | ⟨rfl, ⟨h2, _⟩ | ⟨_, i, hi, h5⟩⟩
      · exact judges_first (judges_last h3 (.inr hv)) (.inl hu)
      · cases h2
      · obtain ⟨u, ⟨m, x, h6, h7, rfl⟩ | ⟨h6, h7⟩, h8⟩ := second hi h5
        · exact absurd (judges_unique U' h3 h6) (by simp)
        · exact judges_cons (judges_last h7 (.inr h6)) h8
  | @multiplyOut loc t t₁' t₂' d₁ d₁' d₂ d₂' l l' hb hb1 hb2 _ _ _ _ hl it1 it2 id1 id2 il =>
    intro k hk here rest v h
    obtain ⟨u, ⟨j, hj, h1⟩, h2⟩ := cons_inv h
    have h2 : u ≠ .unmatched ∧ v = u ∨ u = .unmatched ∧ (l' = .nil ∧ v = .unmatched ∨ l' ≠ .nil ∧ Judges G' (.list l') here rest v) := by
      rcases h2 with h2 | ⟨hu, ⟨h2, h3⟩ | ⟨h2, i, hi, h3⟩⟩
      · exact .inl h2
      · exact .inr ⟨hu, .inl ⟨(refactors_nil hl rfl rfl).mp h2, h3⟩⟩
      · exact .inr ⟨hu, .inr ⟨fun h => h2 ((refactors_nil hl rfl rfl).mpr h), il i (by omega) _ _ _ h3⟩⟩
    rcases term_inv hb h1 with ⟨n, w, ⟨a, ha, h3⟩, ⟨b, hb, h4⟩, rfl⟩ | ⟨hv, a, ha, h3⟩
    · obtain ⟨c, hc, h4⟩ := inParens_inv h4
      obtain ⟨u1, ⟨e, he, h5⟩, h6⟩ := cons_inv h4
      have g1 := judges_next hb1 (it1 a (by omega) _ _ _ h3) (id1 e (by omega) _ _ _ h5)
      rcases h6 with ⟨h6, rfl⟩ | ⟨rfl, ⟨h6, _⟩ | ⟨_, f, hf, h6⟩⟩
      · rcases h2 with ⟨h7, rfl⟩ | ⟨h7, _⟩
        · exact judges_first g1 (.inl h7)
        · exact absurd (Verdict.after_unmatched.mp h7) h6
      · cases h6
      · obtain ⟨u2, ⟨q, hq, h7⟩, h8⟩ := cons_inv h6
        have : w = u2 := by
          rcases h8 with ⟨_, rfl⟩ | ⟨rfl, ⟨_, rfl⟩ | ⟨h8, _⟩⟩
          · rfl
          · rfl
          · exact absurd rfl h8
        subst this
        exact judges_other g1 (by simp) (judges_cons (judges_next hb2 (it2 a (by omega) _ _ _ h3) (id2 q (by omega) _ _ _ h7)) h2)
    · rcases h2 with ⟨h7, rfl⟩ | ⟨rfl, h7⟩
      · exact judges_first (judges_last (it1 a (by omega) _ _ _ h3) (.inr hv)) (.inl h7)
      · exact judges_other (judges_last (it1 a (by omega) _ _ _ h3) (.inr hv)) (by simp)
          (judges_rest (judges_last (it2 a (by omega) _ _ _ h3) (.inr hv)) h7)
  | @dropCopy d₁ d₂ d' l l' m m' _ _ hl hm i1 i2 il im =>
    intro k hk here rest v h
    obtain ⟨u1, ⟨j, hj, h1⟩, h2⟩ := cons_inv h
    have g1 := i1 j (by omega) _ _ _ h1
    -- what follows the copy decides
    have second : ∀ {i : Nat}, i < k → u1 = .unmatched → Rec G i (.list (.cons d₂ m)) here rest v →
        (m' = .nil ∧ v = .unmatched ∨ m' ≠ .nil ∧ Judges G' (.list m') here rest v) := by
      rintro i hi rfl h
      obtain ⟨u, ⟨a, ha, h3⟩, h4⟩ := cons_inv h
      have := judges_unique U' g1 (i2 a (by omega) _ _ _ h3)
      subst this
      rcases h4 with ⟨h4, _⟩ | ⟨_, ⟨h4, h5⟩ | ⟨h4, b, hb, h5⟩⟩
      · exact absurd rfl h4
      · exact .inl ⟨(refactors_nil hm rfl rfl).mp h4, h5⟩
      · exact .inr ⟨fun h => h4 ((refactors_nil hm rfl rfl).mpr h), im b (by omega) _ _ _ h5⟩
    rcases h2 with ⟨hu, rfl⟩ | ⟨rfl, ⟨h2, _⟩ | ⟨_, i, hi, h5⟩⟩
    · exact judges_first g1 (.inl hu)
    · cases l <;> cases h2
    · by_cases hn : l = .nil
      · have hn' := (refactors_nil hl rfl rfl).mp hn
        subst hn hn'
        exact judges_rest g1 (second hi rfl h5)
      · have hn' : l' ≠ .nil := fun h => hn ((refactors_nil hl rfl rfl).mpr h)
        refine judges_other g1 (append_ne_nil hn') ?_
        rcases list_split hn h5 with ⟨h6, h7⟩ | ⟨h6, _, a, ha, h7⟩
        · obtain ⟨x, h6⟩ := il i (by omega) _ _ _ h6
          refine list_decided h6 (.inl ?_)
          rcases h7 with h7 | h7
          · exact h7
          · cases h7
        · obtain ⟨x, h6⟩ := il i (by omega) _ _ _ h6
          rcases second (by omega) rfl h7 with ⟨h8, rfl⟩ | ⟨h8, h9⟩
          · exact list_decided h6 (.inr h8)
          · exact list_undecided h6 h8 h9
  | @addCopy d d₁' d₂' l l' m m' _ _ hl hm i1 i2 il im =>
    intro k hk here rest v h
    obtain ⟨u1, ⟨j, hj, h1⟩, h2⟩ := cons_inv h
    have g1 := i1 j (by omega) _ _ _ h1
    have g2 := i2 j (by omega) _ _ _ h1
    rcases h2 with ⟨hu, rfl⟩ | ⟨rfl, h2⟩
    · exact judges_first g1 (.inl hu)
    · have hne : DefinitionList.append l' (.cons d₂' m') ≠ .nil := by cases l' <;> simp [DefinitionList.append]
      refine judges_other g1 hne ?_
      by_cases hn : l = .nil
      · have hn' := (refactors_nil hl rfl rfl).mp hn
        subst hn hn'
        refine judges_rest g2 ?_
        rcases h2 with ⟨h2, h3⟩ | ⟨h2, i, hi, h3⟩
        · exact .inl ⟨(refactors_nil hm rfl rfl).mp h2, h3⟩
        · exact .inr ⟨fun h => h2 ((refactors_nil hm rfl rfl).mpr h), im i (by omega) _ _ _ h3⟩
      · rcases h2 with ⟨h2, _⟩ | ⟨_, i, hi, h3⟩
        · exact absurd h2 (append_ne_nil hn)
        · rcases list_split hn h3 with ⟨h6, h7⟩ | ⟨h6, h7, a, ha, h8⟩
          · obtain ⟨x, h6⟩ := il i (by omega) _ _ _ h6
            by_cases hv : v = .unmatched
            · subst hv
              rcases h7 with h7 | h7
              · exact absurd rfl h7
              · exact list_undecided h6 (by simp) (judges_first g2 (.inr ((refactors_nil hm rfl rfl).mp h7)))
            · exact list_decided h6 (.inl hv)
          · obtain ⟨x, h6⟩ := il i (by omega) _ _ _ h6
            exact list_undecided h6 (by simp) (judges_other g2 (fun h => h7 ((refactors_nil hm rfl rfl).mpr h)) (im a (by omega) _ _ _ h8))
  | cut =>
    intro k hk here rest v h
    obtain ⟨u, ⟨j, hj, h1⟩, h2⟩ := cons_inv h
    have := nothing_inv h1
    subst this
    rcases h2 with ⟨_, rfl⟩ | ⟨h2, _⟩
    · exact judges_first judges_nothing (.inl (by simp))
    · cases h2
  | choose hne hl ih =>
    intro k hk here rest v h
    cases h with
    | optional h =>
      refine judges_grouped ?_
      cases h with
      | enough h => omega
      | round _ _ h h' =>
        obtain ⟨x, h⟩ := ih _ (by omega) _ _ _ h
        have : ∀ {k : Nat} {body : Task} {here : Location} {rest : Str} {v : Verdict}, Rec G k (.rounds body 0 (some 1) false (0 + 1)) here rest v → v = .matched 0 := by
          intro k body here rest v h
          cases h with
          | enough => rfl
          | round a => exact absurd (a 1 rfl) (by omega)
          | lastRound a => rfl
          | tooFew a => exact absurd (a 1 rfl) (by omega)
          | roundStop a => exact absurd (a 1 rfl) (by omega)
        rw [this h']
        exact list_decided h (.inl (by simp [Verdict.after]))
      | lastRound _ _ h =>
        obtain ⟨x, h⟩ := ih _ (by omega) _ _ _ h
        exact list_undecided h (by simp) (judges_first judges_nothing (.inr rfl))
      | tooFew _ a => omega
      | roundStop _ h =>
        obtain ⟨x, h⟩ := ih _ (by omega) _ _ _ h
        exact list_decided h (.inl (by simp))
  | @opt _ _ _ l l' hne hl ih =>
    intro k hk here rest v h
    cases h with
    | grouped h =>
      have one : ∀ m, some 1 = some m → 0 < m := by intro m hm; cases hm; omega
      have key : Judges G' (.rounds (.list l') 0 (some 1) false 0) here rest v := by
        rcases list_split (fun h => hne ((refactors_nil hl rfl rfl).mp h)) h with ⟨h1, h2⟩ | ⟨h1, _, j, hj, h3⟩
        · obtain ⟨x, h1⟩ := ih _ (by omega) _ _ _ h1
          rcases h2 with h2 | h2
          · cases v with
            | matched n => exact ⟨x + 2, .round (v := .matched 0) one (by simp) (h1.mono (by omega)) (.enough (by omega))⟩
            | unmatched => exact absurd rfl h2
            | stopped => exact ⟨_, .roundStop one h1⟩
          · cases h2
        · obtain ⟨x, h1⟩ := ih _ (by omega) _ _ _ h1
          obtain ⟨u, ⟨a, _, h4⟩, h5⟩ := cons_inv h3
          have := nothing_inv h4
          subst this
          rcases h5 with ⟨_, rfl⟩ | ⟨h5, _⟩
          · exact ⟨_, .lastRound one (Nat.le_refl 0) h1⟩
          · cases h5
      obtain ⟨x, h⟩ := key
      exact ⟨_, .optional h⟩
  | @unroll p ps' d d' hc1 hc2 hg _ _ ihp ihd =>
    intro k hk here rest v h
    have key : ∀ {j : Nat} {w : Verdict}, j < k → Rec G j (.term (.plain (.mk ps'.length p))) here rest w →
        Judges G' (.sequence (copies ps' .nil)) here rest w := by
      intro j w hj h
      cases h with
      | plain h =>
        generalize hc : ps'.length = c at h
        cases h with
        | once => exact absurd hc hc1
        | counted _ h =>
          rw [decide_eq_false (hc ▸ hc2)] at h
          exact unroll_sim _ (by omega) ps' 0 _ _ _ (by omega) hg ihp h
    rw [copies_append]
    rcases term_inv (count_bare hc1) h with ⟨n, w, ⟨a, ha, h3⟩, ⟨b, hb, h4⟩, rfl⟩ | ⟨hv, a, ha, h3⟩
    · obtain ⟨x, h3⟩ := key ha h3
      exact sequence_join (copies_bare hg) h3 (ihd b (by omega) _ _ _ h4)
    · obtain ⟨x, h3⟩ := key ha h3
      exact sequence_bad (copies_bare hg) h3 hv
  | @count ps p' d d' hc1 hc2 hg _ _ ihp ihd =>
    intro k hk here rest v h
    have key : ∀ {w : Verdict}, Rec G k (.sequence (copies ps .nil)) here rest w → Judges G' (.term (.plain (.mk ps.length p'))) here rest w := by
      intro w h
      obtain ⟨x, h⟩ := count_sim k hk ps 0 _ _ _ (Nat.zero_add _) hg ihp h
      rw [← decide_eq_false hc2] at h
      exact ⟨_, .plain (.counted hc1 h)⟩
    rw [copies_append] at h
    rcases sequence_split (copies_bare hg) h with ⟨h1, h2⟩ | ⟨n, w, h1, h2, rfl⟩
    · exact judges_last (key h1) (.inr h2)
    · exact judges_next (count_bare hc1) (key h1) (ihd k hk _ _ _ h2)
  | @split loc loc₁ loc₂ s₁ s₂ d d' _ ih =>
    intro k hk here rest v h
    rcases term_inv text_bare h with ⟨n, w, ⟨a, ha, h3⟩, ⟨b, hb, h4⟩, rfl⟩ | ⟨hv, a, ha, h3⟩
    · rcases text_inv h3 with ⟨h5, h6⟩ | ⟨_, h6⟩
      · cases h6
        obtain ⟨h7, h8⟩ := (prefix_append_iff s₁ s₂ rest).mp h5
        rw [List.length_append, ← place_after, ← List.drop_drop] at h4
        have := judges_next (text_bare (loc := loc₁) (s := s₁)) (judges_text h7)
          (judges_next (text_bare (loc := loc₂) (s := s₂)) (judges_text h8) (ih b (by omega) _ _ _ h4))
        rwa [Verdict.after_after, ← List.length_append] at this
      · cases h6
    · rcases text_inv h3 with ⟨_, h6⟩ | ⟨h5, h6⟩
      · subst h6; exact hv.elim
      · subst h6
        by_cases h7 : s₁ <+: rest
        · have h8 : ¬ s₂ <+: rest.drop s₁.length := fun h => h5 ((prefix_append_iff s₁ s₂ rest).mpr ⟨h7, h⟩)
          exact judges_next (v := .unmatched) text_bare (judges_text h7) (judges_last (judges_noText h8) (.inr trivial))
        · exact judges_last (judges_noText h7) (.inr trivial)
  | @join loc loc₁ loc₂ s₁ s₂ d d' _ ih =>
    intro k hk here rest v h
    rcases term_inv text_bare h with ⟨n, w, ⟨a, ha, h3⟩, ⟨b, hb, h4⟩, rfl⟩ | ⟨hv, a, ha, h3⟩
    · rcases text_inv h3 with ⟨h5, h6⟩ | ⟨_, h6⟩
      · cases h6
        rcases term_inv text_bare h4 with ⟨m, x, ⟨c, hc, h6⟩, ⟨e, he, h7⟩, rfl⟩ | ⟨hv, c, hc, h6⟩
        · rcases text_inv h6 with ⟨h8, h9⟩ | ⟨_, h9⟩
          · cases h9
            rw [place_after, List.drop_drop, ← List.length_append] at h7
            have := judges_next (text_bare (loc := loc) (s := s₁ ++ s₂)) (judges_text ((prefix_append_iff s₁ s₂ rest).mpr ⟨h5, h8⟩)) (ih e (by omega) _ _ _ h7)
            rwa [List.length_append, ← Verdict.after_after] at this
          · cases h9
        · rcases text_inv h6 with ⟨_, h9⟩ | ⟨h8, h9⟩
          · subst h9; exact hv.elim
          · subst h9
            exact judges_last (judges_noText fun h => h8 ((prefix_append_iff s₁ s₂ rest).mp h).2) (.inr trivial)
      · cases h6
    · rcases text_inv h3 with ⟨_, h6⟩ | ⟨h5, h6⟩
      · subst h6; exact hv.elim
      · subst h6
        exact judges_last (judges_noText fun h => h5 ((prefix_append_iff s₁ s₂ rest).mp h).1) (.inr trivial)
  | dropEmpty _ ih =>
    intro k hk here rest v h
    rcases term_inv (by simp [IsBareGroup]) h with ⟨n, w, ⟨a, ha, h3⟩, ⟨b, hb, h4⟩, rfl⟩ | ⟨hv, a, ha, h3⟩
    · obtain ⟨c, _, h3⟩ := plain_inv h3
      cases h3
      rw [List.take_zero, List.drop_zero, lineColumn_nil] at h4
      have := ih b (by omega) _ _ _ h4
      cases w <;> simpa [Verdict.after] using this
    · obtain ⟨c, _, h3⟩ := plain_inv h3
      cases h3
      exact hv.elim
  | @addEmpty loc d d' _ ih =>
    intro k hk here rest v h
    have h := ih k hk _ _ _ h
    have := judges_next (G := G') (n := 0) (t := .plain (.mk 1 (.empty loc))) (by simp [IsBareGroup]) (judges_plain ⟨1, .empty⟩)
      (by rw [List.take_zero, List.drop_zero, lineColumn_nil]; exact h)
    cases v <;> simpa [Verdict.after] using this
  | unfold h1 h2 _ ih =>
    intro k hk here rest v h
    cases h with
    | reference h3 h4 h =>
      rw [U.rule _ h3 _ h1 _ h4 h2] at h
      exact judges_grouped (ih _ (by omega) _ _ _ h)
    | undefined h => exact absurd h2 (h _ h1)
  | fold h1 h2 _ ih =>
    intro k hk here rest v h
    cases h with
    | grouped h => exact judges_reference h1 h2 (ih _ (by omega) _ _ _ h)
  | @replace loc n r d₀ d₀' d d' h1 h2 hd hb _ _ ih1 ih2 =>
    intro k hk here rest v h
    have key : ∀ {j : Nat} {w : Verdict}, j < k → Rec G j (.term (.plain (.mk 1 (.metaIdentifier loc n)))) here rest w →
        Judges G' (.sequence d₀') here rest w := by
      intro j w hj h
      obtain ⟨i, hi, h⟩ := plain_inv h
      cases h with
      | reference h3 h4 h =>
        rw [U.rule _ h3 _ h1 _ h4 h2, hd] at h
        obtain ⟨u, ⟨j, hj, h5⟩, h6⟩ := cons_inv h
        rcases h6 with ⟨_, rfl⟩ | ⟨rfl, ⟨_, rfl⟩ | ⟨h6, _⟩⟩
        · exact ih1 j (by omega) _ _ _ h5
        · exact ih1 j (by omega) _ _ _ h5
        · exact absurd rfl h6
      | undefined h7 => exact absurd h2 (h7 _ h1)
    rcases term_inv (by simp [IsBareGroup]) h with ⟨n, w, ⟨a, ha, h3⟩, ⟨b, hb, h4⟩, rfl⟩ | ⟨hv, a, ha, h3⟩
    · obtain ⟨x, h3⟩ := key ha h3
      exact sequence_join (by assumption) h3 (ih2 b (by omega) _ _ _ h4)
    · obtain ⟨x, h3⟩ := key ha h3
      exact sequence_bad (by assumption) h3 hv
  | @extract loc n r d₀ d₀' d d' h1 h2 hd hb _ _ ih1 ih2 =>
    intro k hk here rest v h
    have key : ∀ {w : Verdict}, Rec G k (.sequence d₀) here rest w → Judges G' (.term (.plain (.mk 1 (.metaIdentifier loc n)))) here rest w := by
      intro w h
      refine judges_plain (judges_reference h1 h2 ?_)
      rw [hd]
      exact judges_first (ih1 k hk _ _ _ h) (.inr rfl)
    rcases sequence_split hb h with ⟨h3, h4⟩ | ⟨n, w, h3, h4, rfl⟩
    · exact judges_last (key h3) (.inr h4)
    · exact judges_next (by simp [IsBareGroup]) (key h3) (ih2 k hk _ _ _ h4)

theorem sameReaction_symm {a b : Recognition} (h : SameReaction a b) : SameReaction b a := by cases h <;> constructor

/-- Rewriting can be undone. -/
theorem refactors_symm {t t' : Task} (h : Refactors G G' t t') : Refactors G' G t' t := by
  induction h with
  | empty => exact .empty
  | terminal => exact .terminal
  | special h => exact .special fun here rest => sameReaction_symm (h here rest)
  | reference a b c => exact .reference (sameName_symm a) c b
  | optional _ ih => exact .optional ih
  | repeated _ ih => exact .repeated ih
  | grouped _ ih => exact .grouped ih
  | factor _ ih => exact .factor ih
  | plain _ ih => exact .plain ih
  | except _ _ ih1 ih2 => exact .except ih1 ih2
  | nil => exact .nil
  | cons a b _ _ ih1 ih2 => exact .cons b a ih1 ih2
  | closed a b _ _ ih1 ih2 => exact .closed b a ih1 ih2
  | last _ ih => exact .last ih
  | none => exact .none
  | alternative _ _ ih1 ih2 => exact .alternative ih1 ih2
  | flatten a _ _ ih1 ih2 => exact .unflatten a ih1 ih2
  | unflatten a _ _ ih1 ih2 => exact .flatten a ih1 ih2
  | inline _ ih => exact .group ih
  | group _ ih => exact .inline ih
  | factorOut a b c _ _ _ _ _ i1 i2 i3 i4 i5 => exact .multiplyOut c a b i1 i2 i3 i4 i5
  | multiplyOut a b c _ _ _ _ _ i1 i2 i3 i4 i5 => exact .factorOut b c a i1 i2 i3 i4 i5
  | dropCopy _ _ _ _ i1 i2 i3 i4 => exact .addCopy i1 i2 i3 i4
  | addCopy _ _ _ _ i1 i2 i3 i4 => exact .dropCopy i1 i2 i3 i4
  | cut => exact .cut
  | choose a _ ih => exact .opt a ih
  | opt a _ ih => exact .choose a ih
  | unroll a b c _ _ i1 i2 => exact .count a b c i1 i2
  | count a b c _ _ i1 i2 => exact .unroll a b c i1 i2
  | split _ ih => exact .join ih
  | join _ ih => exact .split ih
  | dropEmpty _ ih => exact .addEmpty ih
  | addEmpty _ ih => exact .dropEmpty ih
  | unfold a b _ ih => exact .fold a b ih
  | fold a b _ ih => exact .unfold a b ih
  | replace a b c d _ _ i1 i2 => exact .extract a b c d i1 i2
  | extract a b c d _ _ i1 i2 => exact .replace a b c d i1 i2

theorem refactoredGrammar_symm (h : RefactoredGrammar G G') : RefactoredGrammar G' G :=
  fun r hr r' hr' hn => refactors_symm (h r' hr' r hr (sameName_symm hn))

/-- A part and its rewriting match the same. -/
theorem judges_iff (U : OneMeaning G) (U' : OneMeaning G') (R : RefactoredGrammar G G') {t t' : Task} (h : Refactors G G' t t') (here : Location)
    (rest : Str) (v : Verdict) : Judges G t here rest v ↔ Judges G' t' here rest v :=
  ⟨fun ⟨k, hk⟩ => refactors_judges U U' R k t t' h k (Nat.le_refl k) here rest v hk,
    fun ⟨k, hk⟩ => refactors_judges U' U (refactoredGrammar_symm R) k t' t (refactors_symm h) k (Nat.le_refl k) here rest v hk⟩

end Ebnf
