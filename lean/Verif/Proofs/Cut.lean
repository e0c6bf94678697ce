import Verif.Proofs.Partials
import Verif.Spec.Cut

set_option autoImplicit false

/-! # Grammars that differ in what is written after bare groups (C36) -/

namespace Ebnf

namespace Cut

open Spec

/-- The cut of a task. -/
def cutTask : Task → Task
  | .primary p => .primary (cutPrimary p)
  | .factor f => .factor (cutFactor f)
  | .term t => .term (cutTerm t)
  | .sequence d => .sequence (cutSingle d)
  | .list l => .list (cutList l)
  | .alternatives l => .alternatives (cutList l)
  | .rounds body min max guarded i => .rounds (cutTask body) min max guarded i

theorem bare_cut (t : Term) : IsBareGroup (cutTerm t) ↔ IsBareGroup t := by
  cases t with
  | except f e => simp [cutTerm, IsBareGroup]
  | plain f =>
    cases f with
    | mk n p =>
      rw [cutTerm, cutFactor]
      cases p <;> simp only [cutPrimary] <;> (unfold IsBareGroup; split <;> split <;> simp_all)

theorem bare_of_cut {t t' : Term} (h : cutTerm t = cutTerm t') : IsBareGroup t ↔ IsBareGroup t' := by
  rw [← bare_cut t, h, bare_cut]

section inversion

variable {t' : Task}

theorem inv_optional {loc : Location} {l : DefinitionList} (h : cutTask (.primary (.optional loc l)) = cutTask t') :
    ∃ l', t' = .primary (.optional loc l') ∧ cutList l = cutList l' := by
  cases t' with
  | primary p => cases p <;> simp_all [cutTask, cutPrimary]
  | _ => simp [cutTask] at h

theorem inv_repeated {loc : Location} {l : DefinitionList} (h : cutTask (.primary (.repeated loc l)) = cutTask t') :
    ∃ l', t' = .primary (.repeated loc l') ∧ cutList l = cutList l' := by
  cases t' with
  | primary p => cases p <;> simp_all [cutTask, cutPrimary]
  | _ => simp [cutTask] at h

theorem inv_grouped {loc : Location} {l : DefinitionList} (h : cutTask (.primary (.grouped loc l)) = cutTask t') :
    ∃ l', t' = .primary (.grouped loc l') ∧ cutList l = cutList l' := by
  cases t' with
  | primary p => cases p <;> simp_all [cutTask, cutPrimary]
  | _ => simp [cutTask] at h

theorem inv_empty {loc : Location} (h : cutTask (.primary (.empty loc)) = cutTask t') : t' = .primary (.empty loc) := by
  cases t' with
  | primary p => cases p <;> simp_all [cutTask, cutPrimary]
  | _ => simp [cutTask] at h

theorem inv_terminal {loc : Location} {s : Str} (h : cutTask (.primary (.terminalString loc s)) = cutTask t') :
    t' = .primary (.terminalString loc s) := by
  cases t' with
  | primary p => cases p <;> simp_all [cutTask, cutPrimary]
  | _ => simp [cutTask] at h

theorem inv_special {loc : Location} {s : Str} (h : cutTask (.primary (.specialSequence loc s)) = cutTask t') :
    t' = .primary (.specialSequence loc s) := by
  cases t' with
  | primary p => cases p <;> simp_all [cutTask, cutPrimary]
  | _ => simp [cutTask] at h

theorem inv_reference {loc : Location} {s : Str} (h : cutTask (.primary (.metaIdentifier loc s)) = cutTask t') :
    t' = .primary (.metaIdentifier loc s) := by
  cases t' with
  | primary p => cases p <;> simp_all [cutTask, cutPrimary]
  | _ => simp [cutTask] at h

theorem inv_factor {k : Nat} {p : Primary} (h : cutTask (.factor (.mk k p)) = cutTask t') :
    ∃ p', t' = .factor (.mk k p') ∧ cutPrimary p = cutPrimary p' := by
  cases t' with
  | factor f => cases f; simp_all [cutTask, cutFactor]
  | _ => simp [cutTask] at h

theorem inv_plain {f : Factor} (h : cutTask (.term (.plain f)) = cutTask t') : ∃ f', t' = .term (.plain f') ∧ cutFactor f = cutFactor f' := by
  cases t' with
  | term t => cases t <;> simp_all [cutTask, cutTerm]
  | _ => simp [cutTask] at h

theorem inv_except {f x : Factor} (h : cutTask (.term (.except f x)) = cutTask t') :
    ∃ f' x', t' = .term (.except f' x') ∧ cutFactor f = cutFactor f' ∧ cutFactor x = cutFactor x' := by
  cases t' with
  | term t =>
    cases t with
    | plain f => simp [cutTask, cutTerm] at h
    | except f x => simp only [cutTask, cutTerm, Task.term.injEq, Term.except.injEq] at h; exact ⟨_, _, rfl, h.1, h.2⟩
  | _ => simp [cutTask] at h

theorem inv_nil (h : cutTask (.sequence .nil) = cutTask t') : t' = .sequence .nil := by
  cases t' with
  | sequence d => cases d <;> simp_all [cutTask, cutSingle]
  | _ => simp [cutTask] at h

theorem inv_cons {t : Term} {d : SingleDefinition} (h : cutTask (.sequence (.cons t d)) = cutTask t') :
    ∃ u d', t' = .sequence (.cons u d') ∧ cutTerm t = cutTerm u ∧ (¬ IsBareGroup t → cutSingle d = cutSingle d') := by
  cases t' with
  | sequence d' =>
    cases d' with
    | nil => simp [cutTask, cutSingle] at h
    | cons u d' =>
      simp only [cutTask, cutSingle, Task.sequence.injEq, SingleDefinition.cons.injEq] at h
      refine ⟨u, d', rfl, h.1, fun hb => ?_⟩
      have hb' : ¬ IsBareGroup u := fun hu => hb ((bare_of_cut h.1).mpr hu)
      rw [if_neg hb, if_neg hb'] at h
      exact h.2
  | _ => simp [cutTask] at h

theorem cut_nil {l : DefinitionList} (h : cutList .nil = cutList l) : l = .nil := by
  cases l <;> simp_all [cutList]

theorem cut_cons {d : SingleDefinition} {l m : DefinitionList} (h : cutList (.cons d l) = cutList m) :
    ∃ d' l', m = .cons d' l' ∧ cutSingle d = cutSingle d' ∧ cutList l = cutList l' := by
  cases m with
  | nil => simp [cutList] at h
  | cons d' l' => simp only [cutList, DefinitionList.cons.injEq] at h; exact ⟨_, _, rfl, h.1, h.2⟩

theorem inv_list {l : DefinitionList} (h : cutTask (.list l) = cutTask t') : ∃ l', t' = .list l' ∧ cutList l = cutList l' := by
  cases t' <;> simp_all [cutTask]

theorem inv_alternatives {l : DefinitionList} (h : cutTask (.alternatives l) = cutTask t') :
    ∃ l', t' = .alternatives l' ∧ cutList l = cutList l' := by
  cases t' <;> simp_all [cutTask]

theorem inv_rounds {body : Task} {min : Nat} {max : Option Nat} {guarded : Bool} {i : Nat}
    (h : cutTask (.rounds body min max guarded i) = cutTask t') :
    ∃ body', t' = .rounds body' min max guarded i ∧ cutTask body = cutTask body' := by
  cases t' <;> simp_all [cutTask]

end inversion

/-- Grammars that differ only in what is written after bare groups. -/
structure SameCut (G G' : Language) : Prop where
  rules : G.rules.map cutRule = G'.rules.map cutRule
  special : G.special = G'.special
  specialName : G.specialName = G'.specialName

theorem SameCut.symm {G G' : Language} (H : SameCut G G') : SameCut G' G := ⟨H.rules.symm, H.special.symm, H.specialName.symm⟩

theorem SameCut.find {G G' : Language} (H : SameCut G G') {r : SyntaxRule} (hr : r ∈ G.rules) :
    ∃ r' ∈ G'.rules, cutList r.definitionList = cutList r'.definitionList ∧ r.metaIdentifier = r'.metaIdentifier ∧ r.location = r'.location := by
  have h : cutRule r ∈ G.rules.map cutRule := List.mem_map_of_mem hr
  rw [H.rules] at h
  obtain ⟨r', h1, h2⟩ := List.mem_map.mp h
  simp only [cutRule, SyntaxRule.mk.injEq] at h2
  exact ⟨r', h1, h2.2.2.symm, h2.2.1.symm, h2.1.symm⟩

theorem SameCut.undefined {G G' : Language} (H : SameCut G G') {name : Str} (h : ∀ r ∈ G.rules, ¬ SameName r.metaIdentifier name) :
    ∀ r ∈ G'.rules, ¬ SameName r.metaIdentifier name := by
  intro r hr hn
  obtain ⟨r', h1, _, h2, _⟩ := H.symm.find hr
  rw [h2] at hn
  exact h r' h1 hn

theorem SameCut.forward {G G' : Language} (H : SameCut G G') {name : Str} {task : Task} (h : ForwardTarget G name task) :
    ∃ task', ForwardTarget G' name task' ∧ cutTask task = cutTask task' := by
  cases h with
  | rule hr hn =>
    obtain ⟨r', h1, h2, h3, _⟩ := H.find hr
    rw [h3] at hn
    exact ⟨_, .rule h1 hn, by simp only [cutTask, h2]⟩
  | marked hr hn =>
    obtain ⟨r', h1, _, h3, h4⟩ := H.find hr
    rw [h3] at hn
    exact ⟨_, .marked h1 hn, by rw [h3, h4]⟩

/-- The same outcome, up to the wording of an error. -/
inductive Sim : Outcome → Outcome → Prop
  | ok {evs n} : Sim (.ok evs n) (.ok evs n)
  | fail {e e' : Error} {evs n} : e.location = e'.location → Sim (.fail e evs n) (.fail e' evs n)
  | abort {e} : Sim (.abort e) (.abort e)
  | panic {p} : Sim (.panic p) (.panic p)

theorem Sim.stop {o o' : Outcome} (h : Sim o o') (hs : o.IsStop) : o'.IsStop := by cases h <;> exact hs
theorem Sim.isOk {o o' : Outcome} (h : Sim o o') (hs : ¬ o.IsOk) : ¬ o'.IsOk := by cases h <;> exact hs
theorem Sim.noFail {o o' : Outcome} (h : Sim o o') (hs : ∀ e evs n, o ≠ .fail e evs n) : ∀ e evs n, o' ≠ .fail e evs n := by
  cases h with
  | fail _ => exact absurd rfl (hs _ _ _)
  | _ => intro _ _ _ h; cases h
theorem Sim.after {o o' : Outcome} (h : Sim o o') (evs : List Event) (n : Nat) : Sim (o.after evs n) (o'.after evs n) := by
  cases h <;> first | exact .ok | (rename_i h; exact .fail h) | exact .abort | exact .panic
theorem Sim.afterRound {o o' : Outcome} (h : Sim o o') (evs : List Event) (n : Nat) : Sim (o.afterRound evs n) (o'.afterRound evs n) := by
  cases h <;> first | exact .ok | (rename_i h; exact .fail h) | exact .abort | exact .panic

theorem later_same {e₁ e₂ e₁' e₂' : Error} (h1 : e₁.location = e₁'.location) (h2 : e₂.location = e₂'.location) :
    (laterError e₁ e₂).location = (laterError e₁' e₂').location := by
  unfold laterError
  rw [h1, h2]
  split <;> assumption

theorem simulates {q : Quirks} (hq : q.dropAfterGroup = true) {G G' : Language} (H : SameCut G G') {task : Task} {here : Location} {rest : Str}
    {o : Outcome} (h : Ev q G task here rest o) :
    ∀ task', cutTask task = cutTask task' → ∃ o', Ev q G' task' here rest o' ∧ Sim o o' := by
  induction h with
  | optional _ ih =>
    intro t' ht
    obtain ⟨l', rfl, hl⟩ := inv_optional ht
    obtain ⟨o', h1, h2⟩ := ih (.rounds (.list l') 0 (some 1) false 0) (by simp only [cutTask, hl])
    exact ⟨o', .optional h1, h2⟩
  | repeated _ ih =>
    intro t' ht
    obtain ⟨l', rfl, hl⟩ := inv_repeated ht
    obtain ⟨o', h1, h2⟩ := ih (.rounds (.list l') 0 q.roundLimit true 0) (by simp only [cutTask, hl])
    exact ⟨o', .repeated h1, h2⟩
  | grouped _ ih =>
    intro t' ht
    obtain ⟨l', rfl, hl⟩ := inv_grouped ht
    obtain ⟨o', h1, h2⟩ := ih (.list l') (by simp only [cutTask, hl])
    exact ⟨o', .grouped h1, h2⟩
  | empty => intro t' ht; rw [inv_empty ht]; exact ⟨_, .empty, .ok⟩
  | terminal hp => intro t' ht; rw [inv_terminal ht]; exact ⟨_, .terminal hp, .ok⟩
  | terminalFail hp => intro t' ht; rw [inv_terminal ht]; exact ⟨_, .terminalFail hp, .fail rfl⟩
  | reference hr hs _ ih =>
    intro t' ht
    rw [inv_reference ht]
    obtain ⟨r', h1, h2, h3, _⟩ := H.find hr
    obtain ⟨o', h4, h5⟩ := ih (.list r'.definitionList) (by simp only [cutTask, h2])
    cases h5
    rw [h3] at hs ⊢
    exact ⟨_, .reference h1 hs h4, .ok⟩
  | referenceFail hr hs _ ih =>
    intro t' ht
    rw [inv_reference ht]
    obtain ⟨r', h1, h2, h3, _⟩ := H.find hr
    obtain ⟨o', h4, h5⟩ := ih (.list r'.definitionList) (by simp only [cutTask, h2])
    rw [h3] at hs
    cases h5 with
    | fail h5 => exact ⟨_, .referenceFail h1 hs h4, .fail h5⟩
  | referenceStop hr hs _ ho ih =>
    intro t' ht
    rw [inv_reference ht]
    obtain ⟨r', h1, h2, h3, _⟩ := H.find hr
    obtain ⟨o', h4, h5⟩ := ih (.list r'.definitionList) (by simp only [cutTask, h2])
    rw [h3] at hs
    exact ⟨_, .referenceStop h1 hs h4 (h5.stop ho), h5⟩
  | referenceUndefined hu => intro t' ht; rw [inv_reference ht]; exact ⟨_, .referenceUndefined (H.undefined hu), .panic⟩
  | special hs => intro t' ht; rw [inv_special ht]; rw [H.special] at hs; exact ⟨_, .special hs, .ok⟩
  | specialFail hs => intro t' ht; rw [inv_special ht]; rw [H.special] at hs; exact ⟨_, .specialFail hs, .fail rfl⟩
  | specialError hs => intro t' ht; rw [inv_special ht]; rw [H.special] at hs; exact ⟨_, .specialError hs, .abort⟩
  | forward hs hf _ ih =>
    intro t' ht
    rw [inv_special ht]; rw [H.special] at hs
    obtain ⟨task', h1, h2⟩ := H.forward hf
    obtain ⟨o', h3, h4⟩ := ih task' h2
    cases h4
    exact ⟨_, .forward hs h1 h3, .ok⟩
  | forwardFail hs hf _ hi ih =>
    intro t' ht
    rw [inv_special ht]; rw [H.special] at hs
    obtain ⟨task', h1, h2⟩ := H.forward hf
    obtain ⟨o', h3, h4⟩ := ih task' h2
    cases h4 with
    | fail h4 => exact ⟨_, .forwardFail hs h1 h3 hi, .fail h4⟩
  | forwardIgnored hs hf _ hi ih =>
    intro t' ht
    rw [inv_special ht]; rw [H.special] at hs
    obtain ⟨task', h1, h2⟩ := H.forward hf
    obtain ⟨o', h3, h4⟩ := ih task' h2
    cases h4 with
    | fail h4 => exact ⟨_, .forwardIgnored hs h1 h3 hi, .ok⟩
  | forwardStop hs hf _ ho ih =>
    intro t' ht
    rw [inv_special ht]; rw [H.special] at hs
    obtain ⟨task', h1, h2⟩ := H.forward hf
    obtain ⟨o', h3, h4⟩ := ih task' h2
    exact ⟨_, .forwardStop hs h1 h3 (h4.stop ho), h4⟩
  | forwardUndefined hs hf =>
    intro t' ht
    rw [inv_special ht]; rw [H.special] at hs; rw [H.specialName]
    refine ⟨_, .forwardUndefined hs fun task h => ?_, .abort⟩
    obtain ⟨task', h1, _⟩ := H.symm.forward h
    exact hf _ h1
  | once _ ih =>
    intro t' ht
    obtain ⟨p', rfl, hp⟩ := inv_factor ht
    obtain ⟨o', h1, h2⟩ := ih (.primary p') (by simp only [cutTask, hp])
    exact ⟨o', .once h1, h2⟩
  | @counted k p here rest o hk _ ih =>
    intro t' ht
    obtain ⟨p', rfl, hp⟩ := inv_factor ht
    obtain ⟨o', h1, h2⟩ := ih (.rounds (.primary p') k (some k) (decide (q.roundLimit = some k)) 0) (by simp only [cutTask, hp])
    exact ⟨o', .counted hk h1, h2⟩
  | plain _ ih =>
    intro t' ht
    obtain ⟨f', rfl, hf⟩ := inv_plain ht
    obtain ⟨o', h1, h2⟩ := ih (.factor f') (by simp only [cutTask, hf])
    exact ⟨o', .plain h1, h2⟩
  | exceptFail _ ih =>
    intro t' ht
    obtain ⟨f', x', rfl, hf, hx⟩ := inv_except ht
    obtain ⟨o', h1, h2⟩ := ih (.factor f') (by simp only [cutTask, hf])
    cases h2 with
    | fail h2 => exact ⟨_, .exceptFail h1, .fail h2⟩
  | exceptStop _ ho ih =>
    intro t' ht
    obtain ⟨f', x', rfl, hf, hx⟩ := inv_except ht
    obtain ⟨o', h1, h2⟩ := ih (.factor f') (by simp only [cutTask, hf])
    exact ⟨_, .exceptStop h1 (h2.stop ho), h2⟩
  | excluded _ _ ih1 ih2 =>
    intro t' ht
    obtain ⟨f', x', rfl, hf, hx⟩ := inv_except ht
    obtain ⟨o', h1, h2⟩ := ih1 (.factor f') (by simp only [cutTask, hf])
    obtain ⟨o'', h3, h4⟩ := ih2 (.factor x') (by simp only [cutTask, hx])
    cases h2; cases h4
    exact ⟨_, .excluded h1 h3, .fail rfl⟩
  | notExcluded _ _ hne ih1 ih2 =>
    intro t' ht
    obtain ⟨f', x', rfl, hf, hx⟩ := inv_except ht
    obtain ⟨o', h1, h2⟩ := ih1 (.factor f') (by simp only [cutTask, hf])
    obtain ⟨o'', h3, h4⟩ := ih2 (.factor x') (by simp only [cutTask, hx])
    cases h2; cases h4
    exact ⟨_, .notExcluded h1 h3 hne, .ok⟩
  | notExcludedFail _ _ ih1 ih2 =>
    intro t' ht
    obtain ⟨f', x', rfl, hf, hx⟩ := inv_except ht
    obtain ⟨o', h1, h2⟩ := ih1 (.factor f') (by simp only [cutTask, hf])
    obtain ⟨o'', h3, h4⟩ := ih2 (.factor x') (by simp only [cutTask, hx])
    cases h2
    cases h4 with
    | fail h4 => exact ⟨_, .notExcludedFail h1 h3, .ok⟩
  | excludedStop _ _ ho ih1 ih2 =>
    intro t' ht
    obtain ⟨f', x', rfl, hf, hx⟩ := inv_except ht
    obtain ⟨o', h1, h2⟩ := ih1 (.factor f') (by simp only [cutTask, hf])
    obtain ⟨o'', h3, h4⟩ := ih2 (.factor x') (by simp only [cutTask, hx])
    cases h2
    exact ⟨_, .excludedStop h1 h3 (h4.stop ho), h4⟩
  | done => intro t' ht; rw [inv_nil ht]; exact ⟨_, .done, .ok⟩
  | next hb _ _ ih1 ih2 =>
    intro t' ht
    obtain ⟨u, d', rfl, hu, hd⟩ := inv_cons ht
    have hb' := fun hb' => hb ⟨hq, hb'⟩
    obtain ⟨o', h1, h2⟩ := ih1 (.term u) (by simp only [cutTask, hu])
    obtain ⟨o'', h3, h4⟩ := ih2 (.sequence d') (by simp only [cutTask, hd hb'])
    cases h2
    exact ⟨_, .next (fun h => hb' ((bare_of_cut hu).mpr h.2)) h1 h3, h4.after _ _⟩
  | dropped _ hb _ ih =>
    intro t' ht
    obtain ⟨u, d', rfl, hu, _⟩ := inv_cons ht
    obtain ⟨o', h1, h2⟩ := ih (.term u) (by simp only [cutTask, hu])
    cases h2
    exact ⟨_, .dropped hq ((bare_of_cut hu).mp hb) h1, .ok⟩
  | nextFail _ ho ih =>
    intro t' ht
    obtain ⟨u, d', rfl, hu, _⟩ := inv_cons ht
    obtain ⟨o', h1, h2⟩ := ih (.term u) (by simp only [cutTask, hu])
    exact ⟨_, .nextFail h1 (h2.isOk ho), h2⟩
  | single _ ih =>
    intro t' ht
    obtain ⟨l', rfl, hl⟩ := inv_list ht
    obtain ⟨d', l'', rfl, hd, hl⟩ := cut_cons hl
    rw [cut_nil hl]
    obtain ⟨o', h1, h2⟩ := ih (.sequence d') (by simp only [cutTask, hd])
    exact ⟨o', .single h1, h2⟩
  | choice _ ho ih =>
    intro t' ht
    obtain ⟨l', rfl, hl⟩ := inv_list ht
    obtain ⟨o', h1, h2⟩ := ih (.alternatives l') (by simp only [cutTask, hl])
    obtain ⟨d', l'', rfl, hd, hl⟩ := cut_cons hl
    obtain ⟨d'', l''', rfl, hd', hl⟩ := cut_cons hl
    exact ⟨o', .choice h1 (h2.noFail ho), h2⟩
  | choiceFail _ ih =>
    intro t' ht
    obtain ⟨l', rfl, hl⟩ := inv_list ht
    obtain ⟨o', h1, h2⟩ := ih (.alternatives l') (by simp only [cutTask, hl])
    obtain ⟨d', l'', rfl, hd, hl⟩ := cut_cons hl
    obtain ⟨d'', l''', rfl, hd', hl⟩ := cut_cons hl
    cases h2 with
    | fail h2 =>
      refine ⟨_, .choiceFail h1, .fail ?_⟩
      rw [h2]
      split
      · rfl
      · exact h2
  | first _ ho ih =>
    intro t' ht
    obtain ⟨l', rfl, hl⟩ := inv_alternatives ht
    obtain ⟨d', l'', rfl, hd, hl⟩ := cut_cons hl
    obtain ⟨o', h1, h2⟩ := ih (.sequence d') (by simp only [cutTask, hd])
    exact ⟨o', .first h1 (h2.noFail ho), h2⟩
  | last _ ih =>
    intro t' ht
    obtain ⟨l', rfl, hl⟩ := inv_alternatives ht
    obtain ⟨d', l'', rfl, hd, hl⟩ := cut_cons hl
    rw [cut_nil hl]
    obtain ⟨o', h1, h2⟩ := ih (.sequence d') (by simp only [cutTask, hd])
    cases h2 with
    | fail h2 => exact ⟨_, .last h1, .fail h2⟩
  | other _ _ ho ih1 ih2 =>
    intro t' ht
    obtain ⟨l', rfl, hl⟩ := inv_alternatives ht
    obtain ⟨d', l'', rfl, hd, hl⟩ := cut_cons hl
    obtain ⟨o', h1, h2⟩ := ih1 (.sequence d') (by simp only [cutTask, hd])
    obtain ⟨o'', h3, h4⟩ := ih2 (.alternatives l'') (by simp only [cutTask, hl])
    obtain ⟨d'', l''', rfl, hd', hl⟩ := cut_cons hl
    cases h2 with
    | fail h2 => exact ⟨_, .other h1 h3 (h4.noFail ho), h4⟩
  | otherFail _ _ ih1 ih2 =>
    intro t' ht
    obtain ⟨l', rfl, hl⟩ := inv_alternatives ht
    obtain ⟨d', l'', rfl, hd, hl⟩ := cut_cons hl
    obtain ⟨o', h1, h2⟩ := ih1 (.sequence d') (by simp only [cutTask, hd])
    obtain ⟨o'', h3, h4⟩ := ih2 (.alternatives l'') (by simp only [cutTask, hl])
    obtain ⟨d'', l''', rfl, hd', hl⟩ := cut_cons hl
    cases h2 with
    | fail h2 =>
      cases h4 with
      | fail h4 => exact ⟨_, .otherFail h1 h3, .fail (later_same h2 h4)⟩
  | enough hm =>
    intro t' ht
    obtain ⟨b', rfl, hb⟩ := inv_rounds ht
    exact ⟨_, .enough hm, .ok⟩
  | @round body min max guarded i here rest evs n o hm hg _ _ ih1 ih2 =>
    intro t' ht
    obtain ⟨b', rfl, hb⟩ := inv_rounds ht
    obtain ⟨o', h1, h2⟩ := ih1 b' hb
    obtain ⟨o'', h3, h4⟩ := ih2 (.rounds b' min max guarded (i + 1)) (by simp only [cutTask, hb])
    cases h2
    exact ⟨_, .round hm hg h1 h3, h4.afterRound _ _⟩
  | livelock hm _ ih =>
    intro t' ht
    obtain ⟨b', rfl, hb⟩ := inv_rounds ht
    obtain ⟨o', h1, h2⟩ := ih b' hb
    cases h2
    exact ⟨_, .livelock hm h1, .abort⟩
  | lastRound hm hi _ ih =>
    intro t' ht
    obtain ⟨b', rfl, hb⟩ := inv_rounds ht
    obtain ⟨o', h1, h2⟩ := ih b' hb
    cases h2 with
    | fail h2 => exact ⟨_, .lastRound hm hi h1, .ok⟩
  | tooFew hm hi _ ih =>
    intro t' ht
    obtain ⟨b', rfl, hb⟩ := inv_rounds ht
    obtain ⟨o', h1, h2⟩ := ih b' hb
    cases h2 with
    | fail h2 => exact ⟨_, .tooFew hm hi h1, .fail h2⟩
  | roundStop hm _ ho ih =>
    intro t' ht
    obtain ⟨b', rfl, hb⟩ := inv_rounds ht
    obtain ⟨o', h1, h2⟩ := ih b' hb
    exact ⟨_, .roundStop hm h1 (h2.stop ho), h2⟩

/-- A parse of the one is a parse of the other. -/
theorem parses_same {q : Quirks} (hq : q.dropAfterGroup = true) {G G' : Language} (H : SameCut G G') {start start' : SyntaxRule}
    (hs : cutRule start = cutRule start') {here : Location} {text : Str} {x : Res (List Event)} (h : Parses q G start here text x) :
    ∃ x', Parses q G' start' here text x' ∧ SameButWording x x' := by
  simp only [cutRule, SyntaxRule.mk.injEq] at hs
  have S := fun {o} (h : Ev q G (.primary (.metaIdentifier start.location start.metaIdentifier)) here text o) =>
    simulates hq H h (.primary (.metaIdentifier start'.location start'.metaIdentifier)) (by rw [hs.1, hs.2.1])
  cases h with
  | accepted h1 h2 =>
    obtain ⟨_, h3, h4⟩ := S h1
    cases h4
    exact ⟨_, .accepted h3 h2, .accepted⟩
  | leftover h1 h2 =>
    obtain ⟨_, h3, h4⟩ := S h1
    cases h4
    exact ⟨_, .leftover h3 h2, .error rfl⟩
  | rejected h1 =>
    obtain ⟨_, h3, h4⟩ := S h1
    cases h4 with
    | fail h4 => exact ⟨_, .rejected h3, .error h4⟩
  | aborted h1 =>
    obtain ⟨_, h3, h4⟩ := S h1
    cases h4
    exact ⟨_, .aborted h3, .error rfl⟩
  | crashed h1 =>
    obtain ⟨_, h3, h4⟩ := S h1
    cases h4
    exact ⟨_, .crashed h3, .crash⟩

/-! ## The cut grammar -/

mutual
theorem cutPrimary_twice : ∀ p : Primary, cutPrimary (cutPrimary p) = cutPrimary p
  | .optional loc l => by rw [cutPrimary, cutPrimary, cutList_twice l]
  | .repeated loc l => by rw [cutPrimary, cutPrimary, cutList_twice l]
  | .grouped loc l => by rw [cutPrimary, cutPrimary, cutList_twice l]
  | .metaIdentifier _ _ => by simp only [cutPrimary]
  | .terminalString _ _ => by simp only [cutPrimary]
  | .specialSequence _ _ => by simp only [cutPrimary]
  | .empty _ => by simp only [cutPrimary]
theorem cutFactor_twice : ∀ f : Factor, cutFactor (cutFactor f) = cutFactor f
  | .mk n p => by rw [cutFactor, cutFactor, cutPrimary_twice p]
theorem cutTerm_twice : ∀ t : Term, cutTerm (cutTerm t) = cutTerm t
  | .plain f => by rw [cutTerm, cutTerm, cutFactor_twice f]
  | .except f e => by rw [cutTerm, cutTerm, cutFactor_twice f, cutFactor_twice e]
theorem cutSingle_twice : ∀ d : SingleDefinition, cutSingle (cutSingle d) = cutSingle d
  | .nil => by simp only [cutSingle]
  | .cons t d => by
    rw [cutSingle, cutSingle, cutTerm_twice t]
    by_cases h : IsBareGroup t
    · rw [if_pos h, if_pos ((bare_cut t).mpr h)]
    · rw [if_neg h, if_neg (fun h' => h ((bare_cut t).mp h')), cutSingle_twice d]
theorem cutList_twice : ∀ l : DefinitionList, cutList (cutList l) = cutList l
  | .nil => by simp only [cutList]
  | .cons d l => by rw [cutList, cutList, cutSingle_twice d, cutList_twice l]
end

theorem cutRule_twice (r : SyntaxRule) : cutRule (cutRule r) = cutRule r := by
  simp only [cutRule, cutList_twice]

theorem sameCut (G : Language) : SameCut G (cutLanguage G) := by
  refine ⟨?_, rfl, rfl⟩
  simp only [cutLanguage, List.map_map]
  exact List.map_congr_left fun r _ => (cutRule_twice r).symm

theorem cutList_ne {l : DefinitionList} (h : l ≠ .nil) : cutList l ≠ .nil := by
  cases l with
  | nil => exact absurd rfl h
  | cons d l => rw [cutList]; intro h; cases h

mutual
theorem shape_primary : ∀ {p : Primary}, PrimaryShape p → PrimaryShape (cutPrimary p)
  | .optional loc l, h => by
    simp only [PrimaryShape, cutPrimary] at h ⊢; exact ⟨cutList_ne h.1, shape_list h.2⟩
  | .repeated loc l, h => by
    simp only [PrimaryShape, cutPrimary] at h ⊢; exact ⟨cutList_ne h.1, shape_list h.2⟩
  | .grouped loc l, h => by
    simp only [PrimaryShape, cutPrimary] at h ⊢; exact ⟨cutList_ne h.1, shape_list h.2⟩
  | .metaIdentifier _ _, h => by rw [cutPrimary]; exact h
  | .terminalString _ _, h => by rw [cutPrimary]; exact h
  | .specialSequence _ _, h => by rw [cutPrimary]; exact h
  | .empty _, h => by rw [cutPrimary]; exact h
theorem shape_factor : ∀ {f : Factor}, FactorShape f → FactorShape (cutFactor f)
  | .mk n p, h => by
    simp only [FactorShape, cutFactor] at h ⊢; exact ⟨h.1, shape_primary h.2⟩
theorem shape_term : ∀ {t : Term}, TermShape t → TermShape (cutTerm t)
  | .plain f, h => by simp only [TermShape, cutTerm] at h ⊢; exact shape_factor h
  | .except f e, h => by simp only [TermShape, cutTerm] at h ⊢; exact ⟨shape_factor h.1, shape_factor h.2⟩
theorem shape_single : ∀ {d : SingleDefinition}, SingleShape d → SingleShape (cutSingle d)
  | .nil, h => by rw [cutSingle]; exact h
  | .cons t d, h => by
    simp only [SingleShape, cutSingle] at h ⊢
    refine ⟨shape_term h.1, ?_⟩
    split
    · simp only [SingleShape]
    · exact shape_single h.2
theorem shape_list : ∀ {l : DefinitionList}, ListShape l → ListShape (cutList l)
  | .nil, h => by rw [cutList]; exact h
  | .cons d l, h => by
    simp only [ListShape, cutList] at h ⊢
    refine ⟨?_, shape_single h.2.1, shape_list h.2.2⟩
    cases d with
    | nil => exact absurd rfl h.1
    | cons t d => rw [cutSingle]; intro h; cases h
end

theorem shape_rule {r : SyntaxRule} (h : RuleShape r) : RuleShape (cutRule r) :=
  ⟨h.1, cutList_ne h.2.1, shape_list h.2.2⟩

theorem name_of_cut {p : Primary} {l : Location} {n : Str} (h : .metaIdentifier l n = cutPrimary p) : p = .metaIdentifier l n := by
  cases p <;> simp_all [cutPrimary]

theorem top_term {t : Term} {l : Location} {n : Str} (h : Primary.metaIdentifier l n ∈ topOfTerm (cutTerm t)) :
    Primary.metaIdentifier l n ∈ topOfTerm t := by
  cases t with
  | plain f =>
    cases f
    simp only [cutTerm, cutFactor, topOfTerm, Factor.primary, List.mem_singleton] at h ⊢
    exact (name_of_cut h).symm
  | except f e =>
    cases f; cases e
    simp only [cutTerm, cutFactor, topOfTerm, Factor.primary, List.mem_cons, List.not_mem_nil, or_false] at h ⊢
    exact h.imp (fun h => (name_of_cut h).symm) (fun h => (name_of_cut h).symm)

theorem top_single {l : Location} {n : Str} : ∀ {d : SingleDefinition}, Primary.metaIdentifier l n ∈ topOfSingle (cutSingle d) →
    Primary.metaIdentifier l n ∈ topOfSingle d
  | .nil, h => by rw [cutSingle] at h; exact h
  | .cons t d, h => by
    simp only [cutSingle, topOfSingle, List.mem_append] at h ⊢
    refine h.imp top_term fun h => ?_
    split at h
    · simp [topOfSingle] at h
    · exact top_single h

theorem top_list {l : Location} {n : Str} : ∀ {d : DefinitionList}, Primary.metaIdentifier l n ∈ topOfList (cutList d) →
    Primary.metaIdentifier l n ∈ topOfList d
  | .nil, h => by rw [cutList] at h; exact h
  | .cons t d, h => by
    simp only [cutList, topOfList, List.mem_append] at h ⊢
    exact h.imp top_single top_list

theorem defines_cut {rs : List SyntaxRule} {n : Str} (h : Defines rs n) : Defines (rs.map cutRule) n := by
  obtain ⟨r, h1, h2⟩ := h
  exact ⟨cutRule r, List.mem_map_of_mem h1, h2⟩

theorem new_cut {rs : List SyntaxRule} {s : Syntax} (h : Syntax.new rs = .ok s) : ∃ s', Syntax.new (rs.map cutRule) = .ok s' := by
  obtain ⟨_, _, h1, h2, h3⟩ := new_ok h
  have hn : NormalNames (rs.map cutRule) := by
    intro r hr
    obtain ⟨r0, h4, rfl⟩ := List.mem_map.mp hr
    exact h1 r0 h4
  rcases new_cases _ hn with ⟨s', h4, _⟩ | ⟨pre, l, n, post, h4, _, h5, _⟩ | ⟨a, b, _, _, ⟨h4, ra, rb, h5, h6, h7⟩, _⟩
  · exact ⟨s', h4⟩
  · have hm : Primary.metaIdentifier l n ∈ (rs.map cutRule).flatMap (fun r => topOfList r.definitionList) := by rw [h4]; simp
    obtain ⟨r, h6, h7⟩ := List.mem_flatMap.mp hm
    obtain ⟨r0, h8, rfl⟩ := List.mem_map.mp h6
    exact absurd (defines_cut (h3 r0 h8 l n (top_list h7))) h5
  · rw [List.getElem?_map] at h5 h6
    cases ha : rs[a]? with
    | none => rw [ha] at h5; cases h5
    | some ra' =>
      cases hb : rs[b]? with
      | none => rw [hb] at h6; cases h6
      | some rb' =>
        rw [ha] at h5; rw [hb] at h6
        injection h5 with h5
        injection h6 with h6
        subst h5 h6
        exact absurd ⟨h4, _, _, ha, hb, h7⟩ (h2 a b)

/-- The cut grammar has a parser as well. -/
theorem parser_cut {dbg : Bool} {G : Language} {start : SyntaxRule} {m : Machine} (hp : ParserFor dbg G start m) :
    ∃ m', ParserFor dbg (cutLanguage G) (cutRule start) m' := by
  obtain ⟨⟨s, config, g, query, h1, h2, _⟩, h3, h4⟩ := hp
  obtain ⟨s', h5⟩ := new_cut h1
  obtain ⟨_, m', _, _, h6⟩ := machine_new (G := cutLanguage G) h5 (fun l s => h2 l s) (by
    intro r hr
    obtain ⟨r0, h7, rfl⟩ := List.mem_map.mp hr
    exact shape_rule (h3 r0 h7)) (List.mem_map_of_mem h4)
  exact ⟨m', h6⟩

section everywhere

variable {K K' : Local} (hc : ∀ n, K.count n → K'.count n) (hp : ∀ p, K.primary p → K'.primary (cutPrimary p))
  (hf : ∀ t d, (IsBareGroup t → d = .nil) → K'.follows t d)

include hc hp hf

mutual
theorem every_primary : ∀ {p : Primary}, EveryPrimary K p → EveryPrimary K' (cutPrimary p)
  | .optional loc l, h => by
    simp only [EveryPrimary] at h
    have := hp _ h.1
    simp only [EveryPrimary, cutPrimary] at this ⊢; exact ⟨this, every_list h.2⟩
  | .repeated loc l, h => by
    simp only [EveryPrimary] at h
    have := hp _ h.1
    simp only [EveryPrimary, cutPrimary] at this ⊢; exact ⟨this, every_list h.2⟩
  | .grouped loc l, h => by
    simp only [EveryPrimary] at h
    have := hp _ h.1
    simp only [EveryPrimary, cutPrimary] at this ⊢; exact ⟨this, every_list h.2⟩
  | .metaIdentifier _ _, h => by simpa only [EveryPrimary, cutPrimary] using hp _ h
  | .terminalString _ _, h => by simpa only [EveryPrimary, cutPrimary] using hp _ h
  | .specialSequence _ _, h => by simpa only [EveryPrimary, cutPrimary] using hp _ h
  | .empty _, h => by simpa only [EveryPrimary, cutPrimary] using hp _ h
theorem every_factor : ∀ {f : Factor}, EveryFactor K f → EveryFactor K' (cutFactor f)
  | .mk n p, h => by simp only [EveryFactor, cutFactor] at h ⊢; exact ⟨hc _ h.1, every_primary h.2⟩
theorem every_term : ∀ {t : Term}, EveryTerm K t → EveryTerm K' (cutTerm t)
  | .plain f, h => by simp only [EveryTerm, cutTerm] at h ⊢; exact every_factor h
  | .except f e, h => by simp only [EveryTerm, cutTerm] at h ⊢; exact ⟨every_factor h.1, every_factor h.2⟩
theorem every_single : ∀ {d : SingleDefinition}, EverySingle K d → EverySingle K' (cutSingle d)
  | .nil, _ => by simp only [cutSingle, EverySingle]
  | .cons t d, h => by
    simp only [EverySingle, cutSingle] at h ⊢
    refine ⟨hf _ _ fun hb => ?_, every_term h.2.1, ?_⟩
    · rw [if_pos ((bare_cut t).mp hb)]
    · split
      · simp only [EverySingle]
      · exact every_single h.2.2
theorem every_list : ∀ {l : DefinitionList}, EveryList K l → EveryList K' (cutList l)
  | .nil, _ => by simp only [cutList, EveryList]
  | .cons d l, h => by simp only [EveryList, cutList] at h ⊢; exact ⟨every_single h.1, every_list h.2⟩
end

theorem every_cut {G : Language} (h : Everywhere K G) : Everywhere K' (cutLanguage G) := by
  intro r hr
  obtain ⟨r0, h1, rfl⟩ := List.mem_map.mp hr
  exact every_list hc hp hf (h r0 h1)

end everywhere

mutual
theorem cut_primary_same : ∀ {p : Primary}, EveryPrimary groupsLast p → cutPrimary p = p
  | .optional loc l, h => by simp only [EveryPrimary] at h; rw [cutPrimary, cut_same h.2]
  | .repeated loc l, h => by simp only [EveryPrimary] at h; rw [cutPrimary, cut_same h.2]
  | .grouped loc l, h => by simp only [EveryPrimary] at h; rw [cutPrimary, cut_same h.2]
  | .metaIdentifier _ _, _ => by rw [cutPrimary]
  | .terminalString _ _, _ => by rw [cutPrimary]
  | .specialSequence _ _, _ => by rw [cutPrimary]
  | .empty _, _ => by rw [cutPrimary]
theorem cut_factor_same : ∀ {f : Factor}, EveryFactor groupsLast f → cutFactor f = f
  | .mk n p, h => by simp only [EveryFactor] at h; rw [cutFactor, cut_primary_same h.2]
theorem cut_term_same : ∀ {t : Term}, EveryTerm groupsLast t → cutTerm t = t
  | .plain f, h => by simp only [EveryTerm] at h; rw [cutTerm, cut_factor_same h]
  | .except f e, h => by simp only [EveryTerm] at h; rw [cutTerm, cut_factor_same h.1, cut_factor_same h.2]
theorem cut_single_same : ∀ {d : SingleDefinition}, EverySingle groupsLast d → cutSingle d = d
  | .nil, _ => by rw [cutSingle]
  | .cons t d, h => by
    simp only [EverySingle] at h
    rw [cutSingle, cut_term_same h.2.1]
    by_cases hb : IsBareGroup t
    · rw [if_pos hb, h.1 hb]
    · rw [if_neg hb, cut_single_same h.2.2]
theorem cut_same : ∀ {l : DefinitionList}, EveryList groupsLast l → cutList l = l
  | .nil, _ => by rw [cutList]
  | .cons d l, h => by simp only [EveryList] at h; rw [cutList, cut_single_same h.1, cut_same h.2]
end

mutual
theorem always_primary : ∀ p : Primary, EveryPrimary {} p
  | .optional loc l => by simp only [EveryPrimary]; exact ⟨trivial, always_list l⟩
  | .repeated loc l => by simp only [EveryPrimary]; exact ⟨trivial, always_list l⟩
  | .grouped loc l => by simp only [EveryPrimary]; exact ⟨trivial, always_list l⟩
  | .metaIdentifier _ _ | .terminalString _ _ | .specialSequence _ _ | .empty _ => by simp only [EveryPrimary]
theorem always_factor : ∀ f : Factor, EveryFactor {} f
  | .mk n p => by simp only [EveryFactor]; exact ⟨trivial, always_primary p⟩
theorem always_term : ∀ t : Term, EveryTerm {} t
  | .plain f => by simp only [EveryTerm]; exact always_factor f
  | .except f e => by simp only [EveryTerm]; exact ⟨always_factor f, always_factor e⟩
theorem always_single : ∀ d : SingleDefinition, EverySingle {} d
  | .nil => by simp only [EverySingle]
  | .cons t d => by simp only [EverySingle]; exact ⟨trivial, always_term t, always_single d⟩
theorem always_list : ∀ l : DefinitionList, EveryList {} l
  | .nil => by simp only [EveryList]
  | .cons d l => by simp only [EveryList]; exact ⟨always_single d, always_list l⟩
end

theorem cut_last (G : Language) : Everywhere groupsLast (cutLanguage G) :=
  every_cut (K := {}) (K' := groupsLast) (fun _ h => h) (fun _ h => h) (fun _ _ h => h) fun r _ => always_list r.definitionList

theorem cut_tidy {G : Language} (h : Everywhere (unforwarded G) G) : Everywhere (mostlyTidy (cutLanguage G)) (cutLanguage G) := by
  refine every_cut (K := unforwarded G) (K' := mostlyTidy (cutLanguage G)) (fun _ h => h) (fun p h => ?_) (fun _ _ h => h) h
  intro l s hs
  refine h l s ?_
  cases p <;> simp_all [cutPrimary]

end Cut

end Ebnf
