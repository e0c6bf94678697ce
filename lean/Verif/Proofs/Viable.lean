import Verif.Proofs.Derivation
import Verif.Proofs.Errors

set_option autoImplicit false

/-! # What lies before an error may begin a text of the language -/

namespace Ebnf

open Spec

theorem derives_count {G : Language} {p : Primary} (h : ∃ w, Derives G (.primary p) w) : ∀ k, ∃ w, Derives G (.factor (.mk k p)) w
  | 0 => ⟨[], .never⟩
  | k + 1 => by
    obtain ⟨w, hw⟩ := h
    obtain ⟨w', hw'⟩ := derives_count ⟨w, hw⟩ k
    exact ⟨_, .again hw hw'⟩

theorem every_primary {K : Local} {p : Primary} (h : EveryPrimary K p) : K.primary p := by
  cases p <;> first | exact h | exact h.1

theorem productive_term {G : Language} {t : Term} (h : EveryTerm (productive G) t) : ∃ w, Derives G (.term t) w := by
  cases t with
  | plain f =>
    obtain ⟨k, p⟩ := f
    obtain ⟨w, hw⟩ := derives_count (every_primary h.2) k
    exact ⟨w, .plain hw⟩
  | except f x =>
    obtain ⟨k, p⟩ := f
    obtain ⟨w, hw⟩ := derives_count (every_primary h.1.2) k
    exact ⟨w, .except hw⟩

theorem productive_single {G : Language} : ∀ d : SingleDefinition, EverySingle (productive G) d → ∃ w, Derives G (.sequence d) w
  | .nil, _ => ⟨[], .done⟩
  | .cons t d, h => by
    obtain ⟨w, hw⟩ := productive_term h.2.1
    obtain ⟨w', hw'⟩ := productive_single d h.2.2
    exact ⟨_, .next hw hw'⟩

/-- Some text the task derives begins with `pre`. -/
def LeadsTo (G : Language) : Task → Str → Prop
  | .alternatives l, pre => ∃ w, Derives G (.list l) (pre ++ w)
  | .rounds body _ max _ i, pre => ∃ (ws : List Str) (w : Str), (∀ x ∈ ws, Derives G body x) ∧ ws.flatten = pre ++ w ∧
      ∀ m, max = some m → i ≤ m → i + ws.length ≤ m
  | task, pre => ∃ w, Derives G task (pre ++ w)

/-- The error is that of a scanner, or at a place before which everything is the beginning of what the task derives. -/
def Reached (G : Language) (task : Task) (here : Location) (rest : Str) (o : Outcome) : Prop :=
  ∀ e, errorOf o = some e → (∃ l s d here rest, G.special l s d here rest = .error e) ∨
    ∃ pre post, rest = pre ++ post ∧ e.location = lineColumn here pre ∧ LeadsTo G task pre

theorem leadsTo_body {G : Language} {body : Task} {pre : Str} (hb : (∃ l, body = .list l) ∨ ∃ p, body = .primary p)
    (h : LeadsTo G body pre) : ∃ w, Derives G body (pre ++ w) := by
  rcases hb with ⟨l, rfl⟩ | ⟨p, rfl⟩ <;> exact h

theorem reached_map {G : Language} {task task' : Task} {here : Location} {rest : Str} {o o' : Outcome} (he : errorOf o' = errorOf o)
    (hl : ∀ pre, LeadsTo G task pre → LeadsTo G task' pre) (h : Reached G task here rest o) : Reached G task' here rest o' := by
  intro e h1
  rcases h e (he ▸ h1) with h | ⟨pre, post, h2, h3, h4⟩
  · exact .inl h
  · exact .inr ⟨pre, post, h2, h3, hl _ h4⟩

theorem reached_drop {G : Language} {task task' : Task} {here : Location} {rest : Str} {n : Nat} {o o' : Outcome}
    (he : errorOf o' = errorOf o) (hl : ∀ pre, LeadsTo G task pre → LeadsTo G task' (rest.take n ++ pre))
    (h : Reached G task (lineColumn here (rest.take n)) (rest.drop n) o) : Reached G task' here rest o' := by
  intro e h1
  rcases h e (he ▸ h1) with h | ⟨pre, post, h2, h3, h4⟩
  · exact .inl h
  · refine .inr ⟨rest.take n ++ pre, post, ?_, ?_, hl _ h4⟩
    · rw [List.append_assoc, ← h2, List.take_append_drop]
    · rw [← lineColumn_append]; exact h3

theorem reached_here {G : Language} {task : Task} {here : Location} {rest : Str} {o : Outcome} {e : Error} (ho : errorOf o = some e)
    (he : e.location = here) (h : LeadsTo G task []) : Reached G task here rest o := by
  intro e' h1
  rw [ho] at h1
  cases h1
  exact .inr ⟨[], rest, rfl, by rw [lineColumn_nil]; exact he, h⟩

theorem derives_padded {G : Language} {p : Primary} {w0 : Str} (h0 : Derives G (.primary p) w0) : ∀ (ws : List Str) (k : Nat),
    (∀ x ∈ ws, Derives G (.primary p) x) → ws.length ≤ k → ∃ w, Derives G (.factor (.mk k p)) (ws.flatten ++ w)
  | [], k, _, _ => derives_count ⟨w0, h0⟩ k
  | w :: ws, 0, _, hk => by simp at hk
  | w :: ws, k + 1, h, hk => by
    obtain ⟨w', hw'⟩ := derives_padded h0 ws k (fun x hx => h x (by simp [hx])) (by simpa using hk)
    exact ⟨w', by rw [List.flatten_cons, List.append_assoc]; exact .again (h w (by simp)) hw'⟩

theorem ev_reached {q : Quirks} {G : Language} (hq1 : q.dropAfterGroup = false) (hq2 : q.ignoreForward = false)
    (hG : Everywhere (productive G) G) (hf : Everywhere (straight G) G) {task : Task}
    {here : Location} {rest : Str} {o : Outcome} (h : Ev q G task here rest o) :
    EveryTask (productive G) task → EveryTask (straight G) task → FineTask task → Reached G task here rest o := by
  induction h with
  | @optional loc l here rest o _ ih =>
    intro hp hf _
    refine reached_map rfl ?_ (ih ⟨hp.2, .inl ⟨_, rfl⟩⟩ ⟨hf.2, .inl ⟨_, rfl⟩⟩ (.inl ⟨_, rfl⟩))
    rintro pre ⟨ws, w, h1, h2, h3⟩
    have h3 := h3 1 rfl (by omega)
    cases ws with
    | nil =>
      have : pre = [] := by cases pre <;> simp_all
      subst this
      exact ⟨[], .leftOut⟩
    | cons x ws =>
      cases ws with
      | nil => exact ⟨w, by rw [← h2]; simpa using Derives.taken (loc := loc) (h1 x (by simp))⟩
      | cons _ _ => simp at h3
  | repeated _ ih =>
    intro hp hf _
    refine reached_map rfl ?_ (ih ⟨hp.2, .inl ⟨_, rfl⟩⟩ ⟨hf.2, .inl ⟨_, rfl⟩⟩ (.inl ⟨_, rfl⟩))
    rintro pre ⟨ws, w, h1, h2, _⟩
    exact ⟨w, by rw [← h2]; exact derives_repeated ws h1⟩
  | grouped _ ih =>
    intro hp hf _
    refine reached_map rfl ?_ (ih hp.2 hf.2 trivial)
    rintro pre ⟨w, h⟩
    exact ⟨w, .grouped h⟩
  | terminalFail => intro _ _ _; exact reached_here rfl rfl ⟨_, .terminal⟩
  | referenceFail h1 h2 _ ih =>
    intro _ _ _
    refine reached_map rfl ?_ (ih (hG _ h1) (hf _ h1) trivial)
    rintro pre ⟨w, h⟩
    exact ⟨w, .reference h1 h2 h⟩
  | referenceStop h1 h2 _ _ ih =>
    intro _ _ _
    refine reached_map rfl ?_ (ih (hG _ h1) (hf _ h1) trivial)
    rintro pre ⟨w, h⟩
    exact ⟨w, .reference h1 h2 h⟩
  | specialFail =>
    intro hp _ _
    obtain ⟨w, hw⟩ := every_primary hp
    exact reached_here rfl rfl ⟨w, hw⟩
  | specialError h =>
    intro _ _ _ e he
    simp only [errorOf, Option.some.injEq] at he
    subst he
    exact .inl ⟨_, _, _, _, _, h⟩
  | forwardFail h _ _ _ _ => intro _ hf _; exact absurd h (hf _ _ rfl _ _ _ _ _)
  | forwardStop h _ _ _ _ => intro _ hf _; exact absurd h (hf _ _ rfl _ _ _ _ _)
  | forwardUndefined h => intro _ hf _; exact absurd h (hf _ _ rfl _ _ _ _ _)
  | once _ ih =>
    intro hp hf _
    refine reached_map rfl ?_ (ih hp.2 hf.2 trivial)
    rintro pre ⟨w, h⟩
    exact ⟨w, by simpa using Derives.again h .never⟩
  | @counted k p here rest o _ _ ih =>
    intro hp hf _
    refine reached_map rfl ?_ (ih ⟨hp.2, .inr ⟨_, rfl⟩⟩ ⟨hf.2, .inr ⟨_, rfl⟩⟩ (.inr ⟨_, rfl⟩))
    rintro pre ⟨ws, w, h1, h2, h3⟩
    obtain ⟨w0, h0⟩ := every_primary hp.2
    have h3 := h3 k rfl (by omega)
    obtain ⟨w', hw'⟩ := derives_padded h0 ws k h1 (by omega)
    exact ⟨w ++ w', by rw [← List.append_assoc, ← h2]; exact hw'⟩
  | plain _ ih =>
    intro hp hf _
    refine reached_map rfl ?_ (ih hp hf trivial)
    rintro pre ⟨w, h⟩
    exact ⟨w, .plain h⟩
  | exceptFail _ ih =>
    intro hp hf _
    refine reached_map rfl ?_ (ih hp.1 hf.1 trivial)
    rintro pre ⟨w, h⟩
    exact ⟨w, .except h⟩
  | exceptStop _ _ ih =>
    intro hp hf _
    refine reached_map rfl ?_ (ih hp.1 hf.1 trivial)
    rintro pre ⟨w, h⟩
    exact ⟨w, .except h⟩
  | @excluded f x =>
    intro hp _ _
    obtain ⟨w, hw⟩ := productive_term (t := .except f x) hp
    exact reached_here rfl rfl ⟨w, hw⟩
  | @excludedStop f x here rest evs n o h1 _ _ _ ih =>
    intro hp hf _ e he
    rcases ih hp.2 hf.2 trivial e he with h | ⟨pre, post, h2, h3, _⟩
    · exact .inl h
    · refine .inr ⟨pre, post ++ rest.drop n, by rw [← List.append_assoc, ← h2, List.take_append_drop], h3, post, ?_⟩
      rw [← h2]
      exact Derives.except (ev_derives hq1 hq2 h1 trivial _ _ rfl)
  | @next t d here rest evs n o _ h1 _ _ ih =>
    intro hp hf _
    refine reached_drop (errorOf_after ..) ?_ (ih hp.2.2 hf.2.2 trivial)
    rintro pre ⟨w, h⟩
    exact ⟨w, by rw [List.append_assoc]; exact .next (ev_derives hq1 hq2 h1 trivial _ _ rfl) h⟩
  | nextFail _ _ ih =>
    intro hp hf _
    refine reached_map rfl ?_ (ih hp.2.1 hf.2.1 trivial)
    rintro pre ⟨w, h⟩
    obtain ⟨w', h'⟩ := productive_single _ hp.2.2
    exact ⟨w ++ w', by rw [← List.append_assoc]; exact .next h h'⟩
  | single _ ih =>
    intro hp hf _
    refine reached_map rfl ?_ (ih hp.1 hf.1 trivial)
    rintro pre ⟨w, h⟩
    exact ⟨w, .choice (by simp [DefinitionList.toList]) h⟩
  | choice _ _ ih => intro hp hf _; exact reached_map rfl (fun _ h => h) (ih hp hf trivial)
  | @choiceFail d d' l here rest e evs n h ih =>
    intro hp hf _
    by_cases hl : e.location = here
    · rw [if_pos hl]
      obtain ⟨w, hw⟩ := productive_single _ hp.1
      exact reached_here rfl rfl ⟨w, .choice (d := d) (by simp [DefinitionList.toList]) hw⟩
    · rw [if_neg hl]
      exact reached_map rfl (fun _ h => h) (ih hp hf trivial)
  | first _ _ ih =>
    intro hp hf _
    refine reached_map rfl ?_ (ih hp.1 hf.1 trivial)
    rintro pre ⟨w, h⟩
    exact ⟨w, .choice (by simp [DefinitionList.toList]) h⟩
  | last _ ih =>
    intro hp hf _
    refine reached_map rfl ?_ (ih hp.1 hf.1 trivial)
    rintro pre ⟨w, h⟩
    exact ⟨w, .choice (by simp [DefinitionList.toList]) h⟩
  | other _ _ _ _ ih =>
    intro hp hf _
    refine reached_map rfl ?_ (ih hp.2 hf.2 trivial)
    rintro pre ⟨w, h⟩
    cases h with
    | choice h1 h2 => exact ⟨w, .choice (by rw [DefinitionList.toList]; exact List.mem_cons_of_mem _ h1) h2⟩
  | @otherFail d d' l here rest e evs n e' evs' n' _ _ ih1 ih2 =>
    intro hp hf _
    unfold laterError
    by_cases hl : e'.location.lt e.location = true
    · rw [if_pos hl]
      refine reached_map rfl ?_ (ih1 hp.1 hf.1 trivial)
      rintro pre ⟨w, h⟩
      exact ⟨w, .choice (by simp [DefinitionList.toList]) h⟩
    · rw [if_neg hl]
      refine reached_map rfl ?_ (ih2 hp.2 hf.2 trivial)
      rintro pre ⟨w, h⟩
      cases h with
      | choice h1 h2 => exact ⟨w, .choice (by rw [DefinitionList.toList]; exact List.mem_cons_of_mem _ h1) h2⟩
  | @round body min max guarded i here rest evs n o hm _ h1 _ _ ih =>
    intro hp hf hb
    refine reached_drop (errorOf_afterRound ..) ?_ (ih hp hf hb)
    rintro pre ⟨ws, w, k1, k2, k3⟩
    refine ⟨rest.take n :: ws, w, ?_, by rw [List.flatten_cons, k2, List.append_assoc], ?_⟩
    · intro x hx
      rcases List.mem_cons.mp hx with rfl | hx
      · refine derived_body hb (ev_derives hq1 hq2 h1 ?_ _ _ rfl)
        rcases hb with ⟨_, rfl⟩ | ⟨_, rfl⟩ <;> trivial
      · exact k1 x hx
    · intro m h _
      have := hm m h
      have := k3 m h (by omega)
      simp; omega
  | livelock =>
    intro _ _ _
    exact reached_here rfl rfl ⟨[], [], by simp, rfl, by intro m _ h; simpa using h⟩
  | @tooFew body min max guarded i here rest e evs n hm _ _ ih =>
    intro hp hf hb
    refine reached_map rfl ?_ (ih hp.1 hf.1 (by rcases hb with ⟨_, rfl⟩ | ⟨_, rfl⟩ <;> trivial))
    intro pre h
    obtain ⟨w, hw⟩ := leadsTo_body hb h
    refine ⟨[pre ++ w], w, by simpa using hw, by simp, ?_⟩
    intro m h _
    have := hm m h
    simp; omega
  | @roundStop body min max guarded i here rest o hm _ _ ih =>
    intro hp hf hb
    refine reached_map rfl ?_ (ih hp.1 hf.1 (by rcases hb with ⟨_, rfl⟩ | ⟨_, rfl⟩ <;> trivial))
    intro pre h
    obtain ⟨w, hw⟩ := leadsTo_body hb h
    refine ⟨[pre ++ w], w, by simpa using hw, by simp, ?_⟩
    intro m h _
    have := hm m h
    simp; omega
  | _ => intro _ _ _ e he; simp [errorOf] at he

end Ebnf
