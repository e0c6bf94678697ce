import Verif.Spec.Conditions

set_option autoImplicit false

/-! # Facts about the meaning of grammars -/

namespace Ebnf

open Spec

/-- The condition on a task. -/
def EveryTask (K : Local) : Task → Prop
  | .primary p => EveryPrimary K p
  | .factor f => EveryFactor K f
  | .term t => EveryTerm K t
  | .sequence d => EverySingle K d
  | .list l => EveryList K l
  | .alternatives l => EveryList K l
  | .rounds body _ _ _ _ => EveryTask K body ∧ ((∃ l, body = .list l) ∨ ∃ p, body = .primary p)

theorem every_forward {K : Local} {G : Language} (hG : Everywhere K G) (hm : ∀ l n, K.primary (.metaIdentifier l n))
    {name : Str} {task : Task} (h : ForwardTarget G name task) : EveryTask K task := by
  cases h with
  | rule h1 _ => exact hG _ h1
  | marked h1 _ => exact hm _ _

/-! ## Consumption -/

theorem ev_bounded {q : Quirks} {G : Language} (hb : Bounded G) {task : Task} {here : Location} {rest : Str} {o : Outcome}
    (h : Ev q G task here rest o) :
    (∀ evs n, o = .ok evs n → n ≤ rest.length) ∧ (∀ e evs n, o = .fail e evs n → n ≤ rest.length) := by
  induction h with
  | optional _ ih => exact ih
  | repeated _ ih => exact ih
  | grouped _ ih => exact ih
  | empty => simp
  | terminal hp => simp only [Outcome.ok.injEq, reduceCtorEq, false_implies, implies_true, and_true]; rintro _ _ ⟨_, rfl⟩; exact hp.length_le
  | terminalFail => simp
  | reference _ _ _ ih => simp only [Outcome.ok.injEq, reduceCtorEq, false_implies, implies_true, and_true]; rintro _ _ ⟨_, rfl⟩; exact ih.1 _ _ rfl
  | referenceFail _ _ _ ih => simp only [Outcome.fail.injEq, reduceCtorEq, false_implies, implies_true, true_and]; rintro _ _ _ ⟨_, _, rfl⟩; exact ih.2 _ _ _ rfl
  | referenceStop _ _ _ _ ih => exact ih
  | referenceUndefined => simp
  | special hs => simp only [Outcome.ok.injEq, reduceCtorEq, false_implies, implies_true, and_true]; rintro _ _ ⟨_, rfl⟩; exact (hb _ _ _ _ _).1 _ _ hs
  | specialFail => simp
  | specialError => simp
  | forward hs _ _ ih =>
    simp only [Outcome.ok.injEq, reduceCtorEq, false_implies, implies_true, and_true]; rintro _ _ ⟨_, rfl⟩
    have h1 := (hb _ _ _ _ _).2 _ _ hs
    have h2 := ih.1 _ _ rfl
    simp only [List.length_drop] at h2
    omega
  | forwardFail => simp
  | forwardIgnored hs _ _ _ ih =>
    simp only [Outcome.ok.injEq, reduceCtorEq, false_implies, implies_true, and_true]; rintro _ _ ⟨_, rfl⟩
    have h1 := (hb _ _ _ _ _).2 _ _ hs
    have h2 := ih.2 _ _ _ rfl
    simp only [List.length_drop] at h2
    omega
  | @forwardStop loc s here rest name n task o _ _ _ ho => cases o <;> simp_all [Outcome.IsStop]
  | forwardUndefined => simp
  | once _ ih => exact ih
  | counted _ _ ih => exact ih
  | plain _ ih => exact ih
  | exceptFail _ ih => simp
  | exceptStop _ _ ih => exact ih
  | excluded => simp
  | notExcluded _ _ _ ih => simp only [Outcome.ok.injEq, reduceCtorEq, false_implies, implies_true, and_true]; rintro _ _ ⟨_, rfl⟩; exact ih.1 _ _ rfl
  | notExcludedFail _ _ ih => simp only [Outcome.ok.injEq, reduceCtorEq, false_implies, implies_true, and_true]; rintro _ _ ⟨_, rfl⟩; exact ih.1 _ _ rfl
  | @excludedStop f x here rest evs n o _ _ ho => cases o <;> simp_all [Outcome.IsStop]
  | done => simp
  | @next t d here rest evs n o _ _ _ ih1 ih2 =>
    have h1 := ih1.1 _ _ rfl
    cases o with
    | ok evs' m =>
      have h2 := ih2.1 _ _ rfl
      simp only [List.length_drop] at h2
      simp only [Outcome.after, Outcome.ok.injEq, reduceCtorEq, false_implies, implies_true, and_true]; rintro _ _ ⟨_, rfl⟩
      omega
    | fail e evs' m =>
      have h2 := ih2.2 _ _ _ rfl
      simp only [List.length_drop] at h2
      simp only [Outcome.after, Outcome.fail.injEq, reduceCtorEq, false_implies, implies_true, true_and]; rintro _ _ _ ⟨_, _, rfl⟩
      omega
    | _ => simp [Outcome.after]
  | dropped _ _ _ ih => exact ih
  | nextFail _ _ ih => exact ih
  | single _ ih => exact ih
  | choice _ _ ih => exact ih
  | choiceFail => simp
  | first _ _ ih => exact ih
  | last => simp
  | other _ _ _ _ ih => exact ih
  | otherFail => simp
  | enough => simp
  | @round body min max guarded i here rest evs n o _ _ _ _ ih1 ih2 =>
    have h1 := ih1.1 _ _ rfl
    cases o with
    | ok evs' m =>
      have h2 := ih2.1 _ _ rfl
      simp only [List.length_drop] at h2
      simp only [Outcome.afterRound, Outcome.ok.injEq, reduceCtorEq, false_implies, implies_true, and_true]; rintro _ _ ⟨_, rfl⟩
      omega
    | fail e evs' m =>
      have h2 := ih2.2 _ _ _ rfl
      simp only [List.length_drop] at h2
      simp only [Outcome.afterRound, Outcome.fail.injEq, reduceCtorEq, false_implies, implies_true, true_and]; rintro _ _ _ ⟨_, _, rfl⟩
      omega
    | _ => simp [Outcome.afterRound]
  | livelock => simp
  | lastRound => simp
  | tooFew _ _ _ ih => simp only [Outcome.fail.injEq, reduceCtorEq, false_implies, implies_true, true_and]; rintro _ _ _ ⟨_, _, rfl⟩; exact ih.2 _ _ _ rfl
  | roundStop _ _ _ ih => exact ih

theorem ev_bounded_ok {q : Quirks} {G : Language} (hb : Bounded G) {task : Task} {here : Location} {rest : Str}
    {evs : List Event} {n : Nat} (h : Ev q G task here rest (.ok evs n)) : n ≤ rest.length := (ev_bounded hb h).1 _ _ rfl

/-! ## Quiet failures -/

/-- The task leaves no events when it fails. -/
def QuietTask : Task → Prop
  | .primary p => QuietPrimary p
  | .factor f => QuietFactor f
  | .term t => QuietTerm t
  | .sequence d => QuietSingle d
  | .list l => QuietList l
  | .alternatives _ => True
  | .rounds _ _ _ _ _ => True

theorem quiet {q : Quirks} {G : Language} {task : Task} {here : Location} {rest : Str} {o : Outcome}
    (h : Ev q G task here rest o) : QuietTask task → ∀ e evs n, o = .fail e evs n → evs = [] := by
  induction h with
  | optional _ ih => exact fun _ => ih trivial
  | repeated _ ih => exact fun _ => ih trivial
  | grouped _ ih => exact fun h => ih (by simpa [QuietTask, QuietPrimary] using h)
  | referenceStop _ _ _ ho => rintro _ e evs n rfl; exact ho.elim
  | forwardStop _ _ _ ho => rintro _ e evs n rfl; exact ho.elim
  | exceptStop _ ho => rintro _ e evs n rfl; exact ho.elim
  | excludedStop _ _ ho => rintro _ e evs n rfl; exact ho.elim
  | roundStop _ _ ho => rintro _ e evs n rfl; exact ho.elim
  | once _ ih => exact fun h => ih (by simpa [QuietTask, QuietFactor] using h)
  | counted _ _ ih => exact fun _ => ih trivial
  | plain _ ih => exact fun h => ih (by simpa [QuietTask, QuietTerm] using h)
  | @next t d here rest evs n o _ _ hd _ _ =>
    intro h
    cases d with
    | cons t' d => simp [QuietTask, QuietSingle] at h
    | nil => cases hd with
      | done => simp [Outcome.after]
  | @nextFail t d here rest o _ ho ih =>
    intro h
    cases d with
    | cons t' d => simp [QuietTask, QuietSingle] at h
    | nil => exact ih (by simpa [QuietTask, QuietSingle] using h)
  | single _ ih => exact fun h => ih (by simpa [QuietTask, QuietList] using h)
  | choice _ ho => rintro _ e evs n rfl; exact absurd rfl (ho e evs n)
  | first _ ho => rintro _ e evs n rfl; exact absurd rfl (ho e evs n)
  | other _ _ ho => rintro _ e evs n rfl; exact absurd rfl (ho e evs n)
  | @round body min max guarded i here rest evs n o _ _ _ _ _ ih =>
    intro _ e evs' n' he
    cases o with
    | fail e' evs'' m =>
      simp only [Outcome.afterRound, Outcome.fail.injEq] at he
      rw [← he.2.1]
      exact ih trivial _ _ _ rfl
    | _ => simp [Outcome.afterRound] at he
  | referenceFail => intro _ e evs n he; simp only [Outcome.fail.injEq] at he; exact he.2.1.symm
  | _ => intro _ e evs n he; simp only [Outcome.fail.injEq, reduceCtorEq] at he <;> exact he.2.1.symm

/-! ## Change of quirks -/

/-- Two bounds on the number of rounds make no difference. -/
def SameBound (max max' : Option Nat) (guarded : Bool) (i : Nat) (rest : Str) : Prop :=
  max = max' ∨ (guarded = true ∧ (∀ m, max = some m → i + rest.length < m) ∧ ∀ m, max' = some m → i + rest.length < m)

/-- The outcome with other quirks. -/
def Transfers (q' : Quirks) (G : Language) : Task → Location → Str → Outcome → Prop
  | .rounds body min max guarded i, here, rest, o =>
    ∀ max', SameBound max max' guarded i rest → Ev q' G (.rounds body min max' guarded i) here rest o
  | task, here, rest, o => Ev q' G task here rest o

/-- The condition makes the quirks equivalent for texts shorter than `B`. -/
structure Hides (K : Local) (G : Language) (q q' : Quirks) (B : Nat) : Prop where
  everywhere : Everywhere K G
  names : ∀ l n, K.primary (.metaIdentifier l n)
  drop : q.dropAfterGroup = q'.dropAfterGroup ∨ ∀ t d, K.follows t d → IsBareGroup t → d = .nil
  keep : q.keepPartial = q'.keepPartial ∨ ∀ p, K.primary p → ∀ loc l, p = .optional loc l ∨ p = .repeated loc l → QuietList l
  forward : q.ignoreForward = q'.ignoreForward ∨ ∀ p, K.primary p → ∀ l s, p = .specialSequence l s →
    ∀ d here rest name n, G.special l s d here rest ≠ .forward name n
  limit : q.roundLimit = q'.roundLimit ∨
    ((∀ n, K.count n → q.roundLimit ≠ some n ∧ q'.roundLimit ≠ some n) ∧
      (∀ m, q.roundLimit = some m → B ≤ m) ∧ ∀ m, q'.roundLimit = some m → B ≤ m)

/-- The body of a repetition is quiet, or partial events are treated alike. -/
def BodyFine (q q' : Quirks) : Task → Prop
  | .rounds body min (some max) _ _ => q.keepPartial = q'.keepPartial ∨ QuietTask body ∨ min = max
  | .rounds body _ none _ _ => q.keepPartial = q'.keepPartial ∨ QuietTask body
  | _ => True

theorem body_transfers {q' : Quirks} {G : Language} {body : Task} {here : Location} {rest : Str} {o : Outcome}
    (hb : (∃ l, body = .list l) ∨ ∃ p, body = .primary p) (h : Transfers q' G body here rest o) : Ev q' G body here rest o := by
  rcases hb with ⟨l, rfl⟩ | ⟨p, rfl⟩ <;> exact h

theorem forward_transfers {q' : Quirks} {G : Language} {name : Str} {task : Task} {here : Location} {rest : Str} {o : Outcome}
    (ht : ForwardTarget G name task) (h : Transfers q' G task here rest o) : Ev q' G task here rest o := by
  cases ht <;> exact h

theorem sameBound_lt {max max' : Option Nat} {guarded : Bool} {i : Nat} {rest : Str} (h : SameBound max max' guarded i rest)
    (hi : ∀ m, max = some m → i < m) : ∀ m, max' = some m → i < m := by
  rcases h with rfl | ⟨_, _, h⟩
  · exact hi
  · intro m hm; have := h m hm; omega

theorem transfer {K : Local} {G : Language} {q q' : Quirks} {B : Nat} (H : Hides K G q q' B) (hbd : Bounded G) {task : Task}
    {here : Location} {rest : Str} {o : Outcome} (h : Ev q G task here rest o) :
    EveryTask K task → rest.length < B → BodyFine q q' task → Transfers q' G task here rest o := by
  have hdl : ∀ {rest : Str} {n : Nat}, rest.length < B → (rest.drop n).length < B := by
    intro rest n h; rw [List.length_drop]; omega
  have htl : ∀ {rest : Str} {n : Nat}, rest.length < B → (rest.take n).length < B := by
    intro rest n h; rw [List.length_take]; omega
  induction h with
  | @optional loc l here rest o _ ih =>
    intro hk hl _
    simp only [EveryTask, EveryPrimary] at hk
    refine .optional (ih ⟨hk.2, .inl ⟨_, rfl⟩⟩ hl ?_ _ (.inl rfl))
    rcases H.keep with h | h
    · exact .inl h
    · exact .inr (.inl (h _ hk.1 loc l (.inl rfl)))
  | @repeated loc l here rest o _ ih =>
    intro hk hl _
    simp only [EveryTask, EveryPrimary] at hk
    refine .repeated (ih ⟨hk.2, .inl ⟨_, rfl⟩⟩ hl ?_ _ ?_)
    · have : q.keepPartial = q'.keepPartial ∨ QuietTask (.list l) := by
        rcases H.keep with h | h
        · exact .inl h
        · exact .inr (h _ hk.1 loc l (.inr rfl))
      cases q.roundLimit with
      | none => exact this
      | some m => exact this.elim .inl (fun h => .inr (.inl h))
    · rcases H.limit with h | ⟨_, h1, h2⟩
      · exact .inl h
      · refine .inr ⟨rfl, fun m hm => ?_, fun m hm => ?_⟩
        · have := h1 m hm; omega
        · have := h2 m hm; omega
  | grouped _ ih =>
    intro hk hl _
    simp only [EveryTask, EveryPrimary] at hk
    exact .grouped (ih hk.2 hl trivial)
  | empty => exact fun _ _ _ => .empty
  | terminal hp => exact fun _ _ _ => .terminal hp
  | terminalFail hp => exact fun _ _ _ => .terminalFail hp
  | reference hr hs _ ih => exact fun _ hl _ => .reference hr hs (ih (H.everywhere _ hr) hl trivial)
  | referenceFail hr hs _ ih => exact fun _ hl _ => .referenceFail hr hs (ih (H.everywhere _ hr) hl trivial)
  | referenceStop hr hs _ ho ih => exact fun _ hl _ => .referenceStop hr hs (ih (H.everywhere _ hr) hl trivial) ho
  | referenceUndefined hu => exact fun _ _ _ => .referenceUndefined hu
  | special hs => exact fun _ _ _ => .special hs
  | specialFail hs => exact fun _ _ _ => .specialFail hs
  | specialError hs => exact fun _ _ _ => .specialError hs
  | forward hs ht _ ih =>
    intro _ hl _
    have := ih (every_forward H.everywhere H.names ht) (hdl hl) (by cases ht <;> trivial)
    exact .forward hs ht (forward_transfers ht this)
  | forwardFail hs ht _ hq ih =>
    intro hk hl _
    rcases H.forward with h | h
    · have := ih (every_forward H.everywhere H.names ht) (hdl hl) (by cases ht <;> trivial)
      exact .forwardFail hs ht (forward_transfers ht this) (by rw [← h]; exact hq)
    · exact absurd hs (h _ (by simpa [EveryTask, EveryPrimary] using hk) _ _ rfl _ _ _ _ _)
  | forwardIgnored hs ht _ hq ih =>
    intro hk hl _
    rcases H.forward with h | h
    · have := ih (every_forward H.everywhere H.names ht) (hdl hl) (by cases ht <;> trivial)
      exact .forwardIgnored hs ht (forward_transfers ht this) (by rw [← h]; exact hq)
    · exact absurd hs (h _ (by simpa [EveryTask, EveryPrimary] using hk) _ _ rfl _ _ _ _ _)
  | forwardStop hs ht _ ho ih =>
    intro _ hl _
    have := ih (every_forward H.everywhere H.names ht) (hdl hl) (by cases ht <;> trivial)
    exact .forwardStop hs ht (forward_transfers ht this) ho
  | forwardUndefined hs ht => exact fun _ _ _ => .forwardUndefined hs ht
  | once _ ih =>
    intro hk hl _
    simp only [EveryTask, EveryFactor] at hk
    exact .once (ih hk.2 hl trivial)
  | @counted k p here rest o hk1 _ ih =>
    intro hk hl _
    simp only [EveryTask, EveryFactor] at hk
    refine .counted hk1 ?_
    have := ih ⟨hk.2, .inr ⟨_, rfl⟩⟩ hl (.inr (.inr rfl)) _ (.inl rfl)
    have hd : decide (q'.roundLimit = some k) = decide (q.roundLimit = some k) := by
      rcases H.limit with h | ⟨h, _⟩
      · rw [h]
      · have := h k hk.1
        rw [decide_eq_false this.1, decide_eq_false this.2]
    rw [hd]; exact this
  | plain _ ih => exact fun hk hl _ => .plain (ih hk hl trivial)
  | exceptFail _ ih => exact fun hk hl _ => .exceptFail (ih hk.1 hl trivial)
  | exceptStop _ ho ih => exact fun hk hl _ => .exceptStop (ih hk.1 hl trivial) ho
  | excluded _ _ ih1 ih2 => exact fun hk hl _ => .excluded (ih1 hk.1 hl trivial) (ih2 hk.2 (htl hl) trivial)
  | notExcluded _ _ hm ih1 ih2 => exact fun hk hl _ => .notExcluded (ih1 hk.1 hl trivial) (ih2 hk.2 (htl hl) trivial) hm
  | notExcludedFail _ _ ih1 ih2 => exact fun hk hl _ => .notExcludedFail (ih1 hk.1 hl trivial) (ih2 hk.2 (htl hl) trivial)
  | excludedStop _ _ ho ih1 ih2 => exact fun hk hl _ => .excludedStop (ih1 hk.1 hl trivial) (ih2 hk.2 (htl hl) trivial) ho
  | done => exact fun _ _ _ => .done
  | @next t d here rest evs n o hb ht hd ih1 ih2 =>
    intro hk hl _
    simp only [EveryTask, EverySingle] at hk
    have h1 := ih1 hk.2.1 hl trivial
    have h2 := ih2 hk.2.2 (hdl hl) trivial
    by_cases hb' : q'.dropAfterGroup = true ∧ IsBareGroup t
    · rcases H.drop with h | h
      · exact absurd ⟨by rw [h]; exact hb'.1, hb'.2⟩ hb
      · have := h t d hk.1 hb'.2
        subst this
        cases hd
        simp only [Outcome.after, List.append_nil, Nat.add_zero]
        exact .dropped hb'.1 hb'.2 h1
    · exact .next hb' h1 h2
  | @dropped t d here rest evs n hq hb _ ih =>
    intro hk hl _
    simp only [EveryTask, EverySingle] at hk
    have h1 := ih hk.2.1 hl trivial
    by_cases hb' : q'.dropAfterGroup = true
    · exact .dropped hb' hb h1
    · rcases H.drop with h | h
      · exact absurd (by rw [← h]; exact hq) hb'
      · have := h t d hk.1 hb
        subst this
        have := Ev.next (q := q') (G := G) (fun hc => hb' hc.1) h1 .done
        simp only [Outcome.after, List.append_nil, Nat.add_zero] at this
        exact this
  | nextFail _ ho ih =>
    intro hk hl _
    simp only [EveryTask, EverySingle] at hk
    exact .nextFail (ih hk.2.1 hl trivial) ho
  | single _ ih =>
    intro hk hl _
    simp only [EveryTask, EveryList] at hk
    exact .single (ih hk.1 hl trivial)
  | choice _ ho ih => exact fun hk hl _ => .choice (ih hk hl trivial) ho
  | choiceFail _ ih => exact fun hk hl _ => .choiceFail (ih hk hl trivial)
  | first _ ho ih =>
    intro hk hl _
    simp only [EveryTask, EveryList] at hk
    exact .first (ih hk.1 hl trivial) ho
  | last _ ih =>
    intro hk hl _
    simp only [EveryTask, EveryList] at hk
    exact .last (ih hk.1 hl trivial)
  | other _ _ ho ih1 ih2 =>
    intro hk hl _
    rw [EveryTask, EveryList] at hk
    exact .other (ih1 hk.1 hl trivial) (ih2 hk.2 hl trivial) ho
  | otherFail _ _ ih1 ih2 =>
    intro hk hl _
    rw [EveryTask, EveryList] at hk
    exact .otherFail (ih1 hk.1 hl trivial) (ih2 hk.2 hl trivial)
  | @enough body min max guarded i here rest hi =>
    intro _ _ _ max' hs
    rcases hs with rfl | ⟨_, h, _⟩
    · exact .enough hi
    · have := h max rfl; omega
  | @round body min max guarded i here rest evs n o hi hz hbody _ ih1 ih2 =>
    intro hk hl hf max' hs
    have hn := ev_bounded_ok hbd hbody
    have h1 := body_transfers hk.2 (ih1 hk.1 hl (by rcases hk.2 with ⟨l, rfl⟩ | ⟨p, rfl⟩ <;> trivial))
    refine .round (sameBound_lt hs hi) hz h1 (ih2 hk (hdl hl) ?_ max' ?_)
    · cases max <;> exact hf
    · rcases hs with rfl | ⟨h2, h3, h4⟩
      · exact .inl rfl
      · have hn0 : n ≠ 0 := fun hc => hz ⟨h2, hc⟩
        refine .inr ⟨h2, fun m hm => ?_, fun m hm => ?_⟩
        · have := h3 m hm; rw [List.length_drop]; omega
        · have := h4 m hm; rw [List.length_drop]; omega
  | livelock hi _ ih =>
    intro hk hl hf max' hs
    have h1 := body_transfers hk.2 (ih hk.1 hl (by rcases hk.2 with ⟨l, rfl⟩ | ⟨p, rfl⟩ <;> trivial))
    exact .livelock (sameBound_lt hs hi) h1
  | @lastRound body min max guarded i here rest e evs n hi hmin hbody ih =>
    intro hk hl hf max' hs
    have h1 := body_transfers hk.2 (ih hk.1 hl (by rcases hk.2 with ⟨l, rfl⟩ | ⟨p, rfl⟩ <;> trivial))
    have h2 := Ev.lastRound (q := q') (G := G) (sameBound_lt hs hi) hmin (guarded := guarded) h1
    have : (if q.keepPartial then evs else []) = if q'.keepPartial then evs else [] := by
      have hor : q.keepPartial = q'.keepPartial ∨ QuietTask body := by
        cases max with
        | none => exact hf
        | some m =>
          rcases hf with h | h | h
          · exact .inl h
          · exact .inr h
          · have := hi m rfl; omega
      rcases hor with h | h
      · rw [h]
      · rw [quiet hbody h _ _ _ rfl]; simp
    rw [this]; exact h2
  | tooFew hi hmin _ ih =>
    intro hk hl hf max' hs
    have h1 := body_transfers hk.2 (ih hk.1 hl (by rcases hk.2 with ⟨l, rfl⟩ | ⟨p, rfl⟩ <;> trivial))
    exact .tooFew (sameBound_lt hs hi) hmin h1
  | roundStop hi _ ho ih =>
    intro hk hl hf max' hs
    have h1 := body_transfers hk.2 (ih hk.1 hl (by rcases hk.2 with ⟨l, rfl⟩ | ⟨p, rfl⟩ <;> trivial))
    exact .roundStop (sameBound_lt hs hi) h1 ho

/-- In tidy grammars, on texts that are not too long, the quirks make no difference. -/
theorem tidy_hides {G : Language} (h : Everywhere (tidy G) G) :
    Hides (tidy G) G asBuilt ideal 4294967295 ∧ Hides (tidy G) G ideal asBuilt 4294967295 := by
  have h1 : ∀ l n, (tidy G).primary (.metaIdentifier l n) := by
    intro l n
    exact ⟨by intro _ _ h; simp at h, by intro _ _ h; simp at h⟩
  constructor
  · refine ⟨h, h1, .inr fun _ _ h => h, .inr fun _ h => h.1, .inr fun _ h => h.2, .inr ⟨?_, ?_, ?_⟩⟩
    · intro n hn
      have hn : n < 4294967295 := hn
      refine ⟨fun hc => ?_, by simp [ideal]⟩
      simp [asBuilt] at hc; omega
    · intro m hm; simp [asBuilt] at hm; omega
    · intro m hm; simp [ideal] at hm
  · refine ⟨h, h1, .inr fun _ _ h => h, .inr fun _ h => h.1, .inr fun _ h => h.2, .inr ⟨?_, ?_, ?_⟩⟩
    · intro n hn
      have hn : n < 4294967295 := hn
      refine ⟨by simp [ideal], fun hc => ?_⟩
      simp [asBuilt] at hc; omega
    · intro m hm; simp [ideal] at hm
    · intro m hm; simp [asBuilt] at hm; omega

theorem ev_tidy {G : Language} (h : Everywhere (tidy G) G) (hb : Bounded G) {loc : Location} {name : Str} {here : Location}
    {text : Str} (hl : text.length < 4294967295) {o : Outcome} :
    Ev asBuilt G (.primary (.metaIdentifier loc name)) here text o ↔
      Ev ideal G (.primary (.metaIdentifier loc name)) here text o := by
  obtain ⟨h1, h2⟩ := tidy_hides h
  exact ⟨fun e => transfer h1 hb e (h1.names _ _) hl trivial, fun e => transfer h2 hb e (h2.names _ _) hl trivial⟩

end Ebnf
