import Verif.Proofs.Events
import Verif.Proofs.Describes
import Verif.Proofs.Running
import Verif.Spec.Partials

set_option autoImplicit false

/-! # Events of failed rounds only add events -/

namespace Ebnf

open Spec

namespace Partials

/-- Events of one reading in terms of those of another; `S` holds for the events of scanners. -/
structure Compares (S : List Event → Prop) (R : List Event → List Event → Prop) (keep keep' : Bool) : Prop where
  nil : R [] []
  token : ∀ d l t, R [.token d l t] [.token d l t]
  scanned : ∀ a, S a → R a a
  append : ∀ a a' b b', R a a' → R b b' → R (a ++ b) (a' ++ b')
  wrap : ∀ d l l' n a a', R a a' → R (.begin d l n :: a ++ [.end d l' n]) (.begin d l n :: a' ++ [.end d l' n])
  last : ∀ a a', R a a' → R (if keep then a else []) (if keep' then a' else [])

/-- The same outcome, but for the events. -/
inductive Alike (R : List Event → List Event → Prop) : Outcome → Outcome → Prop
  | ok {a a' n} : R a a' → Alike R (.ok a n) (.ok a' n)
  | fail {e a a' n} : R a a' → Alike R (.fail e a n) (.fail e a' n)
  | abort {e} : Alike R (.abort e) (.abort e)
  | panic {p} : Alike R (.panic p) (.panic p)

variable {S : List Event → Prop} {R : List Event → List Event → Prop}

theorem Alike.stop {o o' : Outcome} (h : Alike R o o') (ho : o.IsStop) : o' = o := by
  cases h with
  | ok _ => exact ho.elim
  | fail _ => exact ho.elim
  | abort => rfl
  | panic => rfl

theorem Alike.not_ok {o o' : Outcome} (h : Alike R o o') (ho : ¬ o.IsOk) : ¬ o'.IsOk := by
  cases h with
  | ok _ => exact absurd trivial ho
  | fail _ => exact id
  | abort => exact id
  | panic => exact id

theorem Alike.not_fail {o o' : Outcome} (h : Alike R o o') (ho : ∀ e evs n, o ≠ .fail e evs n) : ∀ e evs n, o' ≠ .fail e evs n := by
  cases h with
  | ok _ => intro _ _ _ h; cases h
  | fail _ => exact absurd rfl (ho _ _ _)
  | abort => intro _ _ _ h; cases h
  | panic => intro _ _ _ h; cases h

theorem alike_of_stop {o : Outcome} (ho : o.IsStop) : Alike R o o := by
  cases o with
  | ok _ _ => exact ho.elim
  | fail _ _ _ => exact ho.elim
  | abort _ => exact .abort
  | panic _ => exact .panic

/-- Whether the events of failed rounds are kept matters for the events only. -/
theorem ev_alike {q : Quirks} {keep' : Bool} (C : Compares S R q.keepPartial keep') {G : Language}
    (hS : ∀ l s d here rest evs n, G.special l s d here rest = .accept evs n → S evs) {task : Task} {here : Location} {rest : Str}
    {o : Outcome} (h : Ev q G task here rest o) : ∃ o', Ev { q with keepPartial := keep' } G task here rest o' ∧ Alike R o o' := by
  induction h with
  | optional _ ih => obtain ⟨o', h1, h2⟩ := ih; exact ⟨o', .optional h1, h2⟩
  | repeated _ ih => obtain ⟨o', h1, h2⟩ := ih; exact ⟨o', .repeated h1, h2⟩
  | grouped _ ih => obtain ⟨o', h1, h2⟩ := ih; exact ⟨o', .grouped h1, h2⟩
  | empty => exact ⟨_, .empty, .ok (C.nil)⟩
  | terminal hp => exact ⟨_, .terminal hp, .ok (C.token _ _ _)⟩
  | terminalFail hp => exact ⟨_, .terminalFail hp, .fail (C.nil)⟩
  | reference hr hs _ ih =>
    obtain ⟨o', h1, h2⟩ := ih
    cases h2 with
    | ok h2 => exact ⟨_, .reference hr hs h1, .ok (C.wrap _ _ _ _ _ _ h2)⟩
  | referenceFail hr hs _ ih =>
    obtain ⟨o', h1, h2⟩ := ih
    cases h2 with
    | fail h2 => exact ⟨_, .referenceFail hr hs h1, .fail (C.nil)⟩
  | referenceStop hr hs _ ho ih =>
    obtain ⟨o', h1, h2⟩ := ih
    have e := h2.stop ho
    subst e
    exact ⟨_, .referenceStop hr hs h1 ho, h2⟩
  | referenceUndefined hu => exact ⟨_, .referenceUndefined hu, .panic⟩
  | special hs => exact ⟨_, .special hs, .ok (C.scanned _ (hS _ _ _ _ _ _ _ hs))⟩
  | specialFail hs => exact ⟨_, .specialFail hs, .fail (C.nil)⟩
  | specialError hs => exact ⟨_, .specialError hs, .abort⟩
  | forward hs ht _ ih =>
    obtain ⟨o', h1, h2⟩ := ih
    cases h2 with
    | ok h2 => exact ⟨_, .forward hs ht h1, .ok h2⟩
  | forwardFail hs ht _ hq ih =>
    obtain ⟨o', h1, h2⟩ := ih
    cases h2 with
    | fail h2 => exact ⟨_, .forwardFail hs ht h1 hq, .fail (C.nil)⟩
  | forwardIgnored hs ht _ hq ih =>
    obtain ⟨o', h1, h2⟩ := ih
    cases h2 with
    | fail h2 => exact ⟨_, .forwardIgnored hs ht h1 hq, .ok h2⟩
  | forwardStop hs ht _ ho ih =>
    obtain ⟨o', h1, h2⟩ := ih
    have e := h2.stop ho
    subst e
    exact ⟨_, .forwardStop hs ht h1 ho, h2⟩
  | forwardUndefined hs ht => exact ⟨_, .forwardUndefined hs ht, .abort⟩
  | once _ ih => obtain ⟨o', h1, h2⟩ := ih; exact ⟨o', .once h1, h2⟩
  | counted hk _ ih => obtain ⟨o', h1, h2⟩ := ih; exact ⟨o', .counted hk h1, h2⟩
  | plain _ ih => obtain ⟨o', h1, h2⟩ := ih; exact ⟨o', .plain h1, h2⟩
  | exceptFail _ ih =>
    obtain ⟨o', h1, h2⟩ := ih
    cases h2 with
    | fail h2 => exact ⟨_, .exceptFail h1, .fail (C.nil)⟩
  | exceptStop _ ho ih =>
    obtain ⟨o', h1, h2⟩ := ih
    have e := h2.stop ho
    subst e
    exact ⟨_, .exceptStop h1 ho, h2⟩
  | excluded _ _ ih1 ih2 =>
    obtain ⟨o1, h1, h2⟩ := ih1
    obtain ⟨o2, h3, h4⟩ := ih2
    cases h2 with
    | ok h2 => cases h4 with
      | ok h4 => exact ⟨_, .excluded h1 h3, .fail (C.nil)⟩
  | notExcluded _ _ hm ih1 ih2 =>
    obtain ⟨o1, h1, h2⟩ := ih1
    obtain ⟨o2, h3, h4⟩ := ih2
    cases h2 with
    | ok h2 => cases h4 with
      | ok h4 => exact ⟨_, .notExcluded h1 h3 hm, .ok h2⟩
  | notExcludedFail _ _ ih1 ih2 =>
    obtain ⟨o1, h1, h2⟩ := ih1
    obtain ⟨o2, h3, h4⟩ := ih2
    cases h2 with
    | ok h2 => cases h4 with
      | fail h4 => exact ⟨_, .notExcludedFail h1 h3, .ok h2⟩
  | excludedStop _ _ ho ih1 ih2 =>
    obtain ⟨o1, h1, h2⟩ := ih1
    obtain ⟨o2, h3, h4⟩ := ih2
    have e := h4.stop ho
    subst e
    cases h2 with
    | ok h2 => exact ⟨_, .excludedStop h1 h3 ho, h4⟩
  | done => exact ⟨_, .done, .ok (C.nil)⟩
  | next hb _ _ ih1 ih2 =>
    obtain ⟨o1, h1, h2⟩ := ih1
    obtain ⟨o2, h3, h4⟩ := ih2
    cases h2 with
    | ok h2 =>
      refine ⟨_, .next hb h1 h3, ?_⟩
      cases h4 with
      | ok h4 => exact .ok (C.append _ _ _ _ h2 h4)
      | fail h4 => exact .fail (C.append _ _ _ _ h2 h4)
      | abort => exact .abort
      | panic => exact .panic
  | dropped hq hb _ ih =>
    obtain ⟨o1, h1, h2⟩ := ih
    cases h2 with
    | ok h2 => exact ⟨_, .dropped hq hb h1, .ok h2⟩
  | nextFail _ ho ih => obtain ⟨o', h1, h2⟩ := ih; exact ⟨o', .nextFail h1 (h2.not_ok ho), h2⟩
  | single _ ih => obtain ⟨o', h1, h2⟩ := ih; exact ⟨o', .single h1, h2⟩
  | choice _ ho ih => obtain ⟨o', h1, h2⟩ := ih; exact ⟨o', .choice h1 (h2.not_fail ho), h2⟩
  | choiceFail _ ih =>
    obtain ⟨o', h1, h2⟩ := ih
    cases h2 with
    | fail h2 => exact ⟨_, .choiceFail h1, .fail (C.nil)⟩
  | first _ ho ih => obtain ⟨o', h1, h2⟩ := ih; exact ⟨o', .first h1 (h2.not_fail ho), h2⟩
  | last _ ih =>
    obtain ⟨o', h1, h2⟩ := ih
    cases h2 with
    | fail h2 => exact ⟨_, .last h1, .fail (C.nil)⟩
  | other _ _ ho ih1 ih2 =>
    obtain ⟨o1, h1, h2⟩ := ih1
    obtain ⟨o2, h3, h4⟩ := ih2
    cases h2 with
    | fail h2 => exact ⟨_, .other h1 h3 (h4.not_fail ho), h4⟩
  | otherFail _ _ ih1 ih2 =>
    obtain ⟨o1, h1, h2⟩ := ih1
    obtain ⟨o2, h3, h4⟩ := ih2
    cases h2 with
    | fail h2 => cases h4 with
      | fail h4 => exact ⟨_, .otherFail h1 h3, .fail (C.nil)⟩
  | enough hm => exact ⟨_, .enough hm, .ok (C.nil)⟩
  | round hm hg _ _ ih1 ih2 =>
    obtain ⟨o1, h1, h2⟩ := ih1
    obtain ⟨o2, h3, h4⟩ := ih2
    cases h2 with
    | ok h2 =>
      refine ⟨_, .round hm hg h1 h3, ?_⟩
      cases h4 with
      | ok h4 => exact .ok (C.append _ _ _ _ h2 h4)
      | fail h4 => exact .fail h4
      | abort => exact .abort
      | panic => exact .panic
  | livelock hm _ ih =>
    obtain ⟨o', h1, h2⟩ := ih
    cases h2 with
    | ok h2 => exact ⟨_, .livelock hm h1, .abort⟩
  | lastRound hm hi _ ih =>
    obtain ⟨o', h1, h2⟩ := ih
    cases h2 with
    | fail h2 => exact ⟨_, .lastRound hm hi h1, .ok (C.last _ _ h2)⟩
  | tooFew hm hi _ ih =>
    obtain ⟨o', h1, h2⟩ := ih
    cases h2 with
    | fail h2 => exact ⟨_, .tooFew hm hi h1, .fail (C.nil)⟩
  | roundStop hm _ ho ih =>
    obtain ⟨o', h1, h2⟩ := ih
    have e := h2.stop ho
    subst e
    exact ⟨_, .roundStop hm h1 ho, h2⟩

theorem fewer (keep : Bool) : Compares (fun _ => True) (fun a a' => a'.Sublist a) keep false where
  nil := .refl _
  token := fun _ _ _ => .refl _
  scanned := fun _ _ => .refl _
  append := fun _ _ _ _ h1 h2 => h1.append h2
  wrap := fun _ _ _ _ _ _ h => (h.cons_cons _).append (.refl _)
  last := fun _ _ _ => List.nil_sublist _

/-- The first list is the second with groups of balanced events put in. -/
inductive Inserted : List Event → List Event → Prop
  | nil : Inserted [] []
  | keep {x a a'} : Inserted a a' → Inserted (x :: a) (x :: a')
  | extra {seg a a'} : Balanced seg → Inserted a a' → Inserted (seg ++ a) a'

theorem inserted_refl (a : List Event) : Inserted a a := by
  induction a with
  | nil => exact .nil
  | cons x a ih => exact .keep ih

theorem inserted_append {a a' b b' : List Event} (h : Inserted a a') (h' : Inserted b b') : Inserted (a ++ b) (a' ++ b') := by
  induction h with
  | nil => exact h'
  | keep _ ih => exact .keep ih
  | extra hs _ ih => rw [List.append_assoc]; exact .extra hs ih

theorem balanced_both {a b : List Event} (ha : Balanced a) (hb : Balanced b) : Balanced (a ++ b) := by
  induction ha with
  | nil => exact hb
  | token _ ih => exact .token ih
  | pair h1 _ _ ih2 => rw [List.append_assoc, List.cons_append]; exact .pair h1 ih2

theorem balanced_wrap {d l l' : Location} {n : Str} {a : List Event} (h : Balanced a) : Balanced (.begin d l n :: a ++ [.end d l' n]) := .pair h .nil

/-- Leaving the groups out. -/
theorem without (keep : Bool) : Compares Balanced (fun a a' => Inserted a a' ∧ Balanced a) keep false where
  nil := ⟨.nil, .nil⟩
  token := fun _ _ _ => ⟨inserted_refl _, .token .nil⟩
  scanned := fun a h => ⟨inserted_refl a, h⟩
  append := fun _ _ _ _ h1 h2 => ⟨inserted_append h1.1 h2.1, balanced_both h1.2 h2.2⟩
  wrap := fun _ _ _ _ _ _ h => ⟨inserted_append (.keep h.1) (inserted_refl _), balanced_wrap h.2⟩
  last := fun a _ h => by
    cases keep with
    | true => exact ⟨by have := Inserted.extra h.2 .nil; rwa [List.append_nil] at this, h.2⟩
    | false => exact ⟨.nil, .nil⟩

/-- Putting them in. -/
theorem inserting : Compares Balanced (fun a a' => Inserted a' a ∧ Balanced a') false true where
  nil := ⟨.nil, .nil⟩
  token := fun _ _ _ => ⟨inserted_refl _, .token .nil⟩
  scanned := fun a h => ⟨inserted_refl a, h⟩
  append := fun _ _ _ _ h1 h2 => ⟨inserted_append h1.1 h2.1, balanced_both h1.2 h2.2⟩
  wrap := fun _ _ _ _ _ _ h => ⟨inserted_append (.keep h.1) (inserted_refl _), balanced_wrap h.2⟩
  last := fun a a' h => ⟨by have := Inserted.extra h.2 .nil; rwa [List.append_nil] at this, h.2⟩

/-! ## Removing empty pairs -/

theorem spells_dropped {here : Location} {es : List Event} {text : Str} {x : Event} (hx : IsBegin x ∨ IsEnd x) (h : Spells here (x :: es) text) :
    Spells here es text := by
  cases h with
  | token h => rcases hx with h | h <;> exact h.elim
  | begin h => exact h
  | «end» h => exact h

theorem kept_drop {x : Event} (hx : IsBegin x ∨ IsEnd x) {es kept : List Event} {here : Location} {text : Str} (h : kept.Sublist (x :: es))
    (hs : Spells here kept text) : ∃ kept', kept'.Sublist es ∧ Spells here kept' text := by
  cases h with
  | cons _ h => exact ⟨_, h, hs⟩
  | cons_cons _ h => exact ⟨_, h, spells_dropped hx hs⟩

theorem onePass_kept {es out : List Event} (h : OnePass es out) : ∀ here text kept, kept.Sublist es → Spells here kept text →
    ∃ kept', kept'.Sublist out ∧ Spells here kept' text := by
  induction h with
  | nil => exact fun _ _ _ h1 h2 => ⟨_, h1, h2⟩
  | pair hb he _ ih =>
    intro here text kept h1 h2
    obtain ⟨k1, h3, h4⟩ := kept_drop (.inl hb) h1 h2
    obtain ⟨k2, h5, h6⟩ := kept_drop (.inr he) h3 h4
    exact ih _ _ _ h5 h6
  | keep _ _ ih =>
    intro here text kept h1 h2
    cases h1 with
    | cons _ h1 =>
      obtain ⟨k, h3, h4⟩ := ih _ _ _ h1 h2
      exact ⟨k, .cons _ h3, h4⟩
    | cons_cons _ h1 =>
      cases h2 with
      | token h2 => obtain ⟨k, h3, h4⟩ := ih _ _ _ h1 h2; exact ⟨_, .cons_cons _ h3, .token h4⟩
      | begin h2 => obtain ⟨k, h3, h4⟩ := ih _ _ _ h1 h2; exact ⟨_, .cons_cons _ h3, .begin h4⟩
      | «end» h2 => obtain ⟨k, h3, h4⟩ := ih _ _ _ h1 h2; exact ⟨_, .cons_cons _ h3, .end h4⟩

theorem trimmed_kept {es out : List Event} (h : Trimmed es out) {here : Location} {text : Str} {kept : List Event} (h1 : kept.Sublist es)
    (h2 : Spells here kept text) : ∃ kept', kept'.Sublist out ∧ Spells here kept' text := by
  cases h with
  | nil => exact ⟨_, h1, h2⟩
  | cons h =>
    cases h1 with
    | cons _ h1 =>
      obtain ⟨k, h3, h4⟩ := onePass_kept h _ _ _ h1 h2
      exact ⟨k, .cons _ h3, h4⟩
    | cons_cons _ h1 =>
      cases h2 with
      | token h2 => obtain ⟨k, h3, h4⟩ := onePass_kept h _ _ _ h1 h2; exact ⟨_, .cons_cons _ h3, .token h4⟩
      | begin h2 => obtain ⟨k, h3, h4⟩ := onePass_kept h _ _ _ h1 h2; exact ⟨_, .cons_cons _ h3, .begin h4⟩
      | «end» h2 => obtain ⟨k, h3, h4⟩ := onePass_kept h _ _ _ h1 h2; exact ⟨_, .cons_cons _ h3, .end h4⟩

theorem balanced_head {e : Event} {es : List Event} (h : Balanced (e :: es)) : ¬ IsEnd e := by
  cases h <;> exact id

theorem balanced_last {es : List Event} (h : Balanced es) : ∀ e, es.getLast? = some e → ¬ IsBegin e := by
  induction h with
  | nil => intro e h; simp at h
  | @token d l t es _ ih =>
    intro e h
    rw [List.getLast?_cons] at h
    cases hl : es.getLast? with
    | none => rw [hl] at h; simp at h; subst h; exact id
    | some x => rw [hl] at h; simp at h; subst h; exact ih _ hl
  | @pair d l n inner l' es _ _ _ ih =>
    intro e h
    rw [List.getLast?_append, List.getLast?_cons] at h
    cases hl : es.getLast? with
    | none => rw [hl] at h; simp at h; subst h; exact id
    | some x => rw [hl] at h; simp at h; subst h; exact ih _ hl

theorem last_cons {x : Event} {es : List Event} {P : Event → Prop} (h : ∀ e, (x :: es).getLast? = some e → P e) : ∀ e, es.getLast? = some e → P e := by
  intro e he
  refine h e ?_
  rw [List.getLast?_cons, he]
  rfl

theorem onePass_behind (n : Nat) : ∀ (seg a out : List Event), seg.length ≤ n → (∀ e, seg.getLast? = some e → ¬ IsBegin e) → OnePass (seg ++ a) out →
    ∃ o1 o2, out = o1 ++ o2 ∧ OnePass a o2 := by
  induction n with
  | zero =>
    intro seg a out hn _ h
    have e : seg = [] := List.length_eq_zero_iff.mp (Nat.le_zero.mp hn)
    subst e
    exact ⟨[], out, rfl, h⟩
  | succ n ih =>
    intro seg a out hn hl h
    cases seg with
    | nil => exact ⟨[], out, rfl, h⟩
    | cons x seg =>
      rw [List.cons_append] at h
      generalize hes : seg ++ a = es at h
      cases h with
      | pair hb he h =>
        cases seg with
        | nil => exact absurd hb (hl _ rfl)
        | cons e seg =>
          rw [List.cons_append] at hes
          injection hes with h1 h2
          subst h2
          exact ih seg a out (by simp only [List.length_cons] at hn; omega) (last_cons (last_cons hl)) h
      | keep _ h =>
        subst hes
        obtain ⟨o1, o2, h1, h2⟩ := ih seg a _ (by simp only [List.length_cons] at hn; omega) (last_cons hl) h
        exact ⟨x :: o1, o2, by rw [h1]; rfl, h2⟩

theorem inserted_end {e : Event} {s s' : List Event} (he : IsEnd e) {l : List Event} (h : Inserted l s') : l = e :: s → ∃ s'', s' = e :: s'' := by
  induction h generalizing s with
  | nil => intro h; simp at h
  | keep _ _ => intro h; injection h with h1 h2; subst h1; exact ⟨_, rfl⟩
  | @extra seg a a' hs _ ih =>
    intro h
    cases seg with
    | nil => exact ih h
    | cons x seg =>
      rw [List.cons_append] at h
      injection h with h1 h2
      subst h1
      exact absurd he (balanced_head hs)

theorem end_kept {e : Event} {es out : List Event} (he : IsEnd e) (h : OnePass es out) : OnePass (e :: es) (e :: out) :=
  .keep (fun _ _ _ hc => by
    cases e with
    | begin _ _ _ => exact he.elim
    | token _ _ _ => exact he.elim
    | «end» _ _ _ => exact hc.1.elim) h

/-- Taking empty pairs away loses nothing that would have stayed without the groups. -/
theorem inserted_onePass {a a' : List Event} (h : Inserted a a') : ∀ out out', OnePass a out → OnePass a' out' → out'.Sublist out := by
  induction h with
  | nil => intro out out' h1 h2; cases h1; cases h2; exact .refl _
  | @keep x a a' hi ih =>
    intro out out' h1 h2
    cases h1 with
    | pair hb he h1 =>
      cases h2 with
      | pair hb' he' h2 => exact (ih _ _ (end_kept he h1) (end_kept he' h2)).of_cons_cons
      | keep hk h2 =>
        obtain ⟨s'', rfl⟩ := inserted_end he hi rfl
        exact absurd ⟨hb, he⟩ (hk _ _ rfl)
    | keep hk h1 =>
      cases h2 with
      | pair hb' he' h2 => exact ((List.sublist_cons_self _ _).trans (ih _ _ h1 (end_kept he' h2))).cons _
      | keep hk' h2 => exact (ih _ _ h1 h2).cons_cons _
  | @extra seg a a' hs _ ih =>
    intro out out' h1 h2
    obtain ⟨o1, o2, rfl, h3⟩ := onePass_behind _ seg a out (Nat.le_refl _) (balanced_last hs) h1
    exact (ih _ _ h3 h2).trans (List.sublist_append_right _ _)

theorem inserted_trimmed {x : Event} {a a' out out' : List Event} (h : Inserted a a') (h1 : Trimmed (x :: a) out) (h2 : Trimmed (x :: a') out') :
    out'.Sublist out := by
  cases h1 with
  | cons h1 => cases h2 with
    | cons h2 => exact (inserted_onePass h _ _ h1 h2).cons_cons _

theorem trimmed_exists (x : Event) (es : List Event) : ∃ out, Trimmed (x :: es) out := ⟨_, (trimmed_iff _ _).mpr rfl⟩

theorem inserted_around {x y : Event} {a a' out out' : List Event} (h : Inserted a a') (h1 : Trimmed (x :: a ++ [y]) out)
    (h2 : Trimmed (x :: a' ++ [y]) out') : out'.Sublist out :=
  inserted_trimmed (inserted_append h (inserted_refl [y])) h1 h2

/-- Without the events of failed rounds. -/
theorem parses_without {q : Quirks} {G : Language} (U : OneMeaning G) (hb : ScannersBalanced G) {start : SyntaxRule} (hs : start ∈ G.rules)
    {here : Location} {text : Str} {x : Res (List Event)} (h : Parses q G start here text x) :
    ∃ x', Parses { q with keepPartial := false } G start here text x' ∧ SameButMore x' x := by
  have W := without q.keepPartial
  cases h with
  | accepted h1 h2 =>
    obtain ⟨inner, h3, rfl⟩ := (ev_start_ok U hs).mp h1
    obtain ⟨o', h4, h5⟩ := ev_alike W hb h3
    cases h5 with
    | @ok _ inner' _ h5 =>
      obtain ⟨out', h6⟩ := trimmed_exists (.begin start.location here start.metaIdentifier)
        (inner' ++ [.end start.location (lineColumn here (text.take text.length)) start.metaIdentifier])
      exact ⟨_, .accepted ((ev_start_ok U hs).mpr ⟨_, h4, rfl⟩) h6, .accepted (inserted_around h5.1 h2 h6)⟩
  | leftover h1 h2 =>
    obtain ⟨o', h4, h5⟩ := ev_alike W hb h1
    cases h5 with
    | ok h5 => exact ⟨_, .leftover h4 h2, .error⟩
  | rejected h1 =>
    obtain ⟨o', h4, h5⟩ := ev_alike W hb h1
    cases h5 with
    | fail h5 => exact ⟨_, .rejected h4, .error⟩
  | aborted h1 =>
    obtain ⟨o', h4, h5⟩ := ev_alike W hb h1
    cases h5 with
    | abort => exact ⟨_, .aborted h4, .error⟩
  | crashed h1 =>
    obtain ⟨o', h4, h5⟩ := ev_alike W hb h1
    cases h5 with
    | panic => exact ⟨_, .crashed h4, .crash⟩

/-- With the events of failed rounds. -/
theorem parses_inserting {q : Quirks} {G : Language} (U : OneMeaning G) (hb : ScannersBalanced G) (hq : q.keepPartial = true) {start : SyntaxRule}
    (hs : start ∈ G.rules) {here : Location} {text : Str} {x : Res (List Event)} (h : Parses { q with keepPartial := false } G start here text x) :
    ∃ x', Parses q G start here text x' ∧ SameButMore x x' := by
  have e : q = { ({ q with keepPartial := false } : Quirks) with keepPartial := true } := by cases q; simp only at hq; subst hq; rfl
  have W : Compares Balanced (fun a a' => Inserted a' a ∧ Balanced a') ({ q with keepPartial := false } : Quirks).keepPartial true := inserting
  rw [e]
  cases h with
  | accepted h1 h2 =>
    obtain ⟨inner, h3, rfl⟩ := (ev_start_ok U hs).mp h1
    obtain ⟨o', h4, h5⟩ := ev_alike W hb h3
    cases h5 with
    | @ok _ inner' _ h5 =>
      obtain ⟨out', h6⟩ := trimmed_exists (.begin start.location here start.metaIdentifier)
        (inner' ++ [.end start.location (lineColumn here (text.take text.length)) start.metaIdentifier])
      exact ⟨_, .accepted ((ev_start_ok U hs).mpr ⟨_, h4, rfl⟩) h6, .accepted (inserted_around h5.1 h6 h2)⟩
  | leftover h1 h2 =>
    obtain ⟨o', h4, h5⟩ := ev_alike W hb h1
    cases h5 with
    | ok h5 => exact ⟨_, .leftover h4 h2, .error⟩
  | rejected h1 =>
    obtain ⟨o', h4, h5⟩ := ev_alike W hb h1
    cases h5 with
    | fail h5 => exact ⟨_, .rejected h4, .error⟩
  | aborted h1 =>
    obtain ⟨o', h4, h5⟩ := ev_alike W hb h1
    cases h5 with
    | abort => exact ⟨_, .aborted h4, .error⟩
  | crashed h1 =>
    obtain ⟨o', h4, h5⟩ := ev_alike W hb h1
    cases h5 with
    | panic => exact ⟨_, .crashed h4, .crash⟩

/-- The other deviations do not show in mostly tidy grammars. -/
theorem mostly_hides {G : Language} (h : Everywhere (mostlyTidy G) G) :
    Hides (mostlyTidy G) G { asBuilt with keepPartial := false } ideal 4294967295 ∧
      Hides (mostlyTidy G) G ideal { asBuilt with keepPartial := false } 4294967295 := by
  have h1 : ∀ l n, (mostlyTidy G).primary (.metaIdentifier l n) := by
    intro l n
    exact by intro _ _ h; simp at h
  constructor
  · refine ⟨h, h1, .inr fun _ _ h => h, .inl rfl, .inr fun _ h => h, .inr ⟨?_, ?_, ?_⟩⟩
    · intro n hn
      have hn : n < 4294967295 := hn
      refine ⟨fun hc => ?_, by simp [ideal]⟩
      simp [asBuilt] at hc; omega
    · intro m hm; simp [asBuilt] at hm; omega
    · intro m hm; simp [ideal] at hm
  · refine ⟨h, h1, .inr fun _ _ h => h, .inl rfl, .inr fun _ h => h, .inr ⟨?_, ?_, ?_⟩⟩
    · intro n hn
      have hn : n < 4294967295 := hn
      refine ⟨by simp [ideal], fun hc => ?_⟩
      simp [asBuilt] at hc; omega
    · intro m hm; simp [ideal] at hm
    · intro m hm; simp [asBuilt] at hm; omega

theorem ev_mostly {G : Language} (h : Everywhere (mostlyTidy G) G) (hb : Bounded G) {loc : Location} {name : Str} {here : Location}
    {text : Str} (hl : text.length < 4294967295) {o : Outcome} :
    Ev { asBuilt with keepPartial := false } G (.primary (.metaIdentifier loc name)) here text o ↔
      Ev ideal G (.primary (.metaIdentifier loc name)) here text o := by
  obtain ⟨h1, h2⟩ := mostly_hides h
  exact ⟨fun e => transfer h1 hb e (h1.names _ _) hl trivial, fun e => transfer h2 hb e (h2.names _ _) hl trivial⟩

theorem parses_of_ev {q q' : Quirks} {G : Language} {start : SyntaxRule} {here : Location} {text : Str}
    (h : ∀ o, Ev q G (.primary (.metaIdentifier start.location start.metaIdentifier)) here text o →
      Ev q' G (.primary (.metaIdentifier start.location start.metaIdentifier)) here text o) {x : Res (List Event)}
    (hx : Parses q G start here text x) : Parses q' G start here text x := by
  cases hx with
  | accepted h1 h2 => exact .accepted (h _ h1) h2
  | leftover h1 h2 => exact .leftover (h _ h1) h2
  | rejected h1 => exact .rejected (h _ h1)
  | aborted h1 => exact .aborted (h _ h1)
  | crashed h1 => exact .crashed (h _ h1)

end Partials

end Ebnf
