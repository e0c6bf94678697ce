import Verif.Spec.Events
import Verif.Proofs.Running
import Verif.Proofs.Balanced

set_option autoImplicit false

/-! # Events of a parse -/

namespace Ebnf

open Spec

/-! ## Nesting -/


theorem walk_append (es es' : List Event) : ∀ st, walk st (es ++ es') = (walk st es).bind (fun st' => walk st' es') := by
  induction es with
  | nil => intro st; rfl
  | cons x es ih =>
    intro st
    cases x with
    | token _ _ _ => simp only [List.cons_append, walk]; exact ih st
    | begin _ _ _ => simp only [List.cons_append, walk]; exact ih _
    | «end» _ _ _ =>
      cases st with
      | nil => simp [walk]
      | cons y st => simp only [List.cons_append, walk]; split <;> simp [ih]

theorem balanced_walk {es : List Event} (h : Balanced es) : ∀ st, walk st es = some st := by
  induction h with
  | nil => intro st; rfl
  | token _ ih => intro st; exact ih st
  | pair _ _ ih1 ih2 =>
    intro st
    simp only [List.cons_append, walk, walk_append, ih1, Option.bind_some, if_true]
    exact ih2 st

theorem walk_balanced (n : Nat) : ∀ es : List Event, es.length ≤ n →
    (walk [] es = some [] → Balanced es) ∧
    (∀ d l st, walk ((d, l) :: st) es = some [] → ∃ inner loc es', es = inner ++ .end d loc l :: es' ∧ Balanced inner ∧
      walk st es' = some []) := by
  induction n with
  | zero =>
    intro es hn
    have : es = [] := List.length_eq_zero_iff.mp (by omega)
    subst this
    exact ⟨fun _ => .nil, fun d l st h => by simp [walk] at h⟩
  | succ n ih =>
    intro es hn
    cases es with
    | nil => exact ⟨fun _ => .nil, fun d l st h => by simp [walk] at h⟩
    | cons x es =>
      have hl : es.length ≤ n := by simp at hn; omega
      cases x with
      | token a b c =>
        refine ⟨fun h => .token ((ih es hl).1 h), fun d l st h => ?_⟩
        obtain ⟨inner, loc, es', rfl, h2, h3⟩ := (ih es hl).2 d l st h
        exact ⟨_ :: inner, loc, es', rfl, .token h2, h3⟩
      | begin a b c =>
        constructor
        · intro h
          obtain ⟨inner, loc, es', rfl, h2, h3⟩ := (ih es hl).2 a c [] h
          exact .pair h2 ((ih es' (by simp at hl; omega)).1 h3)
        · intro d l st h
          obtain ⟨inner, loc, es', rfl, h2, h3⟩ := (ih es hl).2 a c ((d, l) :: st) h
          obtain ⟨inner', loc', es'', rfl, h4, h5⟩ := (ih es' (by simp at hl; omega)).2 d l st h3
          refine ⟨.begin a b c :: inner ++ .end a loc c :: inner', loc', es'', by simp, .pair h2 h4, h5⟩
      | «end» a b c =>
        constructor
        · intro h; simp [walk] at h
        · intro d l st h
          simp only [walk] at h
          split at h
          · rename_i he; cases he
            exact ⟨[], b, es, rfl, .nil, h⟩
          · simp at h

theorem balanced_iff_walk (es : List Event) : Balanced es ↔ walk [] es = some [] :=
  ⟨fun h => balanced_walk h [], (walk_balanced es.length es (Nat.le_refl _)).1⟩

theorem onePass_walk {es out : List Event} (h : OnePass es out) : ∀ st st', walk st es = some st' → walk st out = some st' := by
  induction h with
  | nil => exact fun _ _ h => h
  | @pair b e es out hb he _ ih =>
    intro st st' h
    cases b with
    | begin d l n =>
      cases e with
      | «end» d' l' n' =>
        simp only [walk] at h
        split at h
        · exact ih _ _ h
        · simp at h
      | _ => exact he.elim
    | _ => exact hb.elim
  | @keep x es out _ _ ih =>
    intro st st' h
    cases x with
    | token _ _ _ => exact ih _ _ h
    | begin _ _ _ => exact ih _ _ h
    | «end» d l n =>
      cases st with
      | nil => simp [walk] at h
      | cons y st =>
        simp only [walk] at h ⊢
        split at h
        · rename_i hy; rw [if_pos hy]; exact ih _ _ h
        · simp at h

/-- The closing event of a balanced list stays. -/
theorem onePass_last {es out : List Event} {x : Event} (h : OnePass (es ++ [x]) out) :
    (∃ st, walk st es = some []) → ∃ out', OnePass es out' ∧ out = out' ++ [x] := by
  generalize he : es ++ [x] = es0 at h
  induction h generalizing es with
  | nil => simp at he
  | @pair b e es1 out hb hend h ih =>
    rintro ⟨st, hst⟩
    cases es with
    | nil => simp at he
    | cons b' es =>
      simp at he
      obtain ⟨rfl, he⟩ := he
      cases es with
      | nil =>
        cases b' with
        | begin d l n => simp [walk] at hst
        | _ => exact hb.elim
      | cons e' es =>
        simp at he
        obtain ⟨rfl, he⟩ := he
        have : ∃ st, walk st es = some [] := by
          refine ⟨st, ?_⟩
          cases b' with
          | begin d l n =>
            cases e' with
            | «end» d' l' n' =>
              simp only [walk] at hst
              split at hst
              · exact hst
              · simp at hst
            | _ => exact hend.elim
          | _ => exact hb.elim
        obtain ⟨out', h1, h2⟩ := ih he this
        exact ⟨out', .pair hb hend h1, h2⟩
  | @keep y es1 out hk h ih =>
    rintro ⟨st, hst⟩
    cases es with
    | nil =>
      simp at he
      obtain ⟨rfl, rfl⟩ := he
      cases h
      exact ⟨[], .nil, rfl⟩
    | cons y' es =>
      simp at he
      obtain ⟨rfl, he⟩ := he
      have : ∃ st, walk st es = some [] := by
        cases y' with
        | token _ _ _ => exact ⟨_, hst⟩
        | begin _ _ _ => exact ⟨_, hst⟩
        | «end» d l n =>
          cases st with
          | nil => simp [walk] at hst
          | cons z st =>
            simp only [walk] at hst
            split at hst
            · exact ⟨_, hst⟩
            · simp at hst
      obtain ⟨out', h1, h2⟩ := ih he this
      refine ⟨y' :: out', .keep ?_ h1, by rw [h2]; rfl⟩
      intro e es' hee hbe
      subst hee
      exact hk e (es' ++ [x]) (by rw [← he]; rfl) hbe

/-! ## Places and texts of events -/

theorem spells_append {here : Location} {es es' : List Event} {s s' : Str} (h : Spells here es s)
    (h' : Spells (lineColumn here s) es' s') : Spells here (es ++ es') (s ++ s') := by
  induction h with
  | nil => simpa [lineColumn_nil] using h'
  | token _ ih =>
    rw [List.append_assoc]
    refine .token (ih ?_)
    rw [lineColumn_append]
    exact h'
  | begin _ ih => exact .begin (ih h')
  | «end» _ ih => exact .end (ih h')

/-- With tidy bookkeeping, what matches is spelled by its events. -/
theorem ev_spells {q : Quirks} {G : Language} (hq1 : q.keepPartial = false) (hq2 : q.ignoreForward = false) 
    (hs : ScannersSpell G) {task : Task} {here : Location}
    {rest : Str} {o : Outcome} (h : Ev q G task here rest o) : ∀ evs n, o = .ok evs n → Spells here evs (rest.take n) := by
  induction h with
  | optional _ ih => exact ih
  | repeated _ ih => exact ih
  | grouped _ ih => exact ih
  | @terminal loc s here rest hp =>
    simp only [Outcome.ok.injEq]; rintro _ _ ⟨rfl, rfl⟩
    obtain ⟨t, rfl⟩ := hp
    have := Spells.token (definition := loc) (here := here) (s := s) (es := []) (text := []) .nil
    simpa using this
  | @reference loc name here rest r evs n _ _ _ ih =>
    simp only [Outcome.ok.injEq]; rintro _ _ ⟨rfl, rfl⟩
    have := spells_append (ih _ _ rfl) (.end (definition := loc) (label := r.metaIdentifier) .nil)
    simp only [List.append_nil] at this
    exact .begin this
  | special h => simp only [Outcome.ok.injEq]; rintro _ _ ⟨rfl, rfl⟩; exact (hs _ _ _ _ _).1 _ _ h
  | @forward loc s here rest name n task evs m h1 _ _ ih =>
    simp only [Outcome.ok.injEq]; rintro _ _ ⟨rfl, rfl⟩
    have hn := (hs _ _ _ _ _).2 _ _ h1
    subst hn
    have := ih _ _ rfl
    simpa [lineColumn_nil] using this
  | forwardIgnored _ _ _ h => rw [hq2] at h; simp at h
  | referenceStop _ _ _ _ ih => exact ih
  | @forwardStop _ _ _ _ _ _ _ o _ _ _ ho => cases o <;> simp_all [Outcome.IsStop]
  | once _ ih => exact ih
  | counted _ _ ih => exact ih
  | plain _ ih => exact ih
  | exceptStop _ _ ih => exact ih
  | notExcluded _ _ _ ih => exact ih
  | notExcludedFail _ _ ih => exact ih
  | @excludedStop _ _ _ _ _ _ o _ _ ho => cases o <;> simp_all [Outcome.IsStop]
  | @next t d here rest evs n o _ _ _ ih1 ih2 =>
    cases o with
    | ok evs' m =>
      simp only [Outcome.after, Outcome.ok.injEq]; rintro _ _ ⟨rfl, rfl⟩
      rw [List.take_add]
      exact spells_append (ih1 _ _ rfl) (ih2 _ _ rfl)
    | _ => simp [Outcome.after]
  | dropped _ _ _ ih => exact ih
  | nextFail _ _ ih => exact ih
  | single _ ih => exact ih
  | choice _ _ ih => exact ih
  | first _ _ ih => exact ih
  | other _ _ _ _ ih => exact ih
  | @round body min max guarded i here rest evs n o _ _ _ _ ih1 ih2 =>
    cases o with
    | ok evs' m =>
      simp only [Outcome.afterRound, Outcome.ok.injEq]; rintro _ _ ⟨rfl, rfl⟩
      rw [List.take_add]
      exact spells_append (ih1 _ _ rfl) (ih2 _ _ rfl)
    | _ => simp [Outcome.afterRound]
  | lastRound =>
    simp only [Outcome.ok.injEq]; rintro _ _ ⟨rfl, rfl⟩
    rw [hq1]; exact .nil
  | roundStop _ _ _ ih => exact ih
  | _ =>
    intro evs n he
    first
    | (simp only [Outcome.ok.injEq, reduceCtorEq] at he; done)
    | (simp only [Outcome.ok.injEq] at he; rw [← he.1, ← he.2]; exact .nil)

theorem onePass_spells {es out : List Event} (h : OnePass es out) : ∀ here text, Spells here es text → Spells here out text := by
  induction h with
  | nil => exact fun _ _ h => h
  | @pair b e es out hb he _ ih =>
    intro here text h
    cases h with
    | begin h =>
      cases h with
      | «end» h => exact ih _ _ h
      | _ => exact he.elim
    | _ => exact hb.elim
  | keep _ _ ih =>
    intro here text h
    cases h with
    | token h => exact .token (ih _ _ h)
    | begin h => exact .begin (ih _ _ h)
    | «end» h => exact .end (ih _ _ h)

theorem trimmed_spells {es out : List Event} (h : Trimmed es out) {here : Location} {text : Str} (hs : Spells here es text) :
    Spells here out text := by
  cases h with
  | nil => exact hs
  | cons h =>
    cases hs with
    | token hs => exact .token (onePass_spells h _ _ hs)
    | begin hs => exact .begin (onePass_spells h _ _ hs)
    | «end» hs => exact .end (onePass_spells h _ _ hs)

theorem spells_tokenText {here : Location} {es : List Event} {text : Str} (h : Spells here es text) : tokenText es = text := by
  induction h with
  | nil => rfl
  | token _ ih => simp [tokenText, ih]
  | begin _ ih => simpa [tokenText] using ih
  | «end» _ ih => simpa [tokenText] using ih

/-! ## Removal of empty pairs -/

theorem onePass_withoutPairs {es out : List Event} (h : OnePass es out) : WithoutPairs es out := by
  induction h with
  | nil => exact .nil
  | pair hb he _ ih => exact .drop hb he ih
  | keep _ _ ih => exact .keep ih

theorem trimmed_withoutPairs {es out : List Event} (h : Trimmed es out) : WithoutPairs es out := by
  cases h with
  | nil => exact .nil
  | cons h => exact .keep (onePass_withoutPairs h)

theorem withoutPairs_tokenText {es out : List Event} (h : WithoutPairs es out) : tokenText out = tokenText es := by
  induction h with
  | nil => rfl
  | @keep x es out _ ih => cases x <;> simp [tokenText, ih]
  | @drop b e es out hb he _ ih =>
    cases b with
    | begin _ _ _ =>
      cases e with
      | «end» _ _ _ => simpa [tokenText] using ih
      | _ => exact he.elim
    | _ => exact hb.elim

/-- What the pass skips before it keeps an event. -/
theorem onePass_skip {es out : List Event} (h : OnePass es out) : ∀ x out', out = x :: out' →
    ∃ pairs es', es = pairs ++ x :: es' ∧ (pairs = [] ∨ EmptyPairs pairs) ∧ OnePass es' out' ∧
      ∀ e es'', es' = e :: es'' → ¬ (IsBegin x ∧ IsEnd e) := by
  induction h with
  | nil => intro x out' h; simp at h
  | @pair b e es out hb he _ ih =>
    intro x out' h
    obtain ⟨pairs, es', rfl, h2, h3⟩ := ih x out' h
    refine ⟨b :: e :: pairs, es', by simp, .inr ?_, h3⟩
    rcases h2 with rfl | h2
    · exact .one hb he
    · exact .more hb he h2
  | @keep y es out hk h _ =>
    intro x out' he
    simp at he
    obtain ⟨rfl, rfl⟩ := he
    exact ⟨[], es, rfl, .inl rfl, h, hk⟩

theorem emptyPairs_cons {pairs : List Event} (h : EmptyPairs pairs) : ∃ b e es, pairs = b :: e :: es ∧ IsBegin b ∧ IsEnd e ∧
    (es = [] ∨ EmptyPairs es) := by
  cases h with
  | one hb he => exact ⟨_, _, [], rfl, hb, he, .inl rfl⟩
  | more hb he h => exact ⟨_, _, _, rfl, hb, he, .inr h⟩

theorem begin_not_end {x : Event} (h : IsBegin x) (h' : IsEnd x) : False := by cases x <;> simp_all [IsBegin, IsEnd]

theorem onePass_prefix {es out : List Event} (h : OnePass es out) :
    ∀ pairs es', (pairs = [] ∨ EmptyPairs pairs) → es = pairs ++ es' → OnePass es' out := by
  induction h with
  | nil => intro pairs es' _ h; simp at h; rw [h.2]; exact .nil
  | @pair b e es out hb he h ih =>
    intro pairs es' hp heq
    rcases hp with rfl | hp
    · simp at heq; subst heq; exact .pair hb he h
    · obtain ⟨b', e', ps, rfl, _, _, h3⟩ := emptyPairs_cons hp
      simp at heq
      exact ih ps es' h3 heq.2.2
  | @keep x es out hk h _ =>
    intro pairs es' hp heq
    rcases hp with rfl | hp
    · simp at heq; subst heq; exact .keep hk h
    · obtain ⟨b', e', ps, rfl, hb, he, h3⟩ := emptyPairs_cons hp
      simp at heq
      obtain ⟨rfl, rfl⟩ := heq
      exact absurd ⟨hb, he⟩ (hk e' (ps ++ es') rfl)

/-- Exactly the nested empty pairs survive as empty pairs. -/
theorem onePass_pairs {es out : List Event} (h : OnePass es out) : HasEmptyPair out ↔ HasNestedEmptyPair es := by
  induction h with
  | nil =>
    constructor
    · rintro ⟨pre, b, e, post, h, _⟩; simp at h
    · rintro ⟨pre, b, pairs, e, post, h, _⟩; simp at h
  | @pair b e es out hb he h ih =>
    rw [ih]
    constructor
    · rintro ⟨pre, b', pairs, e', post, rfl, h1, h2, h3⟩
      exact ⟨b :: e :: pre, b', pairs, e', post, by simp, h1, h2, h3⟩
    · rintro ⟨pre, b', pairs, e', post, h0, h1, h2, h3⟩
      cases pre with
      | nil =>
        simp at h0
        obtain ⟨rfl, h0⟩ := h0
        obtain ⟨b2, e2, ps, rfl, hb2, _⟩ := emptyPairs_cons h2
        simp at h0
        rw [h0.1] at he
        exact (begin_not_end hb2 he).elim
      | cons x pre =>
        simp at h0
        obtain ⟨rfl, h0⟩ := h0
        cases pre with
        | nil =>
          simp at h0
          rw [h0.1] at he
          exact (begin_not_end h1 he).elim
        | cons y pre =>
          simp at h0
          exact ⟨pre, b', pairs, e', post, by simp [h0.2], h1, h2, h3⟩
  | @keep x es out hk h ih =>
    constructor
    · rintro ⟨pre, b, e, post, h0, h1, h2⟩
      cases pre with
      | nil =>
        simp at h0
        obtain ⟨rfl, rfl⟩ := h0
        obtain ⟨pairs, es', rfl, h3, _⟩ := onePass_skip h e post rfl
        rcases h3 with rfl | h3
        · exact absurd ⟨h1, h2⟩ (hk e es' rfl)
        · exact ⟨[], x, pairs, e, es', by simp, h1, h3, h2⟩
      | cons y pre =>
        simp at h0
        obtain ⟨rfl, rfl⟩ := h0
        obtain ⟨pre', b', pairs, e', post', rfl, h3⟩ := ih.mp ⟨pre, b, e, post, rfl, h1, h2⟩
        exact ⟨x :: pre', b', pairs, e', post', by simp, h3⟩
    · rintro ⟨pre, b, pairs, e, post, h0, h1, h2, h3⟩
      cases pre with
      | nil =>
        simp at h0
        obtain ⟨rfl, rfl⟩ := h0
        have := onePass_prefix h pairs (e :: post) (.inr h2) rfl
        generalize hz : e :: post = z at this
        cases this with
        | nil => simp at hz
        | pair hb _ _ => simp at hz; rw [← hz.1] at hb; exact (begin_not_end hb h3).elim
        | keep _ _ => simp at hz; rw [← hz.1]; exact ⟨[], x, e, _, rfl, h1, h3⟩
      | cons y pre =>
        simp at h0
        obtain ⟨rfl, rfl⟩ := h0
        obtain ⟨pre', b', e', post', rfl, h4⟩ := ih.mpr ⟨pre, b, pairs, e, post, by simp, h1, h2, h3⟩
        exact ⟨x :: pre', b', e', post', by simp, h4⟩

end Ebnf
