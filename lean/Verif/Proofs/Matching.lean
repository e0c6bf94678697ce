import Verif.Spec.Matching
import Verif.Proofs.Running

set_option autoImplicit false

/-! # Choices and repetitions -/

namespace Ebnf

open Spec

/-! ## Choices -/

theorem alternatives_ok_iff {q : Quirks} {G : Language} {here : Location} {rest : Str} {evs : List Event} {n : Nat} :
    ∀ l : DefinitionList, Ev q G (.alternatives l) here rest (.ok evs n) ↔
      ∃ pre d post, l.toList = pre ++ d :: post ∧ (∀ x ∈ pre, Fails q G (.sequence x) here rest) ∧
        Matches q G (.sequence d) here rest evs n
  | .nil => by
    constructor
    · intro h; cases h
    · rintro ⟨pre, d, post, h, _⟩; simp [DefinitionList.toList] at h
  | .cons d .nil => by
    constructor
    · intro h
      cases h with
      | first h _ => exact ⟨[], d, [], rfl, by simp, h⟩
    · rintro ⟨pre, x, post, h, _, h2⟩
      cases pre with
      | nil =>
        simp [DefinitionList.toList] at h
        obtain ⟨rfl, _⟩ := h
        exact .first h2 (by simp)
      | cons y pre => simp [DefinitionList.toList] at h
  | .cons d (.cons d' l) => by
    constructor
    · intro h
      cases h with
      | first h _ => exact ⟨[], d, _, rfl, by simp, h⟩
      | other hf h _ =>
        obtain ⟨pre, x, post, h1, h2, h3⟩ := (alternatives_ok_iff _).mp h
        refine ⟨d :: pre, x, post, ?_, ?_, h3⟩
        · rw [DefinitionList.toList, h1]; rfl
        · intro y hy
          rcases List.mem_cons.mp hy with rfl | hy
          · exact ⟨_, _, _, hf⟩
          · exact h2 y hy
    · rintro ⟨pre, x, post, h1, h2, h3⟩
      cases pre with
      | nil =>
        simp [DefinitionList.toList] at h1
        obtain ⟨rfl, _⟩ := h1
        exact .first h3 (by simp)
      | cons y pre =>
        rw [DefinitionList.toList] at h1
        simp only [List.cons_append, List.cons.injEq] at h1
        obtain ⟨rfl, h1⟩ := h1
        obtain ⟨_, _, _, hf⟩ := h2 d (by simp)
        refine .other hf ?_ (by simp)
        exact (alternatives_ok_iff _).mpr ⟨pre, x, post, h1, fun z hz => h2 z (by simp [hz]), h3⟩

theorem alternatives_fail_iff {q : Quirks} {G : Language} {here : Location} {rest : Str} :
    ∀ l : DefinitionList, l ≠ .nil → (Fails q G (.alternatives l) here rest ↔
      ∀ x ∈ l.toList, Fails q G (.sequence x) here rest)
  | .nil, h => absurd rfl h
  | .cons d .nil, _ => by
    constructor
    · rintro ⟨e, evs, n, h⟩
      intro x hx
      simp [DefinitionList.toList] at hx
      subst hx
      generalize ho : Outcome.fail e evs n = o at h
      cases h with
      | first _ hn => exact absurd ho.symm (hn _ _ _)
      | last h => exact ⟨_, _, _, h⟩
    · intro h
      obtain ⟨_, _, _, hf⟩ := h d (by simp [DefinitionList.toList])
      exact ⟨_, _, _, .last hf⟩
  | .cons d (.cons d' l), _ => by
    have ih := alternatives_fail_iff (q := q) (G := G) (here := here) (rest := rest) (.cons d' l) (by simp)
    constructor
    · rintro ⟨e, evs, n, h⟩
      intro x hx
      generalize ho : Outcome.fail e evs n = o at h
      cases h with
      | first _ hn => exact absurd ho.symm (hn _ _ _)
      | other _ _ hn => exact absurd ho.symm (hn _ _ _)
      | otherFail hf h =>
        rw [DefinitionList.toList] at hx
        rcases List.mem_cons.mp hx with rfl | hx
        · exact ⟨_, _, _, hf⟩
        · exact ih.mp ⟨_, _, _, h⟩ x hx
    · intro h
      obtain ⟨_, _, _, hf⟩ := h d (by simp [DefinitionList.toList])
      obtain ⟨_, _, _, hf'⟩ := ih.mpr (fun x hx => h x (by rw [DefinitionList.toList]; exact List.mem_cons_of_mem _ hx))
      exact ⟨_, _, _, .otherFail hf hf'⟩

theorem list_ok_iff {q : Quirks} {G : Language} {here : Location} {rest : Str} {evs : List Event} {n : Nat} (l : DefinitionList) :
    Ev q G (.list l) here rest (.ok evs n) ↔
      ∃ pre d post, l.toList = pre ++ d :: post ∧ (∀ x ∈ pre, Fails q G (.sequence x) here rest) ∧
        Matches q G (.sequence d) here rest evs n := by
  cases l with
  | nil =>
    constructor
    · intro h; cases h
    · rintro ⟨pre, d, post, h, _⟩; simp [DefinitionList.toList] at h
  | cons d l =>
    cases l with
    | nil =>
      rw [← alternatives_ok_iff]
      constructor
      · intro h
        cases h with
        | single h => exact .first h (by simp)
      · intro h
        cases h with
        | first h _ => exact .single h
    | cons d' l =>
      rw [← alternatives_ok_iff]
      constructor
      · intro h
        cases h with
        | choice h _ => exact h
      · exact fun h => .choice h (by simp)

theorem list_fail_iff {q : Quirks} {G : Language} {here : Location} {rest : Str} (l : DefinitionList) (hl : l ≠ .nil) :
    Fails q G (.list l) here rest ↔ ∀ x ∈ l.toList, Fails q G (.sequence x) here rest := by
  rw [← alternatives_fail_iff l hl]
  cases l with
  | nil => exact absurd rfl hl
  | cons d l =>
    cases l with
    | nil =>
      constructor
      · rintro ⟨e, evs, n, h⟩
        cases h with
        | single h => exact ⟨_, _, _, .last h⟩
      · rintro ⟨e, evs, n, h⟩
        generalize ho : Outcome.fail e evs n = o at h
        cases h with
        | first _ hn => exact absurd ho.symm (hn _ _ _)
        | last h => exact ⟨_, _, _, .single h⟩
    | cons d' l =>
      constructor
      · rintro ⟨e, evs, n, h⟩
        generalize ho : Outcome.fail e evs n = o at h
        cases h with
        | choice _ hn => exact absurd ho.symm (hn _ _ _)
        | choiceFail h => exact ⟨_, _, _, h⟩
      · rintro ⟨e, evs, n, h⟩
        exact ⟨_, _, _, .choiceFail h⟩

/-! ## Repetitions -/

theorem totalLength_le {q : Quirks} {G : Language} (hb : Bounded G) {body : Task} {here : Location} {rest : Str} {ms : List AMatch}
    (h : InARow q G body here rest ms) : totalLength ms ≤ rest.length := by
  induction h with
  | none => simp [totalLength]
  | more h _ ih =>
    have := ev_bounded_ok hb h
    simp only [totalLength, List.length_drop] at ih ⊢
    omega

theorem rounds_ok_of {q : Quirks} {G : Language} {body : Task} {min : Nat} {max : Option Nat} {guarded : Bool}
    {here : Location} {rest : Str} {ms : List AMatch} (h : InARow q G body here rest ms) : ∀ (i : Nat),
    (guarded = true → ∀ m ∈ ms, m.2 ≠ 0) → (∀ m, max = some m → i + ms.length ≤ m) →
    ∀ (o : Outcome), Ev q G (.rounds body min max guarded (i + ms.length)) (lineColumn here (rest.take (totalLength ms)))
      (rest.drop (totalLength ms)) o →
    Ev q G (.rounds body min max guarded i) here rest
      (match o with
       | .ok evs n => .ok (allEvents ms ++ evs) (totalLength ms + n)
       | .fail e evs n => .fail e evs (totalLength ms + n)
       | o => o) := by
  induction h with
  | none =>
    intro i _ _ o h
    simp only [totalLength, List.take_zero, lineColumn_nil, List.drop_zero, List.length_nil, Nat.add_zero] at h
    cases o <;> simpa [allEvents, totalLength] using h
  | @more here rest evs n ms hm _ ih =>
    intro i hg hmax o h
    simp only [totalLength, List.length_cons] at h
    have h1 := ih (i + 1) (fun hg' m hm => hg hg' m (by simp [hm])) (fun m hm => by have := hmax m hm; simp at this; omega) o (by
      rw [lineColumn_append, ← List.take_add, List.drop_drop, Nat.add_right_comm, Nat.add_assoc i]
      exact h)
    have h2 := Ev.round (fun m hm => by have := hmax m hm; simp at this; omega)
      (fun hc => hg hc.1 (evs, n) (by simp) hc.2) hm h1
    cases o <;> simpa [Outcome.afterRound, allEvents, totalLength, Nat.add_assoc] using h2

/-- How a repetition ends, after its last match. -/
inductive Ends (q : Quirks) (G : Language) (body : Task) (min : Nat) (max : Option Nat) (guarded : Bool) (i : Nat)
    (here : Location) (rest : Str) : Outcome → Prop
  | enough : max = some i → Ends q G body min max guarded i here rest (.ok [] 0)
  | last {e evs n} : (∀ m, max = some m → i < m) → min ≤ i → Ev q G body here rest (.fail e evs n) →
      Ends q G body min max guarded i here rest (.ok (if q.keepPartial then evs else []) 0)
  | tooFew {e evs n} : (∀ m, max = some m → i < m) → i < min → Ev q G body here rest (.fail e evs n) →
      Ends q G body min max guarded i here rest (.fail e [] n)
  | livelock {evs} : (∀ m, max = some m → i < m) → guarded = true → Ev q G body here rest (.ok evs 0) →
      Ends q G body min max guarded i here rest (.abort ⟨here, .livelock⟩)
  | stop {o} : (∀ m, max = some m → i < m) → Ev q G body here rest o → o.IsStop →
      Ends q G body min max guarded i here rest o

theorem ends_ev {q : Quirks} {G : Language} {body : Task} {min : Nat} {max : Option Nat} {guarded : Bool} {i : Nat}
    {here : Location} {rest : Str} {o : Outcome} (h : Ends q G body min max guarded i here rest o) :
    Ev q G (.rounds body min max guarded i) here rest o := by
  cases h with
  | enough h => subst h; exact .enough (Nat.le_refl _)
  | last h1 h2 h3 => exact .lastRound h1 h2 h3
  | tooFew h1 h2 h3 => exact .tooFew h1 h2 h3
  | livelock h1 h2 h3 => subst h2; exact .livelock h1 h3
  | stop h1 h2 h3 => exact .roundStop h1 h2 h3

/-- A repetition: some matches in a row, then an end. -/
theorem rounds_iff {q : Quirks} {G : Language} {body : Task} {min : Nat} {max : Option Nat} {guarded : Bool} {i : Nat}
    {here : Location} {rest : Str} {o : Outcome} (hi : ∀ m, max = some m → i ≤ m) :
    Ev q G (.rounds body min max guarded i) here rest o ↔
      ∃ ms o', InARow q G body here rest ms ∧ (guarded = true → ∀ m ∈ ms, m.2 ≠ 0) ∧
        Ends q G body min max guarded (i + ms.length) (lineColumn here (rest.take (totalLength ms)))
          (rest.drop (totalLength ms)) o' ∧
        o = match o' with
          | .ok evs n => .ok (allEvents ms ++ evs) (totalLength ms + n)
          | .fail e evs n => .fail e evs (totalLength ms + n)
          | o => o := by
  constructor
  · intro h
    generalize ht : Task.rounds body min max guarded i = task at h
    induction h generalizing i with
    | @enough body' min' max' guarded' i' here rest h =>
      cases ht
      have := hi max' rfl
      have : max' = i' := by omega
      subst this
      refine ⟨[], _, .none, by simp, .enough rfl, by simp [allEvents, totalLength]⟩
    | @round body' min' max' guarded' i' here rest evs n o h1 h2 h3 _ _ ih =>
      cases ht
      obtain ⟨ms, o', k1, k2, k3, k4⟩ := ih (i := i' + 1) (fun m hm => by have := h1 m hm; omega) rfl
      refine ⟨(evs, n) :: ms, o', .more h3 k1, ?_, ?_, ?_⟩
      · intro hg m hm
        rcases List.mem_cons.mp hm with rfl | hm
        · exact fun hn => h2 ⟨hg, hn⟩
        · exact k2 hg m hm
      · simp only [totalLength, List.length_cons]
        rw [lineColumn_append, ← List.take_add, List.drop_drop, Nat.add_right_comm, Nat.add_assoc] at k3
        exact k3
      · rw [k4]; cases o' <;> simp [Outcome.afterRound, allEvents, totalLength, Nat.add_assoc]
    | @livelock body' min' max' i' here rest evs h1 h2 =>
      cases ht
      exact ⟨[], _, .none, by simp, .livelock h1 rfl (by simpa [totalLength, lineColumn_nil] using h2),
        by simp [totalLength, lineColumn_nil]⟩
    | lastRound h1 h2 h3 =>
      cases ht
      exact ⟨[], _, .none, by simp, .last h1 h2 (by simpa [totalLength, lineColumn_nil] using h3),
        by simp [totalLength, allEvents]⟩
    | tooFew h1 h2 h3 =>
      cases ht
      exact ⟨[], _, .none, by simp, .tooFew h1 h2 (by simpa [totalLength, lineColumn_nil] using h3),
        by simp [totalLength]⟩
    | @roundStop body' min' max' guarded' i' here rest o h1 h2 h3 =>
      cases ht
      refine ⟨[], o, .none, by simp, .stop h1 (by simpa [totalLength, lineColumn_nil] using h2) h3, ?_⟩
      cases o with
      | ok _ _ => exact h3.elim
      | fail _ _ _ => exact h3.elim
      | _ => rfl
    | _ => cases ht
  · rintro ⟨ms, o', h1, h2, h3, rfl⟩
    refine rounds_ok_of h1 i h2 ?_ o' (ends_ev h3)
    intro m hm
    cases h3 with
    | enough h => rw [hm] at h; simp at h; omega
    | last h _ _ => exact Nat.le_of_lt (h m hm)
    | tooFew h _ _ => exact Nat.le_of_lt (h m hm)
    | livelock h _ _ => exact Nat.le_of_lt (h m hm)
    | stop h _ _ => exact Nat.le_of_lt (h m hm)

/-! ## Rules with one term -/

/-- A rule that consists of one term. -/
abbrev oneTerm (t : Term) : DefinitionList := .cons (.cons t .nil) .nil

theorem oneTerm_iff {q : Quirks} {G : Language} {t : Term} {here : Location} {rest : Str} {o : Outcome} :
    Ev q G (.list (oneTerm t)) here rest o ↔ Ev q G (.term t) here rest o := by
  constructor
  · intro h
    cases h with
    | single h =>
      generalize hd : SingleDefinition.cons t .nil = d at h
      generalize ht : Task.sequence d = task at h
      cases h with
      | @next t' d' here rest evs n o' _ h1 h2 =>
        cases ht; cases hd
        cases h2 with
        | done => simpa [Outcome.after] using h1
      | dropped _ _ h => cases ht; cases hd; exact h
      | nextFail h _ => cases ht; cases hd; exact h
      | done => cases ht; cases hd
      | _ => cases ht
  · intro h
    refine .single ?_
    cases o with
    | ok evs n =>
      by_cases hb : q.dropAfterGroup = true ∧ IsBareGroup t
      · exact .dropped hb.1 hb.2 h
      · have := Ev.next hb h (.done (here := lineColumn here (rest.take n)) (rest := rest.drop n))
        simpa [Outcome.after] using this
    | _ => exact .nextFail h (by simp [Outcome.IsOk])

/-- The start rule stops the parse. -/
theorem ev_start_stop {q : Quirks} {G : Language} {start : SyntaxRule} (hs : start ∈ G.rules) {here : Location} {text : Str}
    {o : Outcome} (h : Ev q G (.list start.definitionList) here text o) (ho : o.IsStop) :
    Ev q G (.primary (.metaIdentifier start.location start.metaIdentifier)) here text o :=
  .referenceStop hs (.refl _) h ho

theorem ev_start_fail {q : Quirks} {G : Language} {start : SyntaxRule} (hs : start ∈ G.rules) {here : Location} {text : Str}
    {e : Error} {evs : List Event} {n : Nat} (h : Ev q G (.list start.definitionList) here text (.fail e evs n)) :
    Ev q G (.primary (.metaIdentifier start.location start.metaIdentifier)) here text (.fail e [] n) :=
  .referenceFail hs (.refl _) h

end Ebnf
