import Verif.Spec.Semantics
import Verif.Proofs.Syntax

set_option autoImplicit false

/-! # Computing the meaning of a grammar -/

namespace Ebnf

open Spec

/-- The rule with a name. -/
def lookupRule (G : Language) (name : Str) : Option SyntaxRule :=
  G.rules.find? (fun r => decide (keyedMetaIdentifier r.metaIdentifier = keyedMetaIdentifier name))

/-- The task a scanner forwards to. -/
def lookupForward (G : Language) (name : Str) : Option Task :=
  match lookupRule G name with
  | some r => some (.list r.definitionList)
  | none =>
    (G.rules.find? (fun r => decide (keyedMetaIdentifier ('$' :: r.metaIdentifier) = keyedMetaIdentifier name))).map
      (fun r => .primary (.metaIdentifier r.location r.metaIdentifier))

/-- Is the term a bare group? -/
def bareGroup : Term → Bool
  | .plain (.mk 1 (.grouped _ _)) => true
  | _ => false

theorem bareGroup_iff (t : Term) : bareGroup t = true ↔ IsBareGroup t := by
  unfold bareGroup IsBareGroup
  split <;> simp

/-- The meaning, computed. -/
def eval (q : Quirks) (G : Language) : Nat → Task → Location → Str → Option Outcome
  | 0, _, _, _ => none
  | f + 1, .primary (.optional _ l), here, rest => eval q G f (.rounds (.list l) 0 (some 1) false 0) here rest
  | f + 1, .primary (.repeated _ l), here, rest => eval q G f (.rounds (.list l) 0 q.roundLimit true 0) here rest
  | f + 1, .primary (.grouped _ l), here, rest => eval q G f (.list l) here rest
  | _ + 1, .primary (.empty _), _, _ => some (.ok [] 0)
  | _ + 1, .primary (.terminalString loc s), here, rest =>
    if s.isPrefixOf rest then some (.ok [.token loc here s] s.length)
    else some (.fail (expectedAt (debugStr s) here rest) [] 0)
  | f + 1, .primary (.metaIdentifier loc name), here, rest =>
    match lookupRule G name with
    | none => some (.panic .missing)
    | some r =>
      match eval q G f (.list r.definitionList) here rest with
      | some (.ok evs n) => some (.ok (.begin loc here r.metaIdentifier :: evs ++
          [.end loc (lineColumn here (rest.take n)) r.metaIdentifier]) n)
      | some (.fail e _ n) => some (.fail e [] n)
      | o => o
  | f + 1, .primary (.specialSequence loc s), here, rest =>
    match G.special loc s loc here rest with
    | .accept evs n => some (.ok evs n)
    | .unmatched => some (.fail (expectedAt (G.specialName loc s) here rest) [] 0)
    | .error e => some (.abort e)
    | .forward name n =>
      match lookupForward G name with
      | none => some (.abort ⟨here, .forwardUndefined name (G.specialName loc s) loc⟩)
      | some task =>
        match eval q G f task (lineColumn here (rest.take n)) (rest.drop n) with
        | some (.ok evs m) => some (.ok evs (n + m))
        | some (.fail e evs m) => if q.ignoreForward then some (.ok evs (n + m)) else some (.fail e [] 0)
        | o => o
  | f + 1, .factor (.mk k p), here, rest =>
    if k = 1 then eval q G f (.primary p) here rest
    else eval q G f (.rounds (.primary p) k (some k) (decide (q.roundLimit = some k)) 0) here rest
  | f + 1, .term (.plain x), here, rest => eval q G f (.factor x) here rest
  | f + 1, .term (.except x y), here, rest =>
    match eval q G f (.factor x) here rest with
    | some (.fail e _ _) => some (.fail e [] 0)
    | some (.ok evs n) =>
      match eval q G f (.factor y) here (rest.take n) with
      | some (.ok _ m) =>
        if m = n then some (.fail (expectedAt (Term.except x y).display here rest) [] 0) else some (.ok evs n)
      | some (.fail _ _ _) => some (.ok evs n)
      | o => o
    | o => o
  | _ + 1, .sequence .nil, _, _ => some (.ok [] 0)
  | f + 1, .sequence (.cons t d), here, rest =>
    match eval q G f (.term t) here rest with
    | some (.ok evs n) =>
      if q.dropAfterGroup && bareGroup t then some (.ok evs n)
      else (eval q G f (.sequence d) (lineColumn here (rest.take n)) (rest.drop n)).map (Outcome.after evs n)
    | o => o
  | _ + 1, .list .nil, _, _ => none
  | f + 1, .list (.cons d .nil), here, rest => eval q G f (.sequence d) here rest
  | f + 1, .list (.cons d (.cons d' l)), here, rest =>
    match eval q G f (.alternatives (.cons d (.cons d' l))) here rest with
    | some (.fail e _ _) => some
        (.fail (if e.location = here then expectedAt (nameOfList G (.cons d (.cons d' l))) here rest else e) [] 0)
    | o => o
  | _ + 1, .alternatives .nil, _, _ => none
  | f + 1, .alternatives (.cons d .nil), here, rest =>
    match eval q G f (.sequence d) here rest with
    | some (.fail e _ _) => some (.fail e [] 0)
    | o => o
  | f + 1, .alternatives (.cons d (.cons d' l)), here, rest =>
    match eval q G f (.sequence d) here rest with
    | some (.fail e _ _) =>
      match eval q G f (.alternatives (.cons d' l)) here rest with
      | some (.fail e' _ _) => some (.fail (laterError e e') [] 0)
      | o => o
    | o => o
  | f + 1, .rounds body min max guarded i, here, rest =>
    if (max.map (fun m => decide (m ≤ i))).getD false then some (.ok [] 0)
    else
      match eval q G f body here rest with
      | some (.ok evs n) =>
        if guarded && n == 0 then some (.abort ⟨here, .livelock⟩)
        else (eval q G f (.rounds body min max guarded (i + 1)) (lineColumn here (rest.take n)) (rest.drop n)).map
          (Outcome.afterRound evs n)
      | some (.fail e evs n) =>
        if min ≤ i then some (.ok (if q.keepPartial then evs else []) 0) else some (.fail e [] n)
      | o => o

theorem lookup_some {G : Language} {name : Str} {r : SyntaxRule} (h : lookupRule G name = some r) :
    r ∈ G.rules ∧ SameName r.metaIdentifier name :=
  ⟨List.mem_of_find?_eq_some h, (keyed_eq_iff _ _).mp (by simpa using List.find?_some h)⟩

theorem lookup_none {G : Language} {name : Str} (h : lookupRule G name = none) :
    ∀ r ∈ G.rules, ¬ SameName r.metaIdentifier name := by
  intro r hr hs
  have := List.find?_eq_none.mp h r hr
  simp only [decide_eq_true_eq] at this
  exact this ((keyed_eq_iff _ _).mpr hs)

theorem forward_lookup_some {G : Language} {name : Str} {t : Task} (h : lookupForward G name = some t) :
    ForwardTarget G name t := by
  unfold lookupForward at h
  cases h1 : lookupRule G name with
  | some r =>
    rw [h1] at h; simp only [Option.some.injEq] at h; subst h
    exact .rule (lookup_some h1).1 (lookup_some h1).2
  | none =>
    rw [h1] at h; simp only [Option.map_eq_some_iff] at h
    obtain ⟨r, h2, rfl⟩ := h
    exact .marked (List.mem_of_find?_eq_some h2) ((keyed_eq_iff _ _).mp (by simpa using List.find?_some h2))

theorem forward_lookup_none {G : Language} {name : Str} (h : lookupForward G name = none) :
    ∀ task, ¬ ForwardTarget G name task := by
  unfold lookupForward at h
  cases h1 : lookupRule G name with
  | some r => rw [h1] at h; simp at h
  | none =>
    rw [h1] at h; simp only [Option.map_eq_none_iff] at h
    intro task ht
    cases ht with
    | rule h2 h3 => exact lookup_none h1 _ h2 h3
    | marked h2 h3 =>
      have := List.find?_eq_none.mp h _ h2
      simp only [decide_eq_true_eq] at this
      exact this ((keyed_eq_iff _ _).mpr h3)

/-- What is computed is the meaning. -/
theorem eval_sound {q : Quirks} {G : Language} (f : Nat) : ∀ {task : Task} {here : Location} {rest : Str} {o : Outcome},
    eval q G f task here rest = some o → Ev q G task here rest o := by
  induction f with
  | zero => intro task here rest o h; simp [eval] at h
  | succ f ih =>
    intro task here rest o h
    cases task with
    | primary p =>
      cases p with
      | optional loc l => exact .optional (ih (by simpa [eval] using h))
      | repeated loc l => exact .repeated (ih (by simpa [eval] using h))
      | grouped loc l => exact .grouped (ih (by simpa [eval] using h))
      | empty loc => simp [eval] at h; subst h; exact .empty
      | terminalString loc s =>
        simp only [eval] at h
        by_cases hp : s.isPrefixOf rest
        · rw [if_pos hp] at h; injection h with h; subst h; exact .terminal (List.isPrefixOf_iff_prefix.mp hp)
        · rw [if_neg hp] at h; injection h with h; subst h
          exact .terminalFail (fun hc => hp (List.isPrefixOf_iff_prefix.mpr hc))
      | metaIdentifier loc name =>
        simp only [eval] at h
        cases h1 : lookupRule G name with
        | none => rw [h1] at h; simp at h; subst h; exact .referenceUndefined (lookup_none h1)
        | some r =>
          rw [h1] at h; simp only at h
          obtain ⟨h2, h3⟩ := lookup_some h1
          cases h4 : eval q G f (.list r.definitionList) here rest with
          | none => rw [h4] at h; simp at h
          | some o' =>
            rw [h4] at h
            have h5 := ih h4
            cases o' with
            | ok evs n => simp only [Option.some.injEq] at h; subst h; exact .reference h2 h3 h5
            | fail e evs n => simp only [Option.some.injEq] at h; subst h; exact .referenceFail h2 h3 h5
            | abort e => simp only [Option.some.injEq] at h; subst h; exact .referenceStop h2 h3 h5 trivial
            | panic e => simp only [Option.some.injEq] at h; subst h; exact .referenceStop h2 h3 h5 trivial
      | specialSequence loc s =>
        simp only [eval] at h
        cases h1 : G.special loc s loc here rest with
        | accept evs n => rw [h1] at h; simp at h; subst h; exact .special h1
        | unmatched => rw [h1] at h; simp at h; subst h; exact .specialFail h1
        | error e => rw [h1] at h; simp at h; subst h; exact .specialError h1
        | forward name n =>
          rw [h1] at h; simp only at h
          cases h2 : lookupForward G name with
          | none => rw [h2] at h; simp at h; subst h; exact .forwardUndefined h1 (forward_lookup_none h2)
          | some task =>
            rw [h2] at h; simp only at h
            have h3 := forward_lookup_some h2
            cases h4 : eval q G f task (lineColumn here (rest.take n)) (rest.drop n) with
            | none => rw [h4] at h; simp at h
            | some o' =>
              rw [h4] at h
              have h5 := ih h4
              cases o' with
              | ok evs n => simp only [Option.some.injEq] at h; subst h; exact .forward h1 h3 h5
              | fail e evs n =>
                simp only at h
                by_cases hq : q.ignoreForward = true
                · rw [if_pos hq] at h; injection h with h; subst h; exact .forwardIgnored h1 h3 h5 hq
                · rw [if_neg hq] at h; injection h with h; subst h; exact .forwardFail h1 h3 h5 (by simpa using hq)
              | abort e => simp only [Option.some.injEq] at h; subst h; exact .forwardStop h1 h3 h5 trivial
              | panic e => simp only [Option.some.injEq] at h; subst h; exact .forwardStop h1 h3 h5 trivial
    | factor x =>
      cases x with
      | mk k p =>
        simp only [eval] at h
        by_cases hk : k = 1
        · rw [if_pos hk] at h; subst hk; exact .once (ih h)
        · rw [if_neg hk] at h; exact .counted hk (ih h)
    | term t =>
      cases t with
      | plain x => exact .plain (ih (by simpa [eval] using h))
      | except x y =>
        simp only [eval] at h
        cases h1 : eval q G f (.factor x) here rest with
        | none => rw [h1] at h; simp at h
        | some o1 =>
          rw [h1] at h
          have h2 := ih h1
          cases o1 with
          | fail e evs n => simp only [Option.some.injEq] at h; subst h; exact .exceptFail h2
          | abort e => simp only [Option.some.injEq] at h; subst h; exact .exceptStop h2 trivial
          | panic e => simp only [Option.some.injEq] at h; subst h; exact .exceptStop h2 trivial
          | ok evs n =>
            simp only at h
            cases h3 : eval q G f (.factor y) here (rest.take n) with
            | none => rw [h3] at h; simp at h
            | some o2 =>
              rw [h3] at h
              have h4 := ih h3
              cases o2 with
              | ok evs' m =>
                simp only at h
                by_cases hm : m = n
                · rw [if_pos hm] at h; injection h with h; subst h hm; exact .excluded h2 h4
                · rw [if_neg hm] at h; injection h with h; subst h; exact .notExcluded h2 h4 hm
              | fail e evs' m => simp only [Option.some.injEq] at h; subst h; exact .notExcludedFail h2 h4
              | abort e => simp only [Option.some.injEq] at h; subst h; exact .excludedStop h2 h4 trivial
              | panic e => simp only [Option.some.injEq] at h; subst h; exact .excludedStop h2 h4 trivial
    | sequence d =>
      cases d with
      | nil => simp [eval] at h; subst h; exact .done
      | cons t d =>
        simp only [eval] at h
        cases h1 : eval q G f (.term t) here rest with
        | none => rw [h1] at h; simp at h
        | some o1 =>
          rw [h1] at h
          have h2 := ih h1
          cases o1 with
          | fail e evs n => simp only [Option.some.injEq] at h; subst h; exact .nextFail h2 id
          | abort e => simp only [Option.some.injEq] at h; subst h; exact .nextFail h2 id
          | panic e => simp only [Option.some.injEq] at h; subst h; exact .nextFail h2 id
          | ok evs n =>
            simp only at h
            by_cases hb : (q.dropAfterGroup && bareGroup t) = true
            · rw [if_pos hb] at h; injection h with h; subst h
              simp only [Bool.and_eq_true] at hb
              exact .dropped hb.1 ((bareGroup_iff t).mp hb.2) h2
            · rw [if_neg hb, Option.map_eq_some_iff] at h
              obtain ⟨o2, h3, rfl⟩ := h
              refine .next (fun hc => hb ?_) h2 (ih h3)
              simp only [Bool.and_eq_true]
              exact ⟨hc.1, (bareGroup_iff t).mpr hc.2⟩
    | list l =>
      cases l with
      | nil => simp [eval] at h
      | cons d l =>
        cases l with
        | nil => exact .single (ih (by simpa [eval] using h))
        | cons d' l =>
          simp only [eval] at h
          cases h1 : eval q G f (.alternatives (.cons d (.cons d' l))) here rest with
          | none => rw [h1] at h; simp at h
          | some o1 =>
            rw [h1] at h
            have h2 := ih h1
            cases o1 with
            | fail e evs n => simp only [Option.some.injEq] at h; subst h; exact .choiceFail h2
            | ok _ _ => simp only [Option.some.injEq] at h; subst h; exact .choice h2 (by simp)
            | abort e => simp only [Option.some.injEq] at h; subst h; exact .choice h2 (by simp)
            | panic e => simp only [Option.some.injEq] at h; subst h; exact .choice h2 (by simp)
    | alternatives l =>
      cases l with
      | nil => simp [eval] at h
      | cons d l =>
        cases l with
        | nil =>
          simp only [eval] at h
          cases h1 : eval q G f (.sequence d) here rest with
          | none => rw [h1] at h; simp at h
          | some o1 =>
            rw [h1] at h
            have h2 := ih h1
            cases o1 with
            | fail e evs n => simp only [Option.some.injEq] at h; subst h; exact .last h2
            | ok _ _ => simp only [Option.some.injEq] at h; subst h; exact .first h2 (by simp)
            | abort e => simp only [Option.some.injEq] at h; subst h; exact .first h2 (by simp)
            | panic e => simp only [Option.some.injEq] at h; subst h; exact .first h2 (by simp)
        | cons d' l =>
          simp only [eval] at h
          cases h1 : eval q G f (.sequence d) here rest with
          | none => rw [h1] at h; simp at h
          | some o1 =>
            rw [h1] at h
            have h2 := ih h1
            cases o1 with
            | ok _ _ => simp only [Option.some.injEq] at h; subst h; exact .first h2 (by simp)
            | abort e => simp only [Option.some.injEq] at h; subst h; exact .first h2 (by simp)
            | panic e => simp only [Option.some.injEq] at h; subst h; exact .first h2 (by simp)
            | fail e evs n =>
              simp only at h
              cases h3 : eval q G f (.alternatives (.cons d' l)) here rest with
              | none => rw [h3] at h; simp at h
              | some o2 =>
                rw [h3] at h
                have h4 := ih h3
                cases o2 with
                | ok _ _ => simp only [Option.some.injEq] at h; subst h; exact .other h2 h4 (by simp)
                | abort e => simp only [Option.some.injEq] at h; subst h; exact .other h2 h4 (by simp)
                | panic e => simp only [Option.some.injEq] at h; subst h; exact .other h2 h4 (by simp)
                | fail e' evs' n' => simp only [Option.some.injEq] at h; subst h; exact .otherFail h2 h4
    | rounds body min max guarded i =>
      simp only [eval] at h
      by_cases hm : (max.map (fun m => decide (m ≤ i))).getD false = true
      · rw [if_pos hm] at h; injection h with h; subst h
        cases max with
        | none => simp at hm
        | some m => exact .enough (by simpa using hm)
      · rw [if_neg hm] at h
        have hi : ∀ m, max = some m → i < m := by
          rintro m rfl
          simpa using hm
        cases h1 : eval q G f body here rest with
        | none => rw [h1] at h; simp at h
        | some o1 =>
          rw [h1] at h
          have h2 := ih h1
          cases o1 with
          | abort e => simp only [Option.some.injEq] at h; subst h; exact .roundStop hi h2 trivial
          | panic e => simp only [Option.some.injEq] at h; subst h; exact .roundStop hi h2 trivial
          | ok evs n =>
            simp only at h
            by_cases hg : (guarded && n == 0) = true
            · rw [if_pos hg] at h; injection h with h; subst h
              simp at hg
              obtain ⟨rfl, rfl⟩ := hg
              exact .livelock hi h2
            · rw [if_neg hg, Option.map_eq_some_iff] at h
              obtain ⟨o2, h3, rfl⟩ := h
              exact .round hi (by simpa using hg) h2 (ih h3)
          | fail e evs n =>
            simp only at h
            by_cases hmin : min ≤ i
            · rw [if_pos hmin] at h; injection h with h; subst h; exact .lastRound hi hmin h2
            · rw [if_neg hmin] at h; injection h with h; subst h; exact .tooFew hi (by omega) h2

/-- Names mean one thing. -/
structure OneMeaning (G : Language) : Prop where
  rule : ∀ r ∈ G.rules, ∀ r' ∈ G.rules, ∀ name, SameName r.metaIdentifier name → SameName r'.metaIdentifier name → r = r'
  forward : ∀ name t t', ForwardTarget G name t → ForwardTarget G name t' → t = t'

theorem lookup_eq {G : Language} (U : OneMeaning G) {name : Str} {r : SyntaxRule} (h1 : r ∈ G.rules)
    (h2 : SameName r.metaIdentifier name) : lookupRule G name = some r := by
  cases h : lookupRule G name with
  | none => exact absurd h2 (lookup_none h r h1)
  | some r' => rw [U.rule r h1 r' (lookup_some h).1 name h2 (lookup_some h).2]

theorem lookup_undefined {G : Language} {name : Str} (hu : ∀ r ∈ G.rules, ¬ SameName r.metaIdentifier name) :
    lookupRule G name = none := by
  cases h : lookupRule G name with
  | none => rfl
  | some r' => exact absurd (lookup_some h).2 (hu _ (lookup_some h).1)

theorem forward_eq {G : Language} (U : OneMeaning G) {name : Str} {t : Task} (h1 : ForwardTarget G name t) :
    lookupForward G name = some t := by
  cases h : lookupForward G name with
  | none => exact absurd h1 (forward_lookup_none h t)
  | some t' => rw [U.forward name t t' h1 (forward_lookup_some h)]

theorem forward_undefined {G : Language} {name : Str} (hu : ∀ task, ¬ ForwardTarget G name task) :
    lookupForward G name = none := by
  cases h : lookupForward G name with
  | none => rfl
  | some t => exact absurd (forward_lookup_some h) (hu t)

theorem not_bare_drop {q : Quirks} {t : Term} (h : ¬ (q.dropAfterGroup = true ∧ IsBareGroup t)) :
    (q.dropAfterGroup && bareGroup t) = false := by
  rw [Bool.eq_false_iff]
  intro hc
  rw [Bool.and_eq_true, bareGroup_iff] at hc
  exact h hc

theorem not_enough {max : Option Nat} {i : Nat} (hi : ∀ m, max = some m → i < m) :
    (max.map (fun m => decide (m ≤ i))).getD false = false := by
  cases max with
  | none => rfl
  | some m => simpa using hi m rfl

/-- The meaning is computed, given enough fuel. -/
theorem eval_complete {q : Quirks} {G : Language} (U : OneMeaning G) {task : Task} {here : Location} {rest : Str} {o : Outcome}
    (h : Ev q G task here rest o) : ∃ f0, ∀ f, f0 ≤ f → eval q G f task here rest = some o := by
  have step : ∀ {P : Nat → Prop} {f0 : Nat}, (∀ f, f0 ≤ f → P (f + 1)) → ∃ f1, ∀ f, f1 ≤ f → P f := by
    intro P f0 hP
    refine ⟨f0 + 1, fun f hf => ?_⟩
    obtain ⟨f', rfl⟩ : ∃ f', f = f' + 1 := ⟨f - 1, by omega⟩
    exact hP f' (by omega)
  induction h with
  | optional _ ih => obtain ⟨a, ih⟩ := ih; exact step (f0 := a) fun f hf => by rw [eval]; exact ih f hf
  | repeated _ ih => obtain ⟨a, ih⟩ := ih; exact step (f0 := a) fun f hf => by rw [eval]; exact ih f hf
  | grouped _ ih => obtain ⟨a, ih⟩ := ih; exact step (f0 := a) fun f hf => by rw [eval]; exact ih f hf
  | empty => exact step (f0 := 0) fun f hf => by rw [eval]
  | terminal hp => exact step (f0 := 0) fun f hf => by rw [eval, if_pos (List.isPrefixOf_iff_prefix.mpr hp)]
  | terminalFail hp => exact step (f0 := 0) fun f hf => by rw [eval, if_neg (fun hc => hp (List.isPrefixOf_iff_prefix.mp hc))]
  | reference hr hs _ ih =>
    obtain ⟨a, ih⟩ := ih
    exact step (f0 := a) fun f hf => by simp only [eval, lookup_eq U hr hs, ih f hf]
  | referenceFail hr hs _ ih =>
    obtain ⟨a, ih⟩ := ih
    exact step (f0 := a) fun f hf => by simp only [eval, lookup_eq U hr hs, ih f hf]
  | @referenceStop _ _ _ _ _ o hr hs _ ho ih =>
    obtain ⟨a, ih⟩ := ih
    refine step (f0 := a) fun f hf => ?_
    simp only [eval, lookup_eq U hr hs, ih f hf]
    cases o <;> first | exact ho.elim | rfl
  | referenceUndefined hu => exact step (f0 := 0) fun f hf => by simp only [eval, lookup_undefined hu]
  | special hs => exact step (f0 := 0) fun f hf => by simp only [eval, hs]
  | specialFail hs => exact step (f0 := 0) fun f hf => by simp only [eval, hs]
  | specialError hs => exact step (f0 := 0) fun f hf => by simp only [eval, hs]
  | forward hs ht _ ih =>
    obtain ⟨a, ih⟩ := ih
    exact step (f0 := a) fun f hf => by simp only [eval, hs, forward_eq U ht, ih f hf]
  | forwardFail hs ht _ hq ih =>
    obtain ⟨a, ih⟩ := ih
    exact step (f0 := a) fun f hf => by simp [eval, hs, forward_eq U ht, ih f hf, hq]
  | forwardIgnored hs ht _ hq ih =>
    obtain ⟨a, ih⟩ := ih
    exact step (f0 := a) fun f hf => by simp [eval, hs, forward_eq U ht, ih f hf, hq]
  | @forwardStop _ _ _ _ _ _ _ o hs ht _ ho ih =>
    obtain ⟨a, ih⟩ := ih
    refine step (f0 := a) fun f hf => ?_
    simp only [eval, hs, forward_eq U ht, ih f hf]
    cases o <;> first | exact ho.elim | rfl
  | forwardUndefined hs ht => exact step (f0 := 0) fun f hf => by simp only [eval, hs, forward_undefined ht]
  | once _ ih => obtain ⟨a, ih⟩ := ih; exact step (f0 := a) fun f hf => by simp only [eval, if_true]; exact ih f hf
  | counted hk _ ih => obtain ⟨a, ih⟩ := ih; exact step (f0 := a) fun f hf => by simp only [eval, if_neg hk]; exact ih f hf
  | plain _ ih => obtain ⟨a, ih⟩ := ih; exact step (f0 := a) fun f hf => by rw [eval]; exact ih f hf
  | exceptFail _ ih => obtain ⟨a, ih⟩ := ih; exact step (f0 := a) fun f hf => by simp only [eval, ih f hf]
  | @exceptStop _ _ _ _ o _ ho ih =>
    obtain ⟨a, ih⟩ := ih
    refine step (f0 := a) fun f hf => ?_
    simp only [eval, ih f hf]
    cases o <;> first | exact ho.elim | rfl
  | excluded _ _ ih1 ih2 =>
    obtain ⟨a, ih1⟩ := ih1; obtain ⟨b, ih2⟩ := ih2
    exact step (f0 := a + b) fun f hf => by simp only [eval, ih1 f (by omega), ih2 f (by omega), if_true]
  | notExcluded _ _ hm ih1 ih2 =>
    obtain ⟨a, ih1⟩ := ih1; obtain ⟨b, ih2⟩ := ih2
    exact step (f0 := a + b) fun f hf => by simp only [eval, ih1 f (by omega), ih2 f (by omega), if_neg hm]
  | notExcludedFail _ _ ih1 ih2 =>
    obtain ⟨a, ih1⟩ := ih1; obtain ⟨b, ih2⟩ := ih2
    exact step (f0 := a + b) fun f hf => by simp only [eval, ih1 f (by omega), ih2 f (by omega)]
  | @excludedStop _ _ _ _ _ _ o _ _ ho ih1 ih2 =>
    obtain ⟨a, ih1⟩ := ih1; obtain ⟨b, ih2⟩ := ih2
    refine step (f0 := a + b) fun f hf => ?_
    simp only [eval, ih1 f (by omega), ih2 f (by omega)]
    cases o <;> first | exact ho.elim | rfl
  | done => exact step (f0 := 0) fun f hf => by rw [eval]
  | next hb _ _ ih1 ih2 =>
    obtain ⟨a, ih1⟩ := ih1; obtain ⟨b, ih2⟩ := ih2
    exact step (f0 := a + b) fun f hf => by simp [eval, ih1 f (by omega), ih2 f (by omega), not_bare_drop hb]
  | dropped hq hb _ ih =>
    obtain ⟨a, ih⟩ := ih
    exact step (f0 := a) fun f hf => by simp only [eval, ih f hf, hq, (bareGroup_iff _).mpr hb, Bool.and_self, if_true]
  | @nextFail _ _ _ _ o _ ho ih =>
    obtain ⟨a, ih⟩ := ih
    refine step (f0 := a) fun f hf => ?_
    simp only [eval, ih f hf]
    cases o <;> first | exact (ho trivial).elim | rfl
  | single _ ih => obtain ⟨a, ih⟩ := ih; exact step (f0 := a) fun f hf => by rw [eval]; exact ih f hf
  | @choice _ _ _ _ _ o _ ho ih =>
    obtain ⟨a, ih⟩ := ih
    refine step (f0 := a) fun f hf => ?_
    simp only [eval, ih f hf]
    cases o <;> first | exact absurd rfl (ho _ _ _) | rfl
  | choiceFail _ ih => obtain ⟨a, ih⟩ := ih; exact step (f0 := a) fun f hf => by simp only [eval, ih f hf]
  | @first d l _ _ o _ ho ih =>
    obtain ⟨a, ih⟩ := ih
    refine step (f0 := a) fun f hf => ?_
    cases l <;> simp only [eval, ih f hf] <;> cases o <;> first | exact absurd rfl (ho _ _ _) | rfl
  | last _ ih => obtain ⟨a, ih⟩ := ih; exact step (f0 := a) fun f hf => by simp only [eval, ih f hf]
  | @other _ _ _ _ _ _ _ _ o _ _ ho ih1 ih2 =>
    obtain ⟨a, ih1⟩ := ih1; obtain ⟨b, ih2⟩ := ih2
    refine step (f0 := a + b) fun f hf => ?_
    simp only [eval, ih1 f (by omega), ih2 f (by omega)]
    cases o <;> first | exact absurd rfl (ho _ _ _) | rfl
  | otherFail _ _ ih1 ih2 =>
    obtain ⟨a, ih1⟩ := ih1; obtain ⟨b, ih2⟩ := ih2
    exact step (f0 := a + b) fun f hf => by simp only [eval, ih1 f (by omega), ih2 f (by omega)]
  | enough hi => exact step (f0 := 0) fun f hf => by simp [eval, hi]
  | @round body min max guarded i here rest evs n o hi hz _ _ ih1 ih2 =>
    obtain ⟨a, ih1⟩ := ih1; obtain ⟨b, ih2⟩ := ih2
    refine step (f0 := a + b) fun f hf => ?_
    have : (guarded && n == 0) = false := by
      rw [Bool.eq_false_iff]; intro hc; simp at hc; exact hz hc
    simp [eval, ih1 f (by omega), ih2 f (by omega), not_enough hi, this]
  | livelock hi _ ih =>
    obtain ⟨a, ih⟩ := ih
    exact step (f0 := a) fun f hf => by simp [eval, ih f hf, not_enough hi]
  | lastRound hi hmin _ ih =>
    obtain ⟨a, ih⟩ := ih
    exact step (f0 := a) fun f hf => by simp [eval, ih f hf, not_enough hi, hmin]
  | tooFew hi hmin _ ih =>
    obtain ⟨a, ih⟩ := ih
    exact step (f0 := a) fun f hf => by simp [eval, ih f hf, not_enough hi, Nat.not_le.mpr hmin]
  | @roundStop _ _ _ _ _ _ _ o hi _ ho ih =>
    obtain ⟨a, ih⟩ := ih
    refine step (f0 := a) fun f hf => ?_
    simp only [eval, ih f hf, not_enough hi, Bool.false_eq_true, if_false]
    cases o <;> first | exact ho.elim | rfl

/-- A task has at most one outcome. -/
theorem ev_unique {q : Quirks} {G : Language} (U : OneMeaning G) {task : Task} {here : Location} {rest : Str} {o o' : Outcome}
    (h : Ev q G task here rest o) (h' : Ev q G task here rest o') : o = o' := by
  obtain ⟨a, ha⟩ := eval_complete U h
  obtain ⟨b, hb⟩ := eval_complete U h'
  have h1 := ha (a + b) (by omega)
  rw [hb (a + b) (by omega)] at h1
  injection h1 with h1
  exact h1.symm

end Ebnf
