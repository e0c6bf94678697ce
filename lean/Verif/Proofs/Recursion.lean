import Verif.Spec.Recursion
import Verif.Proofs.Derivation

set_option autoImplicit false

/-! # Parsing ends unless the grammar is left-recursive -/

namespace Ebnf

open Spec

/-! ## What matches nothing may be empty -/

/-- What a match of no character says about the task. -/
def EmptyFact (G : Language) : Task → Prop
  | .alternatives l => MayBeEmpty G (.list l)
  | .rounds body min max _ i => (∃ m, max = some m ∧ m ≤ i) ∨ min ≤ i ∨ MayBeEmpty G body
  | task => MayBeEmpty G task

theorem emptyFact_body {G : Language} {body : Task} (hb : (∃ l, body = .list l) ∨ ∃ p, body = .primary p)
    (h : EmptyFact G body) : MayBeEmpty G body := by
  rcases hb with ⟨l, rfl⟩ | ⟨p, rfl⟩ <;> exact h

theorem mayBeEmpty_cons {G : Language} {d : SingleDefinition} {l : DefinitionList} (h : MayBeEmpty G (.list l)) :
    MayBeEmpty G (.list (.cons d l)) := by
  cases h with
  | choice h1 h2 => exact .choice (by simp [DefinitionList.toList, h1]) h2

theorem ev_empty {q : Quirks} {G : Language} {task : Task} {here : Location} {rest : Str} {o : Outcome}
    (h : Ev q G task here rest o) : FineTask task → ∀ evs, o = .ok evs 0 → EmptyFact G task := by
  induction h with
  | optional => intro _ _ _; exact .optional
  | repeated => intro _ _ _; exact .repeated
  | grouped _ ih => intro _ evs h; exact .grouped (ih trivial evs h)
  | empty => intro _ _ _; exact .empty
  | @terminal loc s =>
    intro _ evs h
    simp only [Outcome.ok.injEq, List.length_eq_zero_iff] at h
    obtain ⟨_, rfl⟩ := h
    exact .terminal
  | reference h1 h2 _ ih =>
    intro _ evs h
    simp only [Outcome.ok.injEq] at h
    obtain ⟨_, rfl⟩ := h
    exact .reference h1 h2 (ih trivial _ rfl)
  | special h1 =>
    intro _ evs h
    simp only [Outcome.ok.injEq] at h
    obtain ⟨_, rfl⟩ := h
    exact .special h1
  | forward h1 _ _ _ =>
    intro _ evs h
    simp only [Outcome.ok.injEq] at h
    have : _ = 0 := (Nat.add_eq_zero_iff.mp h.2).1
    rw [this] at h1
    exact .forward h1
  | forwardIgnored h1 _ _ _ _ =>
    intro _ evs h
    simp only [Outcome.ok.injEq] at h
    have : _ = 0 := (Nat.add_eq_zero_iff.mp h.2).1
    rw [this] at h1
    exact .forward h1
  | once _ ih => intro _ evs h; exact .factor (ih trivial evs h)
  | @counted k p here rest o _ _ ih =>
    intro _ evs h
    rcases ih (.inr ⟨_, rfl⟩) evs h with ⟨m, hm, h⟩ | h | h
    · simp only [Option.some.injEq] at hm
      have : k = 0 := by omega
      subst this
      exact .never
    · have : k = 0 := by omega
      subst this
      exact .never
    · exact .factor h
  | plain _ ih => intro _ evs h; exact .plain (ih trivial evs h)
  | notExcluded _ _ _ ih _ =>
    intro _ evs h
    simp only [Outcome.ok.injEq] at h
    obtain ⟨_, rfl⟩ := h
    exact .except (ih trivial _ rfl)
  | notExcludedFail _ _ ih _ =>
    intro _ evs h
    simp only [Outcome.ok.injEq] at h
    obtain ⟨_, rfl⟩ := h
    exact .except (ih trivial _ rfl)
  | done => intro _ _ _; exact .done
  | @next t d here rest evs n o _ _ _ ih1 ih2 =>
    intro _ evs h
    cases o with
    | ok es m =>
      simp only [Outcome.after, Outcome.ok.injEq] at h
      obtain ⟨rfl, rfl⟩ := Nat.add_eq_zero_iff.mp h.2
      exact .next (ih1 trivial _ rfl) (ih2 trivial _ rfl)
    | _ => simp [Outcome.after] at h
  | dropped _ hg _ ih =>
    intro _ evs h
    exact .group (ih trivial _ h) hg
  | nextFail _ ho _ => rintro _ evs rfl; exact absurd trivial ho
  | single _ ih => intro _ evs h; exact .choice (by simp [DefinitionList.toList]) (ih trivial _ h)
  | choice _ _ ih => intro _ evs h; exact ih trivial _ h
  | first _ _ ih => intro _ evs h; exact .choice (by simp [DefinitionList.toList]) (ih trivial _ h)
  | other _ _ _ _ ih => intro _ evs h; exact mayBeEmpty_cons (ih trivial _ h)
  | enough h => intro _ _ _; exact .inl ⟨_, rfl, h⟩
  | @round body min max guarded i here rest evs n o _ _ _ _ ih1 ih2 =>
    intro hb evs h
    cases o with
    | ok es m =>
      simp only [Outcome.afterRound, Outcome.ok.injEq] at h
      obtain ⟨rfl, rfl⟩ := Nat.add_eq_zero_iff.mp h.2
      have : FineTask body := by rcases hb with ⟨l, rfl⟩ | ⟨p, rfl⟩ <;> trivial
      exact .inr (.inr (emptyFact_body hb (ih1 this _ rfl)))
    | _ => simp [Outcome.afterRound] at h
  | lastRound _ h _ _ => intro _ _ _; exact .inr (.inl h)
  | _ => intro _ evs h; first | (simp at h; done) | (subst h; rename_i ho _; exact ho.elim) | (subst h; rename_i ho; exact ho.elim)

/-! ## Totality -/

/-- The rules the task may start before it has consumed anything. -/
def Starts (G : Language) : Task → SyntaxRule → Prop
  | .alternatives l, r => ∃ d ∈ l.toList, Begins G (.sequence d) r
  | .rounds body _ _ _ _, r => Begins G body r
  | task, r => Begins G task r

/-- Well-shaped tasks. -/
def TaskShape : Task → Prop
  | .primary p => PrimaryShape p
  | .factor f => FactorShape f
  | .term t => TermShape t
  | .sequence d => SingleShape d
  | .list l | .alternatives l => l ≠ .nil ∧ ListShape l
  | .rounds (.list l) _ max guarded _ => (l ≠ .nil ∧ ListShape l) ∧ (guarded = true ∨ ∃ m, max = some m)
  | .rounds (.primary p) _ max guarded _ => PrimaryShape p ∧ (guarded = true ∨ ∃ m, max = some m)
  | .rounds _ _ _ _ _ => False

/-- The size of a task. -/
noncomputable def weight : Task → Nat
  | .primary p => 3 * sizeOf p
  | .factor f => 3 * sizeOf f
  | .term t => 3 * sizeOf t
  | .sequence d => 3 * sizeOf d
  | .list l => 3 * sizeOf l + 1
  | .alternatives l => 3 * sizeOf l
  | .rounds body _ _ _ _ => weight body + 1

/-- The number of rounds left. -/
def roundsLeft : Task → Nat
  | .rounds _ _ (some m) _ i => m - i
  | _ => 0

/-- The number of rules that have not been started. -/
def unvisited (G : Language) (visited : List SyntaxRule) : Nat :=
  (G.rules.filter fun r => decide (r ∉ visited)).length

theorem unvisited_lt {G : Language} {visited : List SyntaxRule} {r : SyntaxRule} (h1 : r ∈ G.rules) (h2 : r ∉ visited) :
    unvisited G (r :: visited) < unvisited G visited := by
  unfold unvisited
  generalize G.rules = rs at h1
  have le : ∀ rs : List SyntaxRule, (rs.filter fun x => decide (x ∉ r :: visited)).length ≤
      (rs.filter fun x => decide (x ∉ visited)).length := by
    intro rs
    induction rs with
    | nil => simp
    | cons x rs ih =>
      simp only [List.filter_cons]
      by_cases hx : x ∈ visited
      · simp [hx] at ih ⊢; exact ih
      · by_cases hxr : x = r
        · simp [hxr, h2] at ih ⊢; omega
        · simp [hx, hxr] at ih ⊢; exact ih
  induction rs with
  | nil => simp at h1
  | cons x rs ih =>
    by_cases hxr : x = r
    · have := le rs
      subst hxr
      simp only [List.filter_cons]
      simp [h2] at this ⊢
      omega
    · have h1 : r ∈ rs := by
        rcases List.mem_cons.mp h1 with h | h
        · exact absurd h.symm hxr
        · exact h
      have := ih h1
      simp only [List.filter_cons]
      by_cases hx : x ∈ visited
      · simp [hx] at this ⊢; exact this
      · simp [hx, hxr] at this ⊢; exact this

/-- Lexicographic induction on four numbers. -/
theorem lex4 {P : Nat → Nat → Nat → Nat → Prop}
    (h : ∀ a b c d, (∀ a' b' c' d', (a' < a ∨ a' = a ∧ (b' < b ∨ b' = b ∧ (c' < c ∨ c' = c ∧ d' < d))) → P a' b' c' d') →
      P a b c d) : ∀ a b c d, P a b c d := by
  intro a
  induction a using Nat.strongRecOn with
  | ind a iha =>
    intro b
    induction b using Nat.strongRecOn with
    | ind b ihb =>
      intro c
      induction c using Nat.strongRecOn with
      | ind c ihc =>
        intro d
        induction d using Nat.strongRecOn with
        | ind d ihd =>
          refine h a b c d ?_
          rintro a' b' c' d' (h | ⟨rfl, h | ⟨rfl, h | ⟨rfl, h⟩⟩⟩)
          · exact iha _ h _ _ _
          · exact ihb _ h _ _
          · exact ihc _ h _
          · exact ihd _ h

/-- The rules started at this position lead to what the task may start. -/
def Leads (G : Language) (visited : List SyntaxRule) (task : Task) : Prop :=
  ∀ v ∈ visited, v ∈ G.rules ∧ ∀ r, Starts G task r → Relation.TransGen (LeftCalls G) v r

theorem leads_sub {G : Language} {visited : List SyntaxRule} {task task' : Task} (h : Leads G visited task)
    (hs : ∀ r, Starts G task' r → Starts G task r) : Leads G visited task' :=
  fun v hv => ⟨(h v hv).1, fun r hr => (h v hv).2 r (hs r hr)⟩

theorem leads_rule {G : Language} {visited : List SyntaxRule} {task : Task} (h : Leads G visited task) {r : SyntaxRule}
    (hr : r ∈ G.rules) (hs : Starts G task r) : Leads G (r :: visited) (.list r.definitionList) := by
  intro v hv
  rcases List.mem_cons.mp hv with rfl | hv
  · exact ⟨hr, fun r' hr' => .single ⟨hr, hr'⟩⟩
  · exact ⟨(h v hv).1, fun r' hr' => .tail ((h v hv).2 r hs) ⟨hr, hr'⟩⟩

theorem leads_fresh {G : Language} (hG : ¬ LeftRecursive G) {visited : List SyntaxRule} {task : Task}
    (h : Leads G visited task) {r : SyntaxRule} (hs : Starts G task r) : r ∉ visited :=
  fun hv => hG ⟨r, (h r hv).1, (h r hv).2 r hs⟩

theorem leads_nil {G : Language} {task : Task} : Leads G [] task := fun _ h => by simp at h

theorem reference_total {q : Quirks} {G : Language} {loc : Location} {name : Str} {here : Location} {rest : Str} {r : SyntaxRule}
    (h1 : r ∈ G.rules) (h2 : SameName r.metaIdentifier name) (h : ∃ o, Ev q G (.list r.definitionList) here rest o) :
    ∃ o, Ev q G (.primary (.metaIdentifier loc name)) here rest o := by
  obtain ⟨o, h⟩ := h
  cases o with
  | ok evs n => exact ⟨_, .reference h1 h2 h⟩
  | fail e evs n => exact ⟨_, .referenceFail h1 h2 h⟩
  | abort e => exact ⟨_, .referenceStop h1 h2 h trivial⟩
  | panic p => exact ⟨_, .referenceStop h1 h2 h trivial⟩

theorem forward_total {q : Quirks} {G : Language} {loc : Location} {s : Str} {here : Location} {rest : Str} {name : Str} {n : Nat}
    {task : Task} (h1 : G.special loc s loc here rest = .forward name n) (h2 : ForwardTarget G name task)
    (h : ∃ o, Ev q G task (lineColumn here (rest.take n)) (rest.drop n) o) :
    ∃ o, Ev q G (.primary (.specialSequence loc s)) here rest o := by
  obtain ⟨o, h⟩ := h
  cases o with
  | ok evs m => exact ⟨_, .forward h1 h2 h⟩
  | fail e evs m =>
    cases hq : q.ignoreForward with
    | true => exact ⟨_, .forwardIgnored h1 h2 h hq⟩
    | false => exact ⟨_, .forwardFail h1 h2 h hq⟩
  | abort e => exact ⟨_, .forwardStop h1 h2 h trivial⟩
  | panic p => exact ⟨_, .forwardStop h1 h2 h trivial⟩

theorem total {q : Quirks} {G : Language} (hq : q.dropAfterGroup = true) (hb : Bounded G) (hsh : ∀ r ∈ G.rules, RuleShape r) (hG : ¬ LeftRecursive G) :
    ∀ a b c d : Nat, ∀ (visited : List SyntaxRule) (task : Task) (here : Location) (rest : Str),
      rest.length = a → unvisited G visited = b → weight task = c → roundsLeft task = d →
      Leads G visited task → TaskShape task → ∃ o, Ev q G task here rest o := by
  refine lex4 ?_
  intro a b c d ih visited task here rest ha hb' hc hd hl hs
  -- the same position, a smaller task
  have sub : ∀ task', weight task' < weight task → (∀ r, Starts G task' r → Starts G task r) → TaskShape task' →
      ∃ o, Ev q G task' here rest o := fun task' hw hst hs' =>
    ih _ _ _ _ (.inr ⟨ha, .inr ⟨hb', .inl (hc ▸ hw)⟩⟩) visited task' here rest rfl rfl rfl rfl (leads_sub hl hst) hs'
  -- a shorter rest
  have shorter : ∀ task' n, TaskShape task' → 0 < n → n ≤ rest.length →
      ∃ o, Ev q G task' (lineColumn here (rest.take n)) (rest.drop n) o := fun task' n hs' h0 hn =>
    ih _ _ _ _ (.inl (by rw [← ha, List.length_drop]; omega)) [] task' _ _ rfl rfl rfl rfl leads_nil hs'
  -- a rule
  have rule : ∀ r ∈ G.rules, Starts G task r → ∃ o, Ev q G (.list r.definitionList) here rest o := fun r hr hst =>
    ih _ _ _ _ (.inr ⟨ha, .inl (hb' ▸ unvisited_lt hr (leads_fresh hG hl hst))⟩) (r :: visited) _ here rest rfl rfl rfl rfl
      (leads_rule hl hr hst) (hsh r hr).2
  cases task with
  | primary p =>
    cases p with
    | optional loc l =>
      obtain ⟨o, h⟩ := sub (.rounds (.list l) 0 (some 1) false 0) (by simp only [weight, Primary.optional.sizeOf_spec]; omega)
        (fun r hr => .optional hr) ⟨hs, .inr ⟨_, rfl⟩⟩
      exact ⟨o, .optional h⟩
    | repeated loc l =>
      obtain ⟨o, h⟩ := sub (.rounds (.list l) 0 q.roundLimit true 0)
        (by simp only [weight, Primary.repeated.sizeOf_spec]; omega) (fun r hr => .repeated hr) ⟨hs, .inl rfl⟩
      exact ⟨o, .repeated h⟩
    | grouped loc l =>
      obtain ⟨o, h⟩ := sub (.list l) (by simp only [weight, Primary.grouped.sizeOf_spec]; omega)
        (fun r hr => .grouped hr) hs
      exact ⟨o, .grouped h⟩
    | empty loc => exact ⟨_, .empty⟩
    | terminalString loc s =>
      by_cases h : s <+: rest
      · exact ⟨_, .terminal h⟩
      · exact ⟨_, .terminalFail h⟩
    | metaIdentifier loc name =>
      by_cases h : ∃ r ∈ G.rules, SameName r.metaIdentifier name
      · obtain ⟨r, h1, h2⟩ := h
        exact reference_total h1 h2 (rule r h1 (.reference h1 h2))
      · exact ⟨_, .referenceUndefined fun r hr hn => h ⟨r, hr, hn⟩⟩
    | specialSequence loc s =>
      cases hsp : G.special loc s loc here rest with
      | accept evs n => exact ⟨_, .special hsp⟩
      | unmatched => exact ⟨_, .specialFail hsp⟩
      | error e => exact ⟨_, .specialError hsp⟩
      | forward name n =>
        by_cases h : ∃ t, ForwardTarget G name t
        · obtain ⟨t, ht⟩ := h
          refine forward_total hsp ht ?_
          rcases Nat.eq_zero_or_pos n with rfl | hn
          · simp only [List.take_zero, List.drop_zero, lineColumn]
            cases ht with
            | rule h1 h2 => exact rule _ h1 (.forward hsp h1 (.inl h2))
            | marked h1 h2 => exact reference_total h1 (.refl _) (rule _ h1 (.forward hsp h1 (.inr h2)))
          · refine shorter t n ?_ hn ((hb _ _ _ _ _).2 _ _ hsp)
            cases ht with
            | rule h1 h2 => exact (hsh _ h1).2
            | marked h1 h2 => exact (hsh _ h1).1
        · exact ⟨_, .forwardUndefined hsp fun t ht => h ⟨t, ht⟩⟩
  | factor f =>
    cases f with
    | mk k p =>
      by_cases h1 : k = 1
      · subst h1
        obtain ⟨o, h⟩ := sub (.primary p) (by simp only [weight, Factor.mk.sizeOf_spec]; omega)
          (fun r hr => .factor (by omega) hr) hs.2
        exact ⟨o, .once h⟩
      · by_cases h0 : k = 0
        · subst h0
          exact ⟨_, .counted h1 (.enough (Nat.le_refl _))⟩
        · obtain ⟨o, h⟩ := sub (.rounds (.primary p) k (some k) (decide (q.roundLimit = some k)) 0)
            (by simp only [weight, Factor.mk.sizeOf_spec]; omega) (fun r hr => .factor h0 hr) ⟨hs.2, .inr ⟨_, rfl⟩⟩
          exact ⟨o, .counted h1 h⟩
  | term t =>
    cases t with
    | plain f =>
      obtain ⟨o, h⟩ := sub (.factor f) (by simp only [weight, Term.plain.sizeOf_spec]; omega) (fun r hr => .plain hr) hs
      exact ⟨o, .plain h⟩
    | except f x =>
      obtain ⟨o, h⟩ := sub (.factor f) (by simp only [weight, Term.except.sizeOf_spec]; omega) (fun r hr => .except hr) hs.1
      cases o with
      | fail e evs n => exact ⟨_, .exceptFail h⟩
      | abort e => exact ⟨_, .exceptStop h trivial⟩
      | panic p => exact ⟨_, .exceptStop h trivial⟩
      | ok evs n =>
        have : ∃ o, Ev q G (.factor x) here (rest.take n) o := by
          have hlen : (rest.take n).length < a ∨ (rest.take n).length = a := by rw [List.length_take]; omega
          rcases hlen with hlen | hlen
          · exact ih _ _ _ _ (.inl hlen) [] _ _ _ rfl rfl rfl rfl leads_nil hs.2
          · exact ih _ _ _ _ (.inr ⟨hlen, .inr ⟨hb', .inl (by
              rw [← hc]; simp only [weight, Term.except.sizeOf_spec]; omega)⟩⟩) visited (.factor x) here (rest.take n) rfl rfl rfl rfl
              (leads_sub hl fun r hr => .exception hr) hs.2
        obtain ⟨o, hx⟩ := this
        cases o with
        | fail e evs' m => exact ⟨_, .notExcludedFail h hx⟩
        | abort e => exact ⟨_, .excludedStop h hx trivial⟩
        | panic p => exact ⟨_, .excludedStop h hx trivial⟩
        | ok evs' m =>
          by_cases hm : m = n
          · subst hm; exact ⟨_, .excluded h hx⟩
          · exact ⟨_, .notExcluded h hx hm⟩
  | sequence d =>
    cases d with
    | nil => exact ⟨_, .done⟩
    | cons t d =>
      obtain ⟨o, h⟩ := sub (.term t) (by simp only [weight, SingleDefinition.cons.sizeOf_spec]; omega)
        (fun r hr => .first hr) hs.1
      cases o with
      | fail e evs n => exact ⟨_, .nextFail h (by simp [Outcome.IsOk])⟩
      | abort e => exact ⟨_, .nextFail h (by simp [Outcome.IsOk])⟩
      | panic p => exact ⟨_, .nextFail h (by simp [Outcome.IsOk])⟩
      | ok evs n =>
        by_cases hdrop : q.dropAfterGroup = true ∧ IsBareGroup t
        · exact ⟨_, .dropped hdrop.1 hdrop.2 h⟩
        · have : ∃ o, Ev q G (.sequence d) (lineColumn here (rest.take n)) (rest.drop n) o := by
            rcases Nat.eq_zero_or_pos n with rfl | hn
            · simp only [List.take_zero, List.drop_zero, lineColumn]
              refine sub _ (by simp only [weight, SingleDefinition.cons.sizeOf_spec]; omega) ?_ hs.2
              intro r hr
              exact .later (ev_empty h trivial _ rfl) (fun hgr => hdrop ⟨hq, hgr⟩) hr
            · exact shorter _ n hs.2 hn (ev_bounded_ok hb h)
          obtain ⟨o, h'⟩ := this
          exact ⟨_, .next hdrop h h'⟩
  | list l =>
    cases l with
    | nil => exact absurd rfl hs.1
    | cons d l =>
      cases l with
      | nil =>
        obtain ⟨o, h⟩ := sub (.sequence d) (by simp only [weight, DefinitionList.cons.sizeOf_spec]; omega)
          (fun r hr => .choice (by simp [DefinitionList.toList]) hr) hs.2.2.1
        exact ⟨o, .single h⟩
      | cons d' l =>
        obtain ⟨o, h⟩ := sub (.alternatives (.cons d (.cons d' l))) (by simp only [weight]; omega)
          (fun r ⟨d, h1, h2⟩ => .choice h1 h2) hs
        cases o with
        | fail e evs n => exact ⟨_, .choiceFail h⟩
        | _ => exact ⟨_, .choice h (by simp)⟩
  | alternatives l =>
    cases l with
    | nil => exact absurd rfl hs.1
    | cons d l =>
      obtain ⟨o, h⟩ := sub (.sequence d) (by simp only [weight, DefinitionList.cons.sizeOf_spec]; omega)
        (fun r hr => ⟨d, by simp [DefinitionList.toList], hr⟩) hs.2.2.1
      cases o with
      | fail e evs n =>
        cases l with
        | nil => exact ⟨_, .last h⟩
        | cons d' l =>
          obtain ⟨o, h'⟩ := sub (.alternatives (.cons d' l)) (by simp only [weight, DefinitionList.cons.sizeOf_spec]; omega)
            (fun r ⟨x, h1, h2⟩ => ⟨x, by simp only [DefinitionList.toList] at h1 ⊢; exact .tail _ h1, h2⟩)
            ⟨by simp, hs.2.2.2⟩
          cases o with
          | fail e' evs' n' => exact ⟨_, .otherFail h h'⟩
          | _ => exact ⟨_, .other h h' (by simp)⟩
      | _ => exact ⟨_, .first h (by simp)⟩
  | rounds body min max guarded i =>
    have hbody : TaskShape body ∧ (guarded = true ∨ ∃ m, max = some m) := by
      cases body with
      | list l => exact hs
      | primary p => exact hs
      | _ => exact hs.elim
    have hst : ∀ r, Starts G body r → Begins G body r := by
      cases body with
      | list l => exact fun r hr => hr
      | primary p => exact fun r hr => hr
      | _ => exact hs.elim
    have hagain : ∀ j, TaskShape (.rounds body min max guarded j) := by
      intro j
      cases body with
      | list l => exact hs
      | primary p => exact hs
      | _ => exact hs.elim
    by_cases hmax : ∃ m, max = some m ∧ m ≤ i
    · obtain ⟨m, rfl, hm⟩ := hmax
      exact ⟨_, .enough hm⟩
    · have hlt : ∀ m, max = some m → i < m := fun m hm => Nat.lt_of_not_le fun hc => hmax ⟨m, hm, hc⟩
      obtain ⟨o, h⟩ := sub body (by simp only [weight]; omega) hst hbody.1
      cases o with
      | fail e evs n =>
        by_cases hmin : min ≤ i
        · exact ⟨_, .lastRound hlt hmin h⟩
        · exact ⟨_, .tooFew hlt (by omega) h⟩
      | abort e => exact ⟨_, .roundStop hlt h trivial⟩
      | panic p => exact ⟨_, .roundStop hlt h trivial⟩
      | ok evs n =>
        by_cases hg : guarded = true ∧ n = 0
        · obtain ⟨rfl, rfl⟩ := hg
          exact ⟨_, .livelock hlt h⟩
        · have : ∃ o, Ev q G (.rounds body min max guarded (i + 1)) (lineColumn here (rest.take n)) (rest.drop n) o := by
            rcases Nat.eq_zero_or_pos n with rfl | hn
            · simp only [List.take_zero, List.drop_zero, lineColumn]
              obtain ⟨m, rfl⟩ := hbody.2.resolve_left fun h => hg ⟨h, rfl⟩
              have := hlt m rfl
              refine ih _ _ _ _ (.inr ⟨ha, .inr ⟨hb', .inr ⟨hc, ?_⟩⟩⟩) visited (.rounds body min (some m) guarded (i + 1)) here rest
                rfl rfl rfl rfl (leads_sub hl fun r hr => hr) (hagain _)
              rw [← hd]
              simp only [roundsLeft]
              omega
            · exact shorter _ n (hagain _) hn (ev_bounded_ok hb h)
          obtain ⟨o, h'⟩ := this
          exact ⟨_, .round hlt hg h h'⟩

/-! ## Left recursion -/

/-- The rule the task always starts first. -/
def StartsFirst (G : Language) : Task → SyntaxRule → Prop
  | .alternatives l, r => AlwaysBegins G (.list l) r
  | .rounds body _ max _ i, r => AlwaysBegins G body r ∧ ∀ m, max = some m → i < m
  | task, r => AlwaysBegins G task r

theorem startsFirst_body {G : Language} {body : Task} (hb : (∃ l, body = .list l) ∨ ∃ p, body = .primary p) {r : SyntaxRule}
    (h : AlwaysBegins G body r) : FineTask body ∧ StartsFirst G body r := by
  rcases hb with ⟨l, rfl⟩ | ⟨p, rfl⟩ <;> exact ⟨trivial, h⟩

/-- Rules each of which always starts one of them never end. -/
theorem no_end {q : Quirks} {G : Language} (U : OneMeaning G) (hq : ∀ m, q.roundLimit = some m → 0 < m) {S : SyntaxRule → Prop}
    (hS : ∀ r, S r → ∃ r', S r' ∧ AlwaysBegins G (.list r.definitionList) r') {task : Task} {here : Location} {rest : Str}
    {o : Outcome} (h : Ev q G task here rest o) : FineTask task → ∀ r, S r → ¬ StartsFirst G task r := by
  have ref : ∀ {loc name r r'}, S r → AlwaysBegins G (.primary (.metaIdentifier loc name)) r → r' ∈ G.rules →
      SameName r'.metaIdentifier name → S r' := by
    intro loc name r r' hr h h1 h2
    cases h with
    | reference h3 h4 => rw [U.rule _ h1 _ h3 _ h2 h4]; exact hr
  induction h with
  | optional _ ih =>
    intro _ r hr h; cases h with
    | optional h => exact ih (.inl ⟨_, rfl⟩) r hr ⟨h, by simp⟩
  | repeated _ ih =>
    intro _ r hr h; cases h with
    | repeated h => exact ih (.inl ⟨_, rfl⟩) r hr ⟨h, hq⟩
  | grouped _ ih =>
    intro _ r hr h; cases h with
    | grouped h => exact ih trivial r hr h
  | empty => intro _ r hr h; cases h
  | terminal => intro _ r hr h; cases h
  | terminalFail => intro _ r hr h; cases h
  | reference h1 h2 _ ih =>
    intro _ r hr h
    obtain ⟨r', h3, h4⟩ := hS _ (ref hr h h1 h2)
    exact ih trivial r' h3 h4
  | referenceFail h1 h2 _ ih =>
    intro _ r hr h
    obtain ⟨r', h3, h4⟩ := hS _ (ref hr h h1 h2)
    exact ih trivial r' h3 h4
  | referenceStop h1 h2 _ _ ih =>
    intro _ r hr h
    obtain ⟨r', h3, h4⟩ := hS _ (ref hr h h1 h2)
    exact ih trivial r' h3 h4
  | referenceUndefined hu =>
    intro _ r hr h
    cases h with
    | reference h3 h4 => exact hu _ h3 h4
  | special => intro _ r hr h; cases h
  | specialFail => intro _ r hr h; cases h
  | specialError => intro _ r hr h; cases h
  | forward => intro _ r hr h; cases h
  | forwardFail => intro _ r hr h; cases h
  | forwardIgnored => intro _ r hr h; cases h
  | forwardStop => intro _ r hr h; cases h
  | forwardUndefined => intro _ r hr h; cases h
  | once _ ih =>
    intro _ r hr h; cases h with
    | factor _ h => exact ih trivial r hr h
  | counted _ _ ih =>
    intro _ r hr h; cases h with
    | factor h0 h => exact ih (.inr ⟨_, rfl⟩) r hr ⟨h, by intro m hm; cases hm; omega⟩
  | plain _ ih =>
    intro _ r hr h; cases h with
    | plain h => exact ih trivial r hr h
  | exceptFail _ ih =>
    intro _ r hr h; cases h with
    | except h => exact ih trivial r hr h
  | exceptStop _ _ ih =>
    intro _ r hr h; cases h with
    | except h => exact ih trivial r hr h
  | excluded _ _ ih _ =>
    intro _ r hr h; cases h with
    | except h => exact ih trivial r hr h
  | notExcluded _ _ _ ih _ =>
    intro _ r hr h; cases h with
    | except h => exact ih trivial r hr h
  | notExcludedFail _ _ ih _ =>
    intro _ r hr h; cases h with
    | except h => exact ih trivial r hr h
  | excludedStop _ _ _ ih _ =>
    intro _ r hr h; cases h with
    | except h => exact ih trivial r hr h
  | done => intro _ r hr h; cases h
  | next _ _ _ ih _ =>
    intro _ r hr h; cases h with
    | first h => exact ih trivial r hr h
  | dropped _ _ _ ih =>
    intro _ r hr h; cases h with
    | first h => exact ih trivial r hr h
  | nextFail _ _ ih =>
    intro _ r hr h; cases h with
    | first h => exact ih trivial r hr h
  | single _ ih =>
    intro _ r hr h; cases h with
    | choice h => exact ih trivial r hr h
  | choice _ _ ih => intro _ r hr h; exact ih trivial r hr h
  | choiceFail _ ih => intro _ r hr h; exact ih trivial r hr h
  | first _ _ ih =>
    intro _ r hr h; cases h with
    | choice h => exact ih trivial r hr h
  | last _ ih =>
    intro _ r hr h; cases h with
    | choice h => exact ih trivial r hr h
  | other _ _ _ ih _ =>
    intro _ r hr h; cases h with
    | choice h => exact ih trivial r hr h
  | otherFail _ _ ih _ =>
    intro _ r hr h; cases h with
    | choice h => exact ih trivial r hr h
  | enough h => intro _ r hr h'; have := h'.2 _ rfl; omega
  | round _ _ _ _ ih _ =>
    intro hb r hr h
    have := startsFirst_body hb h.1
    exact ih this.1 r hr this.2
  | livelock _ _ ih =>
    intro hb r hr h
    have := startsFirst_body hb h.1
    exact ih this.1 r hr this.2
  | lastRound _ _ _ ih =>
    intro hb r hr h
    have := startsFirst_body hb h.1
    exact ih this.1 r hr this.2
  | tooFew _ _ _ ih =>
    intro hb r hr h
    have := startsFirst_body hb h.1
    exact ih this.1 r hr this.2
  | roundStop _ _ _ ih =>
    intro hb r hr h
    have := startsFirst_body hb h.1
    exact ih this.1 r hr this.2

theorem alwaysBegins_begins {G : Language} {task : Task} {r : SyntaxRule} (h : AlwaysBegins G task r) : Begins G task r := by
  induction h with
  | optional _ ih => exact .optional ih
  | repeated _ ih => exact .repeated ih
  | grouped _ ih => exact .grouped ih
  | reference h1 h2 => exact .reference h1 h2
  | factor h _ ih => exact .factor h ih
  | plain _ ih => exact .plain ih
  | except _ ih => exact .except ih
  | first _ ih => exact .first ih
  | choice _ ih => exact .choice (by simp [DefinitionList.toList]) ih

/-- A grammar whose rules start only rules of a lower rank. -/
theorem not_leftRecursive {G : Language} (rank : SyntaxRule → Nat) (h : ∀ r r', LeftCalls G r r' → rank r' < rank r) :
    ¬ LeftRecursive G := by
  have key : ∀ r r', Relation.TransGen (LeftCalls G) r r' → rank r' < rank r := by
    intro r r' hr
    induction hr with
    | single h1 => exact h _ _ h1
    | tail _ h1 ih => exact Nat.lt_trans (h _ _ h1) ih
  rintro ⟨r, _, hr⟩
  exact Nat.lt_irrefl _ (key r r hr)

/-! ## Inversion -/

theorem begins_list {G : Language} {l : DefinitionList} {r : SyntaxRule} : Begins G (.list l) r ↔ ∃ d ∈ l.toList, Begins G (.sequence d) r :=
  ⟨fun h => by cases h with | choice h1 h2 => exact ⟨_, h1, h2⟩, fun ⟨_, h1, h2⟩ => .choice h1 h2⟩

theorem begins_nil {G : Language} {r : SyntaxRule} : Begins G (.sequence .nil) r ↔ False :=
  ⟨fun h => by (cases h), False.elim⟩

theorem begins_cons {G : Language} {t : Term} {d : SingleDefinition} {r : SyntaxRule} : Begins G (.sequence (.cons t d)) r ↔ Begins G (.term t) r ∨ (MayBeEmpty G (.term t) ∧ ¬ IsBareGroup t ∧ Begins G (.sequence d) r) :=
  ⟨fun h => by cases h with
    | first h => exact .inl h
    | later h1 h2 h3 => exact .inr ⟨h1, h2, h3⟩, fun h => h.elim .first fun ⟨h1, h2, h3⟩ => .later h1 h2 h3⟩

theorem begins_plain {G : Language} {f : Factor} {r : SyntaxRule} : Begins G (.term (.plain f)) r ↔ Begins G (.factor f) r :=
  ⟨fun h => by cases h with | plain h => exact h, .plain⟩

theorem begins_except {G : Language} {f x : Factor} {r : SyntaxRule} :
    Begins G (.term (.except f x)) r ↔ Begins G (.factor f) r ∨ Begins G (.factor x) r :=
  ⟨fun h => by cases h with | except h => exact .inl h | exception h => exact .inr h, fun h => h.elim .except .exception⟩

theorem begins_factor {G : Language} {k : Nat} {p : Primary} {r : SyntaxRule} : Begins G (.factor (.mk k p)) r ↔ k ≠ 0 ∧ Begins G (.primary p) r :=
  ⟨fun h => by cases h with | factor h1 h2 => exact ⟨h1, h2⟩, fun ⟨h1, h2⟩ => .factor h1 h2⟩

theorem begins_optional {G : Language} {loc : Location} {l : DefinitionList} {r : SyntaxRule} : Begins G (.primary (.optional loc l)) r ↔ Begins G (.list l) r :=
  ⟨fun h => by cases h with | optional h => exact h, .optional⟩

theorem begins_repeated {G : Language} {loc : Location} {l : DefinitionList} {r : SyntaxRule} : Begins G (.primary (.repeated loc l)) r ↔ Begins G (.list l) r :=
  ⟨fun h => by cases h with | repeated h => exact h, .repeated⟩

theorem begins_grouped {G : Language} {loc : Location} {l : DefinitionList} {r : SyntaxRule} : Begins G (.primary (.grouped loc l)) r ↔ Begins G (.list l) r :=
  ⟨fun h => by cases h with | grouped h => exact h, .grouped⟩

theorem begins_reference {G : Language} {loc : Location} {name : Str} {r : SyntaxRule} : Begins G (.primary (.metaIdentifier loc name)) r ↔ r ∈ G.rules ∧ SameName r.metaIdentifier name :=
  ⟨fun h => by cases h with | reference h1 h2 => exact ⟨h1, h2⟩, fun ⟨h1, h2⟩ => .reference h1 h2⟩

theorem begins_terminal {G : Language} {loc : Location} {s : Str} {r : SyntaxRule} : Begins G (.primary (.terminalString loc s)) r ↔ False :=
  ⟨fun h => by (cases h), False.elim⟩

theorem empty_plain {G : Language} {f : Factor} : MayBeEmpty G (.term (.plain f)) ↔ MayBeEmpty G (.factor f) :=
  ⟨fun h => by cases h with | plain h => exact h, .plain⟩

theorem empty_factor {G : Language} {k : Nat} {p : Primary} : MayBeEmpty G (.factor (.mk k p)) ↔ k = 0 ∨ MayBeEmpty G (.primary p) :=
  ⟨fun h => by cases h with
    | never => exact .inl rfl
    | factor h => exact .inr h, fun h => h.elim (fun h => h ▸ .never) .factor⟩

theorem empty_terminal {G : Language} {loc : Location} {s : Str} : MayBeEmpty G (.primary (.terminalString loc s)) ↔ s = [] :=
  ⟨fun h => by cases h with | terminal => rfl, fun h => h ▸ .terminal⟩

theorem empty_optional {G : Language} {loc : Location} {l : DefinitionList} : MayBeEmpty G (.primary (.optional loc l)) ↔ True :=
  ⟨fun h => by trivial, fun _ => .optional⟩

end Ebnf
