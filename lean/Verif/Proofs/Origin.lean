import Verif.Spec.Origin
import Verif.Proofs.Messages
import Verif.Proofs.Events

set_option autoImplicit false

/-! # Where the events come from -/

namespace Ebnf

open Spec

/-- Parts of the grammar, with the places of references. -/
def PlacedIn (G : Language) : Task → Prop
  | .primary (.metaIdentifier l n) => ∀ r ∈ G.rules, SameName r.metaIdentifier n → RefersTo G r l
  | .alternatives l => ∀ d ∈ l.toList, Occurs G (.sequence d)
  | .rounds body _ _ _ _ => (∃ l, body = .list l ∧ Occurs G body) ∨ ∃ p, body = .primary p ∧ Occurs G body
  | task => Occurs G task

theorem placedIn_primary {G : Language} {p : Primary} (h : Occurs G (.primary p)) : PlacedIn G (.primary p) := by
  cases p with
  | metaIdentifier l n => exact fun r _ hn => .inr ⟨n, h, hn⟩
  | _ => exact h

theorem placedIn_body {G : Language} {body : Task}
    (h : (∃ l, body = .list l ∧ Occurs G body) ∨ ∃ p, body = .primary p ∧ Occurs G body) : PlacedIn G body := by
  rcases h with ⟨l, rfl, h⟩ | ⟨p, rfl, h⟩
  · exact h
  · exact placedIn_primary h

/-- The events of an outcome. -/
def Outcome.reported : Outcome → List Event
  | .ok evs _ => evs
  | .fail _ evs _ => evs
  | _ => []

theorem origin_drop {G : Language} {here : Location} {rest : Str} {n : Nat} {e : Event}
    (h : Origin G (lineColumn here (rest.take n)) (rest.drop n) e) : Origin G here rest e := by
  have key : ∀ {pre post : Str}, rest.drop n = pre ++ post → rest = (rest.take n ++ pre) ++ post := by
    intro pre post h
    rw [List.append_assoc, ← h, List.take_append_drop]
  cases h with
  | terminal h1 h2 =>
    rw [lineColumn_append]
    exact .terminal h1 (by rw [List.append_assoc] at h2 ⊢; exact key h2)
  | begin h1 h2 h3 => rw [lineColumn_append]; exact .begin h1 h2 (key h3)
  | «end» h1 h2 h3 => rw [lineColumn_append]; exact .end h1 h2 (key h3)
  | scanner h1 h2 h3 h4 =>
    rw [lineColumn_append] at h3
    exact .scanner h1 (key h2) h3 h4

theorem origin_here {G : Language} {here : Location} {rest : Str} {r : SyntaxRule} {l : Location} (h1 : r ∈ G.rules)
    (h2 : RefersTo G r l) (n : Nat) : Origin G here rest (.begin l here r.metaIdentifier) ∧
      Origin G here rest (.end l (lineColumn here (rest.take n)) r.metaIdentifier) := by
  constructor
  · have : Origin G here rest (.begin l (lineColumn here []) r.metaIdentifier) := .begin h1 h2 (post := rest) rfl
    rw [lineColumn_nil] at this
    exact this
  · exact .end h1 h2 (List.take_append_drop n rest).symm

theorem ev_origin {q : Quirks} {G : Language} (U : OneMeaning G) {task : Task} {here : Location} {rest : Str} {o : Outcome}
    (h : Ev q G task here rest o) : PlacedIn G task → ∀ e ∈ Outcome.reported o, Origin G here rest e := by
  have start : ∀ {r}, r ∈ G.rules → PlacedIn G (.primary (.metaIdentifier r.location r.metaIdentifier)) := by
    intro r h1 r' h2 hn
    rw [U.rule r' h2 r h1 _ hn (.refl _)]
    exact .inl rfl
  have fwd : ∀ {name task}, ForwardTarget G name task → PlacedIn G task := by
    intro name task h
    cases h with
    | rule h1 _ => exact .rule h1
    | marked h1 _ => exact start h1
  have none : ∀ {here rest e}, e ∈ ([] : List Event) → Origin G here rest e := by intro _ _ _ h; cases h
  have stop : ∀ {o : Outcome} {here rest e}, o.IsStop → e ∈ Outcome.reported o → Origin G here rest e := by
    intro o _ _ _ ho h
    cases o with
    | ok => exact ho.elim
    | fail => exact ho.elim
    | abort => cases h
    | panic => cases h
  induction h with
  | optional _ ih => intro hk; exact ih (.inl ⟨_, rfl, .optional hk⟩)
  | repeated _ ih => intro hk; exact ih (.inl ⟨_, rfl, .repeated hk⟩)
  | grouped _ ih => intro hk; exact ih (.grouped hk)
  | @terminal loc s here rest h =>
    intro hk e he
    simp only [Outcome.reported, List.mem_singleton] at he
    subst he
    obtain ⟨post, rfl⟩ := h
    have := Origin.terminal (here := here) (pre := []) (post := post) hk rfl
    rw [lineColumn_nil] at this
    exact this
  | reference h1 h2 _ ih =>
    intro hk e he
    simp only [Outcome.reported, List.cons_append, List.mem_cons, List.mem_append, List.not_mem_nil, or_false] at he
    rcases he with rfl | he | rfl
    · exact (origin_here h1 (hk _ h1 h2) 0).1
    · exact ih (.rule h1) e he
    · exact (origin_here h1 (hk _ h1 h2) _).2
  | referenceStop h _ _ _ ih => intro _; exact ih (.rule h)
  | @special loc s here rest evs n h =>
    intro hk e he
    refine .scanner (pre := []) (n := n) hk rfl ?_ he
    rw [lineColumn_nil]; exact h
  | forward _ ht _ ih => intro _ e he; exact origin_drop (ih (fwd ht) e he)
  | forwardIgnored _ ht _ _ ih => intro _ e he; exact origin_drop (ih (fwd ht) e he)
  | forwardStop _ ht _ ho ih => intro _ e he; exact stop ho he
  | once _ ih => intro hk; exact ih (placedIn_primary (.primary hk))
  | counted _ _ ih => intro hk; exact ih (.inr ⟨_, rfl, .primary hk⟩)
  | plain _ ih => intro hk; exact ih (.plain hk)
  | exceptStop _ _ ih => intro hk; exact ih (.base hk)
  | notExcluded _ _ _ ih => intro hk; exact ih (.base hk)
  | notExcludedFail _ _ ih => intro hk; exact ih (.base hk)
  | excludedStop _ _ hs => intro _ e he; exact stop hs he
  | @next t d here rest evs n o _ _ _ ih1 ih2 =>
    intro hk e he
    have h1 := ih1 (.first hk)
    have h2 := ih2 (.later hk)
    have key : e ∈ evs ∨ e ∈ Outcome.reported o := by
      cases o with
      | ok => exact List.mem_append.mp he
      | fail => exact List.mem_append.mp he
      | abort => cases he
      | panic => cases he
    rcases key with he | he
    · exact h1 e he
    · exact origin_drop (h2 e he)
  | dropped _ _ _ ih => intro hk; exact ih (.first hk)
  | nextFail _ _ ih => intro hk; exact ih (.first hk)
  | single _ ih => intro hk; exact ih (.definition hk (by simp [DefinitionList.toList]))
  | choice _ _ ih => intro hk; exact ih fun d hd => .definition hk hd
  | first _ _ ih => intro hk; exact ih (hk _ (by simp [DefinitionList.toList]))
  | other _ _ _ _ ih => intro hk; exact ih fun d hd => hk d (by rw [DefinitionList.toList]; exact List.mem_cons_of_mem _ hd)
  | @round body min max guarded i here rest evs n o _ _ _ _ ih1 ih2 =>
    intro hk e he
    have h1 := ih1 (placedIn_body hk)
    have h2 := ih2 hk
    have key : e ∈ evs ∨ e ∈ Outcome.reported o := by
      cases o with
      | ok => exact List.mem_append.mp he
      | fail => exact .inr he
      | abort => cases he
      | panic => cases he
    rcases key with he | he
    · exact h1 e he
    · exact origin_drop (h2 e he)
  | lastRound _ _ _ ih =>
    intro hk e he
    refine ih (placedIn_body hk) e ?_
    simp only [Outcome.reported] at he ⊢
    split at he
    · exact he
    · cases he
  | roundStop _ _ _ ih => intro hk; exact ih (placedIn_body hk)
  | _ => intro _ e he; exact none he

theorem withoutPairs_mem {es out : List Event} (h : WithoutPairs es out) {e : Event} (he : e ∈ out) : e ∈ es := by
  induction h with
  | nil => exact he
  | keep _ ih =>
    rcases List.mem_cons.mp he with rfl | he
    · exact List.mem_cons_self
    · exact List.mem_cons_of_mem _ (ih he)
  | drop _ _ _ ih => exact List.mem_cons_of_mem _ (List.mem_cons_of_mem _ (ih he))

theorem trimmed_mem {es out : List Event} (h : Trimmed es out) {e : Event} (he : e ∈ out) : e ∈ es :=
  withoutPairs_mem (trimmed_withoutPairs h) he

/-- The primaries of a part of the grammar. -/
def primariesOfTask : Task → List Primary
  | .primary p => primariesIn p
  | .factor f => primariesOfFactor f
  | .term t => primariesOfTerm t
  | .sequence d => primariesOfSingle d
  | .list l => primariesOfList l
  | _ => []

theorem primariesOfList_mem {d : SingleDefinition} : ∀ {l : DefinitionList}, d ∈ l.toList → ∀ p ∈ primariesOfSingle d, p ∈ primariesOfList l
  | .nil, h => by cases h
  | .cons d' l, h => by
    intro p hp
    rw [DefinitionList.toList] at h
    rw [primariesOfList, List.mem_append]
    rcases List.mem_cons.mp h with rfl | h
    · exact .inl hp
    · exact .inr (primariesOfList_mem h p hp)

theorem occurs_primaries {G : Language} {task : Task} (h : Occurs G task) :
    ∃ r ∈ G.rules, ∀ p ∈ primariesOfTask task, p ∈ primariesOfList r.definitionList := by
  induction h with
  | rule h => exact ⟨_, h, fun _ hp => hp⟩
  | definition _ hd ih =>
    obtain ⟨r, h1, h2⟩ := ih
    exact ⟨r, h1, fun p hp => h2 p (primariesOfList_mem hd p hp)⟩
  | first _ ih =>
    obtain ⟨r, h1, h2⟩ := ih
    exact ⟨r, h1, fun p hp => h2 p (by rw [primariesOfTask, primariesOfSingle]; exact List.mem_append.mpr (.inl hp))⟩
  | later _ ih =>
    obtain ⟨r, h1, h2⟩ := ih
    exact ⟨r, h1, fun p hp => h2 p (by rw [primariesOfTask, primariesOfSingle]; exact List.mem_append.mpr (.inr hp))⟩
  | plain _ ih => exact ih
  | base _ ih =>
    obtain ⟨r, h1, h2⟩ := ih
    exact ⟨r, h1, fun p hp => h2 p (by rw [primariesOfTask, primariesOfTerm]; exact List.mem_append.mpr (.inl hp))⟩
  | exception _ ih =>
    obtain ⟨r, h1, h2⟩ := ih
    exact ⟨r, h1, fun p hp => h2 p (by rw [primariesOfTask, primariesOfTerm]; exact List.mem_append.mpr (.inr hp))⟩
  | primary _ ih => exact ih
  | optional _ ih =>
    obtain ⟨r, h1, h2⟩ := ih
    exact ⟨r, h1, fun p hp => h2 p (by rw [primariesOfTask, primariesIn]; exact List.mem_cons_of_mem _ hp)⟩
  | repeated _ ih =>
    obtain ⟨r, h1, h2⟩ := ih
    exact ⟨r, h1, fun p hp => h2 p (by rw [primariesOfTask, primariesIn]; exact List.mem_cons_of_mem _ hp)⟩
  | grouped _ ih =>
    obtain ⟨r, h1, h2⟩ := ih
    exact ⟨r, h1, fun p hp => h2 p (by rw [primariesOfTask, primariesIn]; exact List.mem_cons_of_mem _ hp)⟩

theorem self_primaries (p : Primary) : p ∈ primariesIn p := by
  cases p <;> simp [primariesIn]

/-- A primary that occurs is one of those of a rule. -/
theorem occurs_primary {G : Language} {p : Primary} (h : Occurs G (.primary p)) :
    ∃ r ∈ G.rules, p ∈ primariesOfList r.definitionList := by
  obtain ⟨r, h1, h2⟩ := occurs_primaries h
  exact ⟨r, h1, h2 p (self_primaries p)⟩

end Ebnf
