import Verif.Spec.Clear
import Verif.Proofs.Linear
import Verif.Proofs.Describes
import Verif.Proofs.Partials

set_option autoImplicit false

/-! # Where the next character tells that a repetition is over, a failed last round has no tokens

A round that fails although the text goes on with a character with which the round may begin has perhaps reported tokens.  A round that fails on any
other character has reported nothing but empty texts.  If the next character tells that the part is over, the last round fails on another character: what
follows is matched in the end, so that its first character is one that may follow. -/

namespace Ebnf.Clear

open Spec

variable {q : Quirks} {G : Language}

/-- Nothing that the task can match begins with the next character. -/
def Apart (G : Language) : Task → Str → Prop
  | .rounds body _ max _ i, rest => (∀ m, max = some m → i < m) → ∀ c t, rest = c :: t → ¬ First regardless G body c
  | .alternatives l, rest => ∀ c t, rest = c :: t → ∀ d ∈ l.toList, ¬ First regardless G (.sequence d) c
  | task, rest => ∀ c t, rest = c :: t → ¬ First regardless G task c

/-- What is left after the task goes on with a character that may follow it. -/
def Follows (G : Language) : Task → Str → Prop
  | .rounds body min max _ _, tail => ∀ c t, tail = c :: t →
      Next regardless G body c ∧ (max ≠ some min → ¬ First regardless G body c)
  | .alternatives l, tail => ∀ c t, tail = c :: t → ∀ d ∈ l.toList, Next regardless G (.sequence d) c
  | task, tail => ∀ c t, tail = c :: t → Next regardless G task c

/-- Parts of the grammar, references to rules, and the steps in between. -/
def Fits (G : Language) : Task → Prop
  | .primary (.metaIdentifier _ _) => True
  | .alternatives l => ∀ d ∈ l.toList, Occurs G (.sequence d)
  | .rounds body min max _ i => ((∃ l, body = .list l ∧ Occurs G body) ∨ ∃ p, body = .primary p ∧ Occurs G body) ∧
      (∀ m, max = some m → min ≤ m) ∧
      ((∀ m, max = some m → i + 2 ≤ m) → ∀ c, First regardless G body c → Next regardless G body c)
  | task => Occurs G task

/-- What is to be shown of an outcome. -/
def Clean (G : Language) (task : Task) (here : Location) (rest : Str) : Outcome → Prop
  | .ok evs n => (Apart G task rest ∨ Follows G task (rest.drop n)) → Spells here evs (rest.take n)
  | .fail _ evs _ => Apart G task rest → Spells here evs []
  | _ => True

theorem clean_stop {task : Task} {here : Location} {rest : Str} {o : Outcome} (h : o.IsStop) : Clean G task here rest o := by
  cases o <;> first | trivial | exact h.elim

theorem clean_map {task task' : Task} {here : Location} {rest : Str} {o : Outcome} (h1 : Apart G task rest → Apart G task' rest)
    (h2 : ∀ tail, Follows G task tail → Follows G task' tail) (h : Clean G task' here rest o) : Clean G task here rest o := by
  cases o with
  | ok evs n => exact fun h' => h (h'.imp h1 (h2 _))
  | fail e evs n => exact fun h' => h (h1 h')
  | _ => trivial

theorem fits_primary {p : Primary} (h : Occurs G (.primary p)) : Fits G (.primary p) := by
  cases p <;> first | exact h | trivial

theorem fits_body {body : Task} (h : (∃ l, body = .list l ∧ Occurs G body) ∨ ∃ p, body = .primary p ∧ Occurs G body) : Fits G body := by
  rcases h with ⟨l, rfl, h⟩ | ⟨p, rfl, h⟩
  · exact h
  · exact fits_primary h

theorem apart_body {body : Task} (h : (∃ l, body = .list l ∧ Occurs G body) ∨ ∃ p, body = .primary p ∧ Occurs G body) {rest : Str}
    (ha : ∀ c t, rest = c :: t → ¬ First regardless G body c) : Apart G body rest := by
  rcases h with ⟨l, rfl, h⟩ | ⟨p, rfl, h⟩ <;> exact ha

theorem follows_body {body : Task} (h : (∃ l, body = .list l ∧ Occurs G body) ∨ ∃ p, body = .primary p ∧ Occurs G body) {rest : Str}
    (ha : ∀ c t, rest = c :: t → Next regardless G body c) : Follows G body rest := by
  rcases h with ⟨l, rfl, h⟩ | ⟨p, rfl, h⟩ <;> exact ha

section
variable (hw : Everywhere (whole G) G) (hq : q.dropAfterGroup = false)
include hw hq

/-- What is matched is derived. -/
theorem sound {task : Task} {here : Location} {rest : Str} {evs : List Event} {n : Nat} (h : Ev q G task here rest (.ok evs n))
    (hk : EveryTask (whole G) task) (hf : FineTask task) : ∃ evs', Described noException G task here (rest.take n) evs' := by
  obtain ⟨o', h1, h2⟩ := Partials.ev_alike (Partials.fewer q.keepPartial) (fun _ _ _ _ _ _ _ _ => trivial) h
  cases h2 with
  | ok h2 => exact ⟨_, ev_describes (q := { q with keepPartial := false }) (K := whole G) (fun _ h => h) hq rfl hw h1 hk hf _ _ rfl⟩

theorem sound_body {body : Task} (hb : (∃ l, body = .list l ∧ Occurs G body) ∨ ∃ p, body = .primary p ∧ Occurs G body) {here : Location}
    {rest : Str} {evs : List Event} {n : Nat} (h : Ev q G body here rest (.ok evs n)) : Produces regardless G body (rest.take n) := by
  rcases hb with ⟨l, rfl, hb⟩ | ⟨p, rfl, hb⟩ <;>
  · obtain ⟨_, h1⟩ := sound hw hq h (occurs_every hw hb) trivial
    exact describes_produces h1

theorem sound_term {t : Term} (hb : Occurs G (.term t)) {here : Location} {rest : Str} {evs : List Event} {n : Nat}
    (h : Ev q G (.term t) here rest (.ok evs n)) : Produces regardless G (.term t) (rest.take n) := by
  obtain ⟨_, h1⟩ := sound hw hq h (occurs_every hw hb) trivial
  exact describes_produces h1

theorem sound_sequence {d : SingleDefinition} (hb : Occurs G (.sequence d)) {here : Location} {rest : Str} {evs : List Event} {n : Nat}
    (h : Ev q G (.sequence d) here rest (.ok evs n)) : Produces regardless G (.sequence d) (rest.take n) := by
  obtain ⟨_, h1⟩ := sound hw hq h (occurs_every hw hb) trivial
  exact describes_produces h1

/-- Further rounds that match something begin as the body does, and there is room for them. -/
theorem sound_rounds {body : Task} (hb : (∃ l, body = .list l ∧ Occurs G body) ∨ ∃ p, body = .primary p ∧ Occurs G body) {min : Nat}
    {max : Option Nat} {guarded : Bool} {i : Nat} {here : Location} {rest : Str} {evs : List Event} {n : Nat}
    (h : Ev q G (.rounds body min max guarded i) here rest (.ok evs n)) (hm : ∀ m, max = some m → min ≤ m) (hi : ∀ m, max = some m → i ≤ m)
    {c : Char} {t : Str} (ht : rest.take n = c :: t) : First regardless G body c ∧ ∀ m, max = some m → i + 1 ≤ m := by
  have hk : EveryTask (whole G) body ∧ ((∃ l, body = .list l) ∨ ∃ p, body = .primary p) := by
    rcases hb with ⟨l, rfl, hb⟩ | ⟨p, rfl, hb⟩
    · exact ⟨occurs_every hw hb, .inl ⟨_, rfl⟩⟩
    · exact ⟨occurs_every hw hb, .inr ⟨_, rfl⟩⟩
  obtain ⟨evs', h1⟩ := sound hw hq h hk hk.2
  obtain ⟨k, h2, _, h4⟩ := h1 hm
  obtain ⟨ws, h5, h6, h7⟩ := series_produces h2
  refine ⟨first_flatten ws h5 (by rw [← h6, ht]), fun m hm' => ?_⟩
  have := h4 m hm' (hi m hm')
  cases k with
  | zero => cases ws with
    | nil => rw [ht] at h6; cases h6
    | cons => simp at h7
  | succ k => omega

end

theorem first_single {d : SingleDefinition} {l : DefinitionList} (hd : d ∈ l.toList) {c : Char} (h : First regardless G (.sequence d) c) :
    First regardless G (.list l) c := by
  obtain ⟨w, h⟩ := h
  exact ⟨w, .choice hd h⟩

theorem take_cons {rest : Str} {n : Nat} {c : Char} {t : Str} (h : rest = c :: t) (hn : n ≠ 0) : ∃ t', rest.take n = c :: t' := by
  cases n with
  | zero => exact absurd rfl hn
  | succ n => subst h; exact ⟨_, rfl⟩

/-- Too few rounds leave no events. -/
theorem rounds_fail {task : Task} {here : Location} {rest : Str} {o : Outcome} (h : Ev q G task here rest o) :
    ∀ body min max guarded i, task = .rounds body min max guarded i → ∀ e evs n, o = .fail e evs n → evs = [] := by
  induction h with
  | @round _ _ _ _ _ _ _ evs n o _ _ _ _ _ ih =>
    intro _ _ _ _ _ ht e evs' n' ho
    cases o with
    | fail e1 evs1 n1 =>
      simp only [Outcome.afterRound, Outcome.fail.injEq] at ho
      rw [← ho.2.1]
      exact ih _ _ _ _ _ rfl _ _ _ rfl
    | _ => cases ho
  | enough _ => intro _ _ _ _ _ _ _ _ _ ho; cases ho
  | livelock _ _ _ => intro _ _ _ _ _ _ _ _ _ ho; cases ho
  | lastRound _ _ _ _ => intro _ _ _ _ _ _ _ _ _ ho; cases ho
  | tooFew _ _ _ _ => intro _ _ _ _ _ _ _ _ _ ho; cases ho; rfl
  | roundStop _ _ h _ => intro _ _ _ _ _ _ _ _ _ ho; subst ho; exact h.elim
  | _ => intro _ _ _ _ _ ht; cases ht

theorem ev_clear (hb : Bounded G) (hc : ClearEnds G) (hP : Productive regardless G) (hw : Everywhere (whole G) G) (hq : q.dropAfterGroup = false)
    (hs : ScannersSpell G) {task : Task} {here : Location} {rest : Str} {o : Outcome} (h : Ev q G task here rest o) :
    Fits G task → Clean G task here rest o := by
  induction h with
  | @optional loc l here rest o _ ih =>
    intro (hf : Occurs _ _)
    refine clean_map ?_ ?_ (ih ⟨.inl ⟨_, rfl, .optional hf⟩, fun _ _ => Nat.zero_le _, fun h => ?_⟩)
    · rintro ha _ c t ht ⟨w, hw⟩
      exact ha c t ht ⟨w, .taken hw⟩
    · intro tail ha c t ht
      exact ⟨.optional (ha c t ht), fun _ h => hc.optionals _ _ hf _ h (ha c t ht)⟩
    · have := h 1 rfl; omega
  | @repeated loc l here rest o _ ih =>
    intro (hf : Occurs _ _)
    refine clean_map ?_ ?_ (ih ⟨.inl ⟨_, rfl, .repeated hf⟩, fun _ _ => Nat.zero_le _, fun _ c h => .round hf h⟩)
    · rintro ha _ c t ht ⟨w, hw⟩
      exact ha c t ht ⟨w ++ [], .more hw .noMore⟩
    · intro tail ha c t ht
      exact ⟨.repeated (ha c t ht), fun _ h => hc.repeats _ _ hf _ h (ha c t ht)⟩
  | @grouped loc l here rest o _ ih =>
    intro (hf : Occurs _ _)
    refine clean_map ?_ ?_ (ih (.grouped hf : Occurs G (.list l)))
    · rintro ha c t ht ⟨w, hw⟩
      exact ha c t ht ⟨w, .grouped hw⟩
    · intro tail ha c t ht
      exact .grouped (ha c t ht)
  | empty => intro _ _; exact .nil
  | @terminal loc s here rest hp =>
    intro _ _
    obtain ⟨t, rfl⟩ := hp
    have := Spells.token (definition := loc) (here := here) (s := s) (es := []) (text := []) .nil
    simpa using this
  | terminalFail _ => intro _ _; exact .nil
  | @reference loc name here rest r evs n h1 h2 _ ih =>
    intro _ hd
    have h3 := ih (.rule h1 : Occurs G (.list _)) (hd.imp (fun ha c t ht => by
      rintro ⟨w, hw⟩
      exact ha c t ht ⟨w, .reference h1 h2 hw⟩) fun ha c t ht => .reference (ha c t ht) h1 h2)
    have := spells_append h3 (.end (definition := loc) (label := r.metaIdentifier) .nil)
    simp only [List.append_nil] at this
    exact .begin this
  | referenceFail _ _ _ _ => intro _ _; exact .nil
  | referenceStop _ _ _ ho _ => intro _; exact clean_stop ho
  | referenceUndefined _ => intro _; trivial
  | special h => intro _ _; exact (hs _ _ _ _ _).1 _ _ h
  | specialFail _ => intro _ _; exact .nil
  | specialError _ => intro _; trivial
  | forward h => intro (hf : Occurs _ _); exact absurd h (occurs_every hw hf _ _ rfl _ _ _ _ _)
  | forwardFail h => intro (hf : Occurs _ _); exact absurd h (occurs_every hw hf _ _ rfl _ _ _ _ _)
  | forwardIgnored h => intro (hf : Occurs _ _); exact absurd h (occurs_every hw hf _ _ rfl _ _ _ _ _)
  | forwardStop _ _ _ ho _ => intro _; exact clean_stop ho
  | forwardUndefined _ _ => intro _; trivial
  | @once p here rest o _ ih =>
    intro (hf : Occurs _ _)
    refine clean_map ?_ ?_ (ih (fits_primary (.primary hf)))
    · rintro ha c t ht ⟨w, hw⟩
      have := reads_counted (p := p) [c :: w] (fun x hx => by rw [List.mem_singleton.mp hx]; exact hw)
      exact ha c t ht ⟨_, this⟩
    · intro tail ha c t ht
      exact .primary (ha c t ht)
  | @counted k p here rest o _ _ ih =>
    intro (hf : Occurs _ _)
    refine clean_map ?_ ?_ (ih ⟨.inr ⟨_, rfl, .primary hf⟩, fun m hm => by cases hm; omega, fun h c hc => ?_⟩)
    · rintro ha hm c t ht ⟨w, hw⟩
      have h0 := hm k rfl
      have := reads_counted (p := p) (List.replicate k (c :: w)) (fun x hx => by rw [List.eq_of_mem_replicate hx]; exact hw)
      rw [List.length_replicate] at this
      obtain ⟨k, rfl⟩ : ∃ k', k = k' + 1 := ⟨k - 1, by omega⟩
      exact ha c t ht ⟨_, this⟩
    · intro tail ha c t ht
      exact ⟨.primary (ha c t ht), fun h => absurd rfl h⟩
    · have := h k rfl
      exact .again hf (by omega) hc
  | @plain f here rest o _ ih =>
    intro (hf : Occurs _ _)
    refine clean_map ?_ ?_ (ih (.plain hf : Occurs G (.factor f)))
    · rintro ha c t ht ⟨w, hw⟩
      exact ha c t ht ⟨w, .plain hw⟩
    · intro tail ha c t ht
      exact .plain (ha c t ht)
  | exceptFail _ _ => intro _ _; exact .nil
  | exceptStop _ ho _ => intro _; exact clean_stop ho
  | excluded _ _ _ _ => intro _ _; exact .nil
  | @notExcluded f x here rest evs n _ _ _ _ _ ih _ =>
    intro (hf : Occurs _ _)
    refine clean_map ?_ ?_ (ih (.base hf : Occurs G (.factor f)))
    · rintro ha c t ht ⟨w, hw⟩
      exact ha c t ht ⟨w, .except hw id⟩
    · intro tail ha c t ht
      exact .except (ha c t ht)
  | @notExcludedFail f x here rest evs n _ _ _ _ _ ih _ =>
    intro (hf : Occurs _ _)
    refine clean_map ?_ ?_ (ih (.base hf : Occurs G (.factor f)))
    · rintro ha c t ht ⟨w, hw⟩
      exact ha c t ht ⟨w, .except hw id⟩
    · intro tail ha c t ht
      exact .except (ha c t ht)
  | excludedStop _ _ ho _ _ => intro _; exact clean_stop ho
  | done => intro _ _; exact .nil
  | @next t d here rest evs n o _ hev1 hev2 ih1 ih2 =>
    intro (hf : Occurs _ _)
    have i1 := ih1 (.first hf : Occurs G (.term t))
    have i2 := ih2 (.later hf : Occurs G (.sequence d))
    have p1 := sound_term hw hq (.first hf) hev1
    have b1 := ev_bounded_ok hb hev1
    have idle : Apart G (.sequence (.cons t d)) rest → n = 0 ∧ Apart G (.term t) rest ∧ Apart G (.sequence d) rest := by
      intro ha
      obtain ⟨w', hw'⟩ := hP d (.later hf)
      have ht : Apart G (.term t) rest := by
        rintro c t' he ⟨w, hw⟩
        exact ha c t' he ⟨w ++ w', .next hw hw'⟩
      have hn := empty_match p1 b1 ht
      subst hn
      refine ⟨rfl, ht, ?_⟩
      rintro c t' he ⟨w, hw⟩
      exact ha c t' he ⟨w, .next (w := []) p1 hw⟩
    cases o with
    | ok evs' m =>
      intro hd
      show Spells here (evs ++ evs') (rest.take (n + m))
      rw [List.take_add]
      rcases hd with ha | ha
      · obtain ⟨rfl, h1, h2⟩ := idle ha
        exact spells_append (i1 (.inl h1)) (i2 (.inl h2))
      · have ha : Follows G (.sequence (.cons t d)) (rest.drop (n + m)) := ha
        rw [← List.drop_drop] at ha
        have p2 := sound_sequence hw hq (.later hf) hev2
        refine spells_append (i1 (.inr fun c t' he => ?_)) (i2 (.inr fun c t' he => .tail (ha c t' he)))
        by_cases hm : m = 0
        · subst hm
          exact .skip (ha c t' he) p2
        · obtain ⟨t'', h'⟩ := take_cons he hm
          rw [h'] at p2
          exact .rest hf ⟨_, p2⟩
    | fail e evs' m =>
      intro ha
      obtain ⟨rfl, h1, h2⟩ := idle ha
      exact spells_append (i1 (.inl h1)) (i2 h2)
    | _ => trivial
  | dropped h => rw [hq] at h; cases h
  | @nextFail t d here rest o _ ho ih =>
    intro (hf : Occurs _ _)
    have i1 := ih (.first hf : Occurs G (.term t))
    cases o with
    | ok => exact absurd trivial ho
    | fail e evs n =>
      intro ha
      obtain ⟨w', hw'⟩ := hP d (.later hf)
      refine i1 ?_
      rintro c t' he ⟨w, hw⟩
      exact ha c t' he ⟨w ++ w', .next hw hw'⟩
    | _ => trivial
  | @single d here rest o _ ih =>
    intro (hf : Occurs _ _)
    refine clean_map ?_ ?_ (ih (.definition hf List.mem_cons_self : Occurs G (.sequence d)))
    · intro ha c t ht h
      exact ha c t ht (first_single List.mem_cons_self h)
    · intro tail ha c t ht
      exact .alternative (ha c t ht) List.mem_cons_self
  | @choice d d' l here rest o _ _ ih =>
    intro (hf : Occurs _ _)
    refine clean_map ?_ ?_ (ih fun x hx => .definition hf hx)
    · intro ha c t ht x hx h
      exact ha c t ht (first_single hx h)
    · intro tail ha c t ht x hx
      exact .alternative (ha c t ht) hx
  | choiceFail _ _ => intro _ _; exact .nil
  | @first d l here rest o _ hn ih =>
    intro hf
    exact clean_map (task' := .sequence d) (fun ha c t ht => ha c t ht d List.mem_cons_self) (fun tail ha c t ht => ha c t ht d List.mem_cons_self)
      (ih (hf d List.mem_cons_self))
  | last _ _ => intro _ _; exact .nil
  | @other d d' l here rest e evs n o _ _ _ _ ih =>
    intro hf
    exact clean_map (task' := .alternatives (.cons d' l)) (fun ha c t ht x hx => ha c t ht x (List.mem_cons_of_mem _ hx))
      (fun tail ha c t ht x hx => ha c t ht x (List.mem_cons_of_mem _ hx)) (ih fun x hx => hf x (List.mem_cons_of_mem _ hx))
  | otherFail _ _ _ _ => intro _ _; exact .nil
  | enough _ => intro _ _; exact .nil
  | @round body min max guarded i here rest evs n o hi _ hev1 hev2 ih1 ih2 =>
    rintro ⟨hf1, hf2, hf3⟩
    have i1 := ih1 (fits_body hf1)
    have i2 := ih2 ⟨hf1, hf2, fun h => hf3 fun m hm => by have := h m hm; omega⟩
    have p1 := sound_body hw hq hf1 hev1
    have b1 := ev_bounded_ok hb hev1
    cases o with
    | ok evs' m =>
      intro hd
      show Spells here (evs ++ evs') (rest.take (n + m))
      rw [List.take_add]
      rcases hd with ha | ha
      · have ha := ha hi
        have hn := empty_match p1 b1 ha
        subst hn
        exact spells_append (i1 (.inl (apart_body hf1 ha))) (i2 (.inl fun _ => ha))
      · have ha : Follows G (.rounds body min max guarded i) (rest.drop (n + m)) := ha
        rw [← List.drop_drop] at ha
        refine spells_append (i1 (.inr (follows_body hf1 fun c t' he => ?_))) (i2 (.inr ha))
        by_cases hm : m = 0
        · subst hm
          exact (ha c t' he).1
        · obtain ⟨t'', h'⟩ := take_cons he hm
          obtain ⟨h1, h2⟩ := sound_rounds hw hq hf1 hev2 hf2 (fun m hm => hi m hm) h'
          exact hf3 (fun m hm => h2 m hm) c h1
    | fail e evs' m =>
      intro _
      show Spells here evs' []
      rw [rounds_fail hev2 _ _ _ _ _ rfl _ _ _ rfl]
      exact .nil
    | _ => trivial
  | livelock _ _ _ => intro _; trivial
  | @lastRound body min max guarded i here rest e evs n hi hmin _ ih =>
    rintro ⟨hf1, hf2, hf3⟩ hd
    have i1 := ih (fits_body hf1)
    show Spells here (if q.keepPartial then evs else []) []
    by_cases hk : q.keepPartial = true
    · rw [if_pos hk]
      refine i1 (apart_body hf1 ?_)
      rcases hd with ha | ha
      · exact ha hi
      · intro c t ht
        refine (ha c t ht).2 fun h => ?_
        have := hi _ h
        omega
    · rw [if_neg hk]; exact .nil
  | tooFew _ _ _ _ => intro _ _; exact .nil
  | roundStop _ _ ho _ => intro _; exact clean_stop ho

/-- Among events whose tokens are the same text there are the same tokens, empty ones aside. -/
theorem realTokens_eq {a b : List Event} (h : a.Sublist b) (ht : (tokenText a).length = (tokenText b).length) : realTokens a = realTokens b := by
  have len : ∀ x y : List Event, x.Sublist y → (tokenText x).length ≤ (tokenText y).length := by
    intro x y h
    induction h with
    | slnil => exact Nat.le_refl _
    | cons e _ ih => cases e <;> simp only [tokenText, List.length_append] <;> omega
    | cons_cons e _ ih => cases e <;> simp only [tokenText, List.length_append] <;> omega
  induction h with
  | slnil => rfl
  | cons e h ih =>
    have := len _ _ h
    cases e with
    | token d p s =>
      simp only [tokenText, List.length_append] at ht
      have hs : s = [] := List.length_eq_zero_iff.mp (by omega)
      subst hs
      rw [ih (by simp only [List.length_nil] at ht; omega)]
      rfl
    | _ => rw [ih (by simpa only [tokenText] using ht)]; rfl
  | cons_cons e h ih =>
    have h1 := ih (by cases e <;> simp only [tokenText, List.length_append] at ht <;> omega)
    simp only [realTokens, List.filter_cons] at h1 ⊢
    rw [h1]

section
variable {K K' : Local} (hc : ∀ n, K.count n → K'.count n) (hp : ∀ p, K.primary p → K'.primary p) (hf : ∀ t d, K.follows t d → K'.follows t d)
include hc hp hf

mutual
theorem weaker_primary : ∀ {p : Primary}, EveryPrimary K p → EveryPrimary K' p
  | .optional _ _, h => ⟨hp _ h.1, weaker_list h.2⟩
  | .repeated _ _, h => ⟨hp _ h.1, weaker_list h.2⟩
  | .grouped _ _, h => ⟨hp _ h.1, weaker_list h.2⟩
  | .metaIdentifier _ _, h => hp _ h
  | .terminalString _ _, h => hp _ h
  | .specialSequence _ _, h => hp _ h
  | .empty _, h => hp _ h
theorem weaker_factor : ∀ {f : Factor}, EveryFactor K f → EveryFactor K' f
  | .mk _ _, h => ⟨hc _ h.1, weaker_primary h.2⟩
theorem weaker_term : ∀ {t : Term}, EveryTerm K t → EveryTerm K' t
  | .plain _, h => weaker_factor (f := _) h
  | .except _ _, h => ⟨weaker_factor h.1, weaker_factor h.2⟩
theorem weaker_single : ∀ {d : SingleDefinition}, EverySingle K d → EverySingle K' d
  | .nil, _ => trivial
  | .cons _ _, h => ⟨hf _ _ h.1, weaker_term h.2.1, weaker_single h.2.2⟩
theorem weaker_list : ∀ {l : DefinitionList}, EveryList K l → EveryList K' l
  | .nil, _ => trivial
  | .cons _ _, h => ⟨weaker_single h.1, weaker_list h.2⟩
end

/-- Weaker conditions hold everywhere as well. -/
theorem weaker (h : Everywhere K G) : Everywhere K' G := fun r hr => weaker_list hc hp hf (h r hr)

end

end Ebnf.Clear
