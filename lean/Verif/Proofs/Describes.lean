import Verif.Spec.Describes
import Verif.Proofs.LookAhead

set_option autoImplicit false

/-! # The events of a match are those of a derivation -/

namespace Ebnf

open Spec

variable {E : Factor → Str → Prop} {G : Language}

theorem describes_produces {task : Task} {here : Location} {w : Str} {evs : List Event} (h : Describes E G task here w evs) :
    Produces E G task w := by
  induction h with
  | empty => exact .empty
  | terminal => exact .terminal
  | reference h1 h2 _ ih => exact .reference h1 h2 ih
  | leftOut => exact .leftOut
  | taken _ ih => exact .taken ih
  | noMore => exact .noMore
  | more _ _ ih1 ih2 => exact .more ih1 ih2
  | grouped _ ih => exact .grouped ih
  | special h => exact .special h
  | never => exact .never
  | again _ _ ih1 ih2 => exact .again ih1 ih2
  | plain _ ih => exact .plain ih
  | except _ h ih => exact .except ih h
  | done => exact .done
  | next _ _ ih1 ih2 => exact .next ih1 ih2
  | choice h _ ih => exact .choice h ih

/-- Several texts one after the other, each with its events. -/
inductive Series (E : Factor → Str → Prop) (G : Language) (body : Task) : Nat → Location → Str → List Event → Prop
  | nil {here} : Series E G body 0 here [] []
  | cons {k here w w' evs evs'} : Describes E G body here w evs → Series E G body k (lineColumn here w) w' evs' →
      Series E G body (k + 1) here (w ++ w') (evs ++ evs')

theorem series_repeated {loc : Location} {l : DefinitionList} {k : Nat} {here : Location} {w : Str} {evs : List Event}
    (h : Series E G (.list l) k here w evs) : Describes E G (.primary (.repeated loc l)) here w evs := by
  induction h with
  | nil => exact .noMore
  | cons h _ ih => exact .more h ih

theorem series_counted {p : Primary} {k : Nat} {here : Location} {w : Str} {evs : List Event}
    (h : Series E G (.primary p) k here w evs) : Describes E G (.factor (.mk k p)) here w evs := by
  induction h with
  | nil => exact .never
  | cons h _ ih => exact .again h ih

theorem repeated_series {task : Task} {here : Location} {w : Str} {evs : List Event} (h : Describes E G task here w evs) :
    ∀ loc l, task = .primary (.repeated loc l) → ∃ k, Series E G (.list l) k here w evs := by
  induction h with
  | noMore => intro _ _ _; exact ⟨0, .nil⟩
  | more h _ _ ih =>
    intro loc' l' ht
    cases ht
    obtain ⟨k, hk⟩ := ih _ _ rfl
    exact ⟨k + 1, .cons h hk⟩
  | _ => intro _ _ ht; cases ht

theorem counted_series {task : Task} {here : Location} {w : Str} {evs : List Event} (h : Describes E G task here w evs) :
    ∀ k p, task = .factor (.mk k p) → Series E G (.primary p) k here w evs := by
  induction h with
  | never => intro _ _ ht; cases ht; exact .nil
  | again h _ _ ih =>
    intro k' p' ht
    cases ht
    exact .cons h (ih _ _ rfl)
  | _ => intro _ _ ht; cases ht

theorem series_produces {body : Task} {k : Nat} {here : Location} {w : Str} {evs : List Event} (h : Series E G body k here w evs) :
    ∃ ws : List Str, (∀ x ∈ ws, Produces E G body x) ∧ w = ws.flatten ∧ ws.length = k := by
  induction h with
  | nil => exact ⟨[], by simp, rfl, rfl⟩
  | @cons k here w w' evs evs' h _ ih =>
    obtain ⟨ws, h1, rfl, h3⟩ := ih
    exact ⟨w :: ws, by simpa using ⟨describes_produces h, h1⟩, rfl, by simp [h3]⟩

/-- What a match says. -/
def Described (E : Factor → Str → Prop) (G : Language) : Task → Location → Str → List Event → Prop
  | .alternatives l, here, w, evs => Describes E G (.list l) here w evs
  | .rounds body min max _ i, here, w, evs => (∀ m, max = some m → min ≤ m) →
      ∃ k, Series E G body k here w evs ∧ min ≤ i + k ∧ ∀ m, max = some m → i ≤ m → i + k ≤ m
  | task, here, w, evs => Describes E G task here w evs

theorem described_body {body : Task} {here : Location} {w : Str} {evs : List Event}
    (hb : (∃ l, body = .list l) ∨ ∃ p, body = .primary p) (h : Described E G body here w evs) : Describes E G body here w evs := by
  rcases hb with ⟨l, rfl⟩ | ⟨p, rfl⟩ <;> exact h

/-- In the intended meaning, without forwarding, the events of a match are those of a derivation. -/
theorem ev_describes {q : Quirks} {G : Language} {K : Local} (hK : ∀ p, K.primary p → (noForwards G).primary p) (hq1 : q.dropAfterGroup = false) (hq2 : q.keepPartial = false)
    (hf : Everywhere K G) {task : Task} {here : Location} {rest : Str} {o : Outcome} (h : Ev q G task here rest o) :
    EveryTask K task → FineTask task → ∀ evs n, o = .ok evs n → Described noException G task here (rest.take n) evs := by
  induction h with
  | @optional loc l here rest o _ ih =>
    rintro hk _ evs n rfl
    obtain ⟨k, h1, _, h4⟩ := ih ⟨hk.2, .inl ⟨_, rfl⟩⟩ (.inl ⟨_, rfl⟩) _ _ rfl (by intro m _; omega)
    have h4 := h4 1 rfl (by omega)
    simp only [Described]
    generalize rest.take n = w at h1 ⊢
    cases h1 with
    | nil => exact .leftOut
    | cons h1 h2 =>
      cases h2 with
      | nil => simpa using Describes.taken (loc := loc) h1
      | cons _ _ => omega
  | repeated _ ih =>
    rintro hk _ evs n rfl
    obtain ⟨k, h1, _⟩ := ih ⟨hk.2, .inl ⟨_, rfl⟩⟩ (.inl ⟨_, rfl⟩) _ _ rfl (by intro m _; omega)
    exact series_repeated h1
  | grouped _ ih => rintro hk _ evs n rfl; exact Describes.grouped (ih hk.2 trivial _ _ rfl)
  | empty => rintro _ _ evs n ⟨⟩; exact Describes.empty
  | terminal hp =>
    rintro _ _ evs n ⟨⟩
    rw [← List.prefix_iff_eq_take.mp hp]
    exact Describes.terminal
  | reference h1 h2 _ ih => rintro _ _ evs n ⟨⟩; exact Describes.reference h1 h2 (ih (hf _ h1) trivial _ _ rfl)
  | referenceStop _ _ _ ho => rintro _ _ evs n rfl; exact ho.elim
  | special h => rintro _ _ evs n ⟨⟩; exact Describes.special h
  | forward h => intro hk; exact absurd h (hK _ hk _ _ rfl _ _ _ _ _)
  | forwardIgnored h => intro hk; exact absurd h (hK _ hk _ _ rfl _ _ _ _ _)
  | forwardStop _ _ _ ho => rintro _ _ evs n rfl; exact ho.elim
  | once _ ih =>
    rintro hk _ evs n rfl
    have := Describes.again (k := 0) (ih hk.2 trivial _ _ rfl) (Describes.never)
    simpa [Described] using this
  | @counted k p here rest o _ _ ih =>
    rintro hk _ evs n rfl
    obtain ⟨k', h1, h3, h4⟩ := ih ⟨hk.2, .inr ⟨_, rfl⟩⟩ (.inr ⟨_, rfl⟩) _ _ rfl (by rintro m ⟨⟩; omega)
    have h4 := h4 k rfl (by omega)
    have : k' = k := by omega
    subst this
    exact series_counted h1
  | plain _ ih => rintro hk _ evs n rfl; exact Describes.plain (ih hk trivial _ _ rfl)
  | exceptStop _ ho => rintro _ _ evs n rfl; exact ho.elim
  | notExcluded _ _ _ ih => rintro hk _ evs n ⟨⟩; exact Describes.except (ih hk.1 trivial _ _ rfl) id
  | notExcludedFail _ _ ih => rintro hk _ evs n ⟨⟩; exact Describes.except (ih hk.1 trivial _ _ rfl) id
  | excludedStop _ _ ho => rintro _ _ evs n rfl; exact ho.elim
  | done => rintro _ _ evs n ⟨⟩; exact Describes.done
  | @next t d here rest evs n o _ _ _ ih1 ih2 =>
    intro hk _ evs' m ho
    cases o with
    | ok es k =>
      cases ho
      rw [List.take_add]
      exact Describes.next (ih1 hk.2.1 trivial _ _ rfl) (ih2 hk.2.2 trivial _ _ rfl)
    | _ => cases ho
  | dropped h => rw [hq1] at h; cases h
  | nextFail _ hn => rintro _ _ evs n rfl; exact absurd trivial hn
  | single _ ih => rintro hk _ evs n rfl; exact Describes.choice (by simp [DefinitionList.toList]) (ih hk.1 trivial _ _ rfl)
  | choice _ _ ih => rintro hk _ evs n rfl; exact ih hk trivial _ _ rfl
  | first _ _ ih => rintro hk _ evs n rfl; exact Describes.choice (by simp [DefinitionList.toList]) (ih hk.1 trivial _ _ rfl)
  | other _ _ _ _ ih =>
    rintro hk _ evs n rfl
    have := ih hk.2 trivial _ _ rfl
    simp only [Described] at this ⊢
    cases this with
    | choice h1 h2 => exact .choice (by rw [DefinitionList.toList]; exact List.mem_cons_of_mem _ h1) h2
  | enough h =>
    rintro _ _ evs n ⟨⟩
    intro hm
    exact ⟨0, .nil, by have := hm _ rfl; omega, by rintro m ⟨⟩ hi; simpa using hi⟩
  | @round body min max guarded i here rest evs n o h1 _ _ _ ih1 ih2 =>
    intro hk hb evs' m ho
    cases o with
    | ok es k =>
      cases ho
      intro hm
      obtain ⟨k', k1, k3, k4⟩ := ih2 hk hb _ _ rfl hm
      refine ⟨k' + 1, ?_, by omega, ?_⟩
      · rw [List.take_add]
        refine .cons (described_body hb (ih1 hk.1 ?_ _ _ rfl)) k1
        rcases hb with ⟨_, rfl⟩ | ⟨_, rfl⟩ <;> trivial
      · intro m hm hi
        have := h1 m hm
        have := k4 m hm (by omega)
        omega
    | _ => cases ho
  | lastRound h1 h2 =>
    rintro _ _ evs n ho
    rw [hq2] at ho
    cases ho
    intro _
    exact ⟨0, .nil, by simpa using h2, by intro m hm hi; simpa using hi⟩
  | roundStop _ _ ho => rintro _ _ evs n rfl; exact ho.elim
  | _ => intro _ _ _ _ ho; cases ho

/-- What is derived has events at every place. -/
theorem describes_of_produces (hP : Predictive E G) {task : Task} {w : Str} (h : Produces E G task w) :
    Seen G task → ∀ here, ∃ evs, Describes E G task here w evs := by
  induction h with
  | empty => intro _ here; exact ⟨_, .empty⟩
  | terminal => intro _ here; exact ⟨_, .terminal⟩
  | reference h1 h2 _ ih =>
    intro _ here
    obtain ⟨evs, h⟩ := ih (.rule h1) here
    exact ⟨_, .reference h1 h2 h⟩
  | leftOut => intro _ here; exact ⟨_, .leftOut⟩
  | taken _ ih =>
    intro hk here
    obtain ⟨evs, h⟩ := ih (.optional hk) here
    exact ⟨_, .taken h⟩
  | noMore => intro _ here; exact ⟨_, .noMore⟩
  | @more loc l w w' _ _ ih1 ih2 =>
    intro hk here
    obtain ⟨evs, h⟩ := ih1 (.repeated hk) here
    obtain ⟨evs', h'⟩ := ih2 hk (lineColumn here w)
    exact ⟨_, .more h h'⟩
  | grouped _ ih =>
    intro hk here
    obtain ⟨evs, h⟩ := ih (.grouped hk) here
    exact ⟨_, .grouped h⟩
  | special h =>
    intro hk here
    obtain ⟨evs, h'⟩ := hP.specials _ _ hk _ [] (.special h) (by intro _ _ h; cases h) here
    have := Describes.special (E := E) h'
    rw [List.append_nil, List.take_length] at this
    exact ⟨_, this⟩
  | never => intro _ here; exact ⟨_, .never⟩
  | @again k p w w' _ _ ih1 ih2 =>
    intro hk here
    obtain ⟨evs, h⟩ := ih1 hk here
    obtain ⟨evs', h'⟩ := ih2 hk (lineColumn here w)
    exact ⟨_, .again h h'⟩
  | plain _ ih =>
    intro hk here
    obtain ⟨evs, h⟩ := ih (seen_factor (.plain hk)) here
    exact ⟨_, .plain h⟩
  | except _ hx ih =>
    intro hk here
    obtain ⟨evs, h⟩ := ih (seen_factor (.base hk)) here
    exact ⟨_, .except h hx⟩
  | done => intro _ here; exact ⟨_, .done⟩
  | @next t d w w' _ _ ih1 ih2 =>
    intro hk here
    obtain ⟨evs, h⟩ := ih1 (.first hk) here
    obtain ⟨evs', h'⟩ := ih2 (.later hk) (lineColumn here w)
    exact ⟨_, .next h h'⟩
  | choice hd _ ih =>
    intro hk here
    obtain ⟨evs, h⟩ := ih (.definition hk hd) here
    exact ⟨_, .choice hd h⟩

/-- When the task is to match `w` before `tail` with the events `evs`. -/
def DueWith (E : Factor → Str → Prop) (G : Language) : Task → Location → Str → Str → List Event → Prop
  | .alternatives l, here, w, tail, evs => ∃ L pre, L.toList = pre ++ l.toList ∧ Occurs G (.list L) ∧ Describes E G (.list l) here w evs ∧
      Tail E G (.list L) tail
  | .rounds body min max _ i, here, w, tail, evs => ∃ k, Series E G body k here w evs ∧
      min ≤ i + k ∧ (∀ m, max = some m → i + k ≤ m) ∧ Tail E G body tail ∧
      ((∀ m, max = some m → 2 ≤ m) → ∀ c, First E G body c → Next E G body c) ∧
      (max ≠ some min → (∀ c t, tail = c :: t → ¬ First E G body c) ∧ ¬ Produces E G body [])
  | task, here, w, tail, evs => Describes E G task here w evs ∧ Tail E G task tail

theorem dueWith_due {task : Task} {here : Location} {w tail : Str} {evs : List Event} (h : DueWith E G task here w tail evs) :
    Due E G task w tail := by
  cases task with
  | alternatives l =>
    obtain ⟨L, pre, h1, h2, h3, h4⟩ := h
    exact ⟨L, pre, h1, h2, describes_produces h3, h4⟩
  | rounds body min max guarded i =>
    obtain ⟨k, h1, h2, h3, h4, h5, h6⟩ := h
    obtain ⟨ws, k1, k2, rfl⟩ := series_produces h1
    exact ⟨ws, k1, k2, h2, h3, h4, h5, fun hm => (h6 hm).1⟩
  | _ => exact ⟨describes_produces h.1, h.2⟩

theorem dueWith_body {body : Task} {here : Location} {w tail : Str} {evs : List Event}
    (hb : (∃ l, body = .list l ∧ Occurs G body) ∨ ∃ p, body = .primary p ∧ Occurs G body) (h : Describes E G body here w evs)
    (ht : Tail E G body tail) : DueWith E G body here w tail evs := by
  rcases hb with ⟨l, rfl, _⟩ | ⟨p, rfl, _⟩ <;> exact ⟨h, ht⟩

/-- The events are those of every derivation of the text. -/
theorem ev_exact (U : OneMeaning G) (hb : Bounded G) (hE : FitsExceptions E G) (hP : Predictive E G) (hA : Unambiguous E G)
    (hd : Everywhere (definedRefs G) G) (ho : Everywhere (ordinary G) G) {task : Task} {here : Location} {rest : Str} {o : Outcome}
    (h : Ev (mild false) G task here rest o) : Placed E G task → ∀ evs' n, o = .ok evs' n → ∀ w tail evs, rest = w ++ tail →
      DueWith E G task here w tail evs → evs' = evs := by
  have right : ∀ {task here rest o}, Ev (mild false) G task here rest o → Placed E G task → Right E G task rest o :=
    fun h hk => ev_right U hb hE hP hd ho h hk
  induction h with
  | @optional loc l here rest o _ ih =>
    rintro hk evs' n rfl w tail evs hr ⟨h1, h2⟩
    have hc : ∀ c t, tail = c :: t → ¬ First E G (.list l) c := fun c t ht hf => hP.optionals _ _ hk c hf (h2 c t ht)
    refine ih ⟨.inl ⟨_, rfl, .optional hk⟩, by simp⟩ _ _ rfl w tail evs hr ?_
    cases h1 with
    | leftOut =>
      exact ⟨0, .nil, by simp, by simp, fun c t ht => .optional (h2 c t ht), fun h => by simpa using h 1 rfl,
        fun _ => ⟨hc, hA.optionals _ _ hk⟩⟩
    | taken h1 =>
      refine ⟨1, ?_, by simp, by simp, fun c t ht => .optional (h2 c t ht), fun h => by simpa using h 1 rfl,
        fun _ => ⟨hc, hA.optionals _ _ hk⟩⟩
      simpa using Series.cons h1 .nil
  | @repeated loc l here rest o _ ih =>
    rintro hk evs' n rfl w tail evs hr ⟨h1, h2⟩
    obtain ⟨k, h3⟩ := repeated_series h1 _ _ rfl
    exact ih ⟨.inl ⟨_, rfl, .repeated hk⟩, fun _ => (hP.repeats _ _ hk).1⟩ _ _ rfl w tail evs hr
      ⟨k, h3, by simp, by simp, fun c t ht => .repeated (h2 c t ht), fun _ c hc => .round hk hc,
        fun _ => ⟨fun c t ht hf => (hP.repeats _ _ hk).2 c hf (h2 c t ht), (hP.repeats _ _ hk).1⟩⟩
  | grouped _ ih =>
    rintro hk evs' n rfl w tail evs hr ⟨h1, h2⟩
    cases h1 with
    | grouped h1 => exact ih (.grouped hk) _ _ rfl w tail evs hr ⟨h1, fun c t ht => .grouped (h2 c t ht)⟩
  | empty =>
    rintro _ evs' n ⟨⟩ w tail evs hr ⟨h1, h2⟩
    cases h1
    rfl
  | terminal hp =>
    rintro _ evs' n ⟨⟩ w tail evs hr ⟨h1, h2⟩
    cases h1
    rfl
  | @reference loc name here rest r evs n h1 h2 hv ih =>
    rintro _ evs' n ⟨⟩ w tail evs hr ⟨h3, h4⟩
    cases h3 with
    | reference h5 h6 h7 =>
      have := U.rule _ h5 _ h1 _ h6 h2
      subst this
      have ht : Tail E G (.list _) tail := fun c t ht => .reference (h4 c t ht) h1 h2
      obtain ⟨_, h⟩ := (right hv (.rule h1)).complete w tail hr ⟨describes_produces h7, ht⟩
      cases h
      have := ih (.rule h1) _ _ rfl w tail _ hr ⟨h7, ht⟩
      subst this
      subst hr
      rw [take_self]
  | referenceStop _ _ _ ho => rintro _ evs n rfl; exact ho.elim
  | @special loc s here rest evs n h =>
    rintro hk evs' n ⟨⟩ w tail evs rfl ⟨h1, h2⟩
    obtain ⟨_, h'⟩ := hP.specials _ _ hk w tail (describes_produces h1) h2 here
    rw [h] at h'
    cases h'
    cases h1 with
    | special h3 => exact hA.specials _ _ hk _ _ _ _ _ _ _ h h3 (by simp)
  | forward h => intro hk; rcases occurs_every ho hk _ _ rfl _ _ _ with ⟨_, _, h'⟩ | h' <;> rw [h] at h' <;> cases h'
  | forwardIgnored h => intro hk; rcases occurs_every ho hk _ _ rfl _ _ _ with ⟨_, _, h'⟩ | h' <;> rw [h] at h' <;> cases h'
  | forwardStop _ _ _ ho => rintro _ evs n rfl; exact ho.elim
  | @once p here rest o _ ih =>
    rintro hk evs' n rfl w tail evs hr ⟨h1, h2⟩
    refine ih (placed_primary hd (.primary hk)) _ _ rfl w tail evs hr ⟨?_, fun c t ht => .primary (h2 c t ht)⟩
    cases counted_series h1 _ _ rfl with
    | cons h3 h4 =>
      cases h4
      simpa using h3
  | @counted k p here rest o _ _ ih =>
    rintro hk evs' n rfl w tail evs hr ⟨h1, h2⟩
    exact ih ⟨.inr ⟨_, rfl, .primary hk⟩, by simp⟩ _ _ rfl w tail evs hr
      ⟨k, counted_series h1 _ _ rfl, by omega, by rintro m ⟨⟩; omega, fun c t ht => .primary (h2 c t ht),
        fun h c hc => .again hk (h k rfl) hc, fun h => absurd rfl h⟩
  | plain _ ih =>
    rintro hk evs' n rfl w tail evs hr ⟨h1, h2⟩
    cases h1 with
    | plain h1 => exact ih (.plain hk) _ _ rfl w tail evs hr ⟨h1, fun c t ht => .plain (h2 c t ht)⟩
  | exceptStop _ ho => rintro _ evs n rfl; exact ho.elim
  | notExcluded _ _ _ ih =>
    rintro hk evs' n ⟨⟩ w tail evs hr ⟨h1, h2⟩
    cases h1 with
    | except h1 _ => exact ih (.base hk) _ _ rfl w tail evs hr ⟨h1, fun c t ht => .except (h2 c t ht)⟩
  | notExcludedFail _ _ ih =>
    rintro hk evs' n ⟨⟩ w tail evs hr ⟨h1, h2⟩
    cases h1 with
    | except h1 _ => exact ih (.base hk) _ _ rfl w tail evs hr ⟨h1, fun c t ht => .except (h2 c t ht)⟩
  | excludedStop _ _ ho => rintro _ evs n rfl; exact ho.elim
  | done =>
    rintro _ evs' n ⟨⟩ w tail evs hr ⟨h1, h2⟩
    cases h1
    rfl
  | @next t d here rest evs n o _ hv _ ih1 ih2 =>
    intro hk evs' m hok w tail evs'' hr ⟨h3, h4⟩
    cases o with
    | ok es k =>
      cases hok
      cases h3 with
      | @next _ _ _ a b e1 e2 h5 h6 =>
        rw [List.append_assoc] at hr
        have ht : Tail E G (.term t) (b ++ tail) := by
          intro c t ht
          cases b with
          | nil => exact .skip (h4 c t (by simpa using ht)) (describes_produces h6)
          | cons c' b =>
            simp only [List.cons_append, List.cons.injEq] at ht
            obtain ⟨rfl, _⟩ := ht
            exact .rest hk ⟨_, describes_produces h6⟩
        obtain ⟨_, h⟩ := (right hv (.first hk)).complete a (b ++ tail) hr ⟨describes_produces h5, ht⟩
        injection h with _ h
        subst h
        rw [ih1 (.first hk) _ _ rfl a (b ++ tail) e1 hr ⟨h5, ht⟩]
        subst hr
        rw [ih2 (.later hk) _ _ rfl b tail e2 (by simp) ⟨by rw [take_self]; exact h6, fun c t ht => .tail (h4 c t ht)⟩]
    | _ => cases hok
  | dropped h => cases h
  | nextFail _ hn => rintro _ evs n rfl; exact absurd trivial hn
  | single _ ih =>
    rintro hk evs' n rfl w tail evs hr ⟨h1, h2⟩
    cases h1 with
    | choice h3 h1 =>
      simp only [DefinitionList.toList, List.mem_singleton] at h3
      subst h3
      exact ih (.definition hk (by simp [DefinitionList.toList])) _ _ rfl w tail evs hr
        ⟨h1, fun c t ht => .alternative (h2 c t ht) (by simp [DefinitionList.toList])⟩
  | @choice d d' l here rest o _ _ ih =>
    rintro hk evs' n rfl w tail evs hr h
    exact ih (fun d hd => .definition hk hd) _ _ rfl w tail evs hr ⟨_, [], rfl, hk, h⟩
  | @first d l here rest o hv hn ih =>
    rintro hk evs' n rfl w tail evs hr ⟨L, pre, hL, hO, h2, h3⟩
    have hd' := hk d (by simp [DefinitionList.toList])
    have R := right hv hd'
    rw [DefinitionList.toList] at hL
    cases h2 with
    | @choice _ d' _ _ _ h4 h5 =>
      simp only [DefinitionList.toList, List.mem_cons] at h4
      rcases h4 with rfl | h4
      · exact ih hd' _ _ rfl w tail evs hr ⟨h5, fun c t ht => .alternative (h3 c t ht) (by simp [hL])⟩
      · exfalso
        have h5 := describes_produces h5
        have hp := hP.choices L hO
        rw [hL, List.pairwise_append] at hp
        obtain ⟨k1, k2, k3⟩ := (List.pairwise_cons.mp hp.2.1).1 d' h4
        have h6 := R.sound _ _ rfl
        have hl := ev_bounded_ok hb hv
        cases n with
        | zero => exact k1 h6
        | succ n =>
          subst hr
          cases w with
          | nil =>
            cases tail with
            | nil => simp at hl
            | cons c t => exact k3 h5 c ⟨_, h6⟩ (h3 c t rfl)
          | cons c w => exact k2 c ⟨_, h6⟩ ⟨_, h5⟩
  | @other d d' l here rest e evs n o hv _ hn ih1 ih2 =>
    rintro hk evs' n rfl w tail evs hr ⟨L, pre, hL, hO, h2, h3⟩
    rw [DefinitionList.toList] at hL
    cases h2 with
    | @choice _ d'' _ _ _ h4 h5 =>
      rw [DefinitionList.toList, List.mem_cons] at h4
      rcases h4 with rfl | h4
      · obtain ⟨_, h⟩ := (right hv (hk _ (by simp [DefinitionList.toList]))).complete w tail hr
          ⟨describes_produces h5, fun c t ht => .alternative (h3 c t ht) (by simp [hL])⟩
        cases h
      · exact ih2 (fun x hx => hk x (by rw [DefinitionList.toList]; exact List.mem_cons_of_mem _ hx)) _ _ rfl w tail evs hr
          ⟨L, pre ++ [d], by rw [hL]; simp, hO, .choice h4 h5, h3⟩
  | @enough body min max guarded i here rest h =>
    rintro _ evs' n ⟨⟩ w tail evs hr ⟨k, h1, _, h3, _⟩
    have := h3 _ rfl
    have : k = 0 := by omega
    subst this
    cases h1
    rfl
  | @round body min max guarded i here rest evs n o hm hg hv _ ih1 ih2 =>
    intro hk evs' m hok w tail evs'' hr ⟨k, k1, k3, k4, k5, k6, k7⟩
    have R1 := right hv (placed_body hd hk.1)
    cases o with
    | ok es j =>
      cases hok
      cases k1 with
      | nil =>
        exfalso
        have hx : max ≠ some min := by
          intro h
          have := hm _ h
          omega
        obtain ⟨k7, k8⟩ := k7 hx
        simp only [List.nil_append] at hr
        subst hr
        have h6 := read_body hk.1 (R1.sound _ _ rfl)
        have hn := empty_match h6 (ev_bounded_ok hb hv) k7
        subst hn
        exact k8 h6
      | @cons k _ a b e1 e2 h5 h6 =>
        rw [List.append_assoc] at hr
        have ht : Tail E G body (b ++ tail) := by
          intro c t ht
          obtain ⟨ws, p1, rfl, rfl⟩ := series_produces h6
          cases hf : ws.flatten with
          | nil => rw [hf] at ht; exact k5 c t ht
          | cons c' t' =>
            rw [hf, List.cons_append, List.cons.injEq] at ht
            obtain ⟨rfl, _⟩ := ht
            refine k6 ?_ c' (first_flatten ws p1 hf)
            intro m h
            have := k4 m h
            cases ws with
            | nil => simp at hf
            | cons _ _ => simp at this; omega
        obtain ⟨_, h⟩ := R1.complete a (b ++ tail) hr (due_body hk.1 (describes_produces h5) ht)
        injection h with _ h
        subst h
        rw [ih1 (placed_body hd hk.1) _ _ rfl a (b ++ tail) e1 hr (dueWith_body hk.1 h5 ht)]
        subst hr
        rw [ih2 hk _ _ rfl b tail e2 (by simp) ⟨k, by rw [take_self]; exact h6, by omega, by intro m h; have := k4 m h; omega, k5, k6, k7⟩]
    | _ => cases hok
  | @lastRound body min max guarded i here rest e evs n h1 h2 hv ih =>
    intro hk evs' m hok w tail evs'' hr ⟨k, k1, k3, k4, k5, k6, k7⟩
    cases hok
    cases k1 with
    | nil => rfl
    | @cons k _ a b e1 e2 h5 h6 =>
      exfalso
      rw [List.append_assoc] at hr
      have ht : Tail E G body (b ++ tail) := by
        intro c t ht
        obtain ⟨ws, p1, rfl, rfl⟩ := series_produces h6
        cases hf : ws.flatten with
        | nil => rw [hf] at ht; exact k5 c t ht
        | cons c' t' =>
          rw [hf, List.cons_append, List.cons.injEq] at ht
          obtain ⟨rfl, _⟩ := ht
          refine k6 ?_ c' (first_flatten ws p1 hf)
          intro m h
          have := k4 m h
          cases ws with
          | nil => simp at hf
          | cons _ _ => simp at this; omega
      obtain ⟨_, h⟩ := (right hv (placed_body hd hk.1)).complete a (b ++ tail) hr (due_body hk.1 (describes_produces h5) ht)
      cases h
  | roundStop _ _ ho => rintro _ evs n rfl; exact ho.elim
  | _ => intro _ _ _ ho; cases ho

end Ebnf
