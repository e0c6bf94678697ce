import Verif.Spec.Decisive
import Verif.Proofs.Decisive
import Verif.Proofs.Describes

set_option autoImplicit false

/-! # The events of a derivation, where the first alternative that matches is never wrong -/

namespace Ebnf.Decide

open Spec

variable {E : Factor → Str → Prop} {G : Language} {start : SyntaxRule}

/-- What is derived has events at every place. -/
theorem describes_of_produces (hP : Decisive E G start) {task : Task} {w : Str} (h : Produces E G task w) :
    ∀ tail, (match task with
      | .factor (.mk k p) => ∃ K, k ≤ K ∧ GoesOn E G start (.factor (.mk K p)) tail
      | task => GoesOn E G start task tail) → ∀ here, ∃ evs, Describes E G task here w evs := by
  induction h with
  | empty => intro _ _ here; exact ⟨_, .empty⟩
  | terminal => intro _ _ here; exact ⟨_, .terminal⟩
  | reference h1 h2 _ ih =>
    intro tail hk here
    obtain ⟨evs, h⟩ := ih tail (.reference hk h1 h2) here
    exact ⟨_, .reference h1 h2 h⟩
  | leftOut => intro _ _ here; exact ⟨_, .leftOut⟩
  | taken _ ih =>
    intro tail hk here
    obtain ⟨evs, h⟩ := ih tail (.optional hk) here
    exact ⟨_, .taken h⟩
  | noMore => intro _ _ here; exact ⟨_, .noMore⟩
  | @more loc l w w' _ h2 ih1 ih2 =>
    intro tail hk here
    obtain ⟨evs, h⟩ := ih1 _ (.round hk h2) here
    obtain ⟨evs', h'⟩ := ih2 tail hk (lineColumn here w)
    exact ⟨_, .more h h'⟩
  | grouped _ ih =>
    intro tail hk here
    obtain ⟨evs, h⟩ := ih tail (.grouped hk) here
    exact ⟨_, .grouped h⟩
  | special h =>
    intro tail hk here
    obtain ⟨evs, h'⟩ := hP.specials _ _ _ tail hk (.special h) here
    have := Describes.special (E := E) h'
    rw [take_self] at this
    exact ⟨_, this⟩
  | never => intro _ _ here; exact ⟨_, .never⟩
  | @again k p w w' _ h2 ih1 ih2 =>
    rintro tail ⟨K, hK, hk⟩ here
    obtain ⟨evs, h⟩ := ih1 _ (.counted hk (show k < K by omega) h2) here
    obtain ⟨evs', h'⟩ := ih2 tail ⟨K, by omega, hk⟩ (lineColumn here w)
    exact ⟨_, .again h h'⟩
  | @plain f _ _ ih =>
    intro tail hk here
    obtain ⟨evs, h⟩ := ih tail (by cases f with | mk k p => exact ⟨k, Nat.le_refl _, .plain hk⟩) here
    exact ⟨_, .plain h⟩
  | @except f _ _ _ hx ih =>
    intro tail hk here
    obtain ⟨evs, h⟩ := ih tail (by cases f with | mk k p => exact ⟨k, Nat.le_refl _, .except hk⟩) here
    exact ⟨_, .except h hx⟩
  | done => intro _ _ here; exact ⟨_, .done⟩
  | @next t d w w' _ h2 ih1 ih2 =>
    intro tail hk here
    obtain ⟨evs, h⟩ := ih1 _ (.first hk h2) here
    obtain ⟨evs', h'⟩ := ih2 tail (.later hk) (lineColumn here w)
    exact ⟨_, .next h h'⟩
  | choice hd _ ih =>
    intro tail hk here
    obtain ⟨evs, h⟩ := ih tail (.alternative hk hd) here
    exact ⟨_, .choice hd h⟩

/-- When the task is to match `w` before `tail` with the events `evs`. -/
def DueWith (E : Factor → Str → Prop) (G : Language) (start : SyntaxRule) : Task → Location → Str → Str → List Event → Prop
  | .alternatives l, here, w, tail, evs => ∃ L pre, L.toList = pre ++ l.toList ∧ GoesOn E G start (.list L) tail ∧
      Describes E G (.list l) here w evs
  | .rounds body min max _ i, here, w, tail, evs => ∃ k, Series E G body k here w evs ∧
      min ≤ i + k ∧ (∀ m, max = some m → i + k ≤ m) ∧
      (∀ ws : List Str, (∀ x ∈ ws, Produces E G body x) → ws.length < k → GoesOn E G start body (ws.flatten ++ tail)) ∧
      (max ≠ some min → ∀ v t, Produces E G body v → tail ≠ v ++ t)
  | .primary (.metaIdentifier loc name), here, w, tail, evs => Describes E G (.primary (.metaIdentifier loc name)) here w evs ∧
      ∀ r ∈ G.rules, SameName r.metaIdentifier name → GoesOn E G start (.list r.definitionList) tail
  | task, here, w, tail, evs => Describes E G task here w evs ∧ GoesOn E G start task tail

theorem dueWith_primary {p : Primary} {here : Location} {w tail : Str} {evs : List Event} (h : Describes E G (.primary p) here w evs)
    (ht : GoesOn E G start (.primary p) tail) : DueWith E G start (.primary p) here w tail evs := by
  cases p with
  | metaIdentifier loc name => exact ⟨h, fun r h1 h2 => .reference ht h1 h2⟩
  | _ => exact ⟨h, ht⟩

theorem dueWith_body {body : Task} {here : Location} {w tail : Str} {evs : List Event}
    (hb : (∃ l, body = .list l ∧ Occurs G body) ∨ ∃ p, body = .primary p ∧ Occurs G body) (h : Describes E G body here w evs)
    (ht : GoesOn E G start body tail) : DueWith E G start body here w tail evs := by
  rcases hb with ⟨l, rfl, _⟩ | ⟨p, rfl, _⟩
  · exact ⟨h, ht⟩
  · exact dueWith_primary h ht

/-- The events are those of every derivation of the text. -/
theorem exact (U : OneMeaning G) (hb : Bounded G) (hE : FitsExceptions E G) (hP : Decisive E G start) (hA : Sole E G start)
    (hd : Everywhere (definedRefs G) G) (ho : Everywhere (ordinary G) G) {task : Task} {here : Location} {rest : Str} {o : Outcome}
    (h : Ev (mild false) G task here rest o) : Placed E G task → ∀ evs' n, o = .ok evs' n → ∀ w tail evs, rest = w ++ tail →
      DueWith E G start task here w tail evs → evs' = evs := by
  have right : ∀ {task here rest o}, Ev (mild false) G task here rest o → Placed E G task → Decide.Right E G start task rest o :=
    fun h hk => Decide.right U hb hE hP hd ho h hk
  induction h with
  | @optional loc l here rest o _ ih =>
    rintro hk evs' n rfl w tail evs hr ⟨h1, h2⟩
    have hc : ∀ v t, Produces E G (.list l) v → tail ≠ v ++ t := by
      intro v t hv ht
      have := hP.optionals _ _ v t (ht ▸ h2) hv
      subst this
      exact hA.optionals _ _ hk hv
    refine ih ⟨.inl ⟨_, rfl, .optional hk⟩, by simp⟩ _ _ rfl w tail evs hr ?_
    cases h1 with
    | leftOut =>
      exact ⟨0, .nil, by simp, by simp, by simp, fun _ => hc⟩
    | taken h1 =>
      refine ⟨1, ?_, by simp, by simp, ?_, fun _ => hc⟩
      · simpa using Series.cons h1 .nil
      · intro ws _ hl
        have : ws = [] := List.eq_nil_of_length_eq_zero (by omega)
        subst this
        exact .optional h2
  | @repeated loc l here rest o _ ih =>
    rintro hk evs' n rfl w tail evs hr ⟨h1, h2⟩
    obtain ⟨k, h3⟩ := repeated_series h1 _ _ rfl
    exact ih ⟨.inl ⟨_, rfl, .repeated hk⟩, fun _ => hP.progress _ _ hk⟩ _ _ rfl w tail evs hr
      ⟨k, h3, by simp, by simp, fun ws hw _ => .round h2 (reads_repeated ws hw),
        fun _ v t hv ht => hP.repeats _ _ v t (ht ▸ h2) hv⟩
  | grouped _ ih =>
    rintro hk evs' n rfl w tail evs hr ⟨h1, h2⟩
    cases h1 with
    | grouped h1 => exact ih (.grouped hk) _ _ rfl w tail evs hr ⟨h1, .grouped h2⟩
  | empty =>
    rintro _ evs' n ⟨⟩ w tail evs hr ⟨h1, h2⟩
    cases h1
    rfl
  | terminal hp =>
    rintro _ evs' n ⟨⟩ w tail evs hr ⟨h1, h2⟩
    cases h1
    rfl
  | @reference loc name here rest r evs n h1 h2 hv ih =>
    rintro _ evs' n ⟨⟩ w tail evs hr ⟨h3, h4⟩
    cases h3 with
    | reference h5 h6 h7 =>
      have := U.rule _ h5 _ h1 _ h6 h2
      subst this
      have ht := h4 _ h1 h2
      obtain ⟨_, h⟩ := (right hv (.rule h1)).complete w tail hr ⟨describes_produces h7, ht⟩
      cases h
      have := ih (.rule h1) _ _ rfl w tail _ hr ⟨h7, ht⟩
      subst this
      subst hr
      rw [take_self]
  | referenceStop _ _ _ ho => rintro _ evs n rfl; exact ho.elim
  | @special loc s here rest evs n h =>
    rintro hk evs' n ⟨⟩ w tail evs rfl ⟨h1, h2⟩
    obtain ⟨_, h'⟩ := hP.specials _ _ w tail h2 (describes_produces h1) here
    rw [h] at h'
    cases h'
    cases h1 with
    | special h3 => exact hA.specials _ _ hk _ _ _ _ _ _ _ h h3 (by simp)
  | forward h => intro hk; rcases occurs_every ho hk _ _ rfl _ _ _ with ⟨_, _, h'⟩ | h' <;> rw [h] at h' <;> cases h'
  | forwardIgnored h => intro hk; rcases occurs_every ho hk _ _ rfl _ _ _ with ⟨_, _, h'⟩ | h' <;> rw [h] at h' <;> cases h'
  | forwardStop _ _ _ ho => rintro _ evs n rfl; exact ho.elim
  | @once p here rest o _ ih =>
    rintro hk evs' n rfl w tail evs hr ⟨h1, h2⟩
    refine ih (placed_primary hd (.primary hk)) _ _ rfl w tail evs hr (dueWith_primary ?_ (.counted h2 Nat.zero_lt_one .never))
    cases counted_series h1 _ _ rfl with
    | cons h3 h4 =>
      cases h4
      simpa using h3
  | @counted k p here rest o _ _ ih =>
    rintro hk evs' n rfl w tail evs hr ⟨h1, h2⟩
    exact ih ⟨.inr ⟨_, rfl, .primary hk⟩, by simp⟩ _ _ rfl w tail evs hr
      ⟨k, counted_series h1 _ _ rfl, by omega, by rintro m ⟨⟩; omega, fun ws hw hl => .counted h2 hl (reads_counted ws hw),
        fun h => absurd rfl h⟩
  | plain _ ih =>
    rintro hk evs' n rfl w tail evs hr ⟨h1, h2⟩
    cases h1 with
    | plain h1 => exact ih (.plain hk) _ _ rfl w tail evs hr ⟨h1, .plain h2⟩
  | exceptStop _ ho => rintro _ evs n rfl; exact ho.elim
  | notExcluded _ _ _ ih =>
    rintro hk evs' n ⟨⟩ w tail evs hr ⟨h1, h2⟩
    cases h1 with
    | except h1 _ => exact ih (.base hk) _ _ rfl w tail evs hr ⟨h1, .except h2⟩
  | notExcludedFail _ _ ih =>
    rintro hk evs' n ⟨⟩ w tail evs hr ⟨h1, h2⟩
    cases h1 with
    | except h1 _ => exact ih (.base hk) _ _ rfl w tail evs hr ⟨h1, .except h2⟩
  | excludedStop _ _ ho => rintro _ evs n rfl; exact ho.elim
  | done =>
    rintro _ evs' n ⟨⟩ w tail evs hr ⟨h1, h2⟩
    cases h1
    rfl
  | @next t d here rest evs n o _ hv _ ih1 ih2 =>
    intro hk evs' m hok w tail evs'' hr ⟨h3, h4⟩
    cases o with
    | ok es k =>
      cases hok
      cases h3 with
      | @next _ _ _ a b e1 e2 h5 h6 =>
        rw [List.append_assoc] at hr
        have ht : GoesOn E G start (.term t) (b ++ tail) := .first h4 (describes_produces h6)
        obtain ⟨_, h⟩ := (right hv (.first hk)).complete a (b ++ tail) hr ⟨describes_produces h5, ht⟩
        injection h with _ h
        subst h
        rw [ih1 (.first hk) _ _ rfl a (b ++ tail) e1 hr ⟨h5, ht⟩]
        subst hr
        rw [ih2 (.later hk) _ _ rfl b tail e2 (by simp) ⟨by rw [take_self]; exact h6, .later h4⟩]
    | _ => cases hok
  | dropped h => cases h
  | nextFail _ hn => rintro _ evs n rfl; exact absurd trivial hn
  | single _ ih =>
    rintro hk evs' n rfl w tail evs hr ⟨h1, h2⟩
    cases h1 with
    | choice h3 h1 =>
      simp only [DefinitionList.toList, List.mem_singleton] at h3
      subst h3
      exact ih (.definition hk (by simp [DefinitionList.toList])) _ _ rfl w tail evs hr
        ⟨h1, .alternative h2 (by simp [DefinitionList.toList])⟩
  | @choice d d' l here rest o _ _ ih =>
    rintro hk evs' n rfl w tail evs hr h
    exact ih (fun d hd => .definition hk hd) _ _ rfl w tail evs hr ⟨_, [], rfl, h.2, h.1⟩
  | @first d l here rest o hv hn ih =>
    rintro hk evs' n rfl w tail evs hr ⟨L, pre, hL, h3, h2⟩
    have hd' := hk d (by simp [DefinitionList.toList])
    have R := right hv hd'
    rw [DefinitionList.toList] at hL
    cases h2 with
    | @choice _ d' _ _ _ h4 h5 =>
      simp only [DefinitionList.toList, List.mem_cons] at h4
      rcases h4 with rfl | h4
      · exact ih hd' _ _ rfl w tail evs hr ⟨h5, .alternative h3 (by simp [hL])⟩
      · exfalso
        have h5 := describes_produces h5
        have hp := hP.choices L tail h3
        have hs := hA.choices L tail h3
        rw [hL, List.pairwise_append] at hp hs
        have hw := (List.pairwise_cons.mp hp.2.1).1 d' h4 _ _ (rest.drop n) (R.sound _ _ rfl) h5 (by rw [List.take_append_drop]; exact hr)
        exact (List.pairwise_cons.mp hs.2.1).1 d' h4 _ (R.sound _ _ rfl) (by rw [hw]; exact h5)
  | @other d d' l here rest e evs n o hv _ hn ih1 ih2 =>
    rintro hk evs' n rfl w tail evs hr ⟨L, pre, hL, h3, h2⟩
    rw [DefinitionList.toList] at hL
    cases h2 with
    | @choice _ d'' _ _ _ h4 h5 =>
      rw [DefinitionList.toList, List.mem_cons] at h4
      rcases h4 with rfl | h4
      · obtain ⟨_, h⟩ := (right hv (hk _ (by simp [DefinitionList.toList]))).complete w tail hr
          ⟨describes_produces h5, .alternative h3 (by simp [hL])⟩
        cases h
      · exact ih2 (fun x hx => hk x (by rw [DefinitionList.toList]; exact List.mem_cons_of_mem _ hx)) _ _ rfl w tail evs hr
          ⟨L, pre ++ [d], by rw [hL]; simp, h3, .choice h4 h5⟩
  | @enough body min max guarded i here rest h =>
    rintro _ evs' n ⟨⟩ w tail evs hr ⟨k, h1, _, h3, _⟩
    have := h3 _ rfl
    have : k = 0 := by omega
    subst this
    cases h1
    rfl
  | @round body min max guarded i here rest evs n o hm hg hv _ ih1 ih2 =>
    intro hk evs' m hok w tail evs'' hr ⟨k, k1, k3, k4, k5, k6⟩
    have R1 := right hv (placed_body hd hk.1)
    cases o with
    | ok es j =>
      cases hok
      cases k1 with
      | nil =>
        exfalso
        have hx : max ≠ some min := by
          intro h
          have := hm _ h
          omega
        simp only [List.nil_append] at hr
        subst hr
        exact k6 hx _ _ (read_body hk.1 (R1.sound _ _ rfl)) (List.take_append_drop n rest).symm
      | @cons k _ a b e1 e2 h5 h6 =>
        rw [List.append_assoc] at hr
        have ht : GoesOn E G start body (b ++ tail) := by
          obtain ⟨ws, p1, rfl, rfl⟩ := series_produces h6
          exact k5 ws p1 (Nat.lt_succ_self _)
        obtain ⟨_, h⟩ := R1.complete a (b ++ tail) hr (due_body hk.1 (describes_produces h5) ht)
        injection h with _ h
        subst h
        rw [ih1 (placed_body hd hk.1) _ _ rfl a (b ++ tail) e1 hr (dueWith_body hk.1 h5 ht)]
        subst hr
        rw [ih2 hk _ _ rfl b tail e2 (by simp) ⟨k, by rw [take_self]; exact h6, by omega, by intro m h; have := k4 m h; omega, fun ws hw hl => k5 ws hw (by omega), k6⟩]
    | _ => cases hok
  | @lastRound body min max guarded i here rest e evs n h1 h2 hv ih =>
    intro hk evs' m hok w tail evs'' hr ⟨k, k1, k3, k4, k5, k6⟩
    cases hok
    cases k1 with
    | nil => rfl
    | @cons k _ a b e1 e2 h5 h6 =>
      exfalso
      rw [List.append_assoc] at hr
      have ht : GoesOn E G start body (b ++ tail) := by
        obtain ⟨ws, p1, rfl, rfl⟩ := series_produces h6
        exact k5 ws p1 (Nat.lt_succ_self _)
      obtain ⟨_, h⟩ := (right hv (placed_body hd hk.1)).complete a (b ++ tail) hr (due_body hk.1 (describes_produces h5) ht)
      cases h
  | roundStop _ _ ho => rintro _ evs n rfl; exact ho.elim
  | _ => intro _ _ _ ho; cases ho

end Ebnf.Decide
