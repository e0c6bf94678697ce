import Verif.Spec.Decisive
import Verif.Proofs.Predictive

set_option autoImplicit false

/-! # Taking the first alternative that matches, where it is never wrong -/

namespace Ebnf.Decide

open Spec

variable {E : Factor → Str → Prop} {G : Language} {start : SyntaxRule}

/-- When the task is to match `w` before `tail`. -/
def Due (E : Factor → Str → Prop) (G : Language) (start : SyntaxRule) : Task → Str → Str → Prop
  | .alternatives l, w, tail => ∃ L pre, L.toList = pre ++ l.toList ∧ GoesOn E G start (.list L) tail ∧ Produces E G (.list l) w
  | .rounds body min max _ i, w, tail => ∃ ws : List Str, (∀ x ∈ ws, Produces E G body x) ∧ w = ws.flatten ∧
      min ≤ i + ws.length ∧ (∀ m, max = some m → i + ws.length ≤ m) ∧
      (∀ a x b, ws = a ++ x :: b → GoesOn E G start body (b.flatten ++ tail)) ∧
      (max ≠ some min → ∀ v t, Produces E G body v → tail = v ++ t → v = [])
  | .primary (.metaIdentifier loc name), w, tail => Produces E G (.primary (.metaIdentifier loc name)) w ∧
      ∀ r ∈ G.rules, SameName r.metaIdentifier name → GoesOn E G start (.list r.definitionList) tail
  | task, w, tail => Produces E G task w ∧ GoesOn E G start task tail

/-- The outcome is what the grammar says. -/
structure Right (E : Factor → Str → Prop) (G : Language) (start : SyntaxRule) (task : Task) (rest : Str) (o : Outcome) : Prop where
  ends : ¬ o.IsStop
  sound : ∀ evs n, o = .ok evs n → Read E G task (rest.take n)
  complete : ∀ w tail, rest = w ++ tail → Due E G start task w tail → ∃ evs, o = .ok evs w.length

theorem due_primary {p : Primary} {w tail : Str} (h : Produces E G (.primary p) w) (ht : GoesOn E G start (.primary p) tail) :
    Due E G start (.primary p) w tail := by
  cases p with
  | metaIdentifier loc name => exact ⟨h, fun r h1 h2 => .reference ht h1 h2⟩
  | _ => exact ⟨h, ht⟩

theorem due_body {body : Task} {w tail : Str}
    (hb : (∃ l, body = .list l ∧ Occurs G body) ∨ ∃ p, body = .primary p ∧ Occurs G body) (h : Produces E G body w)
    (ht : GoesOn E G start body tail) : Due E G start body w tail := by
  rcases hb with ⟨l, rfl, _⟩ | ⟨p, rfl, _⟩
  · exact ⟨h, ht⟩
  · exact due_primary h ht

theorem right (U : OneMeaning G) (hb : Bounded G) (hE : FitsExceptions E G) (hP : Decisive E G start) (hd : Everywhere (definedRefs G) G)
    (ho : Everywhere (ordinary G) G) {keep : Bool} {task : Task} {here : Location} {rest : Str} {o : Outcome} (h : Ev (mild keep) G task here rest o) :
    Placed E G task → Right E G start task rest o := by
  have plain : ∀ {loc s}, Occurs G (.primary (.specialSequence loc s)) → ∀ here rest,
      (∃ evs n, G.special loc s loc here rest = .accept evs n) ∨ G.special loc s loc here rest = .unmatched :=
    fun h here rest => occurs_every ho h _ _ rfl _ here rest
  induction h with
  | @optional loc l here rest o _ ih =>
    intro hk
    have R := ih ⟨.inl ⟨_, rfl, .optional hk⟩, by simp⟩
    refine ⟨R.ends, ?_, ?_⟩
    · rintro evs n rfl
      obtain ⟨ws, h1, h2, _, h4⟩ := R.sound _ _ rfl (by intro m _; omega)
      have h4 := h4 1 rfl (by omega)
      rw [h2]
      cases ws with
      | nil => exact .leftOut
      | cons w ws =>
        cases ws with
        | nil => simpa [Read] using Produces.taken (loc := loc) (h1 w (by simp))
        | cons _ _ => simp at h4
    · rintro w tail hr ⟨h1, h2⟩
      refine R.complete w tail hr ?_
      have hc : ∀ v t, Produces E G (.list l) v → tail = v ++ t → v = [] := fun v t hv ht => hP.optionals _ _ v t (ht ▸ h2) hv
      cases h1 with
      | leftOut =>
        exact ⟨[], by simp, by simp, by simp, by simp, by simp, fun _ => hc⟩
      | taken h1 =>
        refine ⟨[w], by simpa using h1, by simp, by simp, by simp, ?_, fun _ => hc⟩
        intro a x b hab
        cases a with
        | nil =>
          simp only [List.nil_append, List.cons.injEq] at hab
          rw [← hab.2]
          exact .optional h2
        | cons y a => simp at hab
  | @repeated loc l here rest o _ ih =>
    intro hk
    have R := ih ⟨.inl ⟨_, rfl, .repeated hk⟩, fun _ => hP.progress _ _ hk⟩
    refine ⟨R.ends, ?_, ?_⟩
    · rintro evs n rfl
      obtain ⟨ws, h1, h2, _⟩ := R.sound _ _ rfl (by intro m _; omega)
      rw [h2]
      exact reads_repeated ws h1
    · rintro w tail hr ⟨h1, h2⟩
      obtain ⟨ws, h3, h4⟩ := repeated_reads h1 _ _ rfl
      refine R.complete w tail hr ⟨ws, h3, h4, by simp, by simp, ?_, fun _ v t hv ht => absurd hv (hP.repeats _ _ v t (ht ▸ h2))⟩
      rintro a x b rfl
      exact .round h2 (reads_repeated b fun y hy => h3 y (by simp [hy]))
  | grouped _ ih =>
    intro hk
    have R := ih (.grouped hk)
    refine ⟨R.ends, fun evs n h => .grouped (R.sound evs n h), ?_⟩
    rintro w tail hr ⟨h1, h2⟩
    cases h1 with
    | grouped h1 => exact R.complete w tail hr ⟨h1, .grouped h2⟩
  | empty =>
    intro _
    refine ⟨id, ?_, ?_⟩
    · rintro evs n ⟨⟩; exact Produces.empty
    · rintro w tail hr ⟨h1, h2⟩
      cases h1
      exact ⟨_, rfl⟩
  | terminal hp =>
    intro _
    refine ⟨id, ?_, ?_⟩
    · rintro evs n ⟨⟩
      rw [← List.prefix_iff_eq_take.mp hp]
      exact Produces.terminal
    · rintro w tail hr ⟨h1, h2⟩
      cases h1
      exact ⟨_, rfl⟩
  | terminalFail hp =>
    intro _
    refine ⟨id, by simp, ?_⟩
    rintro w tail hr ⟨h1, h2⟩
    cases h1
    exact absurd ⟨tail, hr.symm⟩ hp
  | @reference loc name here rest r evs n h1 h2 _ ih =>
    intro _
    have R := ih (.rule h1)
    refine ⟨id, ?_, ?_⟩
    · rintro _ _ ⟨⟩; exact Produces.reference h1 h2 (R.sound _ _ rfl)
    · rintro w tail hr ⟨h3, h4⟩
      cases h3 with
      | reference h5 h6 h7 =>
        have := U.rule _ h5 _ h1 _ h6 h2
        subst this
        obtain ⟨_, h⟩ := R.complete w tail hr ⟨h7, h4 _ h1 h2⟩
        cases h
        exact ⟨_, rfl⟩
  | @referenceFail loc name here rest r e evs n h1 h2 _ ih =>
    intro _
    have R := ih (.rule h1)
    refine ⟨id, by simp, ?_⟩
    rintro w tail hr ⟨h3, h4⟩
    cases h3 with
    | reference h5 h6 h7 =>
      have := U.rule _ h5 _ h1 _ h6 h2
      subst this
      obtain ⟨_, h⟩ := R.complete w tail hr ⟨h7, h4 _ h1 h2⟩
      cases h
  | referenceStop h1 _ _ ho ih => intro _; exact absurd ho (ih (.rule h1)).ends
  | referenceUndefined h =>
    rintro ⟨r, h1, h2⟩
    exact absurd h2 (h r h1)
  | special h =>
    intro hk
    refine ⟨id, ?_, ?_⟩
    · rintro evs n ⟨⟩; exact Produces.special h
    · rintro w tail rfl ⟨h1, h2⟩
      obtain ⟨evs', h'⟩ := hP.specials _ _ w tail h2 h1 _
      rw [h] at h'
      cases h'
      exact ⟨_, rfl⟩
  | specialFail h =>
    intro hk
    refine ⟨id, by simp, ?_⟩
    rintro w tail rfl ⟨h1, h2⟩
    obtain ⟨evs', h'⟩ := hP.specials _ _ w tail h2 h1 _
    rw [h] at h'
    cases h'
  | specialError h =>
    intro hk
    rcases plain hk _ _ with ⟨_, _, h'⟩ | h' <;> rw [h] at h' <;> cases h'
  | forward h =>
    intro hk
    rcases plain hk _ _ with ⟨_, _, h'⟩ | h' <;> rw [h] at h' <;> cases h'
  | forwardFail h =>
    intro hk
    rcases plain hk _ _ with ⟨_, _, h'⟩ | h' <;> rw [h] at h' <;> cases h'
  | forwardIgnored h =>
    intro hk
    rcases plain hk _ _ with ⟨_, _, h'⟩ | h' <;> rw [h] at h' <;> cases h'
  | forwardStop h =>
    intro hk
    rcases plain hk _ _ with ⟨_, _, h'⟩ | h' <;> rw [h] at h' <;> cases h'
  | forwardUndefined h =>
    intro hk
    rcases plain hk _ _ with ⟨_, _, h'⟩ | h' <;> rw [h] at h' <;> cases h'
  | @once p here rest o _ ih =>
    intro hk
    have R := ih (placed_primary hd (.primary hk))
    refine ⟨R.ends, ?_, ?_⟩
    · rintro evs n rfl
      simpa [Read] using Produces.again (k := 0) (R.sound _ _ rfl) .never
    · rintro w tail hr ⟨h1, h2⟩
      obtain ⟨ws, h3, h4, h5⟩ := counted_reads h1 _ _ rfl
      refine R.complete w tail hr (due_primary ?_ (.counted h2 Nat.zero_lt_one .never))
      cases ws with
      | nil => simp at h5
      | cons x ws =>
        cases ws with
        | nil => rw [h4]; simpa using h3 x (by simp)
        | cons _ _ => simp at h5
  | @counted k p here rest o _ _ ih =>
    intro hk
    have R := ih ⟨.inr ⟨_, rfl, .primary hk⟩, by simp⟩
    refine ⟨R.ends, ?_, ?_⟩
    · rintro evs n rfl
      obtain ⟨ws, h1, h2, h3, h4⟩ := R.sound _ _ rfl (by rintro m ⟨⟩; omega)
      have h4 := h4 k rfl (by omega)
      rw [h2]
      have : ws.length = k := by omega
      rw [← this]
      exact reads_counted ws h1
    · rintro w tail hr ⟨h1, h2⟩
      obtain ⟨ws, h3, h4, h5⟩ := counted_reads h1 _ _ rfl
      refine R.complete w tail hr ⟨ws, h3, h4, by omega, by rintro m ⟨⟩; omega, ?_, fun h => absurd rfl h⟩
      rintro a x b rfl
      exact .counted h2 (by simp at h5; omega) (reads_counted b fun y hy => h3 y (by simp [hy]))
  | plain _ ih =>
    intro hk
    have R := ih (.plain hk)
    refine ⟨R.ends, fun evs n h => .plain (R.sound evs n h), ?_⟩
    rintro w tail hr ⟨h1, h2⟩
    cases h1 with
    | plain h1 => exact R.complete w tail hr ⟨h1, .plain h2⟩
  | exceptFail _ ih =>
    intro hk
    have R := ih (.base hk)
    refine ⟨id, by simp, ?_⟩
    rintro w tail hr ⟨h1, h2⟩
    cases h1 with
    | except h1 _ =>
      obtain ⟨evs, h⟩ := R.complete w tail hr ⟨h1, .except h2⟩
      cases h
  | exceptStop _ ho ih => intro hk; exact absurd ho (ih (.base hk)).ends
  | @excluded f x here rest evs n evs' h1 h2 ih1 ih2 =>
    intro hk
    refine ⟨id, by simp, ?_⟩
    rintro w tail hr ⟨h3, h4⟩
    exfalso
    cases h3 with
    | except h3 h5 =>
      obtain ⟨evs, h⟩ := (ih1 (.base hk)).complete w tail hr ⟨h3, .except h4⟩
      cases h
      have h6 := (ih2 (.exception hk)).sound _ _ rfl
      subst hr
      rw [take_self, List.take_length] at h6
      exact h5 ((hE _ _ hk w).mpr h6)
  | @notExcluded f x here rest evs n evs' m h1 h2 hn ih1 ih2 =>
    intro hk
    have R1 := ih1 (.base hk)
    have hl := ev_bounded_ok hb h1
    refine ⟨id, ?_, ?_⟩
    · rintro _ _ ⟨⟩
      refine .except (R1.sound _ _ rfl) fun he => ?_
      obtain ⟨_, h⟩ := (ih2 (.exception hk)).complete _ [] (List.append_nil _).symm ⟨(hE _ _ hk _).mp he, .exception hk⟩
      injection h with _ h
      rw [List.length_take, Nat.min_eq_left hl] at h
      exact hn h
    · rintro w tail hr ⟨h3, h4⟩
      cases h3 with
      | except h3 h5 => exact R1.complete w tail hr ⟨h3, .except h4⟩
  | @notExcludedFail f x here rest evs n e evs' m h1 h2 ih1 ih2 =>
    intro hk
    have R1 := ih1 (.base hk)
    refine ⟨id, ?_, ?_⟩
    · rintro _ _ ⟨⟩
      refine .except (R1.sound _ _ rfl) fun he => ?_
      obtain ⟨_, h⟩ := (ih2 (.exception hk)).complete _ [] (List.append_nil _).symm ⟨(hE _ _ hk _).mp he, .exception hk⟩
      cases h
    · rintro w tail hr ⟨h3, h4⟩
      cases h3 with
      | except h3 h5 => exact R1.complete w tail hr ⟨h3, .except h4⟩
  | excludedStop _ _ ho _ ih => intro hk; exact absurd ho (ih (.exception hk)).ends
  | done =>
    intro _
    refine ⟨id, ?_, ?_⟩
    · rintro evs n ⟨⟩; exact Produces.done
    · rintro w tail hr ⟨h1, h2⟩
      cases h1
      exact ⟨_, rfl⟩
  | @next t d here rest evs n o _ h1 _ ih1 ih2 =>
    intro hk
    have R1 := ih1 (.first hk)
    have R2 := ih2 (.later hk)
    refine ⟨?_, ?_, ?_⟩
    · have := R2.ends
      cases o <;> exact this
    · intro evs' m ho
      cases o with
      | ok es k =>
        cases ho
        rw [List.take_add]
        exact Produces.next (R1.sound _ _ rfl) (R2.sound _ _ rfl)
      | _ => cases ho
    · rintro w tail hr ⟨h3, h4⟩
      cases h3 with
      | @next _ _ a b h5 h6 =>
        rw [List.append_assoc] at hr
        obtain ⟨_, h⟩ := R1.complete a (b ++ tail) hr ⟨h5, .first h4 h6⟩
        injection h with _ h
        subst h
        obtain ⟨es, h⟩ := R2.complete b tail (by rw [hr]; simp) ⟨h6, .later h4⟩
        subst h
        exact ⟨evs ++ es, by simp [Outcome.after]⟩
  | dropped h => cases h
  | @nextFail t d here rest o h1 hn ih =>
    intro hk
    have R := ih (.first hk)
    refine ⟨R.ends, ?_, ?_⟩
    · rintro evs n rfl; exact absurd trivial hn
    · rintro w tail hr ⟨h3, h4⟩
      cases h3 with
      | @next _ _ a b h5 h6 =>
        rw [List.append_assoc] at hr
        obtain ⟨_, h⟩ := R.complete a (b ++ tail) hr ⟨h5, .first h4 h6⟩
        subst h
        exact absurd trivial hn
  | single _ ih =>
    intro hk
    have R := ih (.definition hk (by simp [DefinitionList.toList]))
    refine ⟨R.ends, fun evs n h => .choice (by simp [DefinitionList.toList]) (R.sound evs n h), ?_⟩
    rintro w tail hr ⟨h1, h2⟩
    cases h1 with
    | choice h3 h1 =>
      simp only [DefinitionList.toList, List.mem_singleton] at h3
      subst h3
      exact R.complete w tail hr ⟨h1, .alternative h2 (by simp [DefinitionList.toList])⟩
  | @choice d d' l here rest o _ _ ih =>
    intro hk
    have R := ih fun d hd => .definition hk hd
    exact ⟨R.ends, R.sound, fun w tail hr h => R.complete w tail hr ⟨_, [], rfl, h.2, h.1⟩⟩
  | @choiceFail d d' l here rest e evs n _ ih =>
    intro hk
    have R := ih fun d hd => .definition hk hd
    refine ⟨id, by simp, fun w tail hr h => ?_⟩
    obtain ⟨_, h⟩ := R.complete w tail hr ⟨_, [], rfl, h.2, h.1⟩
    cases h
  | @first d l here rest o h1 hn ih =>
    intro hk
    have R := ih (hk d (by simp [DefinitionList.toList]))
    refine ⟨R.ends, fun evs n h => Produces.choice (l := .cons d l) (by simp [DefinitionList.toList]) (R.sound evs n h), ?_⟩
    rintro w tail hr ⟨L, pre, hL, h3, h2⟩
    rw [DefinitionList.toList] at hL
    cases h2 with
    | @choice _ d' _ h4 h5 =>
      simp only [DefinitionList.toList, List.mem_cons] at h4
      rcases h4 with rfl | h4
      · exact R.complete w tail hr ⟨h5, .alternative h3 (by simp [hL])⟩
      · have hp := hP.choices L tail h3
        rw [hL, List.pairwise_append] at hp
        have k := (List.pairwise_cons.mp hp.2.1).1 d' h4
        cases o with
        | ok evs n =>
          have hl := ev_bounded_ok hb h1
          have hw := k _ _ (rest.drop n) (R.sound _ _ rfl) h5 (by rw [List.take_append_drop]; exact hr)
          refine ⟨evs, ?_⟩
          rw [← hw, List.length_take, Nat.min_eq_left hl]
        | fail e evs n => exact absurd rfl (hn _ _ _)
        | abort e => exact absurd trivial R.ends
        | panic p => exact absurd trivial R.ends
  | @last d here rest e evs n _ ih =>
    intro hk
    have R := ih (hk d (by simp [DefinitionList.toList]))
    refine ⟨id, by simp, ?_⟩
    rintro w tail hr ⟨L, pre, hL, h3, h2⟩
    rw [DefinitionList.toList] at hL
    cases h2 with
    | @choice _ d' _ h4 h5 =>
      simp only [DefinitionList.toList, List.mem_singleton] at h4
      subst h4
      obtain ⟨_, h⟩ := R.complete w tail hr ⟨h5, .alternative h3 (by simp [hL])⟩
      cases h
  | @other d d' l here rest e evs n o _ _ hn ih1 ih2 =>
    intro hk
    have R1 := ih1 (hk d (by simp [DefinitionList.toList]))
    have R2 := ih2 fun x hx => hk x (by rw [DefinitionList.toList]; exact List.mem_cons_of_mem _ hx)
    refine ⟨R2.ends, ?_, ?_⟩
    · intro evs n h
      have := R2.sound evs n h
      simp only [Read] at this ⊢
      cases this with
      | choice h1 h2 => exact .choice (by rw [DefinitionList.toList]; exact List.mem_cons_of_mem _ h1) h2
    · rintro w tail hr ⟨L, pre, hL, h3, h2⟩
      rw [DefinitionList.toList] at hL
      cases h2 with
      | @choice _ d'' _ h4 h5 =>
        rw [DefinitionList.toList, List.mem_cons] at h4
        rcases h4 with rfl | h4
        · obtain ⟨_, h⟩ := R1.complete w tail hr ⟨h5, .alternative h3 (by simp [hL])⟩
          cases h
        · exact R2.complete w tail hr ⟨L, pre ++ [d], by rw [hL]; simp, h3, .choice h4 h5⟩
  | @otherFail d d' l here rest e evs n e' evs' n' _ _ ih1 ih2 =>
    intro hk
    have R1 := ih1 (hk d (by simp [DefinitionList.toList]))
    have R2 := ih2 fun x hx => hk x (by rw [DefinitionList.toList]; exact List.mem_cons_of_mem _ hx)
    refine ⟨id, by simp, ?_⟩
    rintro w tail hr ⟨L, pre, hL, h3, h2⟩
    rw [DefinitionList.toList] at hL
    cases h2 with
    | @choice _ d'' _ h4 h5 =>
      rw [DefinitionList.toList, List.mem_cons] at h4
      rcases h4 with rfl | h4
      · obtain ⟨_, h⟩ := R1.complete w tail hr ⟨h5, .alternative h3 (by simp [hL])⟩
        cases h
      · obtain ⟨_, h⟩ := R2.complete w tail hr ⟨L, pre ++ [d], by rw [hL]; simp, h3, .choice h4 h5⟩
        cases h
  | @enough body min max guarded i here rest h =>
    intro _
    refine ⟨id, ?_, ?_⟩
    · rintro evs n ⟨⟩
      intro hm
      exact ⟨[], by simp, by simp, by have := hm _ rfl; simp; omega, by rintro m ⟨⟩ hi; simpa using hi⟩
    · rintro w tail hr ⟨ws, _, h2, _, h3, _⟩
      have := h3 _ rfl
      have : ws = [] := List.eq_nil_of_length_eq_zero (by omega)
      subst this
      subst h2
      exact ⟨_, rfl⟩
  | @round body min max guarded i here rest evs n o hm hg h1 _ ih1 ih2 =>
    intro hk
    have R1 := ih1 (placed_body hd hk.1)
    have R2 := ih2 hk
    refine ⟨?_, ?_, ?_⟩
    · have := R2.ends
      cases o <;> exact this
    · intro evs' m ho
      cases o with
      | ok es k =>
        cases ho
        intro hm'
        obtain ⟨ws, k1, k2, k3, k4⟩ := R2.sound _ _ rfl hm'
        refine ⟨rest.take n :: ws, ?_, ?_, by simp; omega, ?_⟩
        · intro x hx
          rcases List.mem_cons.mp hx with rfl | hx
          · exact read_body hk.1 (R1.sound _ _ rfl)
          · exact k1 x hx
        · rw [List.take_add, k2]; rfl
        · intro m h hi
          have := hm m h
          have := k4 m h (by omega)
          simp; omega
      | _ => cases ho
    · rintro w tail hr ⟨ws, k1, k2, k3, k4, k5, k6⟩
      cases ws with
      | nil =>
        simp only [List.flatten_nil] at k2
        subst k2
        simp only [List.nil_append] at hr
        subst hr
        have hx : max ≠ some min := by
          intro h
          have := hm _ h
          simp at k3
          omega
        have hn := k6 hx (rest.take n) (rest.drop n) (read_body hk.1 (R1.sound _ _ rfl)) (List.take_append_drop n rest).symm
        have hl := ev_bounded_ok hb h1
        have hn : n = 0 := by
          have := congrArg List.length hn
          simp [List.length_take] at this
          rcases this with h | h
          · exact h
          · subst h; simpa using hl
        subst hn
        obtain ⟨es, h⟩ := R2.complete [] rest rfl ⟨[], by simp, rfl, by simp at k3 ⊢; omega, by
          intro m h; have := hm m h; simp; omega, k5, k6⟩
        subst h
        exact ⟨_, rfl⟩
      | cons x ws =>
        simp only [List.flatten_cons] at k2
        subst k2
        rw [List.append_assoc] at hr
        obtain ⟨_, h⟩ := R1.complete x (ws.flatten ++ tail) hr (due_body hk.1 (k1 x (by simp)) (k5 [] x ws rfl))
        injection h with _ h
        subst h
        obtain ⟨es, h⟩ := R2.complete ws.flatten tail (by rw [hr]; simp) ⟨ws, fun x hx => k1 x (by simp [hx]), rfl, by simp at k3; omega, by
          intro m h; have := k4 m h; simp at this; omega, fun a y b hab => k5 (x :: a) y b (by rw [hab]; rfl), k6⟩
        subst h
        exact ⟨evs ++ es, by simp [Outcome.afterRound]⟩
  | @livelock body min max i here rest evs _ _ ih =>
    intro hk
    have := read_body hk.1 ((ih (placed_body hd hk.1)).sound _ _ rfl)
    exact absurd this (hk.2 rfl)
  | @lastRound body min max guarded i here rest e evs n h1 h2 _ ih =>
    intro hk
    have R := ih (placed_body hd hk.1)
    refine ⟨id, ?_, ?_⟩
    · rintro evs n ⟨⟩
      intro _
      exact ⟨[], by simp, by simp, by simpa using h2, by intro m hm hi; simpa using hi⟩
    · rintro w tail hr ⟨ws, k1, k2, k3, k4, k5, k6⟩
      cases ws with
      | nil => subst k2; exact ⟨_, rfl⟩
      | cons x ws =>
        exfalso
        simp only [List.flatten_cons] at k2
        subst k2
        rw [List.append_assoc] at hr
        obtain ⟨_, h⟩ := R.complete x (ws.flatten ++ tail) hr (due_body hk.1 (k1 x (by simp)) (k5 [] x ws rfl))
        cases h
  | @tooFew body min max guarded i here rest e evs n h1 h2 _ ih =>
    intro hk
    have R := ih (placed_body hd hk.1)
    refine ⟨id, by simp, ?_⟩
    rintro w tail hr ⟨ws, k1, k2, k3, k4, k5, k6⟩
    cases ws with
    | nil => simp at k3; omega
    | cons x ws =>
      exfalso
      simp only [List.flatten_cons] at k2
      subst k2
      rw [List.append_assoc] at hr
      obtain ⟨_, h⟩ := R.complete x (ws.flatten ++ tail) hr (due_body hk.1 (k1 x (by simp)) (k5 [] x ws rfl))
      cases h
  | roundStop _ _ ho ih => intro hk; exact absurd ho (ih (placed_body hd hk.1)).ends

/-- A part that may be followed by something occurs. -/
theorem goesOn_occurs (hs : start ∈ G.rules) {task : Task} {tail : Str} (h : GoesOn E G start task tail) : Occurs G task := by
  induction h with
  | start => exact .rule hs
  | exception h => exact .exception h
  | first _ _ ih => exact .first ih
  | round _ _ ih => exact .repeated ih
  | counted _ _ _ ih => exact .primary ih
  | later _ ih => exact .later ih
  | alternative _ h ih => exact .definition ih h
  | reference _ h _ _ => exact .rule h
  | optional _ ih => exact .optional ih
  | grouped _ ih => exact .grouped ih
  | plain _ ih => exact .plain ih
  | except _ ih => exact .base ih

/-- What may follow begins with a character that may follow. -/
theorem goesOn_next (hs : start ∈ G.rules) {task : Task} {tail : Str} (h : GoesOn E G start task tail) : Tail E G task tail := by
  induction h with
  | start => exact tail_nil
  | exception h => exact tail_nil
  | @first t d w tail h1 h2 ih =>
    intro c s hc
    cases w with
    | nil => exact .skip (ih c s hc) h2
    | cons c' w =>
      simp only [List.cons_append, List.cons.injEq] at hc
      obtain ⟨rfl, _⟩ := hc
      exact .rest (goesOn_occurs hs h1) ⟨_, h2⟩
  | @round loc l w tail h1 h2 ih =>
    intro c s hc
    cases w with
    | nil => exact .repeated (ih c s hc)
    | cons c' w =>
      simp only [List.cons_append, List.cons.injEq] at hc
      obtain ⟨rfl, _⟩ := hc
      obtain ⟨ws, h3, h4⟩ := repeated_reads h2 _ _ rfl
      exact .round (goesOn_occurs hs h1) (first_flatten ws h3 h4.symm)
  | @counted k j p w tail h1 hj h2 ih =>
    intro c s hc
    cases w with
    | nil => exact .primary (ih c s hc)
    | cons c' w =>
      simp only [List.cons_append, List.cons.injEq] at hc
      obtain ⟨rfl, _⟩ := hc
      obtain ⟨ws, h3, h4, h5⟩ := counted_reads h2 _ _ rfl
      refine .again (goesOn_occurs hs h1) ?_ (first_flatten ws h3 h4.symm)
      cases ws with
      | nil => simp at h4
      | cons _ _ => simp at h5; omega
  | later _ ih => intro c s hc; exact .tail (ih c s hc)
  | alternative _ h ih => intro c s hc; exact .alternative (ih c s hc) h
  | reference _ h1 h2 ih => intro c s hc; exact .reference (ih c s hc) h1 h2
  | optional _ ih => intro c s hc; exact .optional (ih c s hc)
  | grouped _ ih => intro c s hc; exact .grouped (ih c s hc)
  | plain _ ih => intro c s hc; exact .plain (ih c s hc)
  | except _ ih => intro c s hc; exact .except (ih c s hc)

/-- One character of look-ahead is a special case. -/
theorem decisive_of_predictive (hs : start ∈ G.rules) (hP : Predictive E G) : Decisive E G start where
  choices := by
    intro l tail h
    refine (hP.choices l (goesOn_occurs hs h)).imp ?_
    rintro d d' ⟨k1, k2, k3⟩ w w' rest h1 h2 hw
    cases w with
    | nil => exact absurd h1 k1
    | cons c w =>
      exfalso
      cases w' with
      | nil => exact k3 h2 c ⟨_, h1⟩ (goesOn_next hs h c _ hw.symm)
      | cons c' w' =>
        simp only [List.cons_append, List.cons.injEq] at hw
        obtain ⟨rfl, _⟩ := hw
        exact k2 c ⟨_, h1⟩ ⟨_, h2⟩
  optionals := by
    intro loc l w rest h h1
    cases w with
    | nil => rfl
    | cons c w => exact absurd (goesOn_next hs h c _ rfl) (hP.optionals _ _ (goesOn_occurs hs h) c ⟨_, h1⟩)
  repeats := by
    intro loc l w rest h h1
    have := hP.repeats _ _ (goesOn_occurs hs h)
    cases w with
    | nil => exact this.1 h1
    | cons c w => exact this.2 c ⟨_, h1⟩ (goesOn_next hs h c _ rfl)
  progress := fun loc l h => (hP.repeats loc l h).1
  specials := fun loc s w tail h h1 => hP.specials loc s (goesOn_occurs hs h) w tail h1 (goesOn_next hs h)

end Ebnf.Decide
