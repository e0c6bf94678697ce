import Verif.Spec.Steady
import Verif.Proofs.Clear

set_option autoImplicit false

/-! # Where a failed last round has nothing to tell, the events are the intended ones -/

namespace Ebnf.Steady

open Spec Clear

variable {q : Quirks} {G : Language}

/-- Nothing empty comes before what tells whether the task matches. -/
def Prompt (G : Language) : Task → Prop
  | .primary p => PromptPrimary G p
  | .factor f => PromptFactor G f
  | .term t => PromptTerm G t
  | .sequence d => PromptSingle G d
  | .list l => PromptList G l
  | _ => True

/-- Such a task that fails on a character with which it does not begin leaves no events. -/
theorem prompt_fail (hb : Bounded G) (hP : Productive regardless G) (hw : Everywhere (whole G) G) (hq : q.dropAfterGroup = false)
    {task : Task} {here : Location} {rest : Str} {o : Outcome} (h : Ev q G task here rest o) :
    Fits G task → Prompt G task → Apart G task rest → ∀ e evs n, o = .fail e evs n → evs = [] := by
  induction h with
  | optional h _ => intro _ _ _; exact rounds_fail h _ _ _ _ _ rfl
  | repeated h _ => intro _ _ _; exact rounds_fail h _ _ _ _ _ rfl
  | @grouped loc l here rest o _ ih =>
    intro (hf : Occurs _ _) hp ha
    refine ih (.grouped hf : Occurs G (.list l)) (by simpa [Prompt, PromptPrimary] using hp) ?_
    rintro c t ht ⟨w, hw⟩
    exact ha c t ht ⟨w, .grouped hw⟩
  | referenceStop _ _ _ ho => rintro _ _ _ e evs n rfl; exact ho.elim
  | forwardStop _ _ _ ho => rintro _ _ _ e evs n rfl; exact ho.elim
  | exceptStop _ ho => rintro _ _ _ e evs n rfl; exact ho.elim
  | excludedStop _ _ ho => rintro _ _ _ e evs n rfl; exact ho.elim
  | roundStop _ _ ho => rintro _ _ _ e evs n rfl; exact ho.elim
  | @once p here rest o _ ih =>
    intro (hf : Occurs _ _) hp ha
    refine ih (fits_primary (.primary hf)) (by simpa [Prompt, PromptFactor] using hp) ?_
    rintro c t ht ⟨w, hw⟩
    have := reads_counted (p := p) [c :: w] (fun x hx => by rw [List.mem_singleton.mp hx]; exact hw)
    exact ha c t ht ⟨_, this⟩
  | counted _ h _ => intro _ _ _; exact rounds_fail h _ _ _ _ _ rfl
  | @plain f here rest o _ ih =>
    intro (hf : Occurs _ _) hp ha
    refine ih (.plain hf : Occurs G (.factor f)) (by simpa [Prompt, PromptTerm] using hp) ?_
    rintro c t ht ⟨w, hw⟩
    exact ha c t ht ⟨w, .plain hw⟩
  | @next t d here rest evs n o _ hev1 hev2 _ _ =>
    intro (hf : Occurs _ _) hp ha
    rcases hp.2 with rfl | hne
    · cases hev2 with
      | done => simp [Outcome.after]
    · obtain ⟨w', hw'⟩ := hP d (.later hf)
      have p1 := Clear.sound_term hw hq (.first hf) hev1
      have hn := empty_match p1 (ev_bounded_ok hb hev1) (by
        rintro c t' he ⟨w, hw⟩
        exact ha c t' he ⟨w ++ w', .next hw hw'⟩)
      subst hn
      exact absurd p1 hne
  | @nextFail t d here rest o _ _ ih =>
    intro (hf : Occurs _ _) hp ha
    obtain ⟨w', hw'⟩ := hP d (.later hf)
    refine ih (.first hf : Occurs G (.term t)) hp.1 ?_
    rintro c t' he ⟨w, hw⟩
    exact ha c t' he ⟨w ++ w', .next hw hw'⟩
  | @single d here rest o _ ih =>
    intro (hf : Occurs _ _) hp ha
    refine ih (.definition hf List.mem_cons_self : Occurs G (.sequence d)) (by simpa [Prompt, PromptList] using hp) ?_
    intro c t ht h
    exact ha c t ht (first_single List.mem_cons_self h)
  | choice _ ho => rintro _ _ _ e evs n rfl; exact absurd rfl (ho e evs n)
  | first _ ho => rintro _ _ _ e evs n rfl; exact absurd rfl (ho e evs n)
  | other _ _ ho => rintro _ _ _ e evs n rfl; exact absurd rfl (ho e evs n)
  | round h1 h2 h3 h4 _ _ => intro _ _ _; exact rounds_fail (.round h1 h2 h3 h4) _ _ _ _ _ rfl
  | referenceFail => intro _ _ _ e evs n he; simp only [Outcome.fail.injEq] at he; exact he.2.1.symm
  | dropped h => rw [hq] at h; cases h
  | _ => intro _ _ _ e evs n he; simp only [Outcome.fail.injEq, reduceCtorEq] at he <;> exact he.2.1.symm

/-- Parts of the grammar, references to rules, and the steps in between; a repetition that may stop has a body of one of the two kinds. -/
def Holds (G : Language) : Task → Prop
  | .rounds body min max guarded i => Fits G (.rounds body min max guarded i) ∧ (max ≠ some min → QuietTask body ∨ Prompt G body)
  | task => Fits G task

/-- What is left after the task goes on with a character that may follow it. -/
def Ends (G : Language) : Task → Str → Prop
  | .rounds body min max _ _, tail => ∀ c t, tail = c :: t →
      Next regardless G body c ∧ (max ≠ some min → ¬ QuietTask body → ¬ First regardless G body c)
  | task, tail => Clear.Follows G task tail

theorem holds_body {body : Task} (h : (∃ l, body = .list l ∧ Occurs G body) ∨ ∃ p, body = .primary p ∧ Occurs G body) : Holds G body := by
  rcases h with ⟨l, rfl, h⟩ | ⟨p, rfl, h⟩
  · exact h
  · exact fits_primary h

theorem ends_body {body : Task} (h : (∃ l, body = .list l ∧ Occurs G body) ∨ ∃ p, body = .primary p ∧ Occurs G body) {rest : Str}
    (ha : ∀ c t, rest = c :: t → Next regardless G body c) : Ends G body rest := by
  rcases h with ⟨l, rfl, h⟩ | ⟨p, rfl, h⟩ <;> exact ha

theorem quietly {task : Task} {here : Location} {rest : Str} {o : Outcome} (h : Ev q G task here rest o) :
    ∃ o', Ev { q with keepPartial := false } G task here rest o' ∧ Partials.Alike (fun a a' => a'.Sublist a) o o' :=
  Partials.ev_alike (Partials.fewer q.keepPartial) (fun _ _ _ _ _ _ _ _ => trivial) h

theorem quietly_fail {task : Task} {here : Location} {rest : Str} {e : Error} {evs : List Event} {n : Nat}
    (h : Ev q G task here rest (.fail e evs n)) : ∃ evs', Ev { q with keepPartial := false } G task here rest (.fail e evs' n) := by
  obtain ⟨o', h1, h2⟩ := quietly h
  cases h2
  exact ⟨_, h1⟩

theorem quietly_ok {task : Task} {here : Location} {rest : Str} {evs : List Event} {n : Nat}
    (h : Ev q G task here rest (.ok evs n)) : ∃ evs', Ev { q with keepPartial := false } G task here rest (.ok evs' n) := by
  obtain ⟨o', h1, h2⟩ := quietly h
  cases h2
  exact ⟨_, h1⟩

/-- A match that is followed by what may follow has the intended events. -/
theorem ev_steady (hb : Bounded G) (hc : SteadyEnds G) (hP : Productive regardless G) (hw : Everywhere (whole G) G)
    (hq : q.dropAfterGroup = false) {task : Task} {here : Location} {rest : Str} {o : Outcome} (h : Ev q G task here rest o) :
    Holds G task → ∀ evs n, o = .ok evs n → Ends G task (rest.drop n) → Ev { q with keepPartial := false } G task here rest (.ok evs n) := by
  induction h with
  | @optional loc l here rest o _ ih =>
    rintro (hf : Occurs _ _) evs n rfl hd
    have hl := hc.optionals _ _ hf
    refine .optional (ih ⟨⟨.inl ⟨_, rfl, .optional hf⟩, fun _ _ => Nat.zero_le _, fun h => ?_⟩, fun _ => hl.imp id And.left⟩ _ _ rfl ?_)
    · have := h 1 rfl; omega
    · intro c t ht
      exact ⟨.optional (hd c t ht), fun _ hn h => (hl.resolve_left hn).2 c h (hd c t ht)⟩
  | @repeated loc l here rest o _ ih =>
    rintro (hf : Occurs _ _) evs n rfl hd
    have hl := hc.repeats _ _ hf
    refine .repeated (ih ⟨⟨.inl ⟨_, rfl, .repeated hf⟩, fun _ _ => Nat.zero_le _, fun _ c h => .round hf h⟩,
      fun _ => hl.imp id And.left⟩ _ _ rfl ?_)
    intro c t ht
    exact ⟨.repeated (hd c t ht), fun _ hn h => (hl.resolve_left hn).2 c h (hd c t ht)⟩
  | @grouped loc l here rest o _ ih =>
    rintro (hf : Occurs _ _) evs n rfl hd
    exact .grouped (ih (.grouped hf : Occurs G (.list l)) _ _ rfl fun c t ht => .grouped (hd c t ht))
  | empty => rintro _ evs n he _; rw [← he]; exact .empty
  | terminal hp => rintro _ evs n he _; rw [← he]; exact .terminal hp
  | @reference loc name here rest r evs n h1 h2 _ ih =>
    rintro _ evs' n' he hd
    have he' := he
    simp only [Outcome.ok.injEq] at he'
    obtain ⟨_, rfl⟩ := he'
    rw [← he]
    exact .reference h1 h2 (ih (.rule h1 : Occurs G (.list _)) _ _ rfl fun c t ht => .reference (hd c t ht) h1 h2)
  | referenceStop _ _ _ ho => rintro _ evs n rfl; exact ho.elim
  | special h => rintro _ evs n he _; rw [← he]; exact .special h
  | forward h => intro (hf : Occurs _ _); exact absurd h (occurs_every hw hf _ _ rfl _ _ _ _ _)
  | forwardIgnored h => intro (hf : Occurs _ _); exact absurd h (occurs_every hw hf _ _ rfl _ _ _ _ _)
  | forwardStop _ _ _ ho => rintro _ evs n rfl; exact ho.elim
  | once _ ih =>
    rintro (hf : Occurs _ _) evs n rfl hd
    exact .once (ih (fits_primary (.primary hf)) _ _ rfl fun c t ht => .primary (hd c t ht))
  | @counted k p here rest o hk _ ih =>
    rintro (hf : Occurs _ _) evs n rfl hd
    refine .counted hk (ih ⟨⟨.inr ⟨_, rfl, .primary hf⟩, fun m hm => by cases hm; omega, fun h c hc => ?_⟩, fun h => absurd rfl h⟩ _ _ rfl ?_)
    · have := h k rfl
      exact .again hf (by omega) hc
    · intro c t ht
      exact ⟨.primary (hd c t ht), fun h => absurd rfl h⟩
  | plain _ ih =>
    rintro (hf : Occurs _ _) evs n rfl hd
    exact .plain (ih (.plain hf : Occurs G (.factor _)) _ _ rfl fun c t ht => .plain (hd c t ht))
  | exceptStop _ ho => rintro _ evs n rfl; exact ho.elim
  | @notExcluded f x here rest evs n evs' m _ hx hm ih _ =>
    rintro (hf : Occurs _ _) evs1 n1 he hd
    simp only [Outcome.ok.injEq] at he
    obtain ⟨rfl, rfl⟩ := he
    obtain ⟨_, hx'⟩ := quietly_ok hx
    exact .notExcluded (ih (.base hf : Occurs G (.factor f)) _ _ rfl fun c t ht => .except (hd c t ht)) hx' hm
  | @notExcludedFail f x here rest evs n e evs' m _ hx ih _ =>
    rintro (hf : Occurs _ _) evs1 n1 he hd
    simp only [Outcome.ok.injEq] at he
    obtain ⟨rfl, rfl⟩ := he
    obtain ⟨_, hx'⟩ := quietly_fail hx
    exact .notExcludedFail (ih (.base hf : Occurs G (.factor f)) _ _ rfl fun c t ht => .except (hd c t ht)) hx'
  | excludedStop _ _ ho => rintro _ evs n rfl; exact ho.elim
  | done => rintro _ evs n he _; rw [← he]; exact .done
  | @next t d here rest evs n o hn hev1 hev2 ih1 ih2 =>
    intro (hf : Occurs _ _) evs1 n1 he hd
    cases o with
    | ok evs' m =>
      have he' := he
      simp only [Outcome.after, Outcome.ok.injEq] at he'
      obtain ⟨_, rfl⟩ := he'
      rw [← he]
      have hd : Clear.Follows G (.sequence (.cons t d)) (rest.drop (n + m)) := hd
      rw [← List.drop_drop] at hd
      have p2 := Clear.sound_sequence hw hq (.later hf) hev2
      refine .next hn (ih1 (.first hf : Occurs G (.term t)) _ _ rfl fun c t' hx => ?_)
        (ih2 (.later hf : Occurs G (.sequence d)) _ _ rfl fun c t' he => .tail (hd c t' he))
      by_cases hm : m = 0
      · subst hm
        exact .skip (hd c t' hx) p2
      · obtain ⟨t'', h'⟩ := take_cons hx hm
        rw [h'] at p2
        exact .rest hf ⟨_, p2⟩
    | _ => cases he
  | dropped h => rw [hq] at h; cases h
  | nextFail _ ho => rintro _ evs n rfl; exact absurd trivial ho
  | single _ ih =>
    rintro (hf : Occurs _ _) evs n rfl hd
    exact .single (ih (.definition hf List.mem_cons_self : Occurs G (.sequence _)) _ _ rfl
      fun c t ht => .alternative (hd c t ht) List.mem_cons_self)
  | choice _ hn ih =>
    rintro (hf : Occurs _ _) evs n rfl hd
    exact .choice (ih (fun x hx => .definition hf hx) _ _ rfl fun c t ht x hx => .alternative (hd c t ht) hx) hn
  | @first d l here rest o _ hn ih =>
    rintro (hf : ∀ x ∈ _, Occurs _ _) evs n rfl hd
    exact .first (ih (hf d List.mem_cons_self) _ _ rfl fun c t ht => hd c t ht d List.mem_cons_self) hn
  | @other d d' l here rest e evs n o h1 _ hn _ ih =>
    rintro (hf : ∀ x ∈ _, Occurs _ _) evs n rfl hd
    obtain ⟨_, h1'⟩ := quietly_fail h1
    exact .other h1' (ih (fun x hx => hf x (List.mem_cons_of_mem _ hx)) _ _ rfl
      fun c t ht x hx => hd c t ht x (List.mem_cons_of_mem _ hx)) hn
  | enough h => rintro _ evs n he _; rw [← he]; exact .enough h
  | @round body min max guarded i here rest evs n o hi hg hev1 hev2 ih1 ih2 =>
    rintro ⟨⟨hf1, hf2, hf3⟩, hf4⟩ evs1 n1 he hd
    cases o with
    | ok evs' m =>
      have he' := he
      simp only [Outcome.afterRound, Outcome.ok.injEq] at he'
      obtain ⟨_, rfl⟩ := he'
      rw [← he]
      have hd : Ends G (.rounds body min max guarded i) (rest.drop (n + m)) := hd
      rw [← List.drop_drop] at hd
      refine .round hi hg (ih1 (holds_body hf1) _ _ rfl (ends_body hf1 fun c t' hx => ?_))
        (ih2 ⟨⟨hf1, hf2, fun h => hf3 fun m hm => by have := h m hm; omega⟩, hf4⟩ _ _ rfl hd)
      by_cases hm : m = 0
      · subst hm
        exact (hd c t' hx).1
      · obtain ⟨t'', h'⟩ := take_cons hx hm
        obtain ⟨h1, h2⟩ := sound_rounds hw hq hf1 hev2 hf2 (fun m hm => hi m hm) h'
        exact hf3 (fun m hm => h2 m hm) c h1
    | _ => cases he
  | @lastRound body min max guarded i here rest e evs n hi hmin hev _ =>
    rintro ⟨⟨hf1, hf2, hf3⟩, hf4⟩ evs1 n1 he hd
    simp only [Outcome.ok.injEq] at he
    obtain ⟨rfl, rfl⟩ := he
    have hm : max ≠ some min := by
      intro h
      have := hi _ h
      omega
    obtain ⟨evs', hev'⟩ := quietly_fail hev
    have hz : evs = [] := by
      by_cases hq' : QuietTask body
      · exact quiet hev hq' _ _ _ rfl
      · exact prompt_fail hb hP hw hq hev (fits_body hf1) ((hf4 hm).resolve_left hq')
          (apart_body hf1 fun c t ht => (hd c t ht).2 hm hq') _ _ _ rfl
    have h2 := Ev.lastRound (q := { q with keepPartial := false }) (guarded := guarded) hi hmin hev'
    subst hz
    have h3 : (if q.keepPartial = true then ([] : List Event) else []) = [] := by cases q.keepPartial <;> rfl
    rw [h3]
    exact h2
  | roundStop _ _ ho => rintro _ evs n rfl; exact ho.elim
  | _ => intro _ evs n he; cases he

end Ebnf.Steady
