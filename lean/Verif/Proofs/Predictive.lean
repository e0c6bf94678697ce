import Verif.Spec.Predictive
import Verif.Proofs.Derivation
import Verif.Proofs.Errors

set_option autoImplicit false

/-! # Reading with one character of look-ahead -/

namespace Ebnf

open Spec

theorem everyList_mem {K : Local} (d : SingleDefinition) : ∀ l : DefinitionList, EveryList K l → d ∈ l.toList → EverySingle K d
  | .nil, _, h => by simp [DefinitionList.toList] at h
  | .cons d' l, h, hd => by
    simp only [DefinitionList.toList, List.mem_cons] at hd
    rcases hd with rfl | hd
    · exact h.1
    · exact everyList_mem d l h.2 hd

/-- What holds everywhere holds of every part that occurs. -/
theorem occurs_every {K : Local} {G : Language} (hG : Everywhere K G) {task : Task} (h : Occurs G task) : EveryTask K task := by
  induction h with
  | rule h => exact hG _ h
  | @definition l d _ hd ih =>
    exact everyList_mem d _ ih hd
  | first _ ih => exact ih.2.1
  | later _ ih => exact ih.2.2
  | plain _ ih => exact ih
  | base _ ih => exact ih.1
  | exception _ ih => exact ih.2
  | primary _ ih => exact ih.2
  | optional _ ih => exact ih.2
  | repeated _ ih => exact ih.2
  | grouped _ ih => exact ih.2

variable {E : Factor → Str → Prop} {G : Language}

theorem reads_repeated {loc : Location} {l : DefinitionList} : ∀ ws : List Str,
    (∀ x ∈ ws, Produces E G (.list l) x) → Produces E G (.primary (.repeated loc l)) ws.flatten
  | [], _ => .noMore
  | w :: ws, h => .more (h w (by simp)) (reads_repeated ws fun x hx => h x (by simp [hx]))

theorem reads_counted {p : Primary} : ∀ ws : List Str, (∀ x ∈ ws, Produces E G (.primary p) x) →
    Produces E G (.factor (.mk ws.length p)) ws.flatten
  | [], _ => .never
  | w :: ws, h => .again (h w (by simp)) (reads_counted ws fun x hx => h x (by simp [hx]))

theorem repeated_reads {task : Task} {w : Str} (h : Produces E G task w) : ∀ loc l, task = .primary (.repeated loc l) →
    ∃ ws : List Str, (∀ x ∈ ws, Produces E G (.list l) x) ∧ w = ws.flatten := by
  induction h with
  | noMore => intro _ _ _; exact ⟨[], by simp, rfl⟩
  | @more loc l w w' h1 _ _ ih =>
    intro loc' l' ht
    cases ht
    obtain ⟨ws, h2, rfl⟩ := ih _ _ rfl
    exact ⟨w :: ws, by simpa using ⟨h1, h2⟩, rfl⟩
  | _ => intro _ _ ht; cases ht

theorem counted_reads {task : Task} {w : Str} (h : Produces E G task w) : ∀ k p, task = .factor (.mk k p) →
    ∃ ws : List Str, (∀ x ∈ ws, Produces E G (.primary p) x) ∧ w = ws.flatten ∧ ws.length = k := by
  induction h with
  | never => intro _ _ ht; cases ht; exact ⟨[], by simp, rfl, rfl⟩
  | @again k p w w' h1 _ _ ih =>
    intro k' p' ht
    cases ht
    obtain ⟨ws, h2, rfl, h3⟩ := ih _ _ rfl
    exact ⟨w :: ws, by simpa using ⟨h1, h2⟩, rfl, by simp [h3]⟩
  | _ => intro _ _ ht; cases ht

/-- The first character of several texts begins one of them. -/
theorem first_flatten {body : Task} {c : Char} {t : Str} : ∀ ws : List Str, (∀ x ∈ ws, Produces E G body x) → ws.flatten = c :: t →
    First E G body c
  | [], _, h => by simp at h
  | [] :: ws, hw, h => first_flatten ws (fun x hx => hw x (by simp [hx])) (by simpa using h)
  | (c' :: w) :: ws, hw, h => by
    simp only [List.flatten_cons, List.cons_append, List.cons.injEq] at h
    obtain ⟨rfl, _⟩ := h
    exact ⟨w, hw _ (by simp)⟩

/-- Parts of the grammar, references to rules, and the steps in between. -/
def Placed (E : Factor → Str → Prop) (G : Language) : Task → Prop
  | .primary (.metaIdentifier _ n) => Defines G.rules n
  | .alternatives l => ∀ d ∈ l.toList, Occurs G (.sequence d)
  | .rounds body _ _ guarded _ => ((∃ l, body = .list l ∧ Occurs G body) ∨ ∃ p, body = .primary p ∧ Occurs G body) ∧
      (guarded = true → ¬ Produces E G body [])
  | task => Occurs G task

/-- What may follow: nothing, or a character that may. -/
def Tail (E : Factor → Str → Prop) (G : Language) (task : Task) (tail : Str) : Prop := ∀ c t, tail = c :: t → Next E G task c

/-- What a match says. -/
def Read (E : Factor → Str → Prop) (G : Language) : Task → Str → Prop
  | .alternatives l, w => Produces E G (.list l) w
  | .rounds body min max _ i, w => (∀ m, max = some m → min ≤ m) →
      ∃ ws : List Str, (∀ x ∈ ws, Produces E G body x) ∧ w = ws.flatten ∧ min ≤ i + ws.length ∧
        ∀ m, max = some m → i ≤ m → i + ws.length ≤ m
  | task, w => Produces E G task w

/-- When the task is to match `w` before `tail`. -/
def Due (E : Factor → Str → Prop) (G : Language) : Task → Str → Str → Prop
  | .alternatives l, w, tail => ∃ L pre, L.toList = pre ++ l.toList ∧ Occurs G (.list L) ∧ Produces E G (.list l) w ∧ Tail E G (.list L) tail
  | .rounds body min max _ i, w, tail => ∃ ws : List Str, (∀ x ∈ ws, Produces E G body x) ∧ w = ws.flatten ∧
      min ≤ i + ws.length ∧ (∀ m, max = some m → i + ws.length ≤ m) ∧ Tail E G body tail ∧
      ((∀ m, max = some m → 2 ≤ m) → ∀ c, First E G body c → Next E G body c) ∧
      (max ≠ some min → ∀ c t, tail = c :: t → ¬ First E G body c)
  | task, w, tail => Produces E G task w ∧ Tail E G task tail

/-- The outcome is what the grammar, read with one character of look-ahead, says. -/
structure Right (E : Factor → Str → Prop) (G : Language) (task : Task) (rest : Str) (o : Outcome) : Prop where
  ends : ¬ o.IsStop
  sound : ∀ evs n, o = .ok evs n → Read E G task (rest.take n)
  complete : ∀ w tail, rest = w ++ tail → Due E G task w tail → ∃ evs, o = .ok evs w.length

/-- The deviation left: the events of a failed last round may be kept. -/
abbrev mild (keep : Bool) : Quirks := ⟨false, keep, false, none⟩

theorem placed_primary (hd : Everywhere (definedRefs G) G) {p : Primary} (h : Occurs G (.primary p)) : Placed E G (.primary p) := by
  cases p <;> first | exact h | exact occurs_every hd h _ _ rfl

theorem placed_body (hd : Everywhere (definedRefs G) G) {body : Task}
    (h : (∃ l, body = .list l ∧ Occurs G body) ∨ ∃ p, body = .primary p ∧ Occurs G body) : Placed E G body := by
  rcases h with ⟨l, rfl, h⟩ | ⟨p, rfl, h⟩
  · exact h
  · exact placed_primary hd h

theorem read_body {body : Task} {w : Str}
    (hb : (∃ l, body = .list l ∧ Occurs G body) ∨ ∃ p, body = .primary p ∧ Occurs G body) (h : Read E G body w) : Produces E G body w := by
  rcases hb with ⟨l, rfl, _⟩ | ⟨p, rfl, _⟩ <;> exact h

theorem due_body {body : Task} {w tail : Str}
    (hb : (∃ l, body = .list l ∧ Occurs G body) ∨ ∃ p, body = .primary p ∧ Occurs G body) (h : Produces E G body w) (ht : Tail E G body tail) :
    Due E G body w tail := by
  rcases hb with ⟨l, rfl, _⟩ | ⟨p, rfl, _⟩ <;> exact ⟨h, ht⟩

theorem tail_nil {task : Task} : Tail E G task [] := by intro c t h; cases h

theorem take_self (w tail : Str) : (w ++ tail).take w.length = w := by simp

/-- A match of nothing more than the look-ahead allows is empty. -/
theorem empty_match {body : Task} {tail : Str} {n : Nat} (h : Produces E G body (tail.take n)) (hn : n ≤ tail.length)
    (hf : ∀ c t, tail = c :: t → ¬ First E G body c) : n = 0 := by
  cases n with
  | zero => rfl
  | succ n =>
    cases tail with
    | nil => simp at hn
    | cons c t => exact absurd ⟨_, h⟩ (hf c t rfl)

theorem take_both (a b tail : Str) : ((a ++ b) ++ tail).take a.length = a := by simp
theorem drop_both (a b tail : Str) : ((a ++ b) ++ tail).drop a.length = b ++ tail := by simp

theorem ev_right (U : OneMeaning G) (hb : Bounded G) (hE : FitsExceptions E G) (hP : Predictive E G) (hd : Everywhere (definedRefs G) G)
    (ho : Everywhere (ordinary G) G) {keep : Bool} {task : Task} {here : Location} {rest : Str} {o : Outcome} (h : Ev (mild keep) G task here rest o) :
    Placed E G task → Right E G task rest o := by
  have plain : ∀ {loc s}, Occurs G (.primary (.specialSequence loc s)) → ∀ here rest,
      (∃ evs n, G.special loc s loc here rest = .accept evs n) ∨ G.special loc s loc here rest = .unmatched :=
    fun h here rest => occurs_every ho h _ _ rfl _ here rest
  induction h with
  | @optional loc l here rest o _ ih =>
    intro hk
    have R := ih ⟨.inl ⟨_, rfl, .optional hk⟩, by simp⟩
    refine ⟨R.ends, ?_, ?_⟩
    · rintro evs n rfl
      obtain ⟨ws, h1, h2, _, h4⟩ := R.sound _ _ rfl (by intro m _; omega)
      have h4 := h4 1 rfl (by omega)
      rw [h2]
      cases ws with
      | nil => exact .leftOut
      | cons w ws =>
        cases ws with
        | nil => simpa [Read] using Produces.taken (loc := loc) (h1 w (by simp))
        | cons _ _ => simp at h4
    · rintro w tail hr ⟨h1, h2⟩
      refine R.complete w tail hr ?_
      have hc : ∀ c t, tail = c :: t → ¬ First E G (.list l) c := fun c t ht hf => hP.optionals _ _ hk c hf (h2 c t ht)
      cases h1 with
      | leftOut =>
        exact ⟨[], by simp, by simp, by simp, by simp, fun c t ht => .optional (h2 c t ht), fun h => by simpa using h 1 rfl, fun _ => hc⟩
      | taken h1 =>
        exact ⟨[w], by simpa using h1, by simp, by simp, by simp, fun c t ht => .optional (h2 c t ht),
          fun h => by simpa using h 1 rfl, fun _ => hc⟩
  | @repeated loc l here rest o _ ih =>
    intro hk
    have R := ih ⟨.inl ⟨_, rfl, .repeated hk⟩, fun _ => (hP.repeats _ _ hk).1⟩
    refine ⟨R.ends, ?_, ?_⟩
    · rintro evs n rfl
      obtain ⟨ws, h1, h2, _⟩ := R.sound _ _ rfl (by intro m _; omega)
      rw [h2]
      exact reads_repeated ws h1
    · rintro w tail hr ⟨h1, h2⟩
      obtain ⟨ws, h3, h4⟩ := repeated_reads h1 _ _ rfl
      exact R.complete w tail hr ⟨ws, h3, h4, by simp, by simp, fun c t ht => .repeated (h2 c t ht), fun _ c hc => .round hk hc,
        fun _ c t ht hf => (hP.repeats _ _ hk).2 c hf (h2 c t ht)⟩
  | grouped _ ih =>
    intro hk
    have R := ih (.grouped hk)
    refine ⟨R.ends, fun evs n h => .grouped (R.sound evs n h), ?_⟩
    rintro w tail hr ⟨h1, h2⟩
    cases h1 with
    | grouped h1 => exact R.complete w tail hr ⟨h1, fun c t ht => .grouped (h2 c t ht)⟩
  | empty =>
    intro _
    refine ⟨id, ?_, ?_⟩
    · rintro evs n ⟨⟩; exact Produces.empty
    · rintro w tail hr ⟨h1, h2⟩
      cases h1
      exact ⟨_, rfl⟩
  | terminal hp =>
    intro _
    refine ⟨id, ?_, ?_⟩
    · rintro evs n ⟨⟩
      rw [← List.prefix_iff_eq_take.mp hp]
      exact Produces.terminal
    · rintro w tail hr ⟨h1, h2⟩
      cases h1
      exact ⟨_, rfl⟩
  | terminalFail hp =>
    intro _
    refine ⟨id, by simp, ?_⟩
    rintro w tail hr ⟨h1, h2⟩
    cases h1
    exact absurd ⟨tail, hr.symm⟩ hp
  | @reference loc name here rest r evs n h1 h2 _ ih =>
    intro _
    have R := ih (.rule h1)
    refine ⟨id, ?_, ?_⟩
    · rintro _ _ ⟨⟩; exact Produces.reference h1 h2 (R.sound _ _ rfl)
    · rintro w tail hr ⟨h3, h4⟩
      cases h3 with
      | reference h5 h6 h7 =>
        have := U.rule _ h5 _ h1 _ h6 h2
        subst this
        obtain ⟨_, h⟩ := R.complete w tail hr ⟨h7, fun c t ht => .reference (h4 c t ht) h1 h2⟩
        cases h
        exact ⟨_, rfl⟩
  | @referenceFail loc name here rest r e evs n h1 h2 _ ih =>
    intro _
    have R := ih (.rule h1)
    refine ⟨id, by simp, ?_⟩
    rintro w tail hr ⟨h3, h4⟩
    cases h3 with
    | reference h5 h6 h7 =>
      have := U.rule _ h5 _ h1 _ h6 h2
      subst this
      obtain ⟨_, h⟩ := R.complete w tail hr ⟨h7, fun c t ht => .reference (h4 c t ht) h1 h2⟩
      cases h
  | referenceStop h1 _ _ ho ih => intro _; exact absurd ho (ih (.rule h1)).ends
  | referenceUndefined h =>
    rintro ⟨r, h1, h2⟩
    exact absurd h2 (h r h1)
  | special h =>
    intro hk
    refine ⟨id, ?_, ?_⟩
    · rintro evs n ⟨⟩; exact Produces.special h
    · rintro w tail rfl ⟨h1, h2⟩
      obtain ⟨evs', h'⟩ := hP.specials _ _ hk w tail h1 h2 _
      rw [h] at h'
      cases h'
      exact ⟨_, rfl⟩
  | specialFail h =>
    intro hk
    refine ⟨id, by simp, ?_⟩
    rintro w tail rfl ⟨h1, h2⟩
    obtain ⟨evs', h'⟩ := hP.specials _ _ hk w tail h1 h2 _
    rw [h] at h'
    cases h'
  | specialError h =>
    intro hk
    rcases plain hk _ _ with ⟨_, _, h'⟩ | h' <;> rw [h] at h' <;> cases h'
  | forward h =>
    intro hk
    rcases plain hk _ _ with ⟨_, _, h'⟩ | h' <;> rw [h] at h' <;> cases h'
  | forwardFail h =>
    intro hk
    rcases plain hk _ _ with ⟨_, _, h'⟩ | h' <;> rw [h] at h' <;> cases h'
  | forwardIgnored h =>
    intro hk
    rcases plain hk _ _ with ⟨_, _, h'⟩ | h' <;> rw [h] at h' <;> cases h'
  | forwardStop h =>
    intro hk
    rcases plain hk _ _ with ⟨_, _, h'⟩ | h' <;> rw [h] at h' <;> cases h'
  | forwardUndefined h =>
    intro hk
    rcases plain hk _ _ with ⟨_, _, h'⟩ | h' <;> rw [h] at h' <;> cases h'
  | @once p here rest o _ ih =>
    intro hk
    have R := ih (placed_primary hd (.primary hk))
    refine ⟨R.ends, ?_, ?_⟩
    · rintro evs n rfl
      simpa [Read] using Produces.again (k := 0) (R.sound _ _ rfl) .never
    · rintro w tail hr ⟨h1, h2⟩
      obtain ⟨ws, h3, h4, h5⟩ := counted_reads h1 _ _ rfl
      refine R.complete w tail hr ⟨?_, fun c t ht => .primary (h2 c t ht)⟩
      cases ws with
      | nil => simp at h5
      | cons x ws =>
        cases ws with
        | nil => rw [h4]; simpa using h3 x (by simp)
        | cons _ _ => simp at h5
  | @counted k p here rest o _ _ ih =>
    intro hk
    have R := ih ⟨.inr ⟨_, rfl, .primary hk⟩, by simp⟩
    refine ⟨R.ends, ?_, ?_⟩
    · rintro evs n rfl
      obtain ⟨ws, h1, h2, h3, h4⟩ := R.sound _ _ rfl (by rintro m ⟨⟩; omega)
      have h4 := h4 k rfl (by omega)
      rw [h2]
      have : ws.length = k := by omega
      rw [← this]
      exact reads_counted ws h1
    · rintro w tail hr ⟨h1, h2⟩
      obtain ⟨ws, h3, h4, h5⟩ := counted_reads h1 _ _ rfl
      exact R.complete w tail hr ⟨ws, h3, h4, by omega, by rintro m ⟨⟩; omega, fun c t ht => .primary (h2 c t ht),
        fun h c hc => .again hk (h k rfl) hc, fun h => absurd rfl h⟩
  | plain _ ih =>
    intro hk
    have R := ih (.plain hk)
    refine ⟨R.ends, fun evs n h => .plain (R.sound evs n h), ?_⟩
    rintro w tail hr ⟨h1, h2⟩
    cases h1 with
    | plain h1 => exact R.complete w tail hr ⟨h1, fun c t ht => .plain (h2 c t ht)⟩
  | exceptFail _ ih =>
    intro hk
    have R := ih (.base hk)
    refine ⟨id, by simp, ?_⟩
    rintro w tail hr ⟨h1, h2⟩
    cases h1 with
    | except h1 _ =>
      obtain ⟨evs, h⟩ := R.complete w tail hr ⟨h1, fun c t ht => .except (h2 c t ht)⟩
      cases h
  | exceptStop _ ho ih => intro hk; exact absurd ho (ih (.base hk)).ends
  | @excluded f x here rest evs n evs' h1 h2 ih1 ih2 =>
    intro hk
    refine ⟨id, by simp, ?_⟩
    rintro w tail hr ⟨h3, h4⟩
    exfalso
    cases h3 with
    | except h3 h5 =>
      obtain ⟨evs, h⟩ := (ih1 (.base hk)).complete w tail hr ⟨h3, fun c t ht => .except (h4 c t ht)⟩
      cases h
      have h6 := (ih2 (.exception hk)).sound _ _ rfl
      subst hr
      rw [take_self, List.take_length] at h6
      exact h5 ((hE _ _ hk w).mpr h6)
  | @notExcluded f x here rest evs n evs' m h1 h2 hn ih1 ih2 =>
    intro hk
    have R1 := ih1 (.base hk)
    have hl := ev_bounded_ok hb h1
    refine ⟨id, ?_, ?_⟩
    · rintro _ _ ⟨⟩
      refine .except (R1.sound _ _ rfl) fun he => ?_
      obtain ⟨_, h⟩ := (ih2 (.exception hk)).complete _ [] (List.append_nil _).symm ⟨(hE _ _ hk _).mp he, tail_nil⟩
      injection h with _ h
      rw [List.length_take, Nat.min_eq_left hl] at h
      exact hn h
    · rintro w tail hr ⟨h3, h4⟩
      cases h3 with
      | except h3 h5 => exact R1.complete w tail hr ⟨h3, fun c t ht => .except (h4 c t ht)⟩
  | @notExcludedFail f x here rest evs n e evs' m h1 h2 ih1 ih2 =>
    intro hk
    have R1 := ih1 (.base hk)
    refine ⟨id, ?_, ?_⟩
    · rintro _ _ ⟨⟩
      refine .except (R1.sound _ _ rfl) fun he => ?_
      obtain ⟨_, h⟩ := (ih2 (.exception hk)).complete _ [] (List.append_nil _).symm ⟨(hE _ _ hk _).mp he, tail_nil⟩
      cases h
    · rintro w tail hr ⟨h3, h4⟩
      cases h3 with
      | except h3 h5 => exact R1.complete w tail hr ⟨h3, fun c t ht => .except (h4 c t ht)⟩
  | excludedStop _ _ ho _ ih => intro hk; exact absurd ho (ih (.exception hk)).ends
  | done =>
    intro _
    refine ⟨id, ?_, ?_⟩
    · rintro evs n ⟨⟩; exact Produces.done
    · rintro w tail hr ⟨h1, h2⟩
      cases h1
      exact ⟨_, rfl⟩
  | @next t d here rest evs n o _ h1 _ ih1 ih2 =>
    intro hk
    have R1 := ih1 (.first hk)
    have R2 := ih2 (.later hk)
    refine ⟨?_, ?_, ?_⟩
    · have := R2.ends
      cases o <;> exact this
    · intro evs' m ho
      cases o with
      | ok es k =>
        cases ho
        rw [List.take_add]
        exact Produces.next (R1.sound _ _ rfl) (R2.sound _ _ rfl)
      | _ => cases ho
    · rintro w tail hr ⟨h3, h4⟩
      cases h3 with
      | @next _ _ a b h5 h6 =>
        rw [List.append_assoc] at hr
        obtain ⟨_, h⟩ := R1.complete a (b ++ tail) hr ⟨h5, by
          intro c t ht
          cases b with
          | nil => exact .skip (h4 c t (by simpa using ht)) h6
          | cons c' b =>
            simp only [List.cons_append, List.cons.injEq] at ht
            obtain ⟨rfl, _⟩ := ht
            exact .rest hk ⟨_, h6⟩⟩
        injection h with _ h
        subst h
        obtain ⟨es, h⟩ := R2.complete b tail (by rw [hr]; simp) ⟨h6, fun c t ht => .tail (h4 c t ht)⟩
        subst h
        exact ⟨evs ++ es, by simp [Outcome.after]⟩
  | dropped h => cases h
  | @nextFail t d here rest o h1 hn ih =>
    intro hk
    have R := ih (.first hk)
    refine ⟨R.ends, ?_, ?_⟩
    · rintro evs n rfl; exact absurd trivial hn
    · rintro w tail hr ⟨h3, h4⟩
      cases h3 with
      | @next _ _ a b h5 h6 =>
        rw [List.append_assoc] at hr
        obtain ⟨_, h⟩ := R.complete a (b ++ tail) hr ⟨h5, by
          intro c t ht
          cases b with
          | nil => exact .skip (h4 c t (by simpa using ht)) h6
          | cons c' b =>
            simp only [List.cons_append, List.cons.injEq] at ht
            obtain ⟨rfl, _⟩ := ht
            exact .rest hk ⟨_, h6⟩⟩
        subst h
        exact absurd trivial hn
  | single _ ih =>
    intro hk
    have R := ih (.definition hk (by simp [DefinitionList.toList]))
    refine ⟨R.ends, fun evs n h => .choice (by simp [DefinitionList.toList]) (R.sound evs n h), ?_⟩
    rintro w tail hr ⟨h1, h2⟩
    cases h1 with
    | choice h3 h1 =>
      simp only [DefinitionList.toList, List.mem_singleton] at h3
      subst h3
      exact R.complete w tail hr ⟨h1, fun c t ht => .alternative (h2 c t ht) (by simp [DefinitionList.toList])⟩
  | @choice d d' l here rest o _ _ ih =>
    intro hk
    have R := ih fun d hd => .definition hk hd
    exact ⟨R.ends, R.sound, fun w tail hr h => R.complete w tail hr ⟨_, [], rfl, hk, h⟩⟩
  | @choiceFail d d' l here rest e evs n _ ih =>
    intro hk
    have R := ih fun d hd => .definition hk hd
    refine ⟨id, by simp, fun w tail hr h => ?_⟩
    obtain ⟨_, h⟩ := R.complete w tail hr ⟨_, [], rfl, hk, h⟩
    cases h
  | @first d l here rest o h1 hn ih =>
    intro hk
    have R := ih (hk d (by simp [DefinitionList.toList]))
    refine ⟨R.ends, fun evs n h => Produces.choice (l := .cons d l) (by simp [DefinitionList.toList]) (R.sound evs n h), ?_⟩
    rintro w tail hr ⟨L, pre, hL, hO, h2, h3⟩
    rw [DefinitionList.toList] at hL
    cases h2 with
    | @choice _ d' _ h4 h5 =>
      simp only [DefinitionList.toList, List.mem_cons] at h4
      rcases h4 with rfl | h4
      · exact R.complete w tail hr ⟨h5, fun c t ht => .alternative (h3 c t ht) (by simp [hL])⟩
      · exfalso
        have hp := hP.choices L hO
        rw [hL, List.pairwise_append] at hp
        obtain ⟨k1, k2, k3⟩ := (List.pairwise_cons.mp hp.2.1).1 d' h4
        cases o with
        | ok evs n =>
          have h6 := R.sound _ _ rfl
          have hl := ev_bounded_ok hb h1
          cases n with
          | zero => exact k1 h6
          | succ n =>
            subst hr
            cases w with
            | nil =>
              cases tail with
              | nil => simp at hl
              | cons c t => exact k3 h5 c ⟨_, h6⟩ (h3 c t rfl)
            | cons c w => exact k2 c ⟨_, h6⟩ ⟨_, h5⟩
        | fail e evs n => exact hn _ _ _ rfl
        | abort e => exact R.ends trivial
        | panic p => exact R.ends trivial
  | @last d here rest e evs n _ ih =>
    intro hk
    have R := ih (hk d (by simp [DefinitionList.toList]))
    refine ⟨id, by simp, ?_⟩
    rintro w tail hr ⟨L, pre, hL, hO, h2, h3⟩
    rw [DefinitionList.toList] at hL
    cases h2 with
    | @choice _ d' _ h4 h5 =>
      simp only [DefinitionList.toList, List.mem_singleton] at h4
      subst h4
      obtain ⟨_, h⟩ := R.complete w tail hr ⟨h5, fun c t ht => .alternative (h3 c t ht) (by simp [hL])⟩
      cases h
  | @other d d' l here rest e evs n o _ _ hn ih1 ih2 =>
    intro hk
    have R1 := ih1 (hk d (by simp [DefinitionList.toList]))
    have R2 := ih2 fun x hx => hk x (by rw [DefinitionList.toList]; exact List.mem_cons_of_mem _ hx)
    refine ⟨R2.ends, ?_, ?_⟩
    · intro evs n h
      have := R2.sound evs n h
      simp only [Read] at this ⊢
      cases this with
      | choice h1 h2 => exact .choice (by rw [DefinitionList.toList]; exact List.mem_cons_of_mem _ h1) h2
    · rintro w tail hr ⟨L, pre, hL, hO, h2, h3⟩
      rw [DefinitionList.toList] at hL
      cases h2 with
      | @choice _ d'' _ h4 h5 =>
        rw [DefinitionList.toList, List.mem_cons] at h4
        rcases h4 with rfl | h4
        · obtain ⟨_, h⟩ := R1.complete w tail hr ⟨h5, fun c t ht => .alternative (h3 c t ht) (by simp [hL])⟩
          cases h
        · exact R2.complete w tail hr ⟨L, pre ++ [d], by rw [hL]; simp, hO, .choice h4 h5, h3⟩
  | @otherFail d d' l here rest e evs n e' evs' n' _ _ ih1 ih2 =>
    intro hk
    have R1 := ih1 (hk d (by simp [DefinitionList.toList]))
    have R2 := ih2 fun x hx => hk x (by rw [DefinitionList.toList]; exact List.mem_cons_of_mem _ hx)
    refine ⟨id, by simp, ?_⟩
    rintro w tail hr ⟨L, pre, hL, hO, h2, h3⟩
    rw [DefinitionList.toList] at hL
    cases h2 with
    | @choice _ d'' _ h4 h5 =>
      rw [DefinitionList.toList, List.mem_cons] at h4
      rcases h4 with rfl | h4
      · obtain ⟨_, h⟩ := R1.complete w tail hr ⟨h5, fun c t ht => .alternative (h3 c t ht) (by simp [hL])⟩
        cases h
      · obtain ⟨_, h⟩ := R2.complete w tail hr ⟨L, pre ++ [d], by rw [hL]; simp, hO, .choice h4 h5, h3⟩
        cases h
  | @enough body min max guarded i here rest h =>
    intro _
    refine ⟨id, ?_, ?_⟩
    · rintro evs n ⟨⟩
      intro hm
      exact ⟨[], by simp, by simp, by have := hm _ rfl; simp; omega, by rintro m ⟨⟩ hi; simpa using hi⟩
    · rintro w tail hr ⟨ws, _, h2, _, h3, _⟩
      have := h3 _ rfl
      have : ws = [] := List.eq_nil_of_length_eq_zero (by omega)
      subst this
      subst h2
      exact ⟨_, rfl⟩
  | @round body min max guarded i here rest evs n o hm hg h1 _ ih1 ih2 =>
    intro hk
    have R1 := ih1 (placed_body hd hk.1)
    have R2 := ih2 hk
    refine ⟨?_, ?_, ?_⟩
    · have := R2.ends
      cases o <;> exact this
    · intro evs' m ho
      cases o with
      | ok es k =>
        cases ho
        intro hm'
        obtain ⟨ws, k1, k2, k3, k4⟩ := R2.sound _ _ rfl hm'
        refine ⟨rest.take n :: ws, ?_, ?_, by simp; omega, ?_⟩
        · intro x hx
          rcases List.mem_cons.mp hx with rfl | hx
          · exact read_body hk.1 (R1.sound _ _ rfl)
          · exact k1 x hx
        · rw [List.take_add, k2]; rfl
        · intro m h hi
          have := hm m h
          have := k4 m h (by omega)
          simp; omega
      | _ => cases ho
    · rintro w tail hr ⟨ws, k1, k2, k3, k4, k5, k6, k7⟩
      cases ws with
      | nil =>
        simp only [List.flatten_nil] at k2
        subst k2
        simp only [List.nil_append] at hr
        subst hr
        have hx : max ≠ some min := by
          intro h
          have := hm _ h
          simp at k3
          omega
        have hn := empty_match (read_body hk.1 (R1.sound _ _ rfl)) (ev_bounded_ok hb h1) (k7 hx)
        subst hn
        obtain ⟨es, h⟩ := R2.complete [] rest rfl ⟨[], by simp, rfl, by simp at k3 ⊢; omega, by
          intro m h; have := hm m h; simp; omega, k5, k6, k7⟩
        subst h
        exact ⟨_, rfl⟩
      | cons x ws =>
        simp only [List.flatten_cons] at k2
        subst k2
        rw [List.append_assoc] at hr
        obtain ⟨_, h⟩ := R1.complete x (ws.flatten ++ tail) hr (due_body hk.1 (k1 x (by simp)) (by
          intro c t ht
          cases hf : ws.flatten with
          | nil => rw [hf] at ht; exact k5 c t ht
          | cons c' t' =>
            rw [hf, List.cons_append, List.cons.injEq] at ht
            obtain ⟨rfl, _⟩ := ht
            refine k6 ?_ c' (first_flatten ws (fun x hx => k1 x (by simp [hx])) hf)
            intro m h
            have := k4 m h
            cases ws with
            | nil => simp at hf
            | cons _ _ => simp at this; omega))
        injection h with _ h
        subst h
        obtain ⟨es, h⟩ := R2.complete ws.flatten tail (by rw [hr]; simp) ⟨ws, fun x hx => k1 x (by simp [hx]), rfl, by simp at k3; omega, by
          intro m h; have := k4 m h; simp at this; omega, k5, k6, k7⟩
        subst h
        exact ⟨evs ++ es, by simp [Outcome.afterRound]⟩
  | @livelock body min max i here rest evs _ _ ih =>
    intro hk
    have := read_body hk.1 ((ih (placed_body hd hk.1)).sound _ _ rfl)
    exact absurd this (hk.2 rfl)
  | @lastRound body min max guarded i here rest e evs n h1 h2 _ ih =>
    intro hk
    have R := ih (placed_body hd hk.1)
    refine ⟨id, ?_, ?_⟩
    · rintro evs n ⟨⟩
      intro _
      exact ⟨[], by simp, by simp, by simpa using h2, by intro m hm hi; simpa using hi⟩
    · rintro w tail hr ⟨ws, k1, k2, k3, k4, k5, k6, k7⟩
      cases ws with
      | nil => subst k2; exact ⟨_, rfl⟩
      | cons x ws =>
        exfalso
        simp only [List.flatten_cons] at k2
        subst k2
        rw [List.append_assoc] at hr
        obtain ⟨_, h⟩ := R.complete x (ws.flatten ++ tail) hr (due_body hk.1 (k1 x (by simp)) (by
          intro c t ht
          cases hf : ws.flatten with
          | nil => rw [hf] at ht; exact k5 c t ht
          | cons c' t' =>
            rw [hf, List.cons_append, List.cons.injEq] at ht
            obtain ⟨rfl, _⟩ := ht
            refine k6 ?_ c' (first_flatten ws (fun x hx => k1 x (by simp [hx])) hf)
            intro m h
            have := k4 m h
            cases ws with
            | nil => simp at hf
            | cons _ _ => simp at this; omega))
        cases h
  | @tooFew body min max guarded i here rest e evs n h1 h2 _ ih =>
    intro hk
    have R := ih (placed_body hd hk.1)
    refine ⟨id, by simp, ?_⟩
    rintro w tail hr ⟨ws, k1, k2, k3, k4, k5, k6, k7⟩
    cases ws with
    | nil => simp at k3; omega
    | cons x ws =>
      exfalso
      simp only [List.flatten_cons] at k2
      subst k2
      rw [List.append_assoc] at hr
      obtain ⟨_, h⟩ := R.complete x (ws.flatten ++ tail) hr (due_body hk.1 (k1 x (by simp)) (by
        intro c t ht
        cases hf : ws.flatten with
        | nil => rw [hf] at ht; exact k5 c t ht
        | cons c' t' =>
          rw [hf, List.cons_append, List.cons.injEq] at ht
          obtain ⟨rfl, _⟩ := ht
          refine k6 ?_ c' (first_flatten ws (fun x hx => k1 x (by simp [hx])) hf)
          intro m h
          have := k4 m h
          cases ws with
          | nil => simp at hf
          | cons _ _ => simp at this; omega))
      cases h
  | roundStop _ _ ho ih => intro hk; exact absurd ho (ih (placed_body hd hk.1)).ends

end Ebnf
