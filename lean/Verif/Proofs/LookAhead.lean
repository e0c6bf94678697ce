import Verif.Proofs.Predictive
import Verif.Spec.Describes

set_option autoImplicit false

/-! # Checking that one character of look-ahead decides

A table gives, for every rule, whether it may derive the empty text, with which characters its texts may begin and which characters may
follow.  `checkRules` checks the table and the conditions of `Predictive`, for grammars without special sequences in which every exception
is a terminal string. -/

namespace Ebnf

open Spec

/-- What a table says of a rule. -/
structure Row where
  nul : Bool
  first : List Char
  next : List Char

section
variable (G : Language) (tab : Str → Row)

/-- What the table says of a reference. -/
def rowOf (name : Str) : Option Row := (lookupRule G name).map fun r => tab r.metaIdentifier

mutual
def nulP : Primary → Bool
  | .optional _ _ => true
  | .repeated _ _ => true
  | .grouped _ l => nulL l
  | .metaIdentifier _ n => match rowOf G tab n with
    | some row => row.nul
    | none => false
  | .terminalString _ s => s.isEmpty
  | .specialSequence _ _ => true
  | .empty _ => true
def nulF : Factor → Bool
  | .mk k p => k == 0 || nulP p
def nulT : Term → Bool
  | .plain f => nulF f
  | .except f _ => nulF f
def nulS : SingleDefinition → Bool
  | .nil => true
  | .cons t d => nulT t && nulS d
def nulL : DefinitionList → Bool
  | .nil => false
  | .cons d l => nulS d || nulL l
end

mutual
def fstP : Primary → List Char
  | .optional _ l => fstL l
  | .repeated _ l => fstL l
  | .grouped _ l => fstL l
  | .metaIdentifier _ n => match rowOf G tab n with
    | some row => row.first
    | none => []
  | .terminalString _ s => s.take 1
  | .specialSequence _ _ => []
  | .empty _ => []
def fstF : Factor → List Char
  | .mk _ p => fstP p
def fstT : Term → List Char
  | .plain f => fstF f
  | .except f _ => fstF f
def fstS : SingleDefinition → List Char
  | .nil => []
  | .cons t d => fstT t ++ if nulT G tab t then fstS d else []
def fstL : DefinitionList → List Char
  | .nil => []
  | .cons d l => fstS d ++ fstL l
end

/-- No character is in both lists. -/
def apart (a b : List Char) : Bool := a.all fun c => !b.contains c

mutual
def chkP : Primary → List Char → Bool
  | .optional _ l, F => !nulL G tab l && apart (fstL G tab l) F && chkL l F
  | .repeated _ l, F => !nulL G tab l && apart (fstL G tab l) F && chkL l (fstL G tab l ++ F)
  | .grouped _ l, F => chkL l F
  | .metaIdentifier _ n, F => match rowOf G tab n with
    | some row => F.all fun c => row.next.contains c
    | none => false
  | .terminalString _ _, _ => true
  | .specialSequence _ _, _ => false
  | .empty _, _ => true
def chkF : Factor → List Char → Bool
  | .mk k p, F => chkP p (if 2 ≤ k then fstP G tab p ++ F else F)
def chkT : Term → List Char → Bool
  | .plain f, F => chkF f F
  | .except f x, F => chkF f F && match x with
    | .mk 1 (.terminalString _ _) => true
    | _ => false
def chkS : SingleDefinition → List Char → Bool
  | .nil, _ => true
  | .cons t d, F => chkT t (fstS G tab d ++ if nulS G tab d then F else []) && chkS d F
def chkL : DefinitionList → List Char → Bool
  | .nil, _ => true
  | .cons d l, F => (match l with
      | .nil => true
      | .cons _ _ => !nulS G tab d && apart (fstS G tab d) (fstL G tab l) && (!nulL G tab l || apart (fstS G tab d) F)) &&
    chkS d F && chkL l F
end

/-- The check. -/
def checkRules : Bool := G.rules.all fun r =>
  (!nulL G tab r.definitionList || (tab r.metaIdentifier).nul) &&
  ((fstL G tab r.definitionList).all fun c => (tab r.metaIdentifier).first.contains c) &&
  chkL G tab r.definitionList (tab r.metaIdentifier).next

end

/-- The reading of exceptions that are terminal strings. -/
def terminalExceptions (x : Factor) (w : Str) : Prop := ∃ loc, x = .mk 1 (.terminalString loc w)

theorem apart_iff {a b : List Char} : apart a b = true ↔ ∀ c ∈ a, c ∉ b := by
  simp [apart]

variable {E : Factor → Str → Prop} {G : Language} {tab : Str → Row}

def nulOf (G : Language) (tab : Str → Row) : Task → Bool
  | .primary p => nulP G tab p
  | .factor f => nulF G tab f
  | .term t => nulT G tab t
  | .sequence d => nulS G tab d
  | .list l => nulL G tab l
  | _ => true

def fstOf (G : Language) (tab : Str → Row) : Task → List Char
  | .primary p => fstP G tab p
  | .factor f => fstF G tab f
  | .term t => fstT G tab t
  | .sequence d => fstS G tab d
  | .list l => fstL G tab l
  | _ => []

def chkOf (G : Language) (tab : Str → Row) : Task → List Char → Bool
  | .primary p, F => chkP G tab p F
  | .factor f, F => chkF G tab f F
  | .term t, F => chkT G tab t F
  | .sequence d, F => chkS G tab d F
  | .list l, F => chkL G tab l F
  | _, _ => true

theorem nulL_mem {d : SingleDefinition} : ∀ {l : DefinitionList}, d ∈ l.toList → nulS G tab d = true → nulL G tab l = true
  | .nil, h, _ => by simp [DefinitionList.toList] at h
  | .cons d' l, h, hn => by
    simp only [DefinitionList.toList, List.mem_cons] at h
    rcases h with rfl | h
    · simp [nulL, hn]
    · simp [nulL, nulL_mem h hn]

theorem fstL_mem {d : SingleDefinition} {c : Char} : ∀ {l : DefinitionList}, d ∈ l.toList → c ∈ fstS G tab d → c ∈ fstL G tab l
  | .nil, h, _ => by simp [DefinitionList.toList] at h
  | .cons d' l, h, hn => by
    simp only [DefinitionList.toList, List.mem_cons] at h
    rcases h with rfl | h
    · simp [fstL, hn]
    · simp [fstL, fstL_mem h hn]

/-- What is derived begins as computed. -/
def Begun (G : Language) (tab : Str → Row) (task : Task) (w : Str) : Prop :=
  (w = [] → nulOf G tab task = true) ∧ ∀ c t, w = c :: t → c ∈ fstOf G tab task

theorem begun_map {task task' : Task} {w : Str} (h1 : nulOf G tab task = true → nulOf G tab task' = true)
    (h2 : ∀ c ∈ fstOf G tab task, c ∈ fstOf G tab task') (h : Begun G tab task w) : Begun G tab task' w :=
  ⟨fun hw => h1 (h.1 hw), fun c t hw => h2 c (h.2 c t hw)⟩

/-- Occurs, whatever the count. -/
def Seen (G : Language) : Task → Prop
  | .factor (.mk _ p) => Occurs G (.primary p)
  | task => Occurs G task

theorem seen_factor {f : Factor} (h : Occurs G (.factor f)) : Seen G (.factor f) := by
  cases f; exact .primary h

theorem checked_rule (hc : checkRules G tab = true) {r : SyntaxRule} (hr : r ∈ G.rules) :
    (nulL G tab r.definitionList = true → (tab r.metaIdentifier).nul = true) ∧
    (∀ c ∈ fstL G tab r.definitionList, c ∈ (tab r.metaIdentifier).first) ∧
    chkL G tab r.definitionList (tab r.metaIdentifier).next = true := by
  have := List.all_eq_true.mp hc r hr
  simp only [Bool.and_eq_true, Bool.or_eq_true, Bool.not_eq_true', List.all_eq_true, List.contains_iff_mem] at this
  refine ⟨fun h => ?_, this.1.2, this.2⟩
  rcases this.1.1 with h' | h'
  · rw [h] at h'; cases h'
  · exact h'

/-- The lists computed for parts. -/
inductive Assigned (G : Language) (tab : Str → Row) : Task → List Char → Prop
  | rule {r} : r ∈ G.rules → Assigned G tab (.list r.definitionList) (tab r.metaIdentifier).next
  | definition {l d F} : Assigned G tab (.list l) F → d ∈ l.toList → Assigned G tab (.sequence d) F
  | first {t d F} : Assigned G tab (.sequence (.cons t d)) F → Assigned G tab (.term t) (fstS G tab d ++ if nulS G tab d then F else [])
  | later {t d F} : Assigned G tab (.sequence (.cons t d)) F → Assigned G tab (.sequence d) F
  | plain {f F} : Assigned G tab (.term (.plain f)) F → Assigned G tab (.factor f) F
  | base {f x F} : Assigned G tab (.term (.except f x)) F → Assigned G tab (.factor f) F
  | exception {f x F} : Assigned G tab (.term (.except f x)) F → Assigned G tab (.factor x) []
  | primary {k p F} : Assigned G tab (.factor (.mk k p)) F → Assigned G tab (.primary p) (if 2 ≤ k then fstP G tab p ++ F else F)
  | optional {loc l F} : Assigned G tab (.primary (.optional loc l)) F → Assigned G tab (.list l) F
  | repeated {loc l F} : Assigned G tab (.primary (.repeated loc l)) F → Assigned G tab (.list l) (fstL G tab l ++ F)
  | grouped {loc l F} : Assigned G tab (.primary (.grouped loc l)) F → Assigned G tab (.list l) F

theorem occurs_assigned {task : Task} (h : Occurs G task) : ∃ F, Assigned G tab task F := by
  induction h with
  | rule h => exact ⟨_, .rule h⟩
  | definition _ hd ih => exact ih.elim fun F h => ⟨_, .definition h hd⟩
  | first _ ih => exact ih.elim fun F h => ⟨_, .first h⟩
  | later _ ih => exact ih.elim fun F h => ⟨_, .later h⟩
  | plain _ ih => exact ih.elim fun F h => ⟨_, .plain h⟩
  | base _ ih => exact ih.elim fun F h => ⟨_, .base h⟩
  | exception _ ih => exact ih.elim fun F h => ⟨_, .exception h⟩
  | primary _ ih => exact ih.elim fun F h => ⟨_, .primary h⟩
  | optional _ ih => exact ih.elim fun F h => ⟨_, .optional h⟩
  | repeated _ ih => exact ih.elim fun F h => ⟨_, .repeated h⟩
  | grouped _ ih => exact ih.elim fun F h => ⟨_, .grouped h⟩

theorem assigned_occurs {task : Task} {F : List Char} (h : Assigned G tab task F) : Occurs G task := by
  induction h with
  | rule h => exact .rule h
  | definition _ hd ih => exact .definition ih hd
  | first _ ih => exact .first ih
  | later _ ih => exact .later ih
  | plain _ ih => exact .plain ih
  | base _ ih => exact .base ih
  | exception _ ih => exact .exception ih
  | primary _ ih => exact .primary ih
  | optional _ ih => exact .optional ih
  | repeated _ ih => exact .repeated ih
  | grouped _ ih => exact .grouped ih

theorem chkL_mem {d : SingleDefinition} {F : List Char} : ∀ {l : DefinitionList}, chkL G tab l F = true → d ∈ l.toList →
    chkS G tab d F = true
  | .nil, _, h => by simp [DefinitionList.toList] at h
  | .cons d' l, h, hd => by
    unfold chkL at h
    rw [Bool.and_eq_true, Bool.and_eq_true] at h
    simp only [DefinitionList.toList, List.mem_cons] at hd
    rcases hd with rfl | hd
    · exact h.1.2
    · exact chkL_mem h.2 hd

theorem assigned_checked (hc : checkRules G tab = true) {task : Task} {F : List Char} (h : Assigned G tab task F) :
    chkOf G tab task F = true := by
  induction h with
  | rule h => exact (checked_rule hc h).2.2
  | definition _ hd ih => exact chkL_mem ih hd
  | first _ ih => simp only [chkOf, chkS, Bool.and_eq_true] at ih ⊢; exact ih.1
  | later _ ih => simp only [chkOf, chkS, Bool.and_eq_true] at ih ⊢; exact ih.2
  | plain _ ih => simpa only [chkOf, chkT] using ih
  | base _ ih => simp only [chkOf, chkT, Bool.and_eq_true] at ih ⊢; exact ih.1
  | @exception f x F _ ih =>
    simp only [chkOf, chkT, Bool.and_eq_true] at ih ⊢
    obtain ⟨_, ih⟩ := ih
    obtain ⟨k, p⟩ := x
    cases p with
    | terminalString => simp [chkF, chkP]
    | _ => simp at ih
  | primary _ ih => simpa only [chkOf, chkF] using ih
  | optional _ ih => simp only [chkOf, chkP, Bool.and_eq_true] at ih ⊢; exact ih.2
  | repeated _ ih => simp only [chkOf, chkP, Bool.and_eq_true] at ih ⊢; exact ih.2
  | grouped _ ih => simpa only [chkOf, chkP] using ih

theorem checked_exception (hc : checkRules G tab = true) {f x : Factor} (h : Occurs G (.term (.except f x))) :
    ∃ loc s, x = .mk 1 (.terminalString loc s) := by
  obtain ⟨F, h⟩ := occurs_assigned (tab := tab) h
  have := assigned_checked hc h
  simp only [chkOf, chkT, Bool.and_eq_true] at this
  obtain ⟨_, this⟩ := this
  split at this
  · exact ⟨_, _, rfl⟩
  · cases this

theorem checked_special (hc : checkRules G tab = true) {loc : Location} {s : Str} : ¬ Occurs G (.primary (.specialSequence loc s)) := by
  intro h
  obtain ⟨F, h⟩ := occurs_assigned (tab := tab) h
  have := assigned_checked hc h
  simp [chkOf, chkP] at this

theorem checked_defined (hc : checkRules G tab = true) {loc : Location} {n : Str} (h : Occurs G (.primary (.metaIdentifier loc n))) :
    Defines G.rules n := by
  obtain ⟨F, h⟩ := occurs_assigned (tab := tab) h
  have := assigned_checked hc h
  simp only [chkOf, chkP, rowOf] at this
  cases hl : lookupRule G n with
  | none => rw [hl] at this; simp at this
  | some r => exact ⟨r, (lookup_some hl).1, (lookup_some hl).2⟩

theorem produces_begun (U : OneMeaning G) (hc : checkRules G tab = true) {task : Task} {w : Str} (h : Produces E G task w) :
    Seen G task → Begun G tab task w := by
  have nil : ∀ {task}, nulOf G tab task = true → Begun G tab task [] := fun h => ⟨fun _ => h, by intro _ _ h; cases h⟩
  induction h with
  | empty => intro _; exact nil rfl
  | @terminal loc s =>
    intro _
    refine ⟨?_, ?_⟩
    · rintro rfl; rfl
    · rintro c t rfl; simp [fstOf, fstP]
  | @reference loc name r w h1 h2 _ ih =>
    intro _
    have hr : rowOf G tab name = some (tab r.metaIdentifier) := by rw [rowOf, lookup_eq U h1 h2]; rfl
    obtain ⟨k1, k2, _⟩ := checked_rule hc h1
    refine begun_map ?_ ?_ (ih (.rule h1))
    · intro h; simp only [nulOf, nulP, hr]; exact k1 h
    · intro c hc; simp only [fstOf, fstP, hr]; exact k2 c hc
  | leftOut => intro _; exact nil rfl
  | taken _ ih => intro hk; exact begun_map (fun _ => rfl) (fun _ h => by simpa [fstOf, fstP] using h) (ih (.optional hk))
  | noMore => intro _; exact nil rfl
  | @more loc l w w' _ _ ih1 ih2 =>
    intro hk
    have B1 := ih1 (.repeated hk)
    have B2 := ih2 hk
    refine ⟨fun _ => rfl, ?_⟩
    intro c t hw
    cases w with
    | nil => exact B2.2 c t hw
    | cons c' w =>
      simp only [List.cons_append, List.cons.injEq] at hw
      obtain ⟨rfl, _⟩ := hw
      simpa [fstOf, fstP] using B1.2 c' w rfl
  | grouped _ ih =>
    intro hk
    exact begun_map (by simp [nulOf, nulP]) (fun _ h => by simpa [fstOf, fstP] using h) (ih (.grouped hk))
  | special => intro hk; exact absurd hk (checked_special hc)
  | never => intro _; exact nil rfl
  | @again k p w w' _ _ ih1 ih2 =>
    intro hk
    have B1 := ih1 hk
    have B2 := ih2 hk
    refine ⟨?_, ?_⟩
    · intro hw
      obtain ⟨rfl, rfl⟩ := List.append_eq_nil_iff.mp hw
      have h := B1.1 rfl
      simp only [nulOf] at h
      simp [nulOf, nulF, h]
    · intro c t hw
      cases w with
      | nil =>
        have h := B2.2 c t hw
        simpa only [fstOf, fstF] using h
      | cons c' w =>
        simp only [List.cons_append, List.cons.injEq] at hw
        obtain ⟨rfl, _⟩ := hw
        have h := B1.2 c' w rfl
        simpa only [fstOf, fstF] using h
  | plain _ ih =>
    intro hk
    exact begun_map (by simp [nulOf, nulT]) (fun _ h => by simpa [fstOf, fstT] using h) (ih (seen_factor (.plain hk)))
  | except _ _ ih =>
    intro hk
    exact begun_map (by simp [nulOf, nulT]) (fun _ h => by simpa [fstOf, fstT] using h) (ih (seen_factor (.base hk)))
  | done => intro _; exact nil rfl
  | @next t d w w' _ _ ih1 ih2 =>
    intro hk
    have B1 := ih1 (.first hk)
    have B2 := ih2 (.later hk)
    refine ⟨?_, ?_⟩
    · intro hw
      obtain ⟨rfl, rfl⟩ := List.append_eq_nil_iff.mp hw
      have := B1.1 rfl
      have := B2.1 rfl
      simp_all [nulOf, nulS]
    · intro c t' hw
      cases w with
      | nil =>
        have h1 := B1.1 rfl
        have h2 := B2.2 c t' hw
        simp only [nulOf, fstOf] at h1 h2
        simp [fstOf, fstS, h1, h2]
      | cons c' w =>
        simp only [List.cons_append, List.cons.injEq] at hw
        obtain ⟨rfl, _⟩ := hw
        have h1 := B1.2 c' w rfl
        simp only [fstOf] at h1
        simp [fstOf, fstS, h1]
  | choice hd _ ih =>
    intro hk
    exact begun_map (task := .sequence _) (fun h => nulL_mem hd h) (fun _ h => fstL_mem hd h) (ih (.definition hk hd))

theorem first_mem (U : OneMeaning G) (hc : checkRules G tab = true) {task : Task} {c : Char} (h : First E G task c) (hs : Seen G task) :
    c ∈ fstOf G tab task := h.elim fun w h => (produces_begun U hc h hs).2 c w rfl

theorem nul_true (U : OneMeaning G) (hc : checkRules G tab = true) {task : Task} (h : Produces E G task []) (hs : Seen G task) :
    nulOf G tab task = true := (produces_begun U hc h hs).1 rfl

theorem next_assigned (U : OneMeaning G) (hc : checkRules G tab = true) {task : Task} {c : Char} (h : Next E G task c) :
    ∃ F, Assigned G tab task F ∧ c ∈ F := by
  induction h with
  | @rest t d c ho hf =>
    obtain ⟨F, h⟩ := occurs_assigned (tab := tab) ho
    refine ⟨_, .first h, List.mem_append_left _ ?_⟩
    exact first_mem (task := .sequence d) U hc hf (.later ho)
  | @round loc l c ho hf =>
    obtain ⟨F, h⟩ := occurs_assigned (tab := tab) ho
    refine ⟨_, .repeated h, List.mem_append_left _ ?_⟩
    exact first_mem (task := .list l) U hc hf (.repeated ho)
  | @again k p c ho h2 hf =>
    obtain ⟨F, h⟩ := occurs_assigned (tab := tab) ho
    refine ⟨_, .primary h, ?_⟩
    rw [if_pos h2]
    refine List.mem_append_left _ ?_
    exact first_mem (task := .primary p) U hc hf (.primary ho)
  | @skip t d c _ hn ih =>
    obtain ⟨F, h, hm⟩ := ih
    have hs := nul_true (task := .sequence d) U hc hn (.later (assigned_occurs h))
    simp only [nulOf] at hs
    refine ⟨_, .first h, List.mem_append_right _ ?_⟩
    rw [if_pos hs]
    exact hm
  | tail _ ih => exact ih.elim fun F h => ⟨F, .later h.1, h.2⟩
  | alternative _ hd ih => exact ih.elim fun F h => ⟨F, .definition h.1 hd, h.2⟩
  | @reference loc name r c _ h1 h2 ih =>
    obtain ⟨F, h, hm⟩ := ih
    have := assigned_checked hc h
    simp only [chkOf, chkP, rowOf, lookup_eq U h1 h2, Option.map_some, List.all_eq_true, List.contains_iff_mem] at this
    exact ⟨_, .rule h1, this c hm⟩
  | optional _ ih => exact ih.elim fun F h => ⟨F, .optional h.1, h.2⟩
  | repeated _ ih => exact ih.elim fun F h => ⟨_, .repeated h.1, List.mem_append_right _ h.2⟩
  | grouped _ ih => exact ih.elim fun F h => ⟨F, .grouped h.1, h.2⟩
  | @primary k p c _ ih =>
    obtain ⟨F, h, hm⟩ := ih
    refine ⟨_, .primary h, ?_⟩
    by_cases h2 : 2 ≤ k
    · rw [if_pos h2]; exact List.mem_append_right _ hm
    · rw [if_neg h2]; exact hm
  | plain _ ih => exact ih.elim fun F h => ⟨F, .plain h.1, h.2⟩
  | except _ ih => exact ih.elim fun F h => ⟨F, .base h.1, h.2⟩

/-- The condition on two alternatives. -/
def Distinct (E : Factor → Str → Prop) (G : Language) (L : DefinitionList) (d d' : SingleDefinition) : Prop :=
  ¬ Produces E G (.sequence d) [] ∧ (∀ c, First E G (.sequence d) c → ¬ First E G (.sequence d') c) ∧
    (Produces E G (.sequence d') [] → ∀ c, First E G (.sequence d) c → ¬ Next E G (.list L) c)

theorem chkL_distinct (U : OneMeaning G) (hc : checkRules G tab = true) (L : DefinitionList) (hO : Occurs G (.list L)) :
    ∀ l : DefinitionList, (∀ d ∈ l.toList, d ∈ L.toList) → (∀ F, Assigned G tab (.list L) F → chkL G tab l F = true) →
    l.toList.Pairwise (Distinct E G L)
  | .nil, _, _ => .nil
  | .cons d .nil, _, _ => by simp [DefinitionList.toList]
  | .cons d (.cons d' l), hm, h => by
    have hd : Occurs G (.sequence d) := .definition hO (hm d (by simp [DefinitionList.toList]))
    rw [DefinitionList.toList, List.pairwise_cons]
    refine ⟨?_, chkL_distinct U hc L hO (.cons d' l) (fun x hx => hm x (by rw [DefinitionList.toList]; exact List.mem_cons_of_mem _ hx))
      fun F hF => ?_⟩
    · intro x hx
      have hx' : Occurs G (.sequence x) := .definition hO (hm x (by rw [DefinitionList.toList]; exact List.mem_cons_of_mem _ hx))
      have key : ∀ F, Assigned G tab (.list L) F → nulS G tab d = false ∧ (∀ c ∈ fstS G tab d, c ∉ fstL G tab (.cons d' l)) ∧
          (nulL G tab (.cons d' l) = true → ∀ c ∈ fstS G tab d, c ∉ F) := by
        intro F hF
        have := h F hF
        unfold chkL at this
        simp only [Bool.and_eq_true, Bool.not_eq_true', Bool.or_eq_true] at this
        obtain ⟨⟨⟨⟨h1, h2⟩, h3⟩, _⟩, _⟩ := this
        refine ⟨h1, apart_iff.mp h2, fun hn => ?_⟩
        rcases h3 with h3 | h3
        · rw [hn] at h3; cases h3
        · exact apart_iff.mp h3
      obtain ⟨F, hF⟩ := occurs_assigned (tab := tab) hO
      refine ⟨?_, ?_, ?_⟩
      · intro hp
        have := nul_true (task := .sequence d) U hc hp hd
        simp only [nulOf] at this
        rw [(key F hF).1] at this
        cases this
      · intro c h1 h2
        exact (key F hF).2.1 c (first_mem (task := .sequence d) U hc h1 hd)
          (fstL_mem hx (first_mem (task := .sequence x) U hc h2 hx'))
      · intro hp c h1 h2
        obtain ⟨F, hF, hcF⟩ := next_assigned (tab := tab) U hc h2
        exact (key F hF).2.2 (nulL_mem hx (nul_true (task := .sequence x) U hc hp hx')) c
          (first_mem (task := .sequence d) U hc h1 hd) hcF
    · have := h F hF
      unfold chkL at this
      simp only [Bool.and_eq_true] at this
      exact this.2

/-- The check is sound. -/
theorem predictive_of_check (U : OneMeaning G) (hc : checkRules G tab = true) : Predictive E G where
  choices L hO := chkL_distinct (tab := tab) U hc L hO L (fun _ h => h) fun F hF => assigned_checked hc hF
  optionals loc l hO c hf hn := by
    obtain ⟨F, hF, hcF⟩ := next_assigned (tab := tab) U hc hn
    have := assigned_checked hc hF
    simp only [chkOf, chkP, Bool.and_eq_true] at this
    exact apart_iff.mp this.1.2 c (first_mem (task := .list l) U hc hf (.optional hO)) hcF
  repeats loc l hO := by
    refine ⟨fun hp => ?_, fun c hf hn => ?_⟩
    · obtain ⟨F, hF⟩ := occurs_assigned (tab := tab) hO
      have := assigned_checked hc hF
      simp only [chkOf, chkP, Bool.and_eq_true, Bool.not_eq_true'] at this
      have h := nul_true (task := .list l) U hc hp (.repeated hO)
      simp only [nulOf] at h
      rw [this.1.1] at h
      cases h
    · obtain ⟨F, hF, hcF⟩ := next_assigned (tab := tab) U hc hn
      have := assigned_checked hc hF
      simp only [chkOf, chkP, Bool.and_eq_true] at this
      exact apart_iff.mp this.1.2 c (first_mem (task := .list l) U hc hf (.repeated hO)) hcF
  specials loc s hO := absurd hO (checked_special hc)

theorem unambiguous_of_check (U : OneMeaning G) (hc : checkRules G tab = true) : Unambiguous E G where
  optionals loc l hO hp := by
    obtain ⟨F, hF⟩ := occurs_assigned (tab := tab) hO
    have := assigned_checked hc hF
    simp only [chkOf, chkP, Bool.and_eq_true, Bool.not_eq_true'] at this
    have h := nul_true (task := .list l) U hc hp (.optional hO)
    simp only [nulOf] at h
    rw [this.1.1] at h
    cases h
  specials loc s hO := absurd hO (checked_special hc)

/-- Exceptions that are terminal strings are read as such. -/
theorem fits_of_check (hc : checkRules G tab = true) : FitsExceptions terminalExceptions G := by
  intro f x hO w
  obtain ⟨loc, s, rfl⟩ := checked_exception hc hO
  constructor
  · rintro ⟨_, h⟩
    cases h
    have := Produces.again (E := terminalExceptions) (G := G) (k := 0) (.terminal (loc := loc) (s := w)) .never
    rwa [List.append_nil] at this
  · intro h
    obtain ⟨ws, h1, h2, h3⟩ := counted_reads h _ _ rfl
    match ws, h3 with
    | [x], _ =>
      have := h1 x (by simp)
      cases this
      exact ⟨loc, by simp [h2]⟩

end Ebnf
