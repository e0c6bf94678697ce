import Verif.Proofs.Alike
import Verif.Proofs.Display
import Verif.Proofs.Running

set_option autoImplicit false

/-! # Alike grammars: symmetry, renaming, moving -/

namespace Ebnf

open Spec

/-! ## Symmetry -/

/-- The converse correspondence. -/
def swap (K : Correspondence) : Correspondence :=
  ⟨fun a b => K.name b a, fun l s l' s' => K.special l' s' l s, fun a b => K.place b a, fun a b => K.shown b a⟩

section
variable {K : Correspondence} {G G' : Language}

mutual
theorem AlikePrimary.swap {p p' : Primary} (h : AlikePrimary K p p') : AlikePrimary (swap K) p' p := by
  cases h with
  | optional h => exact .optional (AlikeList.swap h)
  | repeated h => exact .repeated (AlikeList.swap h)
  | grouped h => exact .grouped (AlikeList.swap h)
  | metaIdentifier h h' => exact .metaIdentifier h h'
  | terminalString h => exact .terminalString h
  | specialSequence h h' => exact .specialSequence h h'
  | empty => exact .empty
theorem AlikeFactor.swap {p p' : Factor} (h : AlikeFactor K p p') : AlikeFactor (swap K) p' p := by
  cases h with
  | mk h => exact .mk (AlikePrimary.swap h)
theorem AlikeTerm.swap {p p' : Term} (h : AlikeTerm K p p') : AlikeTerm (swap K) p' p := by
  cases h with
  | plain h => exact .plain (AlikeFactor.swap h)
  | except h h' => exact .except (AlikeFactor.swap h) (AlikeFactor.swap h')
theorem AlikeSingle.swap {p p' : SingleDefinition} (h : AlikeSingle K p p') : AlikeSingle (swap K) p' p := by
  cases h with
  | nil => exact .nil
  | cons h h' => exact .cons (AlikeTerm.swap h) (AlikeSingle.swap h')
theorem AlikeList.swap {p p' : DefinitionList} (h : AlikeList K p p') : AlikeList (swap K) p' p := by
  cases h with
  | nil => exact .nil
  | cons h h' => exact .cons (AlikeSingle.swap h) (AlikeList.swap h')
end

theorem AlikeEvent.swap {e e' : Event} (h : AlikeEvent K e e') : AlikeEvent (swap K) e' e := by
  cases h with
  | token h => exact .token h
  | begin h h' => exact .begin h h'
  | «end» h h' => exact .end h h'

theorem AlikeEvents.swap {es es' : List Event} (h : AlikeEvents K es es') : AlikeEvents (Ebnf.swap K) es' es := by
  induction h with
  | nil => exact .nil
  | cons h _ ih => exact .cons (AlikeEvent.swap h) ih

theorem AlikeError.swap {e e' : Error} (h : AlikeError K e e') : AlikeError (Ebnf.swap K) e' e := by
  refine ⟨h.1.symm, ?_⟩
  replace h := h.2
  cases e; cases e'
  simp only at h
  cases h with
  | same => exact .same
  | expected h => exact .expected h
  | forwardUndefined h h' h'' => exact .forwardUndefined h h' h''

theorem AlikeResult.swap {x x' : Res (List Event)} (h : AlikeResult K x x') : AlikeResult (Ebnf.swap K) x' x := by
  cases h with
  | ok h => exact .ok (AlikeEvents.swap h)
  | err h => exact .err (AlikeError.swap h)
  | panic => exact .panic

theorem AlikeReaction.swap {rules rules' : List SyntaxRule} {x x' : Recognition} (h : AlikeReaction K rules rules' x x') :
    AlikeReaction (Ebnf.swap K) rules' rules x' x := by
  cases h with
  | accept h => exact .accept (AlikeEvents.swap h)
  | unmatched => exact .unmatched
  | error h => exact .error (AlikeError.swap h)
  | forward h h' =>
    exact .forward (fun r hr r' hr' hn => ⟨(h r' hr' r hr hn).1.symm, (h r' hr' r hr hn).2.symm⟩) h'

theorem _root_.Ebnf.Spec.AlikeGrammars.swap (A : AlikeGrammars K G G') : AlikeGrammars (Ebnf.swap K) G' G where
  names h h' := (A.names h h').symm
  rules r hr := by
    obtain ⟨r', h1, h0, h2, h3⟩ := A.rules' r hr
    exact ⟨r', h1, h0, h2, AlikeList.swap h3⟩
  rules' r hr := by
    obtain ⟨r', h1, h0, h2, h3⟩ := A.rules r hr
    exact ⟨r', h1, h0, h2, AlikeList.swap h3⟩
  specials := by
    intro l s l' s' h
    obtain ⟨h1, h2⟩ := A.specials h
    exact ⟨h1, fun here rest => AlikeReaction.swap (h2 here rest)⟩

theorem ShownAlike.swap (H : ShownAlike K G G') : ShownAlike (Ebnf.swap K) G' G where
  terminal := H.terminal
  list h := H.list (AlikeList.swap h)
  term h := H.term (AlikeTerm.swap h)

variable {dbg : Bool}

/-- Parsers of alike grammars return alike results, and both return or both do not. -/
theorem returns_alike (A : AlikeGrammars K G G') (H : ShownAlike K G G') (hw : K.shown "EOF".toList "EOF".toList)
    {start start' : SyntaxRule} (hl : K.place start.location start'.location) (hs : K.name start.metaIdentifier start'.metaIdentifier) {m m' : Machine} (hm : ParserFor dbg G start m)
    (hm' : ParserFor dbg G' start' m') {r : Reader} {here : Location} {text : Str} (hi : InputAt dbg r here text) :
    (∀ x, Returns m r x → ∃ x', Returns m' r x' ∧ AlikeResult K x x') ∧
    (∀ x', Returns m' r x' → ∃ x, Returns m r x ∧ AlikeResult K x x') := by
  constructor
  · intro x h
    obtain ⟨x', h1, h2⟩ := parses_alike A H hw hl hs ((returns_iff hm hi _).mp h)
    exact ⟨x', (returns_iff hm' hi _).mpr h1, h2⟩
  · intro x' h
    obtain ⟨x, h1, h2⟩ := parses_alike A.swap H.swap hw (show (Ebnf.swap K).place _ _ from hl) (show (Ebnf.swap K).name _ _ from hs) ((returns_iff hm' hi _).mp h)
    exact ⟨x, (returns_iff hm hi _).mpr h1, AlikeResult.swap h2⟩

theorem shown_any (h : ∀ a b, K.shown a b) : ShownAlike K G G' := ⟨fun _ => h _ _, fun _ => h _ _, fun _ => h _ _⟩

end

/-! ## Renaming -/

/-- Names with the property `P` are renamed. -/
def renamingBy (P : Str → Prop) (ρ : Str → Str) : Correspondence :=
  ⟨fun a b => P a ∧ b = ρ a, fun l s l' s' => l = l' ∧ s = s', Eq, fun _ _ => True⟩

mutual
theorem renamed_primary {P : Str → Prop} (ρ : Str → Str) (p : Primary) (h : ∀ l n, .metaIdentifier l n ∈ primariesIn p → P n) :
    AlikePrimary (renamingBy P ρ) p (renamePrimary ρ p) := by
  cases p with
  | optional l d => exact .optional (renamed_list ρ d fun l n hn => h l n (by simp [primariesIn, hn]))
  | repeated l d => exact .repeated (renamed_list ρ d fun l n hn => h l n (by simp [primariesIn, hn]))
  | grouped l d => exact .grouped (renamed_list ρ d fun l n hn => h l n (by simp [primariesIn, hn]))
  | metaIdentifier l n => exact .metaIdentifier rfl ⟨h l n (by simp [primariesIn]), rfl⟩
  | terminalString l s => exact .terminalString rfl
  | specialSequence l s => exact .specialSequence rfl ⟨rfl, rfl⟩
  | empty l => exact .empty
theorem renamed_factor {P : Str → Prop} (ρ : Str → Str) (p : Factor) (h : ∀ l n, .metaIdentifier l n ∈ primariesOfFactor p → P n) :
    AlikeFactor (renamingBy P ρ) p (renameFactor ρ p) := by
  cases p with
  | mk k p => exact .mk (renamed_primary ρ p h)
theorem renamed_term {P : Str → Prop} (ρ : Str → Str) (p : Term) (h : ∀ l n, .metaIdentifier l n ∈ primariesOfTerm p → P n) :
    AlikeTerm (renamingBy P ρ) p (renameTerm ρ p) := by
  cases p with
  | plain f => exact .plain (renamed_factor ρ f h)
  | except f x =>
    exact .except (renamed_factor ρ f fun l n hn => h l n (List.mem_append_left _ hn))
      (renamed_factor ρ x fun l n hn => h l n (List.mem_append_right _ hn))
theorem renamed_single {P : Str → Prop} (ρ : Str → Str) (p : SingleDefinition)
    (h : ∀ l n, .metaIdentifier l n ∈ primariesOfSingle p → P n) :
    AlikeSingle (renamingBy P ρ) p (renameSingle ρ p) := by
  cases p with
  | nil => exact .nil
  | cons t d =>
    exact .cons (renamed_term ρ t fun l n hn => h l n (List.mem_append_left _ hn))
      (renamed_single ρ d fun l n hn => h l n (List.mem_append_right _ hn))
theorem renamed_list {P : Str → Prop} (ρ : Str → Str) (p : DefinitionList)
    (h : ∀ l n, .metaIdentifier l n ∈ primariesOfList p → P n) :
    AlikeList (renamingBy P ρ) p (renameList ρ p) := by
  cases p with
  | nil => exact .nil
  | cons t d =>
    exact .cons (renamed_single ρ t fun l n hn => h l n (List.mem_append_left _ hn))
      (renamed_list ρ d fun l n hn => h l n (List.mem_append_right _ hn))
end

theorem renamed_rule (ρ : Str → Str) {rules : List SyntaxRule} {r : SyntaxRule} (h : r ∈ rules) :
    AlikeRule (renamingBy (Mentioned rules) ρ) r (renameRule ρ r) :=
  ⟨rfl, ⟨⟨r, h, .inl rfl⟩, rfl⟩, renamed_list ρ _ fun l n hn => ⟨r, h, .inr ⟨l, hn⟩⟩⟩

/-! ## Moving -/

/-- Only places differ. -/
def moving : Correspondence := ⟨Eq, fun _ s _ s' => s = s', fun _ _ => True, Eq⟩

mutual
theorem moved_primary {f e : Location → Location} (p p' : Primary) (h : mapPrimary f e p' = mapPrimary f e p) :
    AlikePrimary moving p p' := by
  cases p with
  | optional l d =>
    cases p' with
    | optional l' d' => simp only [mapPrimary, Primary.optional.injEq] at h; exact .optional (moved_list d d' h.2)
    | _ => simp [mapPrimary] at h
  | repeated l d =>
    cases p' with
    | repeated l' d' => simp only [mapPrimary, Primary.repeated.injEq] at h; exact .repeated (moved_list d d' h.2)
    | _ => simp [mapPrimary] at h
  | grouped l d =>
    cases p' with
    | grouped l' d' => simp only [mapPrimary, Primary.grouped.injEq] at h; exact .grouped (moved_list d d' h.2)
    | _ => simp [mapPrimary] at h
  | metaIdentifier l n =>
    cases p' with
    | metaIdentifier l' n' => simp only [mapPrimary, Primary.metaIdentifier.injEq] at h; exact .metaIdentifier trivial h.2.symm
    | _ => simp [mapPrimary] at h
  | terminalString l n =>
    cases p' with
    | terminalString l' n' =>
      simp only [mapPrimary, Primary.terminalString.injEq] at h
      obtain ⟨_, rfl⟩ := h
      exact .terminalString trivial
    | _ => simp [mapPrimary] at h
  | specialSequence l n =>
    cases p' with
    | specialSequence l' n' => simp only [mapPrimary, Primary.specialSequence.injEq] at h; exact .specialSequence trivial h.2.symm
    | _ => simp [mapPrimary] at h
  | empty l =>
    cases p' with
    | empty l' => exact .empty
    | _ => simp [mapPrimary] at h
theorem moved_factor {f e : Location → Location} (p p' : Factor) (h : mapFactor f e p' = mapFactor f e p) :
    AlikeFactor moving p p' := by
  cases p with
  | mk k p =>
    cases p' with
    | mk k' p' =>
      simp only [mapFactor, Factor.mk.injEq] at h
      obtain ⟨rfl, h⟩ := h
      exact .mk (moved_primary p p' h)
theorem moved_term {f e : Location → Location} (p p' : Term) (h : mapTerm f e p' = mapTerm f e p) :
    AlikeTerm moving p p' := by
  cases p with
  | plain x =>
    cases p' with
    | plain x' => simp only [mapTerm, Term.plain.injEq] at h; exact .plain (moved_factor x x' h)
    | _ => simp [mapTerm] at h
  | except x y =>
    cases p' with
    | except x' y' => simp only [mapTerm, Term.except.injEq] at h; exact .except (moved_factor x x' h.1) (moved_factor y y' h.2)
    | _ => simp [mapTerm] at h
theorem moved_single {f e : Location → Location} (p p' : SingleDefinition) (h : mapSingle f e p' = mapSingle f e p) :
    AlikeSingle moving p p' := by
  cases p with
  | nil =>
    cases p' with
    | nil => exact .nil
    | _ => simp [mapSingle] at h
  | cons t d =>
    cases p' with
    | cons t' d' => simp only [mapSingle, SingleDefinition.cons.injEq] at h; exact .cons (moved_term t t' h.1) (moved_single d d' h.2)
    | _ => simp [mapSingle] at h
theorem moved_list {f e : Location → Location} (p p' : DefinitionList) (h : mapList f e p' = mapList f e p) :
    AlikeList moving p p' := by
  cases p with
  | nil =>
    cases p' with
    | nil => exact .nil
    | _ => simp [mapList] at h
  | cons t d =>
    cases p' with
    | cons t' d' => simp only [mapList, DefinitionList.cons.injEq] at h; exact .cons (moved_single t t' h.1) (moved_list d d' h.2)
    | _ => simp [mapList] at h
end

theorem moved_rule {r r' : SyntaxRule} (h : forgetLocations r' = forgetLocations r) : AlikeRule moving r r' := by
  simp only [forgetLocations, mapRule, SyntaxRule.mk.injEq] at h
  exact ⟨trivial, h.2.1.symm, moved_list _ _ h.2.2⟩

mutual
theorem AlikePrimary.forgotten {p p' : Primary} (h : AlikePrimary moving p p') :
    mapPrimary (fun _ => nowhere) (fun _ => nowhere) p = mapPrimary (fun _ => nowhere) (fun _ => nowhere) p' := by
  cases h with
  | optional h => simp [mapPrimary, AlikeList.forgotten h]
  | repeated h => simp [mapPrimary, AlikeList.forgotten h]
  | grouped h => simp [mapPrimary, AlikeList.forgotten h]
  | metaIdentifier _ h => simp [mapPrimary, show _ = _ from h]
  | terminalString _ => rfl
  | specialSequence _ h => simp [mapPrimary, show _ = _ from h]
  | empty => rfl
theorem AlikeFactor.forgotten {p p' : Factor} (h : AlikeFactor moving p p') :
    mapFactor (fun _ => nowhere) (fun _ => nowhere) p = mapFactor (fun _ => nowhere) (fun _ => nowhere) p' := by
  cases h with
  | mk h => simp [mapFactor, AlikePrimary.forgotten h]
theorem AlikeTerm.forgotten {p p' : Term} (h : AlikeTerm moving p p') :
    mapTerm (fun _ => nowhere) (fun _ => nowhere) p = mapTerm (fun _ => nowhere) (fun _ => nowhere) p' := by
  cases h with
  | plain h => simp [mapTerm, AlikeFactor.forgotten h]
  | except h h' => simp [mapTerm, AlikeFactor.forgotten h, AlikeFactor.forgotten h']
theorem AlikeSingle.forgotten {p p' : SingleDefinition} (h : AlikeSingle moving p p') :
    mapSingle (fun _ => nowhere) (fun _ => nowhere) p = mapSingle (fun _ => nowhere) (fun _ => nowhere) p' := by
  cases h with
  | nil => rfl
  | cons h h' => simp [mapSingle, AlikeTerm.forgotten h, AlikeSingle.forgotten h']
theorem AlikeList.forgotten {p p' : DefinitionList} (h : AlikeList moving p p') :
    mapList (fun _ => nowhere) (fun _ => nowhere) p = mapList (fun _ => nowhere) (fun _ => nowhere) p' := by
  cases h with
  | nil => rfl
  | cons h h' => simp [mapList, AlikeSingle.forgotten h, AlikeList.forgotten h']
end

section
variable {G G' : Language} (hn : ∀ l l' s, G.specialName l s = G'.specialName l' s)
include hn

mutual
theorem name_moved_primary {p p' : Primary} (h : AlikePrimary moving p p') : nameOfPrimary G p = nameOfPrimary G' p' := by
  have hd : p.display = p'.display := by
    rw [← display_map_primary (fun _ => nowhere) (fun _ => nowhere) p, AlikePrimary.forgotten h, display_map_primary]
  cases h with
  | optional h => simpa [nameOfPrimary] using hd
  | repeated h => simpa [nameOfPrimary] using hd
  | grouped h => simp [nameOfPrimary, name_moved_list h]
  | metaIdentifier _ h => simp [nameOfPrimary, show _ = _ from h]
  | terminalString _ => rfl
  | specialSequence _ h => cases h; exact hn _ _ _
  | empty => rfl
theorem name_moved_factor {p p' : Factor} (h : AlikeFactor moving p p') : nameOfFactor G p = nameOfFactor G' p' := by
  have hd : p.display = p'.display := by
    rw [← display_map_factor (fun _ => nowhere) (fun _ => nowhere) p, AlikeFactor.forgotten h, display_map_factor]
  cases h with
  | mk h => simp only [nameOfFactor, name_moved_primary h, hd]
theorem name_moved_term {p p' : Term} (h : AlikeTerm moving p p') : nameOfTerm G p = nameOfTerm G' p' := by
  have hd : p.display = p'.display := by
    rw [← display_map_term (fun _ => nowhere) (fun _ => nowhere) p, AlikeTerm.forgotten h, display_map_term]
  cases h with
  | plain h => simp only [nameOfTerm, name_moved_factor h]
  | except h h' => simpa [nameOfTerm] using hd
theorem name_moved_single {p p' : SingleDefinition} (h : AlikeSingle moving p p') : nameOfSingle G p = nameOfSingle G' p' := by
  cases h with
  | nil => rfl
  | cons h h' => simp only [nameOfSingle, name_moved_term h]
theorem names_moved_list {p p' : DefinitionList} (h : AlikeList moving p p') : namesOfList G p = namesOfList G' p' := by
  cases h with
  | nil => rfl
  | cons h h' => simp only [namesOfList, name_moved_single h, names_moved_list h']
theorem name_moved_list {p p' : DefinitionList} (h : AlikeList moving p p') : nameOfList G p = nameOfList G' p' := by
  cases h with
  | nil => rfl
  | cons h h' =>
    cases h' with
    | nil => simp only [nameOfList, name_moved_single h]
    | cons h1 h2 => simp only [nameOfList, name_moved_single h, name_moved_single h1, names_moved_list h2]
end

theorem shown_moved : ShownAlike moving G G' where
  terminal _ := rfl
  list h := name_moved_list hn h
  term h := by rw [← display_map_term (fun _ => nowhere) (fun _ => nowhere), AlikeTerm.forgotten h, display_map_term]; exact rfl
end

theorem mem_forgotten {rules rules' : List SyntaxRule} (h : rules'.map forgetLocations = rules.map forgetLocations) {r : SyntaxRule}
    (hr : r ∈ rules) : ∃ r' ∈ rules', forgetLocations r' = forgetLocations r := by
  have : forgetLocations r ∈ rules'.map forgetLocations := by rw [h]; exact List.mem_map_of_mem hr
  obtain ⟨r', h1, h2⟩ := List.mem_map.mp this
  exact ⟨r', h1, h2⟩

/-! ## Results as functions -/

theorem events_renamed {P : Str → Prop} {ρ : Str → Str} {es es' : List Event} (h : AlikeEvents (renamingBy P ρ) es es') :
    es' = es.map (renameEvent ρ) := by
  induction h with
  | nil => rfl
  | cons h _ ih =>
    rw [ih, List.map_cons]
    congr 1
    cases h with
    | token h => cases h; rfl
    | begin h h' => cases h; rw [h'.2]; rfl
    | «end» h h' => cases h; rw [h'.2]; rfl

theorem tokens_alike {K : Correspondence} (hp : ∀ l, K.place l l) {es : List Event} (h : ∀ e ∈ es, IsToken e) : AlikeEvents K es es := by
  induction es with
  | nil => exact .nil
  | cons e es ih =>
    refine .cons ?_ (ih fun e he => h e (List.mem_cons_of_mem _ he))
    have := h e (List.mem_cons_self ..)
    cases e with
    | token d l s => exact .token (hp _)
    | begin d l s => exact this.elim
    | «end» d l s => exact this.elim

theorem events_moved {es es' : List Event} : AlikeEvents moving es es' ↔ es.map placeless = es'.map placeless := by
  constructor
  · intro h
    induction h with
    | nil => rfl
    | cons h _ ih =>
      rw [List.map_cons, List.map_cons, ih]
      congr 1
      cases h with
      | token => rfl
      | begin _ h' => cases h'; rfl
      | «end» _ h' => cases h'; rfl
  · intro h
    induction es generalizing es' with
    | nil =>
      cases es' with
      | nil => exact .nil
      | cons => simp at h
    | cons e es ih =>
      cases es' with
      | nil => simp at h
      | cons e' es' =>
        rw [List.map_cons, List.map_cons] at h
        injection h with h1 h2
        refine .cons ?_ (ih h2)
        cases e <;> cases e' <;> simp only [placeless, reduceCtorEq, Event.token.injEq, Event.begin.injEq, Event.end.injEq, true_and] at h1
        · obtain ⟨rfl, rfl⟩ := h1; exact .token trivial
        · obtain ⟨rfl, h1⟩ := h1; exact .begin trivial h1
        · obtain ⟨rfl, h1⟩ := h1; exact .end trivial h1

theorem error_moved {e e' : Error} : AlikeError moving e e' ↔ placelessError e = placelessError e' := by
  obtain ⟨l, m⟩ := e
  obtain ⟨l', m'⟩ := e'
  constructor
  · rintro ⟨h1, h2⟩
    simp only at h1 h2
    cases h1
    cases h2 with
    | same => rfl
    | expected h => cases h; rfl
    | forwardUndefined h h' _ => cases h; cases h'; rfl
  · intro h
    have h1 := congrArg Error.location h
    simp only [placelessError] at h1
    refine ⟨h1, ?_⟩
    have h2 := congrArg Error.msg h
    simp only [placelessError] at h2
    cases m <;> cases m' <;> simp only [reduceCtorEq] at h2
    case forwardUndefined.forwardUndefined a b c d e f =>
      simp only [Msg.forwardUndefined.injEq, and_true] at h2
      exact .forwardUndefined h2.1 h2.2 trivial
    all_goals
      first
      | exact .same
      | (rw [h2]; exact .same)

theorem result_moved {x x' : Res (List Event)} (h : AlikeResult moving x x') : placelessResult x = placelessResult x' := by
  cases h with
  | ok h => simp only [placelessResult, events_moved.mp h]
  | err h => simp only [placelessResult, error_moved.mp h]
  | panic => rfl

theorem reaction_moved {rules rules' : List SyntaxRule} {x x' : Recognition} (h : placelessReaction x = placelessReaction x') :
    AlikeReaction moving rules rules' x x' := by
  cases x <;> cases x' <;> simp only [placelessReaction, reduceCtorEq, Recognition.accept.injEq, Recognition.forward.injEq, Recognition.error.injEq] at h
  · obtain ⟨h, rfl⟩ := h; exact .accept (events_moved.mpr h)
  · exact .unmatched
  · obtain ⟨rfl, rfl⟩ := h
    exact .forward (fun r _ r' _ hn => by rw [show r.metaIdentifier = r'.metaIdentifier from hn]; exact ⟨Iff.rfl, Iff.rfl⟩) rfl
  · exact .error (error_moved.mpr h)

end Ebnf
