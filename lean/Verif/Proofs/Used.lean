import Verif.Spec.Used
import Verif.Proofs.Running
import Verif.Proofs.Errors

set_option autoImplicit false

/-! # Rules that are not used -/

namespace Ebnf

open Spec

variable {dbg : Bool}

mutual
theorem nameOfPrimary_same {rules rules' : List SyntaxRule} {sp : Location → Str → Recognizer} {sn : Location → Str → Str} :
    ∀ p, nameOfPrimary ⟨rules, sp, sn⟩ p = nameOfPrimary ⟨rules', sp, sn⟩ p
  | .optional _ _ => rfl
  | .repeated _ _ => rfl
  | .grouped _ d => by simp only [nameOfPrimary]; exact nameOfList_same d
  | .metaIdentifier _ _ => rfl
  | .terminalString _ _ => rfl
  | .specialSequence _ _ => rfl
  | .empty _ => rfl
theorem nameOfFactor_same {rules rules' : List SyntaxRule} {sp : Location → Str → Recognizer} {sn : Location → Str → Str} :
    ∀ f, nameOfFactor ⟨rules, sp, sn⟩ f = nameOfFactor ⟨rules', sp, sn⟩ f
  | .mk n p => by
    simp only [nameOfFactor]
    rw [nameOfPrimary_same (rules' := rules') p]
theorem nameOfTerm_same {rules rules' : List SyntaxRule} {sp : Location → Str → Recognizer} {sn : Location → Str → Str} :
    ∀ t, nameOfTerm ⟨rules, sp, sn⟩ t = nameOfTerm ⟨rules', sp, sn⟩ t
  | .plain f => by simp only [nameOfTerm]; exact nameOfFactor_same f
  | .except _ _ => rfl
theorem nameOfSingle_same {rules rules' : List SyntaxRule} {sp : Location → Str → Recognizer} {sn : Location → Str → Str} :
    ∀ d, nameOfSingle ⟨rules, sp, sn⟩ d = nameOfSingle ⟨rules', sp, sn⟩ d
  | .nil => rfl
  | .cons t _ => by simp only [nameOfSingle]; exact nameOfTerm_same t
theorem namesOfList_same {rules rules' : List SyntaxRule} {sp : Location → Str → Recognizer} {sn : Location → Str → Str} :
    ∀ l, namesOfList ⟨rules, sp, sn⟩ l = namesOfList ⟨rules', sp, sn⟩ l
  | .nil => rfl
  | .cons d l => by
    simp only [namesOfList]
    rw [nameOfSingle_same (rules' := rules') d, namesOfList_same (rules' := rules') l]
theorem nameOfList_same {rules rules' : List SyntaxRule} {sp : Location → Str → Recognizer} {sn : Location → Str → Str} :
    ∀ l, nameOfList ⟨rules, sp, sn⟩ l = nameOfList ⟨rules', sp, sn⟩ l
  | .nil => rfl
  | .cons d .nil => by simp only [nameOfList]; exact nameOfSingle_same d
  | .cons d (.cons d' l) => by
    simp only [nameOfList]
    rw [nameOfSingle_same (rules' := rules') d, nameOfSingle_same (rules' := rules') d', namesOfList_same (rules' := rules') l]
end

/-- Two languages agree on what the condition `K` lets one refer to. -/
structure Agree (K : Local) (rules rules' : List SyntaxRule) (sp : Location → Str → Recognizer) (sn : Location → Str → Str) : Prop where
  refs : ∀ l n, K.primary (.metaIdentifier l n) → ∀ r, SameName r.metaIdentifier n → (r ∈ rules ↔ r ∈ rules')
  bodies : ∀ l n, K.primary (.metaIdentifier l n) → ∀ r ∈ rules, SameName r.metaIdentifier n → EveryList K r.definitionList
  targets : ∀ l s, K.primary (.specialSequence l s) → ∀ here rest name n, sp l s l here rest = .forward name n →
    ∀ task, (ForwardTarget ⟨rules, sp, sn⟩ name task ↔ ForwardTarget ⟨rules', sp, sn⟩ name task) ∧
      (ForwardTarget ⟨rules, sp, sn⟩ name task → EveryTask K task)

theorem Agree.symm {K : Local} {rules rules' : List SyntaxRule} {sp : Location → Str → Recognizer} {sn : Location → Str → Str}
    (A : Agree K rules rules' sp sn) : Agree K rules' rules sp sn where
  refs l n hk r hs := (A.refs l n hk r hs).symm
  bodies l n hk r hr hs := A.bodies l n hk r ((A.refs l n hk r hs).mpr hr) hs
  targets l s hk here rest name n hf task :=
    ⟨(A.targets l s hk here rest name n hf task).1.symm,
      fun h => (A.targets l s hk here rest name n hf task).2 ((A.targets l s hk here rest name n hf task).1.mpr h)⟩

theorem ev_agree {K : Local} {rules rules' : List SyntaxRule} {sp : Location → Str → Recognizer} {sn : Location → Str → Str}
    (A : Agree K rules rules' sp sn) {q : Quirks} {task : Task} {here : Location} {rest : Str} {o : Outcome}
    (h : Ev q ⟨rules, sp, sn⟩ task here rest o) : EveryTask K task → Ev q ⟨rules', sp, sn⟩ task here rest o := by
  induction h with
  | optional _ ih =>
    intro hk
    simp only [EveryTask, EveryPrimary] at hk
    exact .optional (ih ⟨hk.2, .inl ⟨_, rfl⟩⟩)
  | repeated _ ih =>
    intro hk
    simp only [EveryTask, EveryPrimary] at hk
    exact .repeated (ih ⟨hk.2, .inl ⟨_, rfl⟩⟩)
  | grouped _ ih =>
    intro hk
    simp only [EveryTask, EveryPrimary] at hk
    exact .grouped (ih hk.2)
  | empty => intro _; exact .empty
  | terminal h => intro _; exact .terminal h
  | terminalFail h => intro _; exact .terminalFail h
  | reference h1 h2 _ ih => intro hk; exact .reference ((A.refs _ _ hk _ h2).mp h1) h2 (ih (A.bodies _ _ hk _ h1 h2))
  | referenceFail h1 h2 _ ih => intro hk; exact .referenceFail ((A.refs _ _ hk _ h2).mp h1) h2 (ih (A.bodies _ _ hk _ h1 h2))
  | referenceStop h1 h2 _ h3 ih => intro hk; exact .referenceStop ((A.refs _ _ hk _ h2).mp h1) h2 (ih (A.bodies _ _ hk _ h1 h2)) h3
  | referenceUndefined h =>
    intro hk
    exact .referenceUndefined fun r h1 h2 => h r ((A.refs _ _ hk _ h2).mpr h1) h2
  | special h => intro _; exact .special h
  | specialFail h => intro _; exact .specialFail h
  | specialError h => intro _; exact .specialError h
  | forward h1 h2 _ ih =>
    intro hk
    have := fun t => A.targets _ _ hk _ _ _ _ h1 t
    exact .forward h1 ((this _).1.mp h2) (ih ((this _).2 h2))
  | forwardFail h1 h2 _ h3 ih =>
    intro hk
    have := fun t => A.targets _ _ hk _ _ _ _ h1 t
    exact .forwardFail h1 ((this _).1.mp h2) (ih ((this _).2 h2)) h3
  | forwardIgnored h1 h2 _ h3 ih =>
    intro hk
    have := fun t => A.targets _ _ hk _ _ _ _ h1 t
    exact .forwardIgnored h1 ((this _).1.mp h2) (ih ((this _).2 h2)) h3
  | forwardStop h1 h2 _ h3 ih =>
    intro hk
    have := fun t => A.targets _ _ hk _ _ _ _ h1 t
    exact .forwardStop h1 ((this _).1.mp h2) (ih ((this _).2 h2)) h3
  | forwardUndefined h1 h2 =>
    intro hk
    exact .forwardUndefined (G := ⟨rules', sp, sn⟩) h1 fun t ht => h2 t ((A.targets _ _ hk _ _ _ _ h1 t).1.mpr ht)
  | once _ ih => intro hk; exact .once (ih hk.2)
  | counted h _ ih => intro hk; exact .counted h (ih ⟨hk.2, .inr ⟨_, rfl⟩⟩)
  | plain _ ih => intro hk; exact .plain (ih hk)
  | exceptFail _ ih => intro hk; exact .exceptFail (ih hk.1)
  | exceptStop _ h ih => intro hk; exact .exceptStop (ih hk.1) h
  | excluded _ _ ih1 ih2 => intro hk; exact .excluded (ih1 hk.1) (ih2 hk.2)
  | notExcluded _ _ h ih1 ih2 => intro hk; exact .notExcluded (ih1 hk.1) (ih2 hk.2) h
  | notExcludedFail _ _ ih1 ih2 => intro hk; exact .notExcludedFail (ih1 hk.1) (ih2 hk.2)
  | excludedStop _ _ h ih1 ih2 => intro hk; exact .excludedStop (ih1 hk.1) (ih2 hk.2) h
  | done => intro _; exact .done
  | next h _ _ ih1 ih2 => intro hk; exact .next h (ih1 hk.2.1) (ih2 hk.2.2)
  | dropped h1 h2 _ ih => intro hk; exact .dropped h1 h2 (ih hk.2.1)
  | nextFail _ h ih => intro hk; exact .nextFail (ih hk.2.1) h
  | single _ ih => intro hk; exact .single (ih hk.1)
  | choice _ h ih => intro hk; exact .choice (ih hk) h
  | choiceFail _ ih =>
    intro hk
    rw [nameOfList_same (rules' := rules')]
    exact .choiceFail (ih hk)
  | first _ h ih => intro hk; exact .first (ih hk.1) h
  | last _ ih => intro hk; exact .last (ih hk.1)
  | other _ _ h ih1 ih2 => intro hk; exact .other (ih1 hk.1) (ih2 hk.2) h
  | otherFail _ _ ih1 ih2 => intro hk; exact .otherFail (ih1 hk.1) (ih2 hk.2)
  | enough h => intro _; exact .enough h
  | round h1 h2 _ _ ih1 ih2 => intro hk; exact .round h1 h2 (ih1 hk.1) (ih2 hk)
  | livelock h _ ih => intro hk; exact .livelock h (ih hk.1)
  | lastRound h1 h2 _ ih => intro hk; exact .lastRound h1 h2 (ih hk.1)
  | tooFew h1 h2 _ ih => intro hk; exact .tooFew h1 h2 (ih hk.1)
  | roundStop h1 _ h2 ih => intro hk; exact .roundStop h1 (ih hk.1) h2

theorem parses_agree {K : Local} {rules rules' : List SyntaxRule} {sp : Location → Str → Recognizer} {sn : Location → Str → Str}
    (A : Agree K rules rules' sp sn) {q : Quirks} {start : SyntaxRule} (hk : K.primary (.metaIdentifier start.location start.metaIdentifier))
    {here : Location} {text : Str} {x : Res (List Event)} (h : Parses q ⟨rules, sp, sn⟩ start here text x) :
    Parses q ⟨rules', sp, sn⟩ start here text x := by
  cases h with
  | accepted h1 h2 => exact .accepted (ev_agree A h1 hk) h2
  | leftover h1 h2 => exact .leftover (ev_agree A h1 hk) h2
  | rejected h1 => exact .rejected (ev_agree A h1 hk)
  | aborted h1 => exact .aborted (ev_agree A h1 hk)
  | crashed h1 => exact .crashed (ev_agree A h1 hk)

/-- What may be met on the way from the start rule: the primaries of rules that are used, and references that lead to one. -/
def onTheWay (G : Language) (start : SyntaxRule) : Local :=
  { primary := fun p => (∃ r, Used G start r ∧ p ∈ primariesOfList r.definitionList) ∨
      ∃ r, r ∈ G.rules ∧ Used G start r ∧ p = .metaIdentifier r.location r.metaIdentifier }

theorem agree_used {rules rules' : List SyntaxRule} {sp : Location → Str → Recognizer} {sn : Location → Str → Str}
    (U : OneMeaning ⟨rules, sp, sn⟩) (U' : OneMeaning ⟨rules', sp, sn⟩) {start : SyntaxRule}
    (hu : ∀ r, Used ⟨rules, sp, sn⟩ start r → r ∈ rules') (hd : StaysUndefined ⟨rules, sp, sn⟩ start rules') :
    Agree (onTheWay ⟨rules, sp, sn⟩ start) rules rules' sp sn := by
  have body : ∀ {r}, Used ⟨rules, sp, sn⟩ start r → EveryList (onTheWay ⟨rules, sp, sn⟩ start) r.definitionList :=
    fun h => everyList_of _ fun x hx => .inl ⟨_, h, hx⟩
  have reach : ∀ l n, (onTheWay ⟨rules, sp, sn⟩ start).primary (.metaIdentifier l n) → ∀ r ∈ rules, SameName r.metaIdentifier n →
      Used ⟨rules, sp, sn⟩ start r := by
    rintro l n (⟨r0, h1, h2⟩ | ⟨r0, h0, h1, h2⟩) r hr hs
    · exact .reference h1 h2 hr hs
    · cases h2
      rw [U.rule r hr r0 h0 _ hs (.refl _)]
      exact h1
  have target : ∀ l s, (onTheWay ⟨rules, sp, sn⟩ start).primary (.specialSequence l s) → ∀ here rest name n,
      sp l s l here rest = .forward name n → ∀ task, ForwardTarget ⟨rules, sp, sn⟩ name task →
      ForwardTarget ⟨rules', sp, sn⟩ name task ∧ EveryTask (onTheWay ⟨rules, sp, sn⟩ start) task := by
    rintro l s (⟨r0, h1, h2⟩ | ⟨_, _, _, h2⟩) here rest name n hf task ht
    · cases ht with
      | rule h3 h4 =>
        have := Used.forward (G := ⟨rules, sp, sn⟩) h1 h2 hf h3 (.inl h4)
        exact ⟨.rule (hu _ this) h4, body this⟩
      | marked h3 h4 =>
        have := Used.forward (G := ⟨rules, sp, sn⟩) h1 h2 hf h3 (.inr h4)
        exact ⟨.marked (hu _ this) h4, .inr ⟨_, h3, this, rfl⟩⟩
    · cases h2
  refine ⟨fun l n hk r hs => ⟨fun hr => hu _ (reach l n hk r hr hs), fun hr => ?_⟩, fun l n hk r hr hs => body (reach l n hk r hr hs),
    fun l s hk here rest name n hf task => ⟨⟨fun ht => (target l s hk here rest name n hf task ht).1, fun ht => ?_⟩,
      fun ht => (target l s hk here rest name n hf task ht).2⟩⟩
  · have : Defines rules n := by
      rcases hk with ⟨r0, h1, h2⟩ | ⟨r0, h0, h1, h2⟩
      · exact hd.reference r0 h1 l n h2 ⟨r, hr, hs⟩
      · cases h2; exact ⟨r0, h0, .refl _⟩
    obtain ⟨r1, h1, h2⟩ := this
    rw [U'.rule r hr r1 (hu _ (reach l n hk r1 h1 h2)) n hs h2]
    exact h1
  · have key : ∃ r' ∈ rules, SameName r'.metaIdentifier name ∨ SameName ('$' :: r'.metaIdentifier) name := by
      rcases hk with ⟨r0, h1, h2⟩ | ⟨_, _, _, h2⟩
      · refine hd.forward r0 h1 l s h2 here rest name n hf ?_
        cases ht with
        | rule h3 h4 => exact ⟨_, h3, .inl h4⟩
        | marked h3 h4 => exact ⟨_, h3, .inr h4⟩
      · cases h2
    have : ∃ t, ForwardTarget ⟨rules, sp, sn⟩ name t := by
      obtain ⟨r', h1, h2 | h2⟩ := key
      · exact ⟨_, .rule h1 h2⟩
      · exact ⟨_, .marked h1 h2⟩
    obtain ⟨t, h1⟩ := this
    rw [U'.forward name task t ht (target l s hk here rest name n hf t h1).1]
    exact h1

end Ebnf
