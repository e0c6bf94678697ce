import Verif.Spec.Derivation
import Verif.Proofs.Running

set_option autoImplicit false

/-! # What is matched is derived -/

namespace Ebnf

open Spec

/-- What a match of the task says about derivations. -/
def Derived (G : Language) : Task → Str → Prop
  | .alternatives l, w => Derives G (.list l) w
  | .rounds body min max _ i, w => (∀ m, max = some m → min ≤ m) →
      ∃ ws : List Str, (∀ x ∈ ws, Derives G body x) ∧ w = ws.flatten ∧ min ≤ i + ws.length ∧
        ∀ m, max = some m → i ≤ m → i + ws.length ≤ m
  | task, w => Derives G task w

theorem derived_forward {G : Language} {name : Str} {task : Task} {w : Str} (h : ForwardTarget G name task)
    (hd : Derived G task w) : Derives G task w := by cases h <;> exact hd

theorem derives_repeated {G : Language} {loc : Location} {l : DefinitionList} : ∀ ws : List Str,
    (∀ x ∈ ws, Derives G (.list l) x) → Derives G (.primary (.repeated loc l)) ws.flatten
  | [], _ => .noMore
  | w :: ws, h => .more (h w (by simp)) (derives_repeated ws fun x hx => h x (by simp [hx]))

theorem derives_counted {G : Language} {p : Primary} : ∀ ws : List Str, (∀ x ∈ ws, Derives G (.primary p) x) →
    Derives G (.factor (.mk ws.length p)) ws.flatten
  | [], _ => .never
  | w :: ws, h => .again (h w (by simp)) (derives_counted ws fun x hx => h x (by simp [hx]))

theorem derived_body {G : Language} {body : Task} {w : Str} (hb : (∃ l, body = .list l) ∨ ∃ p, body = .primary p)
    (h : Derived G body w) : Derives G body w := by
  rcases hb with ⟨l, rfl⟩ | ⟨p, rfl⟩ <;> exact h

/-- Repetitions are of lists and primaries. -/
def FineTask : Task → Prop
  | .rounds body _ _ _ _ => (∃ l, body = .list l) ∨ ∃ p, body = .primary p
  | _ => True

theorem ev_derives {q : Quirks} {G : Language} (hq1 : q.dropAfterGroup = false) (hq2 : q.ignoreForward = false) {task : Task}
    {here : Location} {rest : Str} {o : Outcome} (h : Ev q G task here rest o) :
    FineTask task → ∀ evs n, o = .ok evs n → Derived G task (rest.take n) := by
  induction h with
  | @optional loc l here rest o _ ih =>
    rintro _ evs n rfl
    obtain ⟨ws, h1, h2, _, h4⟩ := ih (.inl ⟨_, rfl⟩) _ _ rfl (by intro m _; omega)
    have h4 := h4 1 rfl (by omega)
    rw [h2]
    cases ws with
    | nil => exact .leftOut
    | cons w ws =>
      cases ws with
      | nil => simpa [Derived] using Derives.taken (loc := loc) (h1 w (by simp))
      | cons _ _ => simp at h4
  | repeated _ ih =>
    rintro _ evs n rfl
    obtain ⟨ws, h1, h2, _⟩ := ih (.inl ⟨_, rfl⟩) _ _ rfl (by intro m _; omega)
    rw [h2]
    exact derives_repeated ws h1
  | grouped _ ih => rintro _ evs n rfl; exact Derives.grouped (ih trivial _ _ rfl)
  | empty => rintro _ evs n ⟨⟩; exact Derives.empty
  | terminal hp =>
    rintro _ evs n ⟨⟩
    rw [← List.prefix_iff_eq_take.mp hp]
    exact Derives.terminal
  | reference h1 h2 _ ih => rintro _ evs n ⟨⟩; exact Derives.reference h1 h2 (ih trivial _ _ rfl)
  | referenceStop _ _ _ ho => rintro _ evs n rfl; exact ho.elim
  | special h => rintro _ evs n ⟨⟩; exact Derives.special h
  | @forward loc s here rest name n task evs m h ht _ ih =>
    rintro _ evs n ⟨⟩
    rw [List.take_add]
    refine Derives.forward h ht (derived_forward ht (ih ?_ _ _ rfl))
    cases ht <;> trivial
  | forwardIgnored _ _ _ h => rw [hq2] at h; cases h
  | forwardStop _ _ _ ho => rintro _ evs n rfl; exact ho.elim
  | once _ ih =>
    rintro _ evs n rfl
    have := Derives.again (ih trivial _ _ rfl) (Derives.never)
    simpa [Derived] using this
  | @counted k p here rest o _ _ ih =>
    rintro _ evs n rfl
    obtain ⟨ws, h1, h2, h3, h4⟩ := ih (.inr ⟨_, rfl⟩) _ _ rfl (by rintro m ⟨⟩; omega)
    have h4 := h4 k rfl (by omega)
    rw [h2]
    have : ws.length = k := by omega
    rw [← this]
    exact derives_counted ws h1
  | plain _ ih => rintro _ evs n rfl; exact Derives.plain (ih trivial _ _ rfl)
  | exceptStop _ ho => rintro _ evs n rfl; exact ho.elim
  | notExcluded _ _ _ ih => rintro _ evs n ⟨⟩; exact Derives.except (ih trivial _ _ rfl)
  | notExcludedFail _ _ ih => rintro _ evs n ⟨⟩; exact Derives.except (ih trivial _ _ rfl)
  | excludedStop _ _ ho => rintro _ evs n rfl; exact ho.elim
  | done => rintro _ evs n ⟨⟩; exact Derives.done
  | @next t d here rest evs n o _ _ _ ih1 ih2 =>
    intro _ evs' m ho
    cases o with
    | ok es k =>
      cases ho
      rw [List.take_add]
      exact Derives.next (ih1 trivial _ _ rfl) (ih2 trivial _ _ rfl)
    | _ => cases ho
  | dropped h => rw [hq1] at h; cases h
  | nextFail _ hn => rintro _ evs n rfl; exact absurd trivial hn
  | single _ ih => rintro _ evs n rfl; exact Derives.choice (by simp [DefinitionList.toList]) (ih trivial _ _ rfl)
  | choice _ _ ih => rintro _ evs n rfl; exact ih trivial _ _ rfl
  | first _ _ ih => rintro _ evs n rfl; exact Derives.choice (by simp [DefinitionList.toList]) (ih trivial _ _ rfl)
  | other _ _ _ _ ih =>
    rintro _ evs n rfl
    have := ih trivial _ _ rfl
    simp only [Derived] at this ⊢
    cases this with
    | choice h1 h2 => exact .choice (by rw [DefinitionList.toList]; exact List.mem_cons_of_mem _ h1) h2
  | enough h =>
    rintro _ evs n ⟨⟩
    intro hm
    exact ⟨[], by simp, by simp, by have := hm _ rfl; simp; omega, by rintro m ⟨⟩ hi; simpa using hi⟩
  | @round body min max guarded i here rest evs n o h1 _ _ _ ih1 ih2 =>
    intro hb evs' m ho
    cases o with
    | ok es k =>
      cases ho
      intro hm
      obtain ⟨ws, k1, k2, k3, k4⟩ := ih2 hb _ _ rfl hm
      refine ⟨rest.take n :: ws, ?_, ?_, by simp; omega, ?_⟩
      · intro x hx
        rcases List.mem_cons.mp hx with rfl | hx
        · refine derived_body hb (ih1 ?_ _ _ rfl)
          rcases hb with ⟨_, rfl⟩ | ⟨_, rfl⟩ <;> trivial
        · exact k1 x hx
      · rw [List.take_add, k2]; rfl
      · intro m hm hi
        have := h1 m hm
        have := k4 m hm (by omega)
        simp; omega
    | _ => cases ho
  | lastRound h1 h2 =>
    rintro _ evs n ⟨⟩
    intro _
    exact ⟨[], by simp, by simp, by simpa using h2, by intro m hm hi; simpa using hi⟩
  | roundStop _ _ ho => rintro _ evs n rfl; exact ho.elim
  | _ => intro _ _ _ ho; cases ho

end Ebnf
