import Verif.Proofs.Errors

set_option autoImplicit false

/-! # What the messages say -/

namespace Ebnf

open Spec

/-- Parts of the grammar, references to rules, and the steps in between. -/
def Known (G : Language) : Task → Prop
  | .primary (.metaIdentifier _ _) => True
  | .alternatives l => ∀ d ∈ l.toList, Occurs G (.sequence d)
  | .rounds body _ _ _ _ => (∃ l, body = .list l ∧ Occurs G body) ∨ ∃ p, body = .primary p ∧ Occurs G body
  | task => Occurs G task

theorem known_primary {G : Language} {p : Primary} (h : Occurs G (.primary p)) : Known G (.primary p) := by
  cases p <;> first | trivial | exact h

theorem known_body {G : Language} {body : Task}
    (h : (∃ l, body = .list l ∧ Occurs G body) ∨ ∃ p, body = .primary p ∧ Occurs G body) : Known G body := by
  rcases h with ⟨l, rfl, h⟩ | ⟨p, rfl, h⟩
  · exact h
  · exact known_primary h

/-- A failure is about a place of the text; what stops the parse says "expected" only if a scanner says so. -/
def Tells (G : Language) (here : Location) (rest : Str) : Outcome → Prop
  | .fail e _ _ => ∃ pre post name, rest = pre ++ post ∧ e = expectedAt name (lineColumn here pre) post ∧
      Unmet G (lineColumn here pre) post name
  | .abort e => ∀ name actual, e.msg = .expected name actual → ∃ l s d here rest, G.special l s d here rest = .error e
  | _ => True

theorem tells_drop {G : Language} {here : Location} {rest : Str} {n : Nat} {e : Error} {evs evs' : List Event} {k k' : Nat}
    (h : Tells G (lineColumn here (rest.take n)) (rest.drop n) (.fail e evs k)) : Tells G here rest (.fail e evs' k') := by
  obtain ⟨pre, post, name, h3, h4, h5⟩ := h
  refine ⟨rest.take n ++ pre, post, name, ?_, ?_, ?_⟩
  · rw [List.append_assoc, ← h3, List.take_append_drop]
  · rw [← lineColumn_append]; exact h4
  · rw [← lineColumn_append]; exact h5

theorem tells_swap {G : Language} {here : Location} {rest : Str} {e : Error} {evs evs' : List Event} {n n' : Nat}
    (h : Tells G here rest (.fail e evs n)) : Tells G here rest (.fail e evs' n') := h

theorem tells_stop {G : Language} {here here' : Location} {rest rest' : Str} {o : Outcome} (ho : o.IsStop) (h : Tells G here rest o) :
    Tells G here' rest' o := by
  cases o with
  | ok => exact ho.elim
  | fail => exact ho.elim
  | abort e => exact h
  | panic p => trivial

theorem tells_here {G : Language} {here : Location} {rest : Str} {name : Str} {evs : List Event} {n : Nat} (h : Unmet G here rest name) :
    Tells G here rest (.fail (expectedAt name here rest) evs n) :=
  ⟨[], rest, name, rfl, by rw [lineColumn_nil], by rw [lineColumn_nil]; exact h⟩

/-- All alternatives were tried. -/
theorem alternatives_failed {q : Quirks} {G : Language} {task : Task} {here : Location} {rest : Str} {o : Outcome}
    (h : Ev q G task here rest o) : ∀ l e evs n, task = .alternatives l → o = .fail e evs n →
      ∀ d ∈ l.toList, ∃ e evs n, Ev q G (.sequence d) here rest (.fail e evs n) := by
  induction h with
  | first _ hn => intro l e evs n _ ho; exact absurd ho (hn e evs n)
  | last h =>
    intro l e evs n ht _ d hd
    cases ht
    simp only [DefinitionList.toList, List.mem_singleton] at hd
    subst hd
    exact ⟨_, _, _, h⟩
  | other _ _ hn => intro l e evs n _ ho; exact absurd ho (hn e evs n)
  | otherFail h _ _ ih =>
    intro l e evs n ht _ d hd
    cases ht
    simp only [DefinitionList.toList, List.mem_cons] at hd
    rcases hd with rfl | hd
    · exact ⟨_, _, _, h⟩
    · exact ih _ _ _ _ rfl rfl d (by simpa [DefinitionList.toList] using hd)
  | _ => intro l e evs n ht _; cases ht

theorem ev_tells {G : Language} {task : Task} {here : Location} {rest : Str} {o : Outcome}
    (h : Ev asBuilt G task here rest o) : Known G task → Tells G here rest o := by
  have fwd : ∀ {name task}, ForwardTarget G name task → Known G task := by
    intro name task h
    cases h with
    | rule h1 _ => exact .rule h1
    | marked h1 _ => trivial
  induction h with
  | optional _ ih => intro hk; exact ih (.inl ⟨_, rfl, .optional hk⟩)
  | repeated _ ih => intro hk; exact ih (.inl ⟨_, rfl, .repeated hk⟩)
  | grouped _ ih => intro hk; exact ih (.grouped hk)
  | terminalFail h => intro hk; exact tells_here (.terminal hk h)
  | referenceFail h _ _ ih => intro _; exact tells_swap (ih (.rule h))
  | referenceStop h _ _ _ ih => intro _; exact ih (.rule h)
  | specialFail h => intro hk; exact tells_here (.special hk h)
  | specialError h =>
    intro _ name actual _
    exact ⟨_, _, _, _, _, h⟩
  | forwardFail _ ht _ hq _ => cases hq
  | forwardStop _ ht _ ho ih => intro _; exact tells_stop ho (ih (fwd ht))
  | forwardUndefined =>
    intro _ name actual hm
    cases hm
  | once _ ih => intro hk; exact ih (known_primary (.primary hk))
  | counted _ _ ih => intro hk; exact ih (.inr ⟨_, rfl, .primary hk⟩)
  | plain _ ih => intro hk; exact ih (.plain hk)
  | exceptFail _ ih => intro hk; exact tells_swap (ih (.base hk))
  | exceptStop _ _ ih => intro hk; exact ih (.base hk)
  | excluded h1 h2 => intro hk; exact tells_here (.excluded hk h1 h2)
  | excludedStop _ _ hs _ ih =>
    intro hk
    exact tells_stop hs (ih (.exception hk))
  | @next t d here rest evs n o _ _ _ _ ih =>
    intro hk
    have h := ih (.later hk)
    cases o with
    | ok => trivial
    | fail => exact tells_drop h
    | abort => exact h
    | panic => trivial
  | nextFail _ _ ih => intro hk; exact ih (.first hk)
  | single _ ih => intro hk; exact ih (.definition hk (by simp [DefinitionList.toList]))
  | choice _ _ ih => intro hk; exact ih fun d hd => .definition hk hd
  | @choiceFail d d' l here rest e evs n h ih =>
    intro hk
    by_cases hl : e.location = here
    · rw [if_pos hl]
      exact tells_here (.choice hk (by simp [DefinitionList.toList]) (alternatives_failed h _ _ _ _ rfl rfl))
    · rw [if_neg hl]
      exact tells_swap (ih fun d hd => .definition hk hd)
  | first _ _ ih => intro hk; exact ih (hk _ (by simp [DefinitionList.toList]))
  | last _ ih => intro hk; exact tells_swap (ih (hk _ (by simp [DefinitionList.toList])))
  | other _ _ _ _ ih => intro hk; exact ih fun d hd => hk d (by rw [DefinitionList.toList]; exact List.mem_cons_of_mem _ hd)
  | @otherFail d d' l here rest e evs n e' evs' n' _ _ ih1 ih2 =>
    intro hk
    unfold laterError
    by_cases hl : e'.location.lt e.location = true
    · rw [if_pos hl]; exact tells_swap (ih1 (hk _ (by simp [DefinitionList.toList])))
    · rw [if_neg hl]
      exact tells_swap (ih2 fun d hd => hk d (by rw [DefinitionList.toList]; exact List.mem_cons_of_mem _ hd))
  | @round body min max guarded i here rest evs n o _ _ _ _ _ ih =>
    intro hk
    have h := ih hk
    cases o with
    | ok => trivial
    | fail => exact tells_drop h
    | abort => exact h
    | panic => trivial
  | livelock =>
    intro _ name actual hm
    cases hm
  | tooFew _ _ _ ih => intro hk; exact tells_swap (ih (known_body hk))
  | roundStop _ _ _ ih => intro hk; exact ih (known_body hk)
  | _ => intro _; trivial

theorem fail_truthful {G : Language} {start : SyntaxRule} {here : Location} {text : Str} {e : Error} {evs : List Event} {n : Nat}
    (h : Ev asBuilt G (.primary (.metaIdentifier start.location start.metaIdentifier)) here text (.fail e evs n)) :
    Truthful G start here text e := by
  obtain ⟨pre, post, name, h1, rfl, h3⟩ := ev_tells h trivial
  exact .unmet h1 h3

theorem leftover_truthful {G : Language} {start : SyntaxRule} {here : Location} {text : Str} {evs : List Event} {n : Nat}
    (h : Ev asBuilt G (.primary (.metaIdentifier start.location start.metaIdentifier)) here text (.ok evs n)) (hn : n < text.length) :
    Truthful G start here text (expectedAt "EOF".toList (lineColumn here (text.take n)) (text.drop n)) := by
  refine .eof (evs := evs) (List.take_append_drop n text).symm ?_ ?_
  · intro hd
    have := congrArg List.length hd
    simp at this
    omega
  · rw [List.length_take, Nat.min_eq_left (by omega)]; exact h

theorem parses_tells {G : Language} {start : SyntaxRule} {here : Location} {text : Str} {e : Error} {name : Str} {actual : Actual}
    (h : Parses asBuilt G start here text (.err e)) (he : e.msg = .expected name actual) :
    (∃ l s d here rest, G.special l s d here rest = .error e) ∨ Truthful G start here text e := by
  generalize hx : Res.err e = x at h
  cases h with
  | accepted => cases hx
  | leftover h1 h2 => cases hx; exact .inr (leftover_truthful h1 h2)
  | rejected h => cases hx; exact .inr (fail_truthful h)
  | aborted h => cases hx; exact .inl (ev_tells h trivial _ _ he)
  | crashed => cases hx

end Ebnf
