import Verif.Spec.Shifted
import Verif.Proofs.Pure
import Verif.Proofs.Blanks

set_option autoImplicit false

/-! # Proofs: the same text, beginning elsewhere -/

namespace Ebnf.Shifted

open Spec

/-! ### Places -/

theorem here_same (here here' : Location) (text : Str) : SamePlace here here' text here here' :=
  ⟨[], List.nil_prefix, (lineColumn_nil _).symm, (lineColumn_nil _).symm⟩

theorem take_same (here here' : Location) (text : Str) (n : Nat) :
    SamePlace here here' text (lineColumn here (text.take n)) (lineColumn here' (text.take n)) :=
  ⟨_, List.take_prefix n text, rfl, rfl⟩

theorem same_drop {here here' : Location} {text : Str} {n : Nat} {l l' : Location}
    (h : SamePlace (lineColumn here (text.take n)) (lineColumn here' (text.take n)) (text.drop n) l l') : SamePlace here here' text l l' := by
  obtain ⟨w, ⟨t, ht⟩, rfl, rfl⟩ := h
  refine ⟨text.take n ++ w, ⟨t, ?_⟩, lineColumn_append _ _ _, lineColumn_append _ _ _⟩
  rw [List.append_assoc, ht, List.take_append_drop]

theorem same_take {here here' : Location} {text : Str} {n : Nat} {l l' : Location} (h : SamePlace here here' (text.take n) l l') :
    SamePlace here here' text l l' := by
  obtain ⟨w, hw, h1⟩ := h
  exact ⟨w, hw.trans (List.take_prefix n text), h1⟩

/-- Behind a longer prefix is later. -/
theorem later_iff {text a b : Str} (ha : a <+: text) (hb : b <+: text) (here : Location) :
    (lineColumn here a).lt (lineColumn here b) = true ↔ a.length < b.length := by
  have later : ∀ {a b : Str}, a <+: b → a.length < b.length → Location.cmp (lineColumn here a) (lineColumn here b) = .lt := by
    rintro a b ⟨w, rfl⟩ hl
    rw [← lineColumn_append, ← Location.pushStr_eq_lineColumn _ w, Location.cmp_same_name _ _ (by simp)]
    refine Location.pushStr_progress _ _ fun h => ?_
    rw [h, List.append_nil] at hl
    omega
  rw [Location.lt_iff]
  constructor
  · intro h
    rcases Nat.lt_trichotomy a.length b.length with h1 | h1 | h1
    · exact h1
    · rw [(List.prefix_of_prefix_length_le ha hb (Nat.le_of_eq h1)).eq_of_length h1, (Location.cmp_eq_iff _ _).mpr rfl] at h
      cases h
    · have h2 := later (List.prefix_of_prefix_length_le hb ha (Nat.le_of_lt h1)) h1
      rw [Location.cmp_swap, h] at h2
      cases h2
  · exact fun h => later (List.prefix_of_prefix_length_le ha hb (Nat.le_of_lt h)) h

theorem same_lt {here here' : Location} {text : Str} {a a' b b' : Location} (ha : SamePlace here here' text a a')
    (hb : SamePlace here here' text b b') : a.lt b = true ↔ a'.lt b' = true := by
  obtain ⟨v, hv, rfl, rfl⟩ := ha
  obtain ⟨w, hw, rfl, rfl⟩ := hb
  rw [later_iff hv hw, later_iff hv hw]

theorem same_here {here here' : Location} {text : Str} {a a' : Location} (ha : SamePlace here here' text a a') : a = here ↔ a' = here' := by
  obtain ⟨v, hv, rfl, rfl⟩ := ha
  rw [lineColumn_self_iff, lineColumn_self_iff]

/-- The correspondence is one to one. -/
theorem same_unique {here here' : Location} {text : Str} {a a' b b' : Location} (ha : SamePlace here here' text a a')
    (hb : SamePlace here here' text b b') : a = b ↔ a' = b' := by
  obtain ⟨v, hv, rfl, rfl⟩ := ha
  obtain ⟨w, hw, rfl, rfl⟩ := hb
  have key : ∀ l, lineColumn l v = lineColumn l w → v = w := by
    intro l h
    rcases Nat.lt_trichotomy v.length w.length with h1 | h1 | h1
    · have := (later_iff hv hw l).mpr h1
      rw [h, Location.lt_iff, (Location.cmp_eq_iff _ _).mpr rfl] at this
      cases this
    · exact (List.prefix_of_prefix_length_le hv hw (Nat.le_of_eq h1)).eq_of_length h1
    · have := (later_iff hw hv l).mpr h1
      rw [h, Location.lt_iff, (Location.cmp_eq_iff _ _).mpr rfl] at this
      cases this
  exact ⟨fun h => by rw [key _ h], fun h => by rw [key _ h]⟩

/-! ### Events, errors and outcomes -/

section

variable {P Q : Location → Location → Prop}

theorem event_mono (h : ∀ {l l'}, P l l' → Q l l') {e e' : Event} (he : ShiftedEvent P e e') : ShiftedEvent Q e e' := by
  cases he with
  | token h1 => exact .token (h h1)
  | begin h1 => exact .begin (h h1)
  | «end» h1 => exact .end (h h1)

theorem events_mono (h : ∀ {l l'}, P l l' → Q l l') {es es' : List Event} (he : ShiftedEvents P es es') : ShiftedEvents Q es es' := by
  induction he with
  | nil => exact .nil
  | cons h1 _ ih => exact .cons (event_mono h h1) ih

theorem events_append {a a' b b' : List Event} (h : ShiftedEvents P a a') (h' : ShiftedEvents P b b') :
    ShiftedEvents P (a ++ b) (a' ++ b') := by
  induction h with
  | nil => exact h'
  | cons h1 _ ih => exact .cons h1 ih

/-- Outcomes that correspond. -/
inductive ShiftedOutcome (P : Location → Location → Prop) : Outcome → Outcome → Prop
  | ok {evs evs' n} : ShiftedEvents P evs evs' → ShiftedOutcome P (.ok evs n) (.ok evs' n)
  | fail {e e' evs evs' n} : ShiftedError P e e' → ShiftedEvents P evs evs' → ShiftedOutcome P (.fail e evs n) (.fail e' evs' n)
  | abort {e e'} : ShiftedError P e e' → ShiftedOutcome P (.abort e) (.abort e')
  | panic {p} : ShiftedOutcome P (.panic p) (.panic p)

theorem ShiftedOutcome.mono (h : ∀ {l l'}, P l l' → Q l l') {o o' : Outcome} (ho : ShiftedOutcome P o o') : ShiftedOutcome Q o o' := by
  cases ho with
  | ok h1 => exact .ok (events_mono h h1)
  | fail h1 h2 => exact .fail ⟨h h1.1, h1.2⟩ (events_mono h h2)
  | abort h1 => exact .abort ⟨h h1.1, h1.2⟩
  | panic => exact .panic

theorem ShiftedOutcome.after {o o' : Outcome} {evs evs' : List Event} {n : Nat} (h : ShiftedOutcome P o o') (he : ShiftedEvents P evs evs') :
    ShiftedOutcome P (o.after evs n) (o'.after evs' n) := by
  cases h with
  | ok h => exact .ok (events_append he h)
  | fail h1 h2 => exact .fail h1 (events_append he h2)
  | abort h => exact .abort h
  | panic => exact .panic

theorem ShiftedOutcome.afterRound {o o' : Outcome} {evs evs' : List Event} {n : Nat} (h : ShiftedOutcome P o o')
    (he : ShiftedEvents P evs evs') : ShiftedOutcome P (o.afterRound evs n) (o'.afterRound evs' n) := by
  cases h with
  | ok h => exact .ok (events_append he h)
  | fail h1 h2 => exact .fail h1 h2
  | abort h => exact .abort h
  | panic => exact .panic

theorem ShiftedOutcome.stop {o o' : Outcome} (h : ShiftedOutcome P o o') (hs : o.IsStop) : o'.IsStop := by
  cases h <;> first | exact hs.elim | trivial

theorem ShiftedOutcome.notOk {o o' : Outcome} (h : ShiftedOutcome P o o') (hs : ¬ o.IsOk) : ¬ o'.IsOk := by
  cases h <;> exact hs

theorem ShiftedOutcome.notFail {o o' : Outcome} (h : ShiftedOutcome P o o') (hs : ∀ e evs n, o ≠ .fail e evs n) :
    ∀ e evs n, o' ≠ .fail e evs n := by
  cases h with
  | fail => exact absurd rfl (hs _ _ _)
  | _ => intros; simp

theorem ShiftedOutcome.ok_inv {o' : Outcome} {evs : List Event} {n : Nat} (h : ShiftedOutcome P (.ok evs n) o') :
    ∃ evs', o' = .ok evs' n ∧ ShiftedEvents P evs evs' := by
  cases h with
  | ok h => exact ⟨_, rfl, h⟩

theorem ShiftedOutcome.fail_inv {o' : Outcome} {e : Error} {evs : List Event} {n : Nat} (h : ShiftedOutcome P (.fail e evs n) o') :
    ∃ e' evs', o' = .fail e' evs' n ∧ ShiftedError P e e' ∧ ShiftedEvents P evs evs' := by
  cases h with
  | fail h1 h2 => exact ⟨_, _, rfl, h1, h2⟩

theorem ShiftedOutcome.abort_inv {o' : Outcome} {e : Error} (h : ShiftedOutcome P (.abort e) o') :
    ∃ e', o' = .abort e' ∧ ShiftedError P e e' := by
  cases h with
  | abort h => exact ⟨_, rfl, h⟩

end

theorem shifted_expected (s : Str) (here here' : Location) (rest : Str) :
    ShiftedError (SamePlace here here' rest) (expectedAt s here rest) (expectedAt s here' rest) := ⟨here_same _ _ _, rfl⟩

theorem shifted_later {here here' : Location} {text : Str} {e e' f f' : Error} (h : ShiftedError (SamePlace here here' text) e e')
    (h' : ShiftedError (SamePlace here here' text) f f') : ShiftedError (SamePlace here here' text) (laterError e f) (laterError e' f') := by
  unfold laterError
  by_cases hlt : f.location.lt e.location = true
  · rw [if_pos hlt, if_pos ((same_lt h'.1 h.1).mp hlt)]; exact h
  · rw [if_neg hlt, if_neg fun h2 => hlt ((same_lt h'.1 h.1).mpr h2)]; exact h'

/-! ### The meaning -/

/-- Where the text begins matters for the places reported only. -/
theorem ev_shifted {G : Language} (hs : ScannersAnywhere G) {q : Quirks} {task : Task} {here : Location} {rest : Str} {o : Outcome}
    (h : Ev q G task here rest o) : ∀ there, ∃ o', Ev q G task there rest o' ∧ ShiftedOutcome (SamePlace here there rest) o o' := by
  induction h with
  | optional _ ih =>
    intro there
    obtain ⟨o', h1, h2⟩ := ih there
    exact ⟨o', .optional h1, h2⟩
  | repeated _ ih =>
    intro there
    obtain ⟨o', h1, h2⟩ := ih there
    exact ⟨o', .repeated h1, h2⟩
  | grouped _ ih =>
    intro there
    obtain ⟨o', h1, h2⟩ := ih there
    exact ⟨o', .grouped h1, h2⟩
  | empty => exact fun there => ⟨_, .empty, .ok .nil⟩
  | terminal h => exact fun there => ⟨_, .terminal h, .ok (.cons (.token (here_same _ _ _)) .nil)⟩
  | terminalFail h => exact fun there => ⟨_, .terminalFail h, .fail (shifted_expected _ _ _ _) .nil⟩
  | reference h1 h2 _ ih =>
    intro there
    obtain ⟨_, h5, ho⟩ := ih there
    obtain ⟨_, rfl, h6⟩ := ho.ok_inv
    exact ⟨_, .reference h1 h2 h5, .ok (events_append (.cons (.begin (here_same _ _ _)) h6) (.cons (.end (take_same _ _ _ _)) .nil))⟩
  | referenceFail h1 h2 _ ih =>
    intro there
    obtain ⟨_, h5, ho⟩ := ih there
    obtain ⟨_, _, rfl, h6, h7⟩ := ho.fail_inv
    exact ⟨_, .referenceFail h1 h2 h5, .fail h6 .nil⟩
  | referenceStop h1 h2 _ hs ih =>
    intro there
    obtain ⟨o', h5, h6⟩ := ih there
    exact ⟨o', .referenceStop h1 h2 h5 (h6.stop hs), h6⟩
  | referenceUndefined h => exact fun there => ⟨_, .referenceUndefined h, .panic⟩
  | @special loc s here rest evs n h =>
    intro there
    have hr := hs loc s here there rest
    rw [h] at hr
    generalize hx : G.special loc s loc there rest = x at hr
    cases hr with
    | accept he => exact ⟨_, .special hx, .ok he⟩
  | @specialFail loc s here rest h =>
    intro there
    have hr := hs loc s here there rest
    rw [h] at hr
    generalize hx : G.special loc s loc there rest = x at hr
    cases hr with
    | unmatched => exact ⟨_, .specialFail hx, .fail (shifted_expected _ _ _ _) .nil⟩
  | @specialError loc s here rest e h =>
    intro there
    have hr := hs loc s here there rest
    rw [h] at hr
    generalize hx : G.special loc s loc there rest = x at hr
    cases hr with
    | error he => exact ⟨_, .specialError hx, .abort he⟩
  | @forward loc s here rest name n task evs m h ht _ ih =>
    intro there
    have hr := hs loc s here there rest
    rw [h] at hr
    generalize hx : G.special loc s loc there rest = x at hr
    cases hr with
    | forward =>
      obtain ⟨_, h3, ho⟩ := ih (lineColumn there (rest.take n))
      obtain ⟨_, rfl, h4⟩ := ho.ok_inv
      exact ⟨_, .forward hx ht h3, .ok (events_mono same_drop h4)⟩
  | @forwardFail loc s here rest name n task e evs m h ht _ hq ih =>
    intro there
    have hr := hs loc s here there rest
    rw [h] at hr
    generalize hx : G.special loc s loc there rest = x at hr
    cases hr with
    | forward =>
      obtain ⟨_, h3, ho⟩ := ih (lineColumn there (rest.take n))
      obtain ⟨_, _, rfl, h4, h5⟩ := (ho.mono same_drop).fail_inv
      exact ⟨_, .forwardFail hx ht h3 hq, .fail h4 .nil⟩
  | @forwardIgnored loc s here rest name n task e evs m h ht _ hq ih =>
    intro there
    have hr := hs loc s here there rest
    rw [h] at hr
    generalize hx : G.special loc s loc there rest = x at hr
    cases hr with
    | forward =>
      obtain ⟨_, h3, ho⟩ := ih (lineColumn there (rest.take n))
      obtain ⟨_, _, rfl, h4, h5⟩ := (ho.mono same_drop).fail_inv
      exact ⟨_, .forwardIgnored hx ht h3 hq, .ok h5⟩
  | @forwardStop loc s here rest name n task o h ht _ hq ih =>
    intro there
    have hr := hs loc s here there rest
    rw [h] at hr
    generalize hx : G.special loc s loc there rest = x at hr
    cases hr with
    | forward =>
      obtain ⟨_, h3, h4⟩ := ih (lineColumn there (rest.take n))
      exact ⟨_, .forwardStop hx ht h3 (h4.stop hq), h4.mono same_drop⟩
  | @forwardUndefined loc s here rest name n h ht =>
    intro there
    have hr := hs loc s here there rest
    rw [h] at hr
    generalize hx : G.special loc s loc there rest = x at hr
    cases hr with
    | forward => exact ⟨_, .forwardUndefined hx ht, .abort ⟨here_same _ _ _, rfl⟩⟩
  | once _ ih =>
    intro there
    obtain ⟨o', h1, h2⟩ := ih there
    exact ⟨o', .once h1, h2⟩
  | counted hk _ ih =>
    intro there
    obtain ⟨o', h1, h2⟩ := ih there
    exact ⟨o', .counted hk h1, h2⟩
  | plain _ ih =>
    intro there
    obtain ⟨o', h1, h2⟩ := ih there
    exact ⟨o', .plain h1, h2⟩
  | exceptFail _ ih =>
    intro there
    obtain ⟨_, h1, ho⟩ := ih there
    obtain ⟨_, _, rfl, h2, h3⟩ := ho.fail_inv
    exact ⟨_, .exceptFail h1, .fail h2 .nil⟩
  | exceptStop _ hs ih =>
    intro there
    obtain ⟨_, h1, h2⟩ := ih there
    exact ⟨_, .exceptStop h1 (h2.stop hs), h2⟩
  | excluded _ _ ih1 ih2 =>
    intro there
    obtain ⟨_, h1, ho⟩ := ih1 there
    obtain ⟨_, rfl, h2⟩ := ho.ok_inv
    obtain ⟨_, h3, ho⟩ := ih2 there
    obtain ⟨_, rfl, h4⟩ := ho.ok_inv
    exact ⟨_, .excluded h1 h3, .fail (shifted_expected _ _ _ _) .nil⟩
  | notExcluded _ _ hn ih1 ih2 =>
    intro there
    obtain ⟨_, h1, ho⟩ := ih1 there
    obtain ⟨_, rfl, h2⟩ := ho.ok_inv
    obtain ⟨_, h3, ho⟩ := ih2 there
    obtain ⟨_, rfl, h4⟩ := ho.ok_inv
    exact ⟨_, .notExcluded h1 h3 hn, .ok h2⟩
  | notExcludedFail _ _ ih1 ih2 =>
    intro there
    obtain ⟨_, h1, ho⟩ := ih1 there
    obtain ⟨_, rfl, h2⟩ := ho.ok_inv
    obtain ⟨_, h3, ho⟩ := ih2 there
    obtain ⟨_, _, rfl, h4, h5⟩ := ho.fail_inv
    exact ⟨_, .notExcludedFail h1 h3, .ok h2⟩
  | excludedStop _ _ hs ih1 ih2 =>
    intro there
    obtain ⟨_, h1, ho⟩ := ih1 there
    obtain ⟨_, rfl, h2⟩ := ho.ok_inv
    obtain ⟨_, h3, h4⟩ := ih2 there
    exact ⟨_, .excludedStop h1 h3 (h4.stop hs), h4.mono same_take⟩
  | done => exact fun there => ⟨_, .done, .ok .nil⟩
  | @next t d here rest evs n o hb _ _ ih1 ih2 =>
    intro there
    obtain ⟨_, h1, ho⟩ := ih1 there
    obtain ⟨_, rfl, h2⟩ := ho.ok_inv
    obtain ⟨_, h3, h4⟩ := ih2 (lineColumn there (rest.take n))
    exact ⟨_, .next hb h1 h3, (h4.mono same_drop).after h2⟩
  | dropped hq hb _ ih =>
    intro there
    obtain ⟨_, h1, ho⟩ := ih there
    obtain ⟨_, rfl, h2⟩ := ho.ok_inv
    exact ⟨_, .dropped hq hb h1, .ok h2⟩
  | nextFail _ hn ih =>
    intro there
    obtain ⟨_, h1, h2⟩ := ih there
    exact ⟨_, .nextFail h1 (h2.notOk hn), h2⟩
  | single _ ih =>
    intro there
    obtain ⟨_, h1, h2⟩ := ih there
    exact ⟨_, .single h1, h2⟩
  | choice _ hn ih =>
    intro there
    obtain ⟨_, h1, h2⟩ := ih there
    exact ⟨_, .choice h1 (h2.notFail hn), h2⟩
  | @choiceFail d d' l here rest e evs n _ ih =>
    intro there
    obtain ⟨_, h1, ho⟩ := ih there
    obtain ⟨_, _, rfl, h2, h3⟩ := ho.fail_inv
    refine ⟨_, .choiceFail h1, .fail ?_ .nil⟩
    by_cases hh : e.location = here
    · rw [if_pos hh, if_pos ((same_here h2.1).mp hh)]; exact shifted_expected _ _ _ _
    · rw [if_neg hh, if_neg fun h => hh ((same_here h2.1).mpr h)]; exact h2
  | first _ hn ih =>
    intro there
    obtain ⟨_, h1, h2⟩ := ih there
    exact ⟨_, .first h1 (h2.notFail hn), h2⟩
  | last _ ih =>
    intro there
    obtain ⟨_, h1, ho⟩ := ih there
    obtain ⟨_, _, rfl, h2, h3⟩ := ho.fail_inv
    exact ⟨_, .last h1, .fail h2 .nil⟩
  | other _ _ hn ih1 ih2 =>
    intro there
    obtain ⟨_, h1, ho⟩ := ih1 there
    obtain ⟨_, _, rfl, h2, h3⟩ := ho.fail_inv
    obtain ⟨_, h4, h5⟩ := ih2 there
    exact ⟨_, .other h1 h4 (h5.notFail hn), h5⟩
  | otherFail _ _ ih1 ih2 =>
    intro there
    obtain ⟨_, h1, ho⟩ := ih1 there
    obtain ⟨_, _, rfl, h2, h3⟩ := ho.fail_inv
    obtain ⟨_, h4, ho⟩ := ih2 there
    obtain ⟨_, _, rfl, h5, h6⟩ := ho.fail_inv
    exact ⟨_, .otherFail h1 h4, .fail (shifted_later h2 h5) .nil⟩
  | enough h => exact fun there => ⟨_, .enough h, .ok .nil⟩
  | @round body min max guarded i here rest evs n o h1 h2 _ _ ih1 ih2 =>
    intro there
    obtain ⟨_, h3, ho⟩ := ih1 there
    obtain ⟨_, rfl, h4⟩ := ho.ok_inv
    obtain ⟨_, h5, h6⟩ := ih2 (lineColumn there (rest.take n))
    exact ⟨_, .round h1 h2 h3 h5, (h6.mono same_drop).afterRound h4⟩
  | livelock h _ ih =>
    intro there
    obtain ⟨_, h3, ho⟩ := ih there
    obtain ⟨_, rfl, h4⟩ := ho.ok_inv
    exact ⟨_, .livelock h h3, .abort ⟨here_same _ _ _, rfl⟩⟩
  | @lastRound body min max guarded i here rest e evs n h1 h2 _ ih =>
    intro there
    obtain ⟨_, h3, ho⟩ := ih there
    obtain ⟨_, _, rfl, h4, h5⟩ := ho.fail_inv
    refine ⟨_, .lastRound h1 h2 h3, .ok ?_⟩
    split
    · exact h5
    · exact .nil
  | tooFew h1 h2 _ ih =>
    intro there
    obtain ⟨_, h3, ho⟩ := ih there
    obtain ⟨_, _, rfl, h4, h5⟩ := ho.fail_inv
    exact ⟨_, .tooFew h1 h2 h3, .fail h4 .nil⟩
  | roundStop h1 _ hs ih =>
    intro there
    obtain ⟨_, h3, h4⟩ := ih there
    exact ⟨_, .roundStop h1 h3 (h4.stop hs), h4⟩

/-! ### The result -/

theorem shifted_isBegin {P : Location → Location → Prop} {e e' : Event} (h : ShiftedEvent P e e') : IsBegin e ↔ IsBegin e' := by
  cases h <;> exact Iff.rfl
theorem shifted_isEnd {P : Location → Location → Prop} {e e' : Event} (h : ShiftedEvent P e e') : IsEnd e ↔ IsEnd e' := by
  cases h <;> exact Iff.rfl

theorem onePass_shifted {P : Location → Location → Prop} {es out es' : List Event} (h : OnePass es out) (ha : ShiftedEvents P es es') :
    ∃ out', OnePass es' out' ∧ ShiftedEvents P out out' := by
  induction h generalizing es' with
  | nil => cases ha; exact ⟨_, .nil, .nil⟩
  | pair h1 h2 _ ih =>
    cases ha with
    | cons ha1 ha =>
      cases ha with
      | cons ha2 ha =>
        obtain ⟨out', h3, h4⟩ := ih ha
        exact ⟨out', .pair ((shifted_isBegin ha1).mp h1) ((shifted_isEnd ha2).mp h2) h3, h4⟩
  | keep h1 _ ih =>
    cases ha with
    | cons ha1 ha =>
      obtain ⟨out', h3, h4⟩ := ih ha
      refine ⟨_, .keep ?_ h3, .cons ha1 h4⟩
      rintro e es'' rfl ⟨h5, h6⟩
      cases ha with
      | cons ha2 ha => exact h1 _ _ rfl ⟨(shifted_isBegin ha1).mpr h5, (shifted_isEnd ha2).mpr h6⟩

theorem parses_shifted {G : Language} (hs : ScannersAnywhere G) {q : Quirks} {start : SyntaxRule} {here : Location} {text : Str}
    {x : Res (List Event)} (h : Parses q G start here text x) (there : Location) :
    ∃ x', Parses q G start there text x' ∧ ShiftedResult (SamePlace here there text) x x' := by
  cases h with
  | accepted h1 h2 =>
    obtain ⟨_, h3, ho⟩ := ev_shifted hs h1 there
    obtain ⟨_, rfl, h4⟩ := ho.ok_inv
    cases h2 with
    | nil => cases h4; exact ⟨_, .accepted h3 .nil, .ok .nil⟩
    | cons h2 =>
      cases h4 with
      | cons h5 h6 =>
        obtain ⟨out', h7, h8⟩ := onePass_shifted h2 h6
        exact ⟨_, .accepted h3 (.cons h7), .ok (.cons h5 h8)⟩
  | leftover h1 h2 =>
    obtain ⟨_, h3, ho⟩ := ev_shifted hs h1 there
    obtain ⟨_, rfl, h4⟩ := ho.ok_inv
    exact ⟨_, .leftover h3 h2, .err ⟨take_same _ _ _ _, rfl⟩⟩
  | rejected h1 =>
    obtain ⟨_, h3, ho⟩ := ev_shifted hs h1 there
    obtain ⟨_, _, rfl, h4, _⟩ := ho.fail_inv
    exact ⟨_, .rejected h3, .err h4⟩
  | aborted h1 =>
    obtain ⟨_, h3, ho⟩ := ev_shifted hs h1 there
    obtain ⟨_, rfl, h4⟩ := ho.abort_inv
    exact ⟨_, .aborted h3, .err h4⟩
  | crashed h1 =>
    obtain ⟨_, h3, ho⟩ := ev_shifted hs h1 there
    cases ho
    exact ⟨_, .crashed h3, .panic⟩

end Ebnf.Shifted
