import Verif.Proofs.EffortRules

set_option autoImplicit false

/-! # Proofs: bounds on the steps of the token parser -/

namespace Ebnf.Effort

open Work

variable {α β : Type}

/-- How many tokens a reader leaves. -/
def left : Res (α × List Token) → Nat
  | .ok (_, next) => next.length
  | _ => 0

/-- Of `t` tokens, each token used pays `W` steps; `A` more are free. -/
def Within (W t A : Nat) (x : Work (α × List Token)) : Prop := left x.1 ≤ t ∧ x.2 + W * left x.1 ≤ W * t + A

theorem scale {W n t k c : Nat} (hW : 1 ≤ W) (h : n ≤ t) (hk : k + n ≤ t + c) : k + W * n ≤ W * t + c := by
  obtain ⟨d, rfl⟩ := Nat.exists_eq_add_of_le h
  have : d ≤ W * d := Nat.le_mul_of_pos_left d hW
  rw [Nat.mul_add]
  omega

theorem Within.mono {W t t' A B : Nat} {x : Work (α × List Token)} (h : Within W t A x) (ht : t ≤ t') (hA : A ≤ B) : Within W t' B x := by
  obtain ⟨h1, h2⟩ := h
  have := Nat.mul_le_mul_left W ht
  exact ⟨by omega, by omega⟩

theorem Within.bind {W t A B : Nat} {x : Work (α × List Token)} {f : α × List Token → Work (β × List Token)} (hx : Within W t A x)
    (hf : ∀ a next, x.1 = .ok (a, next) → next.length ≤ t → Within W next.length B (f (a, next))) : Within W t (A + B) (x >>= f) := by
  obtain ⟨r, n⟩ := x
  obtain ⟨h1, h2⟩ := hx
  cases r with
  | ok p =>
    obtain ⟨a, next⟩ := p
    obtain ⟨h3, h4⟩ := hf a next rfl h1
    have h2 : n + W * next.length ≤ W * t + A := h2
    have h1 : next.length ≤ t := h1
    have e : ((((.ok (a, next), n) : Work (α × List Token)) >>= f : Work (β × List Token))) = ((f (a, next)).1, n + (f (a, next)).2) := rfl
    rw [e]
    refine ⟨?_, ?_⟩ <;> simp only <;> omega
  | err e => exact ⟨Nat.zero_le _, by have h2 : n + W * 0 ≤ W * t + A := h2; show n + W * 0 ≤ _; omega⟩
  | panic e => exact ⟨Nat.zero_le _, by have h2 : n + W * 0 ≤ W * t + A := h2; show n + W * 0 ≤ _; omega⟩
  | diverge => exact ⟨Nat.zero_le _, by have h2 : n + W * 0 ≤ W * t + A := h2; show n + W * 0 ≤ _; omega⟩

theorem within_steps {W t B n : Nat} {f : Unit → Work (β × List Token)} (hf : Within W t B (f ())) : Within W t (n + B) (steps n >>= f) := by
  obtain ⟨h1, h2⟩ := hf
  rw [steps_bind]
  exact ⟨h1, by simp only; omega⟩

theorem within_skip {W B : Nat} (hW : 1 ≤ W) {ts : List Token} {f : List Token → Work (β × List Token)}
    (hf : ∀ us, us = Ebnf.skipGaps ts → us.length ≤ ts.length → Within W us.length B (f us)) : Within W ts.length (1 + B) (of (skipGaps ts) >>= f) := by
  obtain ⟨h0, h1, h2⟩ := skipGaps_eq ts
  obtain ⟨h3, h4⟩ := hf _ h0 h1
  have := scale hW h1 h2
  rw [of_bind]
  refine ⟨?_, ?_⟩ <;> simp only <;> omega

theorem within_pure {W t : Nat} {a : α} {next : List Token} (h : next.length ≤ t) : Within W t 0 (pure (a, next) : Work (α × List Token)) :=
  ⟨h, by show 0 + W * next.length ≤ _; have := Nat.mul_le_mul_left W h; omega⟩

theorem within_ok {W t k : Nat} {a : α} {next : List Token} (h : next.length ≤ t) : Within W t k (after k (.ok (a, next))) :=
  ⟨h, by show k + W * next.length ≤ _; have := Nat.mul_le_mul_left W h; omega⟩

theorem within_fail {W t k : Nat} {l : Location} {m : Msg} : Within W t k (after k (.fail l m) : Work (α × List Token)) :=
  ⟨Nat.zero_le _, by show k + W * 0 ≤ _; omega⟩

section readers

variable {recur : List Token → Work DefinitionList} {last : Location} {W N : Nat}

theorem readEnclosed_within (hW : 1 ≤ W) (hr : ∀ inner : List Token, inner.length < N → (recur inner).2 + inner.length + 1 ≤ W * (inner.length + 1))
    (t : Token) (ts : List Token) (hN : ts.length ≤ N) (o c : Token → Bool) : Within W ts.length 0 (readEnclosed recur t ts o c) := by
  unfold readEnclosed
  obtain ⟨_, h2, h3⟩ := findClose_eq o c ts 0
  generalize findClose o c 0 ts = x at h2 h3
  obtain ⟨r, k⟩ := x
  cases r with
  | none =>
    have h2 : k = ts.length := h2 rfl
    subst h2
    refine ⟨Nat.zero_le _, ?_⟩
    show ts.length + W * 0 ≤ _
    have : ts.length ≤ W * ts.length := Nat.le_mul_of_pos_left _ hW
    omega
  | some p =>
    obtain ⟨inner, rest⟩ := p
    obtain ⟨h4, h5⟩ := h3 inner rest rfl
    simp only at h4 h5 ⊢
    subst h4
    have h6 := hr inner (by omega)
    rw [steps_bind]
    generalize recur inner = y at h6
    obtain ⟨r, m⟩ := y
    simp only at h6
    rw [← h5]
    have hm := Nat.mul_add W (inner.length + 1) rest.length
    cases r with
    | ok a =>
      refine ⟨show rest.length ≤ _ by omega, ?_⟩
      show inner.length + 1 + (m + 0) + W * rest.length ≤ _
      omega
    | err e => exact ⟨Nat.zero_le _, by show inner.length + 1 + m + W * 0 ≤ _; omega⟩
    | panic e => exact ⟨Nat.zero_le _, by show inner.length + 1 + m + W * 0 ≤ _; omega⟩
    | diverge => exact ⟨Nat.zero_le _, by show inner.length + 1 + m + W * 0 ≤ _; omega⟩

theorem bracket_within {t : Token} {rest : List Token} {o c : Token → Bool} {mk : DefinitionList → Primary} {n : Nat} (hn : n ≤ 2)
    (h : Within W rest.length 0 (readEnclosed recur t rest o c)) :
    Within W (t :: rest).length 3 (steps n >>= fun _ => readEnclosed recur t rest o c >>= fun x => pure (mk x.1, x.2)) := by
  refine Within.mono (within_steps (Within.bind (B := 0) h fun a next _ hl => ?_)) (Nat.le_succ _) (B := 3) ?_
  · exact within_pure (Nat.le_refl _)
  · omega

theorem readPrimaryAt_within (hW : 1 ≤ W)
    (hr : ∀ inner : List Token, inner.length < N → (recur inner).2 + inner.length + 1 ≤ W * (inner.length + 1))
    (ts : List Token) (hN : ts.length ≤ N) : Within W ts.length 3 (readPrimaryAt recur last ts) := by
  cases ts with
  | nil => exact (within_pure (Nat.le_refl 0)).mono (Nat.le_refl _) (by omega)
  | cons t rest =>
    have hN' : rest.length ≤ N := by simp only [List.length_cons] at hN; omega
    have he := fun t o c => readEnclosed_within (recur := recur) hW hr t rest hN' o c
    cases t
    case startOptionSymbol loc sym =>
      unfold readPrimaryAt
      dsimp only
      split
      · exact within_fail.mono (Nat.le_refl _) (by omega)
      · exact bracket_within (Nat.le_refl _) (he _ _ _)
    case startRepeatSymbol loc sym =>
      unfold readPrimaryAt
      dsimp only
      split
      · exact within_fail.mono (Nat.le_refl _) (by omega)
      · exact bracket_within (Nat.le_refl _) (he _ _ _)
    case startGroupSymbol loc =>
      unfold readPrimaryAt
      dsimp only
      exact bracket_within (by omega) (he _ _ _)
    case metaIdentifier loc s =>
      unfold readPrimaryAt
      dsimp only
      rw [steps_bind, of_bind]
      obtain ⟨_, h2, h3⟩ := readMetaIdentifier_eq (.metaIdentifier loc s :: rest)
      have := scale hW h2 h3
      refine ⟨h2, ?_⟩
      show 1 + ((readMetaIdentifier (Token.metaIdentifier loc s :: rest)).2 + 0) + W * (readMetaIdentifier (Token.metaIdentifier loc s :: rest)).1.2.2.length ≤ _
      omega
    all_goals first
      | exact (within_ok (Nat.le_succ _)).mono (Nat.le_refl _) (by omega)
      | exact (within_ok (Nat.le_refl _)).mono (Nat.le_refl _) (by omega)

theorem readPrimary_within (hW : 1 ≤ W)
    (hr : ∀ inner : List Token, inner.length < N → (recur inner).2 + inner.length + 1 ≤ W * (inner.length + 1))
    (ts : List Token) (hN : ts.length ≤ N) : Within W ts.length 4 (readPrimary recur last ts) :=
  within_skip hW fun us _ hl => readPrimaryAt_within hW hr us (Nat.le_trans hl hN)

theorem readRepetition_within (hW : 1 ≤ W) (ts : List Token) : Within W ts.length 4 (readRepetition ts) := by
  cases ts with
  | nil => exact (within_ok (Nat.le_refl _)).mono (Nat.le_refl _) (by omega)
  | cons t rest =>
    cases t
    case integer loc digits =>
      unfold readRepetition
      dsimp only
      cases parseU32 digits with
      | none => exact within_fail.mono (Nat.le_refl _) (by omega)
      | some n =>
        refine Within.mono (t := rest.length) (A := 4) ?_ (Nat.le_succ _) (Nat.le_refl _)
        refine within_steps (n := 2) (B := 2) (within_skip (B := 1) hW fun us _ hl => ?_)
        cases us with
        | nil => exact ⟨Nat.zero_le _, by show 0 + W * 0 ≤ _; omega⟩
        | cons t rest' =>
          dsimp only
          split
          · exact Within.mono (within_skip (B := 0) hW fun vs _ hl => within_pure (Nat.le_refl _)) (Nat.le_succ _) (by omega)
          · exact within_fail.mono (Nat.le_refl _) (by omega)
    all_goals exact (within_ok (Nat.le_refl _)).mono (Nat.le_refl _) (by omega)

theorem readFactor_within (hW : 1 ≤ W)
    (hr : ∀ inner : List Token, inner.length < N → (recur inner).2 + inner.length + 1 ≤ W * (inner.length + 1))
    (ts : List Token) (hN : ts.length ≤ N) : Within W ts.length 9 (readFactor recur last ts) := by
  unfold readFactor
  refine within_skip (B := 8) hW fun us _ hl => ?_
  refine Within.bind (A := 4) (B := 4) (readRepetition_within hW us) fun n vs _ hl' => ?_
  refine Within.bind (A := 4) (B := 0) (readPrimary_within hW hr vs (by omega)) fun p next _ _ => ?_
  exact within_pure (Nat.le_refl _)

theorem readTerm_within (hW : 1 ≤ W)
    (hr : ∀ inner : List Token, inner.length < N → (recur inner).2 + inner.length + 1 ≤ W * (inner.length + 1))
    (ts : List Token) (hN : ts.length ≤ N) : Within W ts.length 20 (readTerm recur last ts) := by
  unfold readTerm
  refine Within.bind (A := 9) (B := 11) (readFactor_within hW hr ts hN) fun f next _ hl => ?_
  refine within_skip (B := 10) hW fun us _ hl' => ?_
  refine within_steps (n := 1) (B := 9) ?_
  cases us with
  | nil => exact (within_pure (Nat.le_refl _)).mono (Nat.le_refl _) (by omega)
  | cons t rest =>
    dsimp only
    simp only [List.length_cons] at hl'
    split
    · refine Within.mono (t := rest.length) ?_ (Nat.le_succ _) (Nat.le_refl 9)
      exact Within.bind (B := 0) (readFactor_within hW hr rest (by omega)) fun p next _ _ => within_pure (Nat.le_refl _)
    · exact (within_pure (Nat.le_refl _)).mono (Nat.le_refl _) (by omega)

theorem readSingle_within (hW : 22 ≤ W)
    (hr : ∀ inner : List Token, inner.length < N → (recur inner).2 + inner.length + 1 ≤ W * (inner.length + 1))
    (fuel : Nat) : ∀ ts : List Token, ts.length ≤ N → Within W ts.length 22 (readSingle recur last fuel ts) := by
  induction fuel with
  | zero => intro ts _; exact ⟨Nat.zero_le _, by show 0 + W * 0 ≤ _; omega⟩
  | succ fuel ih =>
    intro ts hN
    rw [readSingle_succ]
    refine Within.bind (A := 20) (B := 2) (readTerm_within (by omega) hr ts hN) fun term next _ hl => ?_
    refine within_skip (B := 1) (by omega) fun us _ hl' => ?_
    refine within_steps (n := 1) (B := 0) ?_
    dsimp only
    cases us with
    | nil => exact within_pure (Nat.le_refl _)
    | cons t rest =>
      simp only [List.length_cons] at hl'
      have hother : ∀ t : Token, Within W (t :: rest).length 0 (pure (SingleDefinition.cons term .nil, t :: rest) : Work (SingleDefinition × List Token)) :=
        fun t => within_pure (Nat.le_refl _)
      have hterm : ∀ t : Token, Within W (t :: rest).length 0 (if t.isTerminator then pure (SingleDefinition.cons term .nil, t :: rest)
          else free (.fail t.location (.separatorExpected t.name))) := by
        intro t
        split
        · exact hother t
        · exact ⟨Nat.zero_le _, by show 0 + W * 0 ≤ _; omega⟩
      cases t
      case concatenateSymbol l =>
        show Within W (rest.length + 1) 0 (readSingle recur last fuel rest >>= fun x => pure (SingleDefinition.cons term x.1, x.2))
        have h := Within.bind (B := 0) (f := fun x => (pure (SingleDefinition.cons term x.1, x.2) : Work (SingleDefinition × List Token)))
          (ih rest (by omega)) fun p next _ _ => within_pure (Nat.le_refl _)
        obtain ⟨h1, h2⟩ := h
        refine ⟨by omega, ?_⟩
        rw [Nat.mul_add]
        omega
      case definitionSeparatorSymbol l c => exact hother _
      all_goals exact hterm _

/-- What `read_single_definition` stops at. -/
def Stop : List Token → Prop
  | [] => True
  | .definitionSeparatorSymbol _ _ :: _ => True
  | t :: _ => t.isTerminator = true

theorem single_stop {recur : List Token → Res DefinitionList} (fuel : Nat) : ∀ (ts : List Token) (s : SingleDefinition) (next : List Token),
    Ebnf.readSingle recur last fuel ts = .ok (s, next) → Stop next := by
  induction fuel with
  | zero => intro ts s next h; cases h
  | succ fuel ih =>
    intro ts s next h
    rw [WordLex.readSingle_after] at h
    cases ht : Ebnf.readTerm recur last ts with
    | ok x =>
      rw [ht] at h
      have h : WordLex.afterTerm (Ebnf.readSingle recur last fuel) x.1 (Ebnf.skipGaps x.2) = .ok (s, next) := h
      generalize Ebnf.skipGaps x.2 = us at h
      cases us with
      | nil => cases h; trivial
      | cons t rest =>
        cases t
        case concatenateSymbol l =>
          have h : (Ebnf.readSingle recur last fuel rest >>= fun y => pure (SingleDefinition.cons x.1 y.1, y.2)) = .ok (s, next) := h
          cases hs : Ebnf.readSingle recur last fuel rest with
          | ok y => rw [hs] at h; cases h; exact ih _ _ _ hs
          | err e => rw [hs] at h; cases h
          | panic e => rw [hs] at h; cases h
          | diverge => rw [hs] at h; cases h
        case definitionSeparatorSymbol l c => cases h; trivial
        all_goals
          unfold WordLex.afterTerm at h
          dsimp only at h
          split at h
          next hb => cases h; exact hb
          next => cases h
    | err e => rw [ht] at h; cases h
    | panic e => rw [ht] at h; cases h
    | diverge => rw [ht] at h; cases h

theorem stop_skip {ts : List Token} (h : Stop ts) : Ebnf.skipGaps ts = ts := by
  cases ts with
  | nil => rfl
  | cons t rest => cases t <;> first | rfl | cases h

theorem readDefinitions_cost {recur' : List Token → Res DefinitionList} (hW : 24 ≤ W) (he : ∀ ts, (recur ts).1 = recur' ts)
    (hr : ∀ inner : List Token, inner.length < N → (recur inner).2 + inner.length + 1 ≤ W * (inner.length + 1))
    (fuel : Nat) : ∀ ts : List Token, ts.length ≤ N → (readDefinitions recur last fuel ts).2 ≤ W * ts.length + 24 := by
  induction fuel with
  | zero => intro ts _; exact Nat.zero_le _
  | succ fuel ih =>
    intro ts hN
    rw [readDefinitions_succ]
    have hs := readSingle_within (last := last) (by omega) hr (ts.length + 1) ts hN
    have hst := single_stop (recur := recur') (last := last) (ts.length + 1) ts
    rw [← readSingle_eq he] at hst
    generalize readSingle recur last (ts.length + 1) ts = x at hs hst
    obtain ⟨r, n⟩ := x
    obtain ⟨h1, h2⟩ := hs
    simp only at hst
    cases r with
    | ok p =>
      obtain ⟨single, next⟩ := p
      replace h1 : next.length ≤ ts.length := h1
      replace h2 : n + W * next.length ≤ W * ts.length + 22 := h2
      have h3 := hst single next rfl
      have e : ((((.ok (single, next), n) : Work (SingleDefinition × List Token)) >>= fun x => of (skipGaps x.2) >>= fun us =>
          steps 1 >>= fun _ => afterSingle (readDefinitions recur last fuel) x.1 us : Work DefinitionList)).2 =
          n + ((skipGaps next).2 + (1 + (afterSingle (readDefinitions recur last fuel) single (skipGaps next).1).2)) := rfl
      rw [e]
      obtain ⟨h4, h5, h6⟩ := skipGaps_eq next
      rw [h4, stop_skip h3] at h6 ⊢
      have hlast : ∀ t : Token, t.isTerminator = true → ∀ rest,
          (afterSingle (readDefinitions recur last fuel) single (t :: rest)).2 = 0 := by
        intro t ht rest
        unfold afterSingle
        dsimp only
        rw [if_pos ht]
        rfl
      cases next with
      | nil =>
        show n + (_ + (1 + 0)) ≤ _
        omega
      | cons t rest =>
        cases t
        case definitionSeparatorSymbol loc c =>
          have e2 : (afterSingle (readDefinitions recur last fuel) single (.definitionSeparatorSymbol loc c :: rest)).2 =
              (readDefinitions recur last fuel rest >>= fun more => pure (DefinitionList.cons single more) : Work DefinitionList).2 := rfl
          have e3 : (readDefinitions recur last fuel rest >>= fun more => pure (DefinitionList.cons single more) : Work DefinitionList).2 =
              (readDefinitions recur last fuel rest).2 := by
            generalize readDefinitions recur last fuel rest = y
            obtain ⟨r, m⟩ := y
            cases r <;> rfl
          rw [e2, e3]
          simp only [List.length_cons] at h1 h2 h6
          have := ih rest (by omega)
          rw [Nat.mul_add] at h2
          omega
        all_goals
          rw [hlast _ h3]
          omega
    | err e => have h2 : n + W * 0 ≤ W * ts.length + 22 := h2; show n ≤ _; omega
    | panic e => have h2 : n + W * 0 ≤ W * ts.length + 22 := h2; show n ≤ _; omega
    | diverge => have h2 : n + W * 0 ≤ W * ts.length + 22 := h2; show n ≤ _; omega

end readers

theorem readDefinitionList_cost (fuel : Nat) : ∀ ts : List Token, (readDefinitionList fuel ts).2 ≤ 24 * ((ts.length + 1) * (ts.length + 1)) := by
  induction fuel with
  | zero => intro ts; exact Nat.zero_le _
  | succ fuel ih =>
    intro ts
    have h := readDefinitions_cost (last := lastLocation ts) (W := 24 * ts.length + 24) (N := ts.length) (by omega) (readDefinitionList_eq fuel)
      (fun inner hi => by
        have h1 := ih inner
        have h2 : 24 * ((inner.length + 1) * (inner.length + 1)) + (inner.length + 1) = (24 * (inner.length + 1) + 1) * (inner.length + 1) := by
          rw [Nat.add_mul (24 * _), Nat.mul_assoc, Nat.one_mul]
        have h3 : (24 * (inner.length + 1) + 1) * (inner.length + 1) ≤ (24 * ts.length + 24) * (inner.length + 1) :=
          Nat.mul_le_mul_right _ (by omega)
        omega) (ts.length + 1) ts (Nat.le_refl _)
    have h' : (readDefinitionList (fuel + 1) ts).2 ≤ (24 * ts.length + 24) * ts.length + 24 := h
    have e1 : (24 * ts.length + 24) * ts.length = 24 * (ts.length * ts.length) + 24 * ts.length := by rw [Nat.add_mul, Nat.mul_assoc]
    have e2 : (ts.length + 1) * (ts.length + 1) = ts.length * ts.length + ts.length + ts.length + 1 := by
      rw [Nat.add_mul, Nat.mul_add, Nat.one_mul, Nat.mul_one]; omega
    rw [e1] at h'
    rw [e2]
    omega

theorem buildSyntaxRule_cost (ts : List Token) : (buildSyntaxRule ts).2 ≤ 24 * (ts.length * (ts.length + 1)) + 28 := by
  rw [build_after]
  obtain ⟨_, h2, h3⟩ := readMetaIdentifier_eq ts
  rw [of_bind]
  simp only
  generalize readMetaIdentifier ts = x at h2 h3
  obtain ⟨⟨name, location, next⟩, k⟩ := x
  simp only at h2 h3 ⊢
  obtain ⟨_, h5, h6⟩ := skipGaps_eq next
  rw [of_bind]
  simp only
  generalize skipGaps next = y at h5 h6
  obtain ⟨us, m⟩ := y
  simp only at h5 h6 ⊢
  rw [steps_bind]
  simp only
  have hz : ts.length ≤ 24 * (ts.length * (ts.length + 1)) := by
    have : ts.length * 1 ≤ ts.length * (ts.length + 1) := Nat.mul_le_mul_left _ (by omega)
    omega
  have h0 : ∀ c, c ≤ 24 * (ts.length * (ts.length + 1)) + 24 - (ts.length - us.length) → us.length ≤ ts.length →
      k + (m + (1 + c)) ≤ 24 * (ts.length * (ts.length + 1)) + 28 := by
    intro c hc hu
    omega
  refine h0 _ ?_ (by omega)
  have hfree : ∀ c, c = 0 → c ≤ 24 * (ts.length * (ts.length + 1)) + 24 - (ts.length - us.length) := fun c h => by omega
  unfold afterName
  cases us with
  | nil => cases location <;> exact hfree _ rfl
  | cons t rest =>
    cases location with
    | none =>
      dsimp only
      split
      · exact hfree _ rfl
      · exact hfree _ rfl
    | some loc =>
      dsimp only
      split
      · exact hfree _ rfl
      · split
        · exact hfree _ rfl
        · simp only [List.length_cons] at h5 h6 ⊢
          have h := readDefinitions_cost (last := lastLocation ts) (W := 24 * ts.length + 24) (N := ts.length) (by omega) (readDefinitionList_eq ts.length)
            (fun inner hi => by
              have h1 := readDefinitionList_cost ts.length inner
              have h2 : 24 * ((inner.length + 1) * (inner.length + 1)) + (inner.length + 1) = (24 * (inner.length + 1) + 1) * (inner.length + 1) := by
                rw [Nat.add_mul (24 * _), Nat.mul_assoc, Nat.one_mul]
              have h3 : (24 * (inner.length + 1) + 1) * (inner.length + 1) ≤ (24 * ts.length + 24) * (inner.length + 1) :=
                Nat.mul_le_mul_right _ (by omega)
              omega) (rest.length + 1) rest (by omega)
          have e1 : (readDefinitions (readDefinitionList ts.length) (lastLocation ts) (rest.length + 1) rest >>=
              fun list => pure (some ⟨loc, name, list⟩) : Work (Option SyntaxRule)).2 =
              (readDefinitions (readDefinitionList ts.length) (lastLocation ts) (rest.length + 1) rest).2 := by
            generalize readDefinitions (readDefinitionList ts.length) (lastLocation ts) (rest.length + 1) rest = y
            obtain ⟨r, m⟩ := y
            cases r <;> rfl
          rw [e1]
          refine Nat.le_trans h ?_
          obtain ⟨d, hd⟩ := Nat.exists_eq_add_of_le (show rest.length + 1 ≤ ts.length by omega)
          have e2 : 24 * (ts.length * (ts.length + 1)) = (24 * ts.length + 24) * ts.length := by
            rw [Nat.add_mul, Nat.mul_add, Nat.mul_one, Nat.mul_add, Nat.mul_assoc]
          have e3 : (24 * ts.length + 24) * ts.length = (24 * ts.length + 24) * rest.length + (24 * ts.length + 24) * (1 + d) := by
            rw [← Nat.mul_add]; congr 1; omega
          have e4 : 1 + d ≤ (24 * ts.length + 24) * (1 + d) := Nat.le_mul_of_pos_left _ (by omega)
          rw [e2, e3]
          omega

end Ebnf.Effort
