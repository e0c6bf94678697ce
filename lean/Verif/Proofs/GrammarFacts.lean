import Verif.Proofs.GrammarText
import Verif.Spec.Shape

set_option autoImplicit false

/-! # Shape and positions of derived rules, nesting -/

namespace Ebnf

open Spec

/-! ### Nesting -/

theorem nested_rule {ts : List Token} {r : SyntaxRule} (h : RuleG ts r) : Nested ts := by
  cases h with
  | @rule g ts g' l ts' g'' t loc name list hg hN hg' hl hg'' ht =>
    refine nested_append (nested_append (nested_append (nested_blanks hg) (nested_name hN)) (nested_blanks hg')) ?_
    refine .other (by intro k; cases k <;> simp [Opens]) (by intro k; cases k <;> simp [Closes]) ?_
    refine nested_append (nested_append (nested_list hl) (nested_blanks hg'')) ?_
    refine .other ?_ ?_ .nil
    · intro k; cases k <;> cases t <;> simp_all [Opens, IsTerminator]
    · intro k; cases k <;> cases t <;> simp_all [Closes, IsTerminator]

theorem nested_rules {ts : List Token} {rs : List SyntaxRule} (h : RulesG ts rs) : Nested ts := by
  induction h with
  | nil => exact .nil
  | rule hr _ ih => exact nested_append (nested_rule hr) ih
  | @blank g t us rs hg ht _ ih =>
    refine nested_append (nested_blanks hg) (.other ?_ ?_ ih)
    · intro k; cases k <;> cases t <;> simp_all [Opens, IsTerminator]
    · intro k; cases k <;> cases t <;> simp_all [Closes, IsTerminator]

theorem nested_drop_last {xs : List Token} (h : Nested xs) {a : List Token} {e : Token}
    (he : ∀ k, ¬ Closes k e) (hx : xs = a ++ [e]) : Nested a := by
  induction h generalizing a with
  | nil => simp at hx
  | @other t ts h1 h2 _ ih =>
    cases a with
    | nil => exact .nil
    | cons b bs =>
      simp at hx
      obtain ⟨rfl, rfl⟩ := hx
      exact .other h1 h2 (ih rfl)
  | @pair k o c ts us h1 h2 h3 _ _ ih =>
    rcases List.eq_nil_or_concat us with rfl | ⟨us', x, rfl⟩
    · exfalso
      have := congrArg List.getLast? hx
      rw [List.getLast?_concat, ← List.cons_append, List.getLast?_concat] at this
      simp at this; subst this; exact he k h2
    · have : (o :: (ts ++ c :: us')) ++ [x] = a ++ [e] := by simpa using hx
      obtain ⟨h4, h5⟩ := List.append_inj' this rfl
      simp at h5; subst h5
      rw [← h4]
      exact .pair h1 h2 h3 (ih (by simp))

/-! ### Shape -/

/-- All tokens are spelled. -/
def AllSpelled (ts : List Token) : Prop := ∀ t ∈ ts, ∃ s, Spelled t s

theorem AllSpelled.left {a b : List Token} (h : AllSpelled (a ++ b)) : AllSpelled a :=
  fun t ht => h t (by simp [ht])
theorem AllSpelled.right {a b : List Token} (h : AllSpelled (a ++ b)) : AllSpelled b :=
  fun t ht => h t (by simp [ht])
theorem AllSpelled.tail {t : Token} {b : List Token} (h : AllSpelled (t :: b)) : AllSpelled b :=
  fun t ht => h t (by simp [ht])

theorem spelled_word {l : Location} {s : Str} (h : ∃ u, Spelled (.metaIdentifier l s) u) :
    ∃ c t, s = c :: t ∧ IsLetter c ∧ ∀ d ∈ t, IsLetter d ∨ IsDigit d := by
  obtain ⟨u, hu⟩ := h
  cases hu with
  | metaIdentifier _ c s hc hs => exact ⟨c, s, rfl, hc, hs⟩

theorem joinSpace_concat {ws : List Str} (h : ws ≠ []) (w : Str) :
    joinSpace (ws ++ [w]) = joinSpace ws ++ ' ' :: w := by
  induction ws with
  | nil => exact absurd rfl h
  | cons a as ih =>
    cases as with
    | nil => rfl
    | cons b bs =>
      have := ih (by simp)
      simp only [List.cons_append] at this ⊢
      rw [joinSpace, this]
      · simp [joinSpace]
      · simp

/-- Extending the last word. -/
theorem joinSpace_extend (ws : List Str) (v w : Str) :
    joinSpace (ws ++ [v ++ w]) = joinSpace (ws ++ [v]) ++ w := by
  cases ws with
  | nil => rfl
  | cons a as => rw [joinSpace_concat (by simp), joinSpace_concat (by simp)]; simp

theorem nameShape_of_name {ts : List Token} {l : Location} {n : Str} (h : Name ts l n) (hs : AllSpelled ts) :
    NameShape n := by
  induction h with
  | word l s =>
    refine ⟨[s], by simp, rfl, ?_⟩
    intro w hw
    simp at hw; subst hw
    exact spelled_word (hs (.metaIdentifier l w) (by simp))
  | @adjacent ts l n l' s _ ih =>
    obtain ⟨ws, h1, h2, h3⟩ := ih hs.left
    rcases List.eq_nil_or_concat ws with rfl | ⟨vs, v, rfl⟩
    · exact absurd rfl h1
    · rw [List.concat_eq_append] at h1 h2 h3
      refine ⟨vs ++ [v ++ s], by simp, by rw [joinSpace_extend, h2], ?_⟩
      obtain ⟨c', t', rfl, hc', ht'⟩ := spelled_word (hs (.metaIdentifier l' s) (by simp))
      intro w hw
      rcases List.mem_append.mp hw with hw | hw
      · exact h3 w (by simp [hw])
      · simp at hw; subst hw
        obtain ⟨c, t, rfl, hc, ht⟩ := h3 v (by simp)
        refine ⟨c, t ++ c' :: t', rfl, hc, ?_⟩
        intro d hd
        rcases List.mem_append.mp hd with hd | hd
        · exact ht d hd
        · rcases List.mem_cons.mp hd with rfl | hd
          · exact .inl hc'
          · exact ht' d hd
  | @gap ts l n gs l' s _ _ _ ih =>
    obtain ⟨ws, h1, h2, h3⟩ := ih hs.left.left
    refine ⟨ws ++ [s], by simp, by rw [joinSpace_concat h1, h2], ?_⟩
    intro w hw
    rcases List.mem_append.mp hw with hw | hw
    · exact h3 w hw
    · simp at hw; subst hw
      exact spelled_word (hs (.metaIdentifier l' w) (by simp))

theorem single_ne_nil {ts : List Token} {d : SingleDefinition} (h : SingleG ts d) : d ≠ .nil := by cases h <;> simp
theorem list_ne_nil {ts : List Token} {l : DefinitionList} (h : ListG ts l) : l ≠ .nil := by cases h <;> simp

theorem spelled_terminal {l : Location} {s : Str} {q : Char} (h : ∃ u, Spelled (.terminalString l s q) u) :
    s ≠ [] ∧ (∀ c ∈ s, IsPrintable c) ∧ ¬ ('\'' ∈ s ∧ '"' ∈ s) := by
  obtain ⟨u, hu⟩ := h
  cases hu with
  | terminalString _ s q hq hne hs =>
    refine ⟨hne, fun c hc => (hs c hc).1, ?_⟩
    rintro ⟨h1, h2⟩
    simp at hq
    rcases hq with rfl | rfl
    · exact (hs _ h1).2 rfl
    · exact (hs _ h2).2 rfl

theorem spelled_special {l : Location} {s : Str} (h : ∃ u, Spelled (.specialSequence l s) u) :
    ∀ c ∈ s, (IsPrintable c ∨ c ∈ gapChars) ∧ c ≠ '?' := by
  obtain ⟨u, hu⟩ := h
  cases hu with
  | specialSequence _ s hs => exact hs

mutual
theorem shape_primary {ts : List Token} {p : Primary} : PrimaryG ts p → AllSpelled ts → PrimaryShape p
  | .optional _ _ hl, hs => by
    rw [PrimaryShape]; exact ⟨list_ne_nil hl, shape_list hl hs.right.tail.left.left⟩
  | .repeated _ _ hl, hs => by
    rw [PrimaryShape]; exact ⟨list_ne_nil hl, shape_list hl hs.right.tail.left.left⟩
  | .grouped _ _ hl, hs => by
    rw [PrimaryShape]; exact ⟨list_ne_nil hl, shape_list hl hs.right.tail.left.left⟩
  | .metaIdentifier _ hN, hs => by rw [PrimaryShape]; exact nameShape_of_name hN hs.right
  | .terminalString (l := l) (s := s) (q := q) _, hs => by
    rw [PrimaryShape]; exact spelled_terminal (hs.right (.terminalString l s q) (by simp))
  | .specialSequence (l := l) (s := s) _, hs => by
    rw [PrimaryShape]; exact spelled_special (hs.right (.specialSequence l s) (by simp))
  | .empty _ _, _ => by rw [PrimaryShape]; trivial
theorem shape_factor {ts : List Token} {f : Factor} : FactorG ts f → AllSpelled ts → FactorShape f
  | .one h, hs => by rw [FactorShape]; exact ⟨by omega, shape_primary h hs⟩
  | .times _ _ _ _ h hp, hs => by rw [FactorShape]; exact ⟨h, shape_primary hp hs.right.tail.right.tail⟩
theorem shape_term {ts : List Token} {t : Term} : TermG ts t → AllSpelled ts → TermShape t
  | .plain h, hs => by rw [TermShape]; exact shape_factor h hs
  | .except h _ h', hs => by rw [TermShape]; exact ⟨shape_factor h hs.left.left, shape_factor h' hs.right.tail⟩
theorem shape_single {ts : List Token} {d : SingleDefinition} : SingleG ts d → AllSpelled ts → SingleShape d
  | .one h, hs => by rw [SingleShape, SingleShape]; exact ⟨shape_term h hs, trivial⟩
  | .more h _ h', hs => by rw [SingleShape]; exact ⟨shape_term h hs.left.left, shape_single h' hs.right.tail⟩
theorem shape_list {ts : List Token} {l : DefinitionList} : ListG ts l → AllSpelled ts → ListShape l
  | .one h, hs => by rw [ListShape, ListShape]; exact ⟨single_ne_nil h, shape_single h hs, trivial⟩
  | .more h _ h', hs => by
    rw [ListShape]; exact ⟨single_ne_nil h, shape_single h hs.left.left, shape_list h' hs.right.tail⟩
end

theorem shape_rule {ts : List Token} {r : SyntaxRule} (h : RuleG ts r)
    (hs : ∀ t ∈ ts, (∃ s, Spelled t s) ∨ ∃ l, t = .eof l) : RuleShape r := by
  cases h with
  | @rule g ts g' l ts' g'' t loc name list hg hN hg' hl hg'' ht =>
    have hno : NoTerm (g ++ ts ++ g' ++ .definingSymbol l :: (ts' ++ g'')) :=
      noTerm_append (noTerm_append (noTerm_append (noTerm_blanks hg) (noTerm_name hN)) (noTerm_blanks hg'))
        (noTerm_cons rfl (noTerm_append (noTerm_list hl) (noTerm_blanks hg'')))
    have hall : AllSpelled (g ++ ts ++ g' ++ .definingSymbol l :: (ts' ++ g'')) := by
      intro u hu
      rcases hs u (by simp at hu ⊢; grind) with h | ⟨l', rfl⟩
      · exact h
      · exact absurd (hno _ hu) (by simp [Token.isTerminator])
    exact ⟨nameShape_of_name hN hall.left.left.right, list_ne_nil hl, shape_list hl hall.right.tail.left⟩

/-- What holds of each rule of a derivable sequence. -/
theorem rulesG_forall {ts : List Token} {rs : List SyntaxRule} (h : RulesG ts rs) :
    ∀ r ∈ rs, ∃ us, (∀ t ∈ us, t ∈ ts) ∧ RuleG us r := by
  induction h with
  | nil => simp
  | @rule ts r us rs hr _ ih =>
    intro r' hr'
    rcases List.mem_cons.mp hr' with rfl | hr'
    · exact ⟨ts, by simp +contextual, hr⟩
    · obtain ⟨vs, h1, h2⟩ := ih r' hr'
      exact ⟨vs, fun t ht => by simp [h1 t ht], h2⟩
  | blank _ _ _ ih =>
    intro r' hr'
    obtain ⟨vs, h1, h2⟩ := ih r' hr'
    exact ⟨vs, fun t ht => by simp [h1 t ht], h2⟩

theorem nameShape_words {n : Str} (h : NameShape n) :
    ∃ ws : List Str, ws ≠ [] ∧ n = joinSpace ws ∧ ∀ w ∈ ws, w ≠ [] ∧ ∀ c ∈ w, c ∉ gapChars := by
  obtain ⟨ws, h1, h2, h3⟩ := h
  refine ⟨ws, h1, h2, ?_⟩
  intro w hw
  obtain ⟨c, s, rfl, hc, hs⟩ := h3 w hw
  refine ⟨by simp, ?_⟩
  intro d hd hg
  have hl : IsLetter d ∨ IsDigit d := by
    rcases List.mem_cons.mp hd with rfl | hd
    · exact .inl hc
    · exact hs d hd
  simp [gapChars] at hg
  rcases hg with rfl | rfl | rfl | rfl | rfl | rfl <;> revert hl <;> decide

theorem nameShape_normal {n : Str} (h : NameShape n) : normalizedMetaIdentifier n = n := by
  obtain ⟨ws, h1, h2, h3⟩ := nameShape_words h
  subst h2
  rw [normalized_of_splits (splits_joinSpace h3)]

theorem nameShape_ne_nil {n : Str} (h : NameShape n) : n ≠ [] := by
  obtain ⟨ws, h1, h2, h3⟩ := nameShape_words h
  subst h2
  exact joinSpace_ne_nil (fun w hw => (h3 w hw).1) h1

/-! ### Positions -/

/-- The token a primary starts with. -/
def StartToken : Primary → Token → Prop
  | .optional l _, t => ∃ s, t = .startOptionSymbol l s
  | .repeated l _, t => ∃ s, t = .startRepeatSymbol l s
  | .grouped l _, t => t = .startGroupSymbol l
  | .metaIdentifier l n, t => ∃ w, w <+: n ∧ t = .metaIdentifier l w
  | .terminalString l s, t => ∃ q, t = .terminalString l s q
  | .specialSequence l s, t => t = .specialSequence l s
  | .empty _, _ => False

/-- Every primary of the list that is not empty starts with a token of `ts`. -/
def Located (ts : List Token) (ps : List Primary) : Prop :=
  ∀ p ∈ ps, (∀ l, p ≠ .empty l) → ∃ t ∈ ts, StartToken p t

theorem Located.append {ts : List Token} {ps qs : List Primary} (h : Located ts ps) (h' : Located ts qs) :
    Located ts (ps ++ qs) := by
  intro p hp
  rcases List.mem_append.mp hp with h1 | h1
  · exact h p h1
  · exact h' p h1

theorem Located.cons {ts : List Token} {p : Primary} {qs : List Primary}
    (h : (∀ l, p ≠ .empty l) → ∃ t ∈ ts, StartToken p t) (h' : Located ts qs) : Located ts (p :: qs) := by
  intro p hp
  rcases List.mem_cons.mp hp with rfl | h1
  · exact h
  · exact h' p h1

theorem Located.mono {ts us : List Token} {ps : List Primary} (h : Located ts ps) (hs : ∀ t ∈ ts, t ∈ us) :
    Located us ps := by
  intro p hp he
  obtain ⟨t, h1, h2⟩ := h p hp he
  exact ⟨t, hs t h1, h2⟩

theorem Located.nil {ts : List Token} : Located ts [] := by simp [Located]

theorem name_first {ts : List Token} {l : Location} {n : Str} (h : Name ts l n) :
    ∃ w, w <+: n ∧ .metaIdentifier l w ∈ ts := by
  induction h with
  | word l s => exact ⟨s, List.prefix_refl _, by simp⟩
  | adjacent l' s _ ih =>
    obtain ⟨w, h1, h2⟩ := ih
    exact ⟨w, h1.trans (List.prefix_append _ _), by simp [h2]⟩
  | gap gs l' s _ _ _ ih =>
    obtain ⟨w, h1, h2⟩ := ih
    exact ⟨w, h1.trans (List.prefix_append _ _), by simp [h2]⟩

mutual
theorem located_primary {ts : List Token} {p : Primary} : PrimaryG ts p → Located ts (primariesIn p)
  | .optional (s := s) _ _ hl => by
    rw [primariesIn]
    refine .cons (fun _ => ⟨_, ?_, s, rfl⟩) ((located_list hl).mono (by simp +contextual))
    simp
  | .repeated (s := s) _ _ hl => by
    rw [primariesIn]
    refine .cons (fun _ => ⟨_, ?_, s, rfl⟩) ((located_list hl).mono (by simp +contextual))
    simp
  | .grouped _ _ hl => by
    rw [primariesIn]
    refine .cons (fun _ => ⟨_, ?_, rfl⟩) ((located_list hl).mono (by simp +contextual))
    simp
  | .metaIdentifier _ hN => by
    obtain ⟨w, h1, h2⟩ := name_first hN
    rw [primariesIn]
    · exact .cons (fun _ => ⟨_, by simp [h2], w, h1, rfl⟩) .nil
    all_goals simp
  | .terminalString (q := q) _ => by
    rw [primariesIn]
    · exact .cons (fun _ => ⟨_, by simp, q, rfl⟩) .nil
    all_goals simp
  | .specialSequence _ => by
    rw [primariesIn]
    · exact .cons (fun _ => ⟨_, by simp, rfl⟩) .nil
    all_goals simp
  | .empty l _ => by
    rw [primariesIn]
    · exact .cons (fun h => absurd rfl (h l)) .nil
    all_goals simp
theorem located_factor {ts : List Token} {f : Factor} : FactorG ts f → Located ts (primariesOfFactor f)
  | .one h => by rw [primariesOfFactor]; exact located_primary h
  | .times _ _ _ _ _ hp => by rw [primariesOfFactor]; exact (located_primary hp).mono (by simp +contextual)
theorem located_term {ts : List Token} {t : Term} : TermG ts t → Located ts (primariesOfTerm t)
  | .plain h => by rw [primariesOfTerm]; exact located_factor h
  | .except h _ h' => by
    rw [primariesOfTerm]
    exact ((located_factor h).mono (by simp +contextual)).append ((located_factor h').mono (by simp +contextual))
theorem located_single {ts : List Token} {d : SingleDefinition} : SingleG ts d → Located ts (primariesOfSingle d)
  | .one h => by rw [primariesOfSingle, primariesOfSingle, List.append_nil]; exact located_term h
  | .more h _ h' => by
    rw [primariesOfSingle]
    exact ((located_term h).mono (by simp +contextual)).append ((located_single h').mono (by simp +contextual))
theorem located_list {ts : List Token} {l : DefinitionList} : ListG ts l → Located ts (primariesOfList l)
  | .one h => by rw [primariesOfList, primariesOfList, List.append_nil]; exact located_single h
  | .more h _ h' => by
    rw [primariesOfList]
    exact ((located_single h).mono (by simp +contextual)).append ((located_list h').mono (by simp +contextual))
end

theorem located_rule {ts : List Token} {r : SyntaxRule} (h : RuleG ts r) :
    (∃ w, w <+: r.metaIdentifier ∧ .metaIdentifier r.location w ∈ ts) ∧
      Located ts (primariesOfList r.definitionList) := by
  cases h with
  | @rule g ts g' l ts' g'' t loc name list hg hN hg' hl hg'' ht =>
    obtain ⟨w, h1, h2⟩ := name_first hN
    exact ⟨⟨w, h1, by simp [h2]⟩, (located_list hl).mono (by simp +contextual)⟩

/-- Where a token of a lexed text is. -/
theorem lexes_mem {loc : Location} {text : Str} {ts : List Token} (hl : Lexes loc text ts) :
    ∀ t ∈ ts, ∃ pre s post, text = pre ++ (s ++ post) ∧ Spelled t s ∧ positionOf t = lineColumn loc pre := by
  induction hl with
  | nil => simp
  | @cons start tk s rest tks hsp hp _ _ ih =>
    intro t ht
    rcases List.mem_cons.mp ht with rfl | ht
    · exact ⟨[], s, rest, rfl, hsp, by rw [hp, ← Location.pushStr_eq_lineColumn]; rfl⟩
    · obtain ⟨pre, u, post, rfl, h2, h3⟩ := ih t ht
      refine ⟨s ++ pre, u, post, by simp, h2, ?_⟩
      rw [h3, ← Location.pushStr_eq_lineColumn, ← Location.pushStr_eq_lineColumn, ← Location.pushStr_eq_lineColumn,
        Location.pushStr_append]

theorem startToken_startsWith {p : Primary} {t : Token} {s post : Str} (h : StartToken p t) (hs : Spelled t s) :
    positionOf t = p.location ∧ StartsWith p (s ++ post) := by
  cases p with
  | optional l d =>
    obtain ⟨u, rfl⟩ := h
    refine ⟨rfl, ?_⟩
    cases hs with
    | startOption _ _ hm =>
      simp at hm
      rcases hm with rfl | rfl
      · exact .inl (List.prefix_append _ _)
      · exact .inr (List.prefix_append _ _)
  | repeated l d =>
    obtain ⟨u, rfl⟩ := h
    refine ⟨rfl, ?_⟩
    cases hs with
    | startRepeat _ _ hm =>
      simp at hm
      rcases hm with rfl | rfl
      · exact .inl (List.prefix_append _ _)
      · exact .inr (List.prefix_append _ _)
  | grouped l d =>
    cases h
    refine ⟨rfl, ?_⟩
    cases hs
    exact List.prefix_append _ _
  | metaIdentifier l n =>
    obtain ⟨w, hw, rfl⟩ := h
    refine ⟨rfl, ?_⟩
    cases hs with
    | metaIdentifier _ c u _ _ => exact ⟨c :: u, by simp, hw, List.prefix_append _ _⟩
  | terminalString l u =>
    obtain ⟨q, rfl⟩ := h
    refine ⟨rfl, ?_⟩
    cases hs with
    | terminalString _ _ _ hq _ _ =>
      simp at hq
      rcases hq with rfl | rfl
      · exact .inl (List.prefix_append _ _)
      · exact .inr (List.prefix_append _ _)
  | specialSequence l u =>
    cases h
    refine ⟨rfl, ?_⟩
    cases hs
    exact List.prefix_append _ _
  | empty l => cases h

end Ebnf
