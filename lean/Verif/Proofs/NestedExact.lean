import Verif.Proofs.Nested

set_option autoImplicit false

/-! # How much of the call stack reading, printing and compiling need, exactly -/

namespace Ebnf.Nested

open Ebnf.Spec

theorem fits_pos {α : Type} {n room : Nat} {x : Res α} (h : n ≤ room) : fits n room x = x := if_pos h
theorem fits_neg {α : Type} {n room : Nat} {x : Res α} (h : ¬ n ≤ room) : fits n room x = .panic .stackOverflow := if_neg h

/-- What is read is read if it is not nested too deep, and otherwise the stack is exhausted. -/
def Ex {α : Type} (room : Nat) (nest : α → Nat) (x' x : Res α) : Prop := ∀ a, x = .ok a → x' = fits (nest a) room (.ok a)

theorem Ex.bind {α β : Type} {room : Nat} {n1 : α → Nat} {n2 : β → Nat} {x' x : Res α} {f' f : α → Res β} (h : Ex room n1 x' x)
    (hle : ∀ a b, f a = .ok b → n1 a ≤ n2 b) (hf : ∀ a, x = .ok a → n1 a ≤ room → Ex room n2 (f' a) (f a)) :
    Ex room n2 (x' >>= f') (x >>= f) := by
  intro b hb
  obtain ⟨a, ha, hb⟩ := bind_ok hb
  rw [h a ha]
  by_cases hn : n1 a ≤ room
  · rw [fits_pos hn]; exact hf a ha hn b hb
  · have := hle a b hb
    rw [fits_neg hn, fits_neg (by omega)]; rfl

theorem Ex.ok {α : Type} {room : Nat} {n : α → Nat} {a : α} (h : n a ≤ room) : Ex room n (.ok a) (.ok a) := by
  intro b hb
  injection hb with hb
  subst hb
  exact (fits_pos h).symm

theorem Ex.ite {α : Type} {room : Nat} {n : α → Nat} {c : Prop} [Decidable c] {a' a b' b : Res α} (h1 : Ex room n a' a)
    (h2 : Ex room n b' b) : Ex room n (if c then a' else b') (if c then a else b) := by
  by_cases hc : c
  · rw [if_pos hc, if_pos hc]; exact h1
  · rw [if_neg hc, if_neg hc]; exact h2

theorem Ex.fail {α : Type} {room : Nat} {n : α → Nat} {x' : Res α} {l : Location} {m : Msg} : Ex room n x' (.fail l m) := by
  intro a h
  simp [Res.fail] at h

theorem Ex.zero {α : Type} {room : Nat} {n : α → Nat} {x : Res α} (h : ∀ a, x = .ok a → n a = 0) : Ex room n x x := by
  intro a ha
  rw [fits_pos (by rw [h a ha]; omega), ha]

section readers

variable {room : Nat} {recur' recur : List Token → Res DefinitionList} {last : Location}

theorem readEnclosed_ex (hr : ∀ ts, Ex room (fun l => depthOf l + 1) (recur' ts) (recur ts)) (t : Token) (ts : List Token)
    (o c : Token → Bool) : Ex room (fun x => depthOf x.1 + 1) (readEnclosed recur' t ts o c) (readEnclosed recur t ts o c) := by
  unfold readEnclosed
  cases findClose o c 0 ts with
  | none => exact .fail
  | some x =>
    refine Ex.bind (hr _) ?_ ?_
    · intro a b h
      simp [pure] at h
      subst h
      exact Nat.le_refl _
    · intro a _ ha
      exact .ok ha

theorem readPrimary_ex (hr : ∀ ts, Ex room (fun l => depthOf l + 1) (recur' ts) (recur ts)) (ts : List Token) :
    Ex room (fun x => depthOfPrimary x.1) (readPrimary recur' last ts) (readPrimary recur last ts) := by
  have key : ∀ (f : DefinitionList → Primary), (∀ l, depthOfPrimary (f l) = depthOf l + 1) → ∀ t rest o c,
      Ex room (fun x : Primary × List Token => depthOfPrimary x.1)
        (readEnclosed recur' t rest o c >>= fun x => pure (f x.1, x.2))
        (readEnclosed recur t rest o c >>= fun x => pure (f x.1, x.2)) := by
    intro f hf t rest o c
    refine Ex.bind (readEnclosed_ex hr _ _ _ _) ?_ ?_
    · intro a b h
      simp [pure] at h
      subst h
      simp only [hf]
      exact Nat.le_refl _
    · intro a _ ha
      exact .ok (by simp only [hf]; exact ha)
  unfold readPrimary
  cases skipGaps ts with
  | nil => exact .ok (by simp [depthOfPrimary])
  | cons t rest =>
    cases t with
    | startOptionSymbol l s => exact Ex.ite .fail (key (.optional l) (fun _ => by simp [depthOfPrimary]) _ _ _ _)
    | startRepeatSymbol l s => exact Ex.ite .fail (key (.repeated l) (fun _ => by simp [depthOfPrimary]) _ _ _ _)
    | startGroupSymbol l => exact key (.grouped l) (fun _ => by simp [depthOfPrimary]) _ _ _ _
    | _ => exact .ok (by simp [depthOfPrimary])

theorem readFactor_ex (hr : ∀ ts, Ex room (fun l => depthOf l + 1) (recur' ts) (recur ts)) (ts : List Token) :
    Ex room (fun x => depthOfFactor x.1) (readFactor recur' last ts) (readFactor recur last ts) := by
  rw [readFactor_eq, readFactor_eq]
  refine Ex.bind (n1 := fun _ => 0) (.zero fun _ _ => rfl) (fun _ _ _ => Nat.zero_le _) ?_
  intro x _ _
  refine Ex.bind (readPrimary_ex hr _) ?_ ?_
  · intro a b h
    simp [pure] at h
    subst h
    simp [depthOfFactor]
  · intro a _ ha
    exact .ok (by simpa [depthOfFactor] using ha)

theorem readTerm_ex (hr : ∀ ts, Ex room (fun l => depthOf l + 1) (recur' ts) (recur ts)) (ts : List Token) :
    Ex room (fun x => depthOfTerm x.1) (readTerm recur' last ts) (readTerm recur last ts) := by
  unfold readTerm
  refine Ex.bind (readFactor_ex hr _) ?_ ?_
  · rintro ⟨f, next⟩ b h
    simp only at h ⊢
    cases hs : skipGaps next with
    | nil =>
      rw [hs] at h
      simp [pure] at h
      subst h
      simp [depthOfTerm]
    | cons t rest =>
      rw [hs] at h
      simp only at h
      split at h
      · obtain ⟨x, _, h⟩ := bind_ok h
        simp [pure] at h
        subst h
        simp only [depthOfTerm]
        omega
      · simp [pure] at h
        subst h
        simp [depthOfTerm]
  · rintro ⟨f, next⟩ _ hf
    simp only at hf ⊢
    have hp : ∀ rest, Ex room (fun x : Term × List Token => depthOfTerm x.1) (pure (.plain f, rest)) (pure (.plain f, rest)) := by
      intro rest
      exact .ok (by simpa [depthOfTerm] using hf)
    cases skipGaps next with
    | nil => exact hp _
    | cons t rest =>
      refine Ex.ite ?_ (hp _)
      refine Ex.bind (readFactor_ex hr _) ?_ ?_
      · intro a b h
        simp [pure] at h
        subst h
        simp only [depthOfTerm]
        omega
      · intro a _ ha
        exact .ok (by simp only [depthOfTerm]; omega)

theorem readSingle_ex (hr : ∀ ts, Ex room (fun l => depthOf l + 1) (recur' ts) (recur ts)) (fuel : Nat) (ts : List Token) :
    Ex room (fun x => depthOfSingle x.1) (readSingle recur' last fuel ts) (readSingle recur last fuel ts) := by
  induction fuel generalizing ts with
  | zero => intro a h; simp [readSingle] at h
  | succ fuel ih =>
    unfold readSingle
    refine Ex.bind (readTerm_ex hr _) ?_ ?_
    · rintro ⟨f, next⟩ b h
      have hp : ∀ rest, b = (SingleDefinition.cons f .nil, rest) → depthOfTerm f ≤ depthOfSingle b.1 := by
        intro rest hb
        subst hb
        simp [depthOfSingle]
      simp only at h ⊢
      cases hs : skipGaps next with
      | nil =>
        rw [hs] at h
        simp [pure] at h
        exact hp _ h.symm
      | cons t rest =>
        rw [hs] at h
        have last : (if t.isTerminator then pure (SingleDefinition.cons f .nil, t :: rest)
            else .fail t.location (.separatorExpected t.name) : Res (SingleDefinition × List Token)) = .ok b →
            depthOfTerm f ≤ depthOfSingle b.1 := by
          intro h
          split at h
          · simp [pure] at h; exact hp _ h.symm
          · simp [Res.fail] at h
        cases t with
        | concatenateSymbol l =>
          simp only at h
          obtain ⟨x, _, h⟩ := bind_ok h
          simp [pure] at h
          subst h
          simp only [depthOfSingle]
          omega
        | definitionSeparatorSymbol l c =>
          simp [pure] at h
          exact hp _ h.symm
        | _ => exact last h
    · rintro ⟨f, next⟩ _ hf
      simp only at hf ⊢
      have hp : ∀ rest, Ex room (fun x : SingleDefinition × List Token => depthOfSingle x.1) (pure (.cons f .nil, rest))
          (pure (.cons f .nil, rest)) := by
        intro rest
        exact .ok (by simpa [depthOfSingle] using hf)
      cases skipGaps next with
      | nil => exact hp _
      | cons t rest =>
        cases t with
        | concatenateSymbol l =>
          refine Ex.bind (ih _) ?_ ?_
          · intro a b h
            simp [pure] at h
            subst h
            simp only [depthOfSingle]
            omega
          · intro a _ ha
            exact .ok (by simp only [depthOfSingle]; omega)
        | definitionSeparatorSymbol l c => exact hp _
        | _ => exact Ex.ite (hp _) .fail

theorem readDefinitions_ex (hr : ∀ ts, Ex room (fun l => depthOf l + 1) (recur' ts) (recur ts)) (fuel : Nat) (ts : List Token) :
    Ex room depthOf (readDefinitions recur' last fuel ts) (readDefinitions recur last fuel ts) := by
  induction fuel generalizing ts with
  | zero => intro a h; simp [readDefinitions] at h
  | succ fuel ih =>
    unfold readDefinitions
    refine Ex.bind (readSingle_ex hr _ _) ?_ ?_
    · rintro ⟨f, next⟩ b h
      simp only at h ⊢
      cases hs : skipGaps next with
      | nil =>
        rw [hs] at h
        simp [pure] at h
        subst h
        simp [depthOf]
      | cons t rest =>
        rw [hs] at h
        simp only at h
        split at h
        · simp [pure] at h
          subst h
          simp [depthOf]
        · obtain ⟨x, _, h⟩ := bind_ok h
          simp [pure] at h
          subst h
          simp only [depthOf]
          omega
    · rintro ⟨f, next⟩ _ hf
      simp only at hf ⊢
      have hp : Ex room depthOf (pure (.cons f .nil)) (pure (.cons f .nil)) := .ok (by simpa [depthOf] using hf)
      cases skipGaps next with
      | nil => exact hp
      | cons t rest =>
        refine Ex.ite hp ?_
        refine Ex.bind (ih _) ?_ ?_
        · intro a b h
          simp [pure] at h
          subst h
          simp only [depthOf]
          omega
        · intro a _ ha
          exact .ok (by simp only [depthOf]; omega)

end readers

theorem readDefinitionList_ex (room k : Nat) (ts : List Token) :
    Ex room (fun l => depthOf l + 1) (readDefinitionList room ts) (Ebnf.readDefinitionList k ts) := by
  induction room generalizing k ts with
  | zero =>
    intro a _
    rw [fits_neg (by simp)]; rfl
  | succ room ih =>
    cases k with
    | zero => intro a h; simp [Ebnf.readDefinitionList] at h
    | succ k =>
      intro a h
      have := readDefinitions_ex (last := lastLocation ts) (ih k) (ts.length + 1) ts a h
      show readDefinitions _ _ _ _ = _
      rw [this]
      show fits (depthOf a) room _ = fits (depthOf a + 1) (room + 1) _
      unfold fits
      by_cases hd : depthOf a ≤ room
      · rw [if_pos hd, if_pos (by omega)]
      · rw [if_neg hd, if_neg (by omega)]

/-- How deep brackets are nested in a rule, if there is one. -/
def depthOfOption : Option SyntaxRule → Nat
  | none => 0
  | some r => depthOf r.definitionList

theorem build_ex (room : Nat) (ts : List Token) : Ex room depthOfOption (buildSyntaxRule room ts) (Ebnf.buildSyntaxRule ts) := by
  rw [buildNested_eq, build_eq]
  unfold buildWith
  generalize readMetaIdentifier ts = x
  obtain ⟨name, location, next⟩ := x
  simp only
  cases skipGaps next with
  | nil => cases location <;> (intro a h; simp at h)
  | cons t rest =>
    cases location with
    | none => exact Ex.ite (.ok (by simp [depthOfOption])) .fail
    | some loc =>
      refine Ex.ite .fail (Ex.ite (by intro a h; simp at h) ?_)
      refine Ex.bind (readDefinitions_ex (fun ts => readDefinitionList_ex room _ ts) _ _) ?_ ?_
      · intro a b h
        simp [pure] at h
        subst h
        simp [depthOfOption]
      · intro a _ ha
        exact .ok (by simpa [depthOfOption] using ha)

theorem depthOfRules_append (a b : List SyntaxRule) : depthOfRules (a ++ b) = max (depthOfRules a) (depthOfRules b) := by
  induction a with
  | nil => simp [depthOfRules]
  | cons r rs ih => simp only [List.cons_append, depthOfRules, ih]; omega

theorem depthOfRules_option (o : Option SyntaxRule) : depthOfRules o.toList = depthOfOption o := by
  cases o <;> simp [depthOfRules, depthOfOption]

theorem append_ex (room : Nat) {toks ts toks' : List Token} {rs : List SyntaxRule} (h : Lexer.append toks ts = (.ok rs, toks')) :
    (depthOfRules rs ≤ room → append room toks ts = (.ok rs, toks')) ∧
      (room < depthOfRules rs → (append room toks ts).1 = .panic .stackOverflow) := by
  induction ts generalizing toks rs with
  | nil =>
    simp [Lexer.append] at h
    obtain ⟨rfl, rfl⟩ := h
    exact ⟨fun _ => rfl, fun h => absurd h (by simp [depthOfRules])⟩
  | cons t ts ih =>
    by_cases ht : t.isTerminator = true
    · rw [append_cons_term ht] at h
      rw [append_cons_term' ht]
      cases hb : Ebnf.buildSyntaxRule (toks ++ [t]) with
      | ok r =>
        rw [hb] at h
        simp only at h
        generalize hx : Lexer.append [] ts = x at h
        obtain ⟨r1, t1⟩ := x
        cases r1 with
        | ok r1 =>
          simp only [Prod.mk.injEq] at h
          obtain ⟨h1, rfl⟩ := h
          injection h1 with h1
          subst h1
          have hd : depthOfRules (r.toList ++ r1) = max (depthOfOption r) (depthOfRules r1) := by
            rw [depthOfRules_append, depthOfRules_option]
          rw [hd, build_ex room _ r hb]
          obtain ⟨ih1, ih2⟩ := ih (toks := []) hx
          by_cases hr : depthOfOption r ≤ room
          · rw [fits_pos hr]
            simp only
            by_cases hr1 : depthOfRules r1 ≤ room
            · rw [ih1 hr1]
              exact ⟨fun _ => rfl, fun h => by omega⟩
            · refine ⟨fun h => by omega, fun _ => ?_⟩
              have := ih2 (by omega)
              generalize append room [] ts = y at this
              obtain ⟨r2, t2⟩ := y
              simp only at this
              subst this
              rfl
          · rw [fits_neg hr]
            exact ⟨fun h => by omega, fun _ => rfl⟩
        | err e => simp at h
        | panic p => simp at h
        | diverge => simp at h
      | err e => rw [hb] at h; simp at h
      | panic p => rw [hb] at h; simp at h
      | diverge => rw [hb] at h; simp at h
    · have ht : t.isTerminator = false := by simpa using ht
      rw [append_cons_other ht] at h
      rw [append_cons_other' ht]
      exact ih h

theorem feed_ex (room : Nat) {m : RM Tokenizer (List Token)} {l l' : Lexer} {rs : List SyntaxRule}
    (h : Lexer.feed m l = (.ok rs, l')) : (depthOfRules rs ≤ room → feed room m l = (.ok rs, l')) ∧
      (room < depthOfRules rs → (feed room m l).1 = .panic .stackOverflow) := by
  unfold Lexer.feed at h
  unfold feed
  generalize m l.tokenizer = x at h
  obtain ⟨r, tz⟩ := x
  cases r with
  | ok tks =>
    simp only at h ⊢
    generalize hx : Lexer.append l.tokens tks = y at h
    obtain ⟨r1, t1⟩ := y
    simp only [Prod.mk.injEq] at h
    obtain ⟨rfl, rfl⟩ := h
    obtain ⟨h1, h2⟩ := append_ex room hx
    exact ⟨fun h => by rw [h1 h], fun h => by rw [h2 h]⟩
  | err e => simp at h
  | panic e => simp at h
  | diverge => simp at h

/-- The rules of a text are read if there is room for their brackets; otherwise the stack is exhausted. -/
theorem parseStr_exact (room : Nat) {name s : Str} {rs : List SyntaxRule} (h : Ebnf.parseStr name s = .ok rs) :
    parseStr room name s = fits (depthOfRules rs) room (.ok rs) := by
  unfold Ebnf.parseStr at h
  unfold parseStr
  rw [RM.bind_run] at h ⊢
  cases hp : Lexer.pushStr s (Lexer.new name) with
  | mk r l =>
    rw [hp] at h
    cases r with
    | ok rules =>
      simp only at h
      rw [RM.bind_run] at h
      have hinv : LexInv l := pushStr_inv hp
      obtain ⟨h1, h2⟩ := feed_ex room hp
      cases hf : Lexer.flush l with
      | mk o l2 =>
        rw [hf] at h
        cases o with
        | ok o =>
          have h : Res.ok (rules ++ o.toList) = Res.ok rs := h
          injection h with h
          subst h
          rw [depthOfRules_append, depthOfRules_option]
          have hflush : ∃ rs', Lexer.feed Tokenizer.flush l = (.ok rs', l2) ∧ o = rs'.head? ∧ rs'.length ≤ 1 := by
            obtain ⟨tks, rs', _, h4, _, h6, h7, _⟩ := flush_ok hinv hf
            unfold Lexer.flush at hf
            rw [first_run] at hf
            generalize hx : Lexer.feed Tokenizer.flush l = x at hf
            obtain ⟨y, l3⟩ := x
            cases y with
            | ok y =>
              simp only [headRes, Prod.mk.injEq, Res.ok.injEq] at hf
              obtain ⟨hf1, rfl⟩ := hf
              refine ⟨y, rfl, hf1.symm, ?_⟩
              unfold Lexer.feed at hx
              rcases tokenizer_flush l.tokenizer hinv with ⟨tks2, h8, h9⟩ | ⟨e, h8, h9⟩
              · rw [h9] at hx
                simp only [Prod.mk.injEq] at hx
                have h10 : Lexer.append l.tokens tks2 = (.ok y, (Lexer.append l.tokens tks2).2) := Prod.ext hx.1 rfl
                exact Nat.le_trans (append_count h10) (flushTok_count hinv h8)
              · rw [h9] at hx; simp at hx
            | err e => simp [headRes] at hf
            | panic e => simp [headRes] at hf
            | diverge => simp [headRes] at hf
          obtain ⟨rs', hf1, rfl, hf3⟩ := hflush
          have hd : depthOfOption rs'.head? = depthOfRules rs' := by
            rw [← depthOfRules_option, head_toList_of_le_one _ hf3]
          rw [hd]
          obtain ⟨h4, h5⟩ := feed_ex room hf1
          by_cases hr : depthOfRules rules ≤ room
          · rw [show pushStr room s (Lexer.new name) = _ from h1 hr]
            simp only
            rw [RM.bind_run]
            unfold flush
            rw [first_run]
            by_cases hr2 : depthOfRules rs' ≤ room
            · rw [h4 hr2, fits_pos (by omega)]; rfl
            · rw [h5 (by omega), fits_neg (by omega)]; rfl
          · rw [fits_neg (by omega)]
            have := h2 (by omega)
            unfold pushStr
            generalize feed room (Tokenizer.pushStr s) (Lexer.new name) = y at this
            obtain ⟨y1, y2⟩ := y
            simp only at this
            subst this
            rfl
        | err e => simp at h
        | panic e => simp at h
        | diverge => simp at h
    | err e => simp at h
    | panic e => simp at h
    | diverge => simp at h

/-! ## Printing -/

theorem fits_bind {α β : Type} {n room : Nat} {a : α} {f : α → Res β} :
    (fits n room (.ok a) >>= f) = fits n room (f a) := by
  unfold fits
  by_cases h : n ≤ room
  · rw [if_pos h, if_pos h]; rfl
  · rw [if_neg h, if_neg h]; rfl

theorem fits_fits {α : Type} {n m room : Nat} {x : Res α} : fits n room (fits m room x) = fits (max n m) room x := by
  unfold fits
  by_cases h : n ≤ room
  · by_cases h' : m ≤ room
    · rw [if_pos h, if_pos h', if_pos (by omega)]
    · rw [if_pos h, if_neg h', if_neg (by omega)]
  · rw [if_neg h, if_neg (by omega)]

theorem fits_zero {α : Type} {room : Nat} {x : Res α} : fits 0 room x = x := if_pos (Nat.zero_le _)

theorem call_fits {α : Type} {n room : Nat} {f : Nat → Res α} {x : Res α} (h : ∀ room, f room = fits n room x) :
    call room f = fits (n + 1) room x := by
  cases room with
  | zero => rw [fits_neg (by omega)]; rfl
  | succ room =>
    show f room = _
    rw [h]
    unfold fits
    by_cases hn : n ≤ room
    · rw [if_pos hn, if_pos (by omega)]
    · rw [if_neg hn, if_neg (by omega)]

mutual
theorem displayPrimary_exact : (p : Primary) → ∀ room, displayPrimary p room = fits (depthOfPrimary p) room (.ok p.display)
  | .optional _ l, room => by
    simp only [displayPrimary, depthOfPrimary, Primary.display]
    rw [call_fits (displayList_exact l), fits_bind]; rfl
  | .repeated _ l, room => by
    simp only [displayPrimary, depthOfPrimary, Primary.display]
    rw [call_fits (displayList_exact l), fits_bind]; rfl
  | .grouped _ l, room => by
    simp only [displayPrimary, depthOfPrimary, Primary.display]
    rw [call_fits (displayList_exact l), fits_bind]; rfl
  | .metaIdentifier _ s, room => by simp only [displayPrimary, depthOfPrimary, Primary.display, fits_zero]
  | .terminalString _ s, room => by simp only [displayPrimary, depthOfPrimary, Primary.display, fits_zero]
  | .specialSequence _ s, room => by simp only [displayPrimary, depthOfPrimary, Primary.display, fits_zero]
  | .empty _, room => by simp only [displayPrimary, depthOfPrimary, Primary.display, fits_zero]
theorem displayFactor_exact : (f : Factor) → ∀ room, displayFactor f room = fits (depthOfFactor f) room (.ok f.display)
  | .mk n p, room => by
    simp only [displayFactor, depthOfFactor, Factor.display]
    rw [displayPrimary_exact p, fits_bind]; rfl
theorem displayTerm_exact : (t : Term) → ∀ room, displayTerm t room = fits (depthOfTerm t) room (.ok t.display)
  | .plain f, room => by
    simp only [displayTerm, depthOfTerm, Term.display]
    exact displayFactor_exact f room
  | .except f e, room => by
    simp only [displayTerm, depthOfTerm, Term.display]
    rw [displayFactor_exact f, fits_bind, displayFactor_exact e, fits_bind, fits_fits]; rfl
theorem displaySingle_exact : (d : SingleDefinition) → ∀ room, displaySingle d room = fits (depthOfSingle d) room (.ok d.display)
  | .nil, room => by simp only [displaySingle, depthOfSingle, SingleDefinition.display, fits_zero]
  | .cons t .nil, room => by
    simp only [displaySingle, depthOfSingle, SingleDefinition.display, Nat.max_zero]
    exact displayTerm_exact t room
  | .cons t (.cons t' r), room => by
    rw [displaySingle, depthOfSingle, SingleDefinition.display]
    rw [displayTerm_exact t, fits_bind, displaySingle_exact (.cons t' r), fits_bind, fits_fits]; rfl
theorem displayList_exact : (l : DefinitionList) → ∀ room, displayList l room = fits (depthOf l) room (.ok l.display)
  | .nil, room => by simp only [displayList, depthOf, DefinitionList.display, fits_zero]
  | .cons d .nil, room => by
    simp only [displayList, depthOf, DefinitionList.display, Nat.max_zero]
    exact displaySingle_exact d room
  | .cons d (.cons d' r), room => by
    rw [displayList, depthOf, DefinitionList.display]
    rw [displaySingle_exact d, fits_bind, displayList_exact (.cons d' r), fits_bind, fits_fits]; rfl
end

theorem displayRules_exact (room : Nat) (rs : List SyntaxRule) :
    displayRules room rs = fits (depthOfRules rs) room (.ok (rs.flatMap SyntaxRule.display)) := by
  induction rs with
  | nil => simp only [displayRules, depthOfRules, fits_zero, List.flatMap_nil]
  | cons r rs ih =>
    simp only [displayRules, displayRule, depthOfRules, List.flatMap_cons]
    rw [displayList_exact, fits_bind, ih]
    show (fits _ _ (Res.ok _) >>= _) = _
    rw [fits_bind, fits_bind, fits_fits]
    rfl

/-! ## Compiling -/

theorem Ex.fits {α : Type} {n m room : Nat} {x' x : Res α} (h : n ≤ m) (hx : n ≤ room → Ex room (fun _ => m) x' x) :
    Ex room (fun _ => m) (Spec.fits n room x') x := by
  intro a ha
  by_cases hn : n ≤ room
  · rw [fits_pos hn]; exact hx hn a ha
  · rw [fits_neg hn, fits_neg (show ¬ m ≤ room by omega)]

theorem Ex.seq {α β : Type} {room n m : Nat} {x' x : Res α} {f' f : α → Res β} (h : Ex room (fun _ => n) x' x) (hle : n ≤ m)
    (hf : ∀ a, n ≤ room → Ex room (fun _ => m) (f' a) (f a)) : Ex room (fun _ => m) (x' >>= f') (x >>= f) :=
  Ex.bind h (fun _ _ _ => hle) fun a _ h => hf a h

theorem call_ex {α : Type} {n room : Nat} {f : Nat → Res α} {x : Res α} (h : ∀ room, Ex room (fun _ => n) (f room) x) :
    Ex room (fun _ => n + 1) (call room f) x := by
  intro a ha
  exact call_fits (fun room => h room a ha)

theorem Ex.panic {α : Type} {room : Nat} {n : α → Nat} {x' : Res α} {p : Panic} : Ex room n x' (.panic p) := by
  intro a h
  simp at h

mutual
theorem registerPrimary_ex (config : Config) : (p : Primary) → ∀ steps next room,
    Ex room (fun _ => depthOfPrimary p) (registerPrimary config steps next p room) (Ebnf.registerPrimary config steps next p)
  | .optional loc l, steps, next, room => by
    unfold registerPrimary Ebnf.registerPrimary
    rw [displayPrimary_exact, fits_bind]
    refine Ex.fits (Nat.le_refl _) fun hd => ?_
    refine Ex.seq (call_ex (registerDefinitionList_ex config l steps none)) (by simp [depthOfPrimary]) fun x _ => .ok hd
  | .repeated loc l, steps, next, room => by
    unfold registerPrimary Ebnf.registerPrimary
    rw [displayPrimary_exact, fits_bind]
    refine Ex.fits (Nat.le_refl _) fun hd => ?_
    refine Ex.seq (call_ex (registerDefinitionList_ex config l steps none)) (by simp [depthOfPrimary]) fun x _ => .ok hd
  | .grouped loc l, steps, next, room => by
    unfold registerPrimary Ebnf.registerPrimary
    rw [displayPrimary_exact, fits_bind]
    refine Ex.fits (Nat.le_refl _) fun hd => ?_
    rw [depthOfPrimary]
    exact call_ex (registerDefinitionList_ex config l steps none)
  | .metaIdentifier _ _, _, _, _ => .ok (Nat.zero_le _)
  | .terminalString _ _, _, _, _ => .ok (Nat.zero_le _)
  | .specialSequence _ _, _, _, _ => .ok (Nat.zero_le _)
  | .empty _, _, _, _ => .ok (Nat.zero_le _)
theorem registerFactor_ex (config : Config) : (f : Factor) → ∀ steps next room,
    Ex room (fun _ => depthOfFactor f) (registerFactor config steps next f room) (Ebnf.registerFactor config steps next f)
  | .mk n p, steps, next, room => by
    unfold registerFactor Ebnf.registerFactor
    refine Ex.ite (registerPrimary_ex config p steps next room) ?_
    refine Ex.seq (registerPrimary_ex config p steps none room) (by simp [depthOfFactor]) fun x hd => ?_
    simp only
    rw [displayFactor_exact, fits_bind]
    exact Ex.fits (Nat.le_refl _) fun hd => .ok hd
theorem registerTerm_ex (config : Config) : (t : Term) → ∀ steps next room,
    Ex room (fun _ => depthOfTerm t) (registerTerm config steps next t room) (Ebnf.registerTerm config steps next t)
  | .plain f, steps, next, room => by
    unfold registerTerm Ebnf.registerTerm
    exact registerFactor_ex config f steps next room
  | .except f e, steps, next, room => by
    unfold registerTerm Ebnf.registerTerm
    refine Ex.seq (registerFactor_ex config f steps none room) (by simp only [depthOfTerm]; omega) fun x _ => ?_
    refine Ex.seq (registerFactor_ex config e _ none room) (by simp only [depthOfTerm]; omega) fun y _ => ?_
    simp only
    rw [displayTerm_exact, fits_bind]
    exact Ex.fits (Nat.le_refl _) fun hd => .ok hd
theorem registerTerms_ex (config : Config) : (d : SingleDefinition) → ∀ steps next room,
    Ex room (fun _ => depthOfSingle d) (registerTerms config steps next d room) (Ebnf.registerTerms config steps next d)
  | .nil, _, _, _ => .ok (Nat.zero_le _)
  | .cons t r, steps, next, room => by
    unfold registerTerms Ebnf.registerTerms
    refine Ex.seq (registerTerms_ex config r steps next room) (by simp only [depthOfSingle]; omega) fun x h1 => ?_
    refine Ex.seq (registerTerm_ex config t _ _ room) (by simp only [depthOfSingle]; omega) fun y h2 => ?_
    exact .ok (by simp only [depthOfSingle]; omega)
theorem registerDefinitions_ex (config : Config) : (l : DefinitionList) → ∀ steps next room,
    Ex room (fun _ => depthOf l) (registerDefinitions config steps next l room) (Ebnf.registerDefinitions config steps next l)
  | .nil, _, _, _ => .ok (Nat.zero_le _)
  | .cons d l, steps, next, room => by
    unfold registerDefinitions Ebnf.registerDefinitions
    refine Ex.ite .panic ?_
    refine Ex.seq (registerTerms_ex config d steps next room) (by simp only [depthOf]; omega) fun x h1 => ?_
    obtain ⟨index, steps'⟩ := x
    simp only
    cases index with
    | none => exact .panic
    | some i =>
      simp only
      cases steps'[i]? with
      | none => exact .panic
      | some instr =>
        refine Ex.seq (registerDefinitions_ex config l _ _ room) (by simp only [depthOf]; omega) fun y h2 => ?_
        exact .ok (by simp only [depthOf]; omega)
theorem registerDefinitionList_ex (config : Config) : (l : DefinitionList) → ∀ steps next room,
    Ex room (fun _ => depthOf l) (registerDefinitionList config steps next l room) (Ebnf.registerDefinitionList config steps next l)
  | .nil, steps, next, room => by
    unfold registerDefinitionList Ebnf.registerDefinitionList
    cases steps.getLast? with
    | none => exact .panic
    | some x => exact .ok (Nat.zero_le _)
  | .cons d .nil, steps, next, room => by
    unfold registerDefinitionList Ebnf.registerDefinitionList
    refine Ex.ite .panic ?_
    refine Ex.seq (registerTerms_ex config d steps next room) (by simp only [depthOf]; omega) fun x h1 => ?_
    obtain ⟨index, steps'⟩ := x
    simp only
    cases index with
    | none => exact .panic
    | some i => exact .ok (by simp only [depthOf]; omega)
  | .cons d (.cons d' l), steps, next, room => by
    unfold registerDefinitionList Ebnf.registerDefinitionList
    refine Ex.ite .panic ?_
    refine Ex.seq (registerTerms_ex config d steps next room) (by rw [depthOf]; omega) fun x h1 => ?_
    obtain ⟨index, steps'⟩ := x
    simp only
    cases index with
    | none => exact .panic
    | some i =>
      simp only
      cases steps'[i]? with
      | none => exact .panic
      | some instr =>
        refine Ex.seq (registerDefinitions_ex config (.cons d' l) _ _ room) (by rw [depthOf.eq_2 d]; omega) fun y h2 => ?_
        obtain ⟨more, steps''⟩ := y
        simp only
        cases steps''.getLast? with
        | none => exact .panic
        | some x => exact .ok (by rw [depthOf.eq_2 d]; omega)
end

theorem compileLoop_ex (room : Nat) (s : Syntax) (config : Config) (rs : List SyntaxRule) (g : Graph) :
    Ex room (fun _ => depthOfRules rs) (compileLoop room s config rs g) (Graph.compileLoop s config rs g) := by
  induction rs generalizing g with
  | nil => exact .ok (Nat.zero_le _)
  | cons r rs ih =>
    unfold compileLoop Graph.compileLoop
    cases s.canonicalName r.metaIdentifier with
    | none => exact .panic
    | some name =>
      refine Ex.seq (registerDefinitionList_ex config r.definitionList g.instructions none room)
        (by simp only [depthOfRules]; omega) fun x h1 => ?_
      obtain ⟨index, steps⟩ := x
      intro a ha
      refine (ih _ a ha).trans ?_
      simp only [depthOfRules]
      unfold Spec.fits
      by_cases hd : depthOfRules rs ≤ room
      · rw [if_pos hd, if_pos (by omega)]
      · rw [if_neg hd, if_neg (by omega)]

end Ebnf.Nested
