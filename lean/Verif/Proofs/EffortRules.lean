import Verif.Proofs.Effort
import Verif.Proofs.WordsLexer

set_option autoImplicit false

/-! # Proofs: the steps of the token parser -/

namespace Ebnf.Effort

open Work

variable {α β : Type}

/-! ## The same results -/

theorem bind_fst (x : Work α) (f : α → Work β) : (x >>= f).1 = (x.1 >>= fun a => (f a).1) := by
  obtain ⟨r, n⟩ := x
  cases r <;> rfl

theorem of_bind (x : α × Nat) (f : α → Work β) : (of x >>= f) = ((f x.1).1, x.2 + (f x.1).2) := rfl

theorem steps_bind (n : Nat) (f : Unit → Work β) : (steps n >>= f) = ((f ()).1, n + (f ()).2) := rfl

theorem skipGaps_eq (ts : List Token) : (skipGaps ts).1 = Ebnf.skipGaps ts ∧ (skipGaps ts).1.length ≤ ts.length ∧
    (skipGaps ts).2 + (skipGaps ts).1.length ≤ ts.length + 1 := by
  induction ts with
  | nil => exact ⟨rfl, Nat.le_refl _, by simp [skipGaps]⟩
  | cons t ts ih =>
    rw [skipGaps, Ebnf.skipGaps]
    by_cases h : t.isSkippable = true
    · rw [if_pos h, List.dropWhile_cons_of_pos h]
      obtain ⟨h1, h2, h3⟩ := ih
      refine ⟨h1, ?_, ?_⟩ <;> simp only [List.length_cons] <;> omega
    · rw [if_neg h, List.dropWhile_cons_of_neg h]
      refine ⟨rfl, Nat.le_refl _, ?_⟩
      simp only [List.length_cons]; omega

theorem readMetaLoop_eq (ts : List Token) : ∀ (acc : Str) (loc : Option Location), (readMetaLoop ts acc loc).1 = Ebnf.readMetaLoop ts acc loc ∧
    (readMetaLoop ts acc loc).1.2.2.length ≤ ts.length ∧
    (readMetaLoop ts acc loc).2 + (readMetaLoop ts acc loc).1.2.2.length ≤ ts.length + 1 := by
  induction ts with
  | nil => intro acc loc; exact ⟨rfl, Nat.le_refl _, by simp [readMetaLoop]⟩
  | cons t ts ih =>
    intro acc loc
    cases t
    case metaIdentifier l s =>
      obtain ⟨h1, h2, h3⟩ := ih (acc ++ s) (if loc.isNone then some l else loc)
      rw [readMetaLoop, Ebnf.readMetaLoop]
      simp only [List.length_cons]
      exact ⟨h1, by omega, by omega⟩
    case gapSeparatorSequence l s =>
      obtain ⟨h1, h2, h3⟩ := ih (if acc.getLast? = some ' ' then acc else acc ++ [' ']) loc
      rw [readMetaLoop, Ebnf.readMetaLoop]
      simp only [List.length_cons]
      exact ⟨h1, by omega, by omega⟩
    all_goals
      refine ⟨rfl, Nat.le_refl _, ?_⟩
      simp only [readMetaLoop, List.length_cons]
      omega

theorem readMetaIdentifier_eq (ts : List Token) : (readMetaIdentifier ts).1 = Ebnf.readMetaIdentifier ts ∧
    (readMetaIdentifier ts).1.2.2.length ≤ ts.length ∧
    (readMetaIdentifier ts).2 + (readMetaIdentifier ts).1.2.2.length ≤ ts.length + 2 := by
  unfold readMetaIdentifier Ebnf.readMetaIdentifier
  obtain ⟨h1, h2, h3⟩ := skipGaps_eq ts
  rw [← h1]
  generalize skipGaps ts = x at h1 h2 h3
  obtain ⟨us, k⟩ := x
  simp only at h1 h2 h3 ⊢
  obtain ⟨h4, h5, h6⟩ := readMetaLoop_eq us [] none
  rw [← h4]
  generalize readMetaLoop us [] none = y at h4 h5 h6
  obtain ⟨⟨s, loc, rest⟩, m⟩ := y
  simp only at h5 h6 ⊢
  exact ⟨trivial, by omega, by omega⟩

theorem findClose_eq (o c : Token → Bool) (ts : List Token) : ∀ depth, (findClose o c depth ts).1 = Ebnf.findClose o c depth ts ∧
    ((findClose o c depth ts).1 = none → (findClose o c depth ts).2 = ts.length) ∧
    ∀ inner rest, (findClose o c depth ts).1 = some (inner, rest) →
      (findClose o c depth ts).2 = inner.length + 1 ∧ inner.length + 1 + rest.length = ts.length := by
  induction ts with
  | nil => intro depth; exact ⟨rfl, fun _ => rfl, fun _ _ h => by cases h⟩
  | cons t ts ih =>
    intro depth
    have hn : ∀ d, (((findClose o c d ts).1.map fun (i, r) => (t :: i, r)) = (Ebnf.findClose o c d ts).map fun (i, r) => (t :: i, r)) ∧
        (((findClose o c d ts).1.map fun (i, r) => (t :: i, r)) = none → (findClose o c d ts).2 + 1 = (t :: ts).length) ∧
        ∀ inner rest, ((findClose o c d ts).1.map fun (i, r) => (t :: i, r)) = some (inner, rest) →
          (findClose o c d ts).2 + 1 = inner.length + 1 ∧ inner.length + 1 + rest.length = (t :: ts).length := by
      intro d
      obtain ⟨h1, h2, h3⟩ := ih d
      rw [← h1]
      generalize findClose o c d ts = x at h1 h2 h3
      obtain ⟨r, k⟩ := x
      simp only at h2 h3 ⊢
      refine ⟨trivial, ?_, ?_⟩
      · intro h
        cases r with
        | none => simp only [List.length_cons]; rw [h2 rfl]
        | some p => cases h
      · intro inner rest h
        cases r with
        | none => cases h
        | some p =>
          obtain ⟨i, q⟩ := p
          cases h
          have := h3 i q rfl
          simp only [List.length_cons]
          omega
    rw [findClose, Ebnf.findClose]
    dsimp only
    by_cases h1 : o t = true
    · rw [if_pos h1, if_pos h1]; exact hn _
    · rw [if_neg h1, if_neg h1]
      by_cases h2 : c t = true
      · rw [if_pos h2, if_pos h2]
        by_cases h3 : depth = 0
        · rw [if_pos h3, if_pos h3]
          refine ⟨rfl, (fun h => by cases h), fun inner rest h => ?_⟩
          cases h
          simp; omega
        · rw [if_neg h3, if_neg h3]; exact hn _
      · rw [if_neg h2, if_neg h2]; exact hn _

theorem bind_congr' {x : Res α} {f g : α → Res β} (h : ∀ a, f a = g a) : (x >>= f) = (x >>= g) := WordLex.bind_same fun a _ => h a

section same

variable {recur : List Token → Work DefinitionList} {recur' : List Token → Res DefinitionList} {last : Location}

theorem readEnclosed_eq (hr : ∀ ts, (recur ts).1 = recur' ts) (t : Token) (ts : List Token) (o c : Token → Bool) :
    (readEnclosed recur t ts o c).1 = Ebnf.readEnclosed recur' t ts o c := by
  unfold readEnclosed Ebnf.readEnclosed
  rw [← (findClose_eq o c ts 0).1]
  generalize findClose o c 0 ts = x
  obtain ⟨r, k⟩ := x
  cases r with
  | none => rfl
  | some p =>
    obtain ⟨inner, rest⟩ := p
    simp only
    rw [steps_bind]
    simp only
    rw [bind_fst, hr]
    rfl

theorem readPrimaryAt_eq (hr : ∀ ts, (recur ts).1 = recur' ts) (ts : List Token) (hs : Ebnf.skipGaps ts = ts) :
    (readPrimaryAt recur last ts).1 = Ebnf.readPrimary recur' last ts := by
  unfold Ebnf.readPrimary
  rw [hs]
  cases ts with
  | nil => rfl
  | cons t rest =>
    cases t
    case startOptionSymbol loc sym =>
      unfold readPrimaryAt
      dsimp only
      split
      next h => rfl
      next h =>
        rw [steps_bind]
        dsimp only
        rw [bind_fst, readEnclosed_eq hr]
        rfl
    case startRepeatSymbol loc sym =>
      unfold readPrimaryAt
      dsimp only
      split
      next h => rfl
      next h =>
        rw [steps_bind]
        dsimp only
        rw [bind_fst, readEnclosed_eq hr]
        rfl
    case startGroupSymbol loc =>
      unfold readPrimaryAt
      simp only
      rw [steps_bind]
      simp only
      rw [bind_fst, readEnclosed_eq hr]
      rfl
    case metaIdentifier loc s =>
      unfold readPrimaryAt
      simp only
      rw [steps_bind]
      simp only
      rw [of_bind]
      simp only
      rw [(readMetaIdentifier_eq _).1]
      rfl
    all_goals rfl

theorem skip_skip (ts : List Token) : Ebnf.skipGaps (Ebnf.skipGaps ts) = Ebnf.skipGaps ts := by
  unfold Ebnf.skipGaps
  induction ts with
  | nil => rfl
  | cons t ts ih =>
    by_cases h : t.isSkippable = true
    · rw [List.dropWhile_cons_of_pos h]; exact ih
    · rw [List.dropWhile_cons_of_neg h, List.dropWhile_cons_of_neg h]

theorem primary_skip (ts : List Token) : Ebnf.readPrimary recur' last (Ebnf.skipGaps ts) = Ebnf.readPrimary recur' last ts := by
  unfold Ebnf.readPrimary
  rw [skip_skip]

theorem readPrimary_eq (hr : ∀ ts, (recur ts).1 = recur' ts) (ts : List Token) :
    (readPrimary recur last ts).1 = Ebnf.readPrimary recur' last ts := by
  unfold readPrimary
  rw [of_bind]
  simp only
  rw [(skipGaps_eq ts).1, readPrimaryAt_eq hr _ (skip_skip ts), primary_skip]

/-- The repetition that `read_syntactic_factor` finds. -/
def countAt : List Token → Res (Nat × List Token)
  | .integer loc digits :: rest =>
    match parseU32 digits with
    | none => .fail loc (.badRepetition digits)
    | some n =>
      match Ebnf.skipGaps rest with
      | [] => .panic .indexOutOfBounds
      | t :: rest' =>
        if t.isRepetitionSymbol then .ok (n, Ebnf.skipGaps rest')
        else .fail t.location (.repetitionSymbolExpected t.name)
  | ts => .ok (1, ts)

theorem factor_count (ts : List Token) : Ebnf.readFactor recur' last ts =
    countAt (Ebnf.skipGaps ts) >>= fun x => Ebnf.readPrimary recur' last x.2 >>= fun y => pure (.mk x.1 y.1, y.2) := by
  unfold Ebnf.readFactor
  cases h : Ebnf.skipGaps ts with
  | nil => rfl
  | cons t rest =>
    cases t with
    | integer l d =>
      simp only [countAt]
      cases parseU32 d with
      | none => rfl
      | some n =>
        simp only
        cases h' : Ebnf.skipGaps rest with
        | nil => rfl
        | cons t' rest' => by_cases hr : t'.isRepetitionSymbol = true <;> simp [hr] <;> rfl
    | _ => rfl

theorem readRepetition_eq (ts : List Token) : (readRepetition ts).1 = countAt ts := by
  cases ts with
  | nil => rfl
  | cons t rest =>
    cases t
    case integer loc digits =>
      unfold readRepetition countAt
      dsimp only
      cases parseU32 digits with
      | none => rfl
      | some n =>
        simp only
        rw [steps_bind]
        simp only
        rw [of_bind]
        simp only
        rw [(skipGaps_eq rest).1]
        cases Ebnf.skipGaps rest with
        | nil => rfl
        | cons t rest' =>
          simp only
          split
          · rw [of_bind]
            simp only
            rw [(skipGaps_eq rest').1]
            rfl
          · rfl
    all_goals rfl

theorem readFactor_eq (hr : ∀ ts, (recur ts).1 = recur' ts) (ts : List Token) :
    (readFactor recur last ts).1 = Ebnf.readFactor recur' last ts := by
  unfold readFactor
  rw [factor_count, of_bind]
  simp only
  rw [bind_fst, (skipGaps_eq ts).1, readRepetition_eq]
  refine bind_congr' fun a => ?_
  obtain ⟨n, us⟩ := a
  simp only
  rw [bind_fst, readPrimary_eq hr]
  rfl

theorem readTerm_eq (hr : ∀ ts, (recur ts).1 = recur' ts) (ts : List Token) :
    (readTerm recur last ts).1 = Ebnf.readTerm recur' last ts := by
  unfold readTerm Ebnf.readTerm
  rw [bind_fst, readFactor_eq hr]
  refine bind_congr' fun a => ?_
  obtain ⟨f, next⟩ := a
  simp only
  rw [of_bind]
  simp only
  rw [steps_bind, (skipGaps_eq next).1]
  simp only
  cases Ebnf.skipGaps next with
  | nil => rfl
  | cons t rest =>
    simp only
    by_cases h : t.isExceptSymbol = true
    · rw [if_pos h, if_pos h, bind_fst, readFactor_eq hr]
      rfl
    · rw [if_neg h, if_neg h]
      rfl

/-- `read_single_definition` after a term. -/
def afterTerm (again : List Token → Work (SingleDefinition × List Token)) (term : Term) : List Token → Work (SingleDefinition × List Token)
  | [] => pure (.cons term .nil, [])
  | .concatenateSymbol _ :: rest => do
    let (more, next) ← again rest
    pure (.cons term more, next)
  | .definitionSeparatorSymbol l c :: rest => pure (.cons term .nil, .definitionSeparatorSymbol l c :: rest)
  | t :: rest =>
    if t.isTerminator then pure (.cons term .nil, t :: rest)
    else free (.fail t.location (.separatorExpected t.name))

theorem readSingle_succ (recur : List Token → Work DefinitionList) (last : Location) (fuel : Nat) (ts : List Token) :
    readSingle recur last (fuel + 1) ts = readTerm recur last ts >>= fun x => of (skipGaps x.2) >>= fun us => steps 1 >>= fun _ =>
      afterTerm (readSingle recur last fuel) x.1 us := by
  rw [readSingle]
  congr 1

theorem afterTerm_eq {again : List Token → Work (SingleDefinition × List Token)} {again' : List Token → Res (SingleDefinition × List Token)}
    (h : ∀ ts, (again ts).1 = again' ts) (term : Term) (ts : List Token) : (afterTerm again term ts).1 = WordLex.afterTerm again' term ts := by
  cases ts with
  | nil => rfl
  | cons t rest =>
    cases t
    case concatenateSymbol l =>
      show (again rest >>= _).1 = (again' rest >>= _)
      rw [bind_fst, h]
      rfl
    all_goals rfl

theorem readSingle_eq (hr : ∀ ts, (recur ts).1 = recur' ts) (fuel : Nat) : ∀ ts : List Token,
    (readSingle recur last fuel ts).1 = Ebnf.readSingle recur' last fuel ts := by
  induction fuel with
  | zero => intro ts; rfl
  | succ fuel ih =>
    intro ts
    rw [readSingle_succ, WordLex.readSingle_after, bind_fst, readTerm_eq hr]
    refine bind_congr' fun a => ?_
    rw [of_bind]
    simp only
    rw [steps_bind, (skipGaps_eq _).1]
    exact afterTerm_eq ih _ _

/-- `read_definition_list` after a definition. -/
def afterSingle (again : List Token → Work DefinitionList) (single : SingleDefinition) : List Token → Work DefinitionList
  | [] => pure (.cons single .nil)
  | t :: rest =>
    if t.isTerminator then pure (.cons single .nil)
    else do
      let more ← again (match t with | .definitionSeparatorSymbol _ _ => rest | t => t :: rest)
      pure (.cons single more)

theorem readDefinitions_succ (recur : List Token → Work DefinitionList) (last : Location) (fuel : Nat) (ts : List Token) :
    readDefinitions recur last (fuel + 1) ts = readSingle recur last (ts.length + 1) ts >>= fun x => of (skipGaps x.2) >>= fun us =>
      steps 1 >>= fun _ => afterSingle (readDefinitions recur last fuel) x.1 us := by
  rw [readDefinitions]
  congr 1

theorem afterSingle_eq {again : List Token → Work DefinitionList} {again' : List Token → Res DefinitionList}
    (h : ∀ ts, (again ts).1 = again' ts) (single : SingleDefinition) (ts : List Token) :
    (afterSingle again single ts).1 = WordLex.afterSingle again' single ts := by
  cases ts with
  | nil => rfl
  | cons t rest =>
    unfold afterSingle WordLex.afterSingle
    dsimp only
    by_cases ht : t.isTerminator = true
    · rw [if_pos ht, if_pos ht]
      rfl
    · rw [if_neg ht, if_neg ht, bind_fst, h]
      cases t <;> rfl

theorem readDefinitions_eq (hr : ∀ ts, (recur ts).1 = recur' ts) (fuel : Nat) : ∀ ts : List Token,
    (readDefinitions recur last fuel ts).1 = Ebnf.readDefinitions recur' last fuel ts := by
  induction fuel with
  | zero => intro ts; rfl
  | succ fuel ih =>
    intro ts
    rw [readDefinitions_succ, WordLex.readDefinitions_after, bind_fst, readSingle_eq hr]
    refine bind_congr' fun a => ?_
    rw [of_bind]
    simp only
    rw [steps_bind, (skipGaps_eq _).1]
    exact afterSingle_eq ih _ _

end same

theorem readDefinitionList_eq (fuel : Nat) : ∀ ts : List Token, (readDefinitionList fuel ts).1 = Ebnf.readDefinitionList fuel ts := by
  induction fuel with
  | zero => intro ts; rfl
  | succ fuel ih => intro ts; exact readDefinitions_eq ih _ _

/-- `build_syntax_rule` after the name. -/
def afterName (tokens : List Token) (name : Str) (location : Option Location) (ts : List Token) : Work (Option SyntaxRule) :=
  match location, ts with
  | _, [] => free (.panic .indexOutOfBounds)
  | none, t :: _ =>
    if t.isTerminator then pure none
    else free (.fail t.location (.metaIdentifierExpected t.name))
  | some loc, t :: rest =>
    if !t.isDefiningSymbol then free (.fail t.location (.definingExpected t.name))
    else if name.isEmpty then free (.panic .emptyMetaIdentifier)
    else do
      let list ← readDefinitions (readDefinitionList tokens.length) (lastLocation tokens) (rest.length + 1) rest
      pure (some ⟨loc, name, list⟩)

theorem build_after (tokens : List Token) : buildSyntaxRule tokens = of (readMetaIdentifier tokens) >>= fun x => of (skipGaps x.2.2) >>= fun us =>
    steps 1 >>= fun _ => afterName tokens x.1 x.2.1 us := by
  unfold buildSyntaxRule
  congr 1

theorem buildSyntaxRule_eq (tokens : List Token) : (buildSyntaxRule tokens).1 = Ebnf.buildSyntaxRule tokens := by
  rw [build_after, of_bind]
  simp only
  rw [of_bind]
  simp only
  rw [steps_bind]
  simp only
  rw [(skipGaps_eq _).1, (readMetaIdentifier_eq tokens).1]
  unfold Ebnf.buildSyntaxRule
  generalize Ebnf.readMetaIdentifier tokens = x
  obtain ⟨name, location, next⟩ := x
  simp only
  generalize Ebnf.skipGaps next = us
  cases us with
  | nil => cases location <;> rfl
  | cons t rest =>
    cases location with
    | none =>
      simp only [afterName]
      by_cases h : t.isTerminator = true
      · rw [if_pos h, if_pos h]; rfl
      · rw [if_neg h, if_neg h]; rfl
    | some loc =>
      simp only [afterName]
      by_cases h : (!t.isDefiningSymbol) = true
      · rw [if_pos h, if_pos h]; rfl
      · rw [if_neg h, if_neg h]
        by_cases h' : name.isEmpty = true
        · rw [if_pos h', if_pos h']; rfl
        · rw [if_neg h', if_neg h', bind_fst, readDefinitions_eq (readDefinitionList_eq _)]
          rfl

theorem append_eq (ts : List Token) : ∀ tokens : List Token, (append tokens ts).1 = Lexer.append tokens ts := by
  induction ts with
  | nil => intro tokens; rfl
  | cons t ts ih =>
    intro tokens
    rw [append, Lexer.append]
    dsimp only
    by_cases h : t.isTerminator = true
    · rw [if_pos h, if_pos h, ← buildSyntaxRule_eq]
      generalize buildSyntaxRule (tokens ++ [t]) = x
      obtain ⟨r, k⟩ := x
      cases r with
      | ok r =>
        simp only
        rw [← ih]
        generalize append [] ts = y
        obtain ⟨⟨q, toks⟩, e⟩ := y
        cases q <;> rfl
      | err e => rfl
      | panic e => rfl
      | diverge => rfl
    · rw [if_neg h, if_neg h, ← ih]

end Ebnf.Effort
