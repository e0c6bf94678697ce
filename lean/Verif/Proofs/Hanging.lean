import Verif.Spec.Hanging
import Verif.Proofs.GrammarText

set_option autoImplicit false

/-! # Exactly when the token parser panics -/

namespace Ebnf

open Spec

/-! ## Hanging sequences panic -/

abbrev oob {α : Type} : Res α := .panic .indexOutOfBounds

def FactorP (ts : List Token) : Prop :=
  ∀ fuel last, ts.length ≤ fuel → readFactor (readDefinitionList fuel) last ts = oob
def TermP (ts : List Token) : Prop :=
  ∀ fuel last, ts.length ≤ fuel → readTerm (readDefinitionList fuel) last ts = oob
def SingleP (ts : List Token) : Prop :=
  ∀ fuel last n, ts.length ≤ fuel → ts.length < n → readSingle (readDefinitionList fuel) last n ts = oob
def ListP (ts : List Token) : Prop :=
  ∀ fuel last n, ts.length ≤ fuel → ts.length < n → readDefinitions (readDefinitionList fuel) last n ts = oob

theorem ListP.inner {ts : List Token} (h : ListP ts) {fuel : Nat} (hf : ts.length < fuel) :
    readDefinitionList fuel ts = oob := by
  cases fuel with
  | zero => omega
  | succ f => unfold readDefinitionList; exact h f _ _ (by omega) (by omega)

theorem ListP.head {ts : List Token} (h : ListP ts) (l : Location) (r : List Token) : ts ≠ .endGroupSymbol l :: r := by
  rintro rfl
  have := h _ (Location.new []) _ (Nat.le_refl _) (Nat.lt_succ_self _)
  simp [readDefinitions, readSingle, readTerm, readFactor_eq, readCount, readPrimary, skipGaps, Token.isSkippable,
    Token.isGapSeparatorSequence, Token.isComment, Token.isExceptSymbol, Token.isTerminator, bind, Res.bind, Res.fail, pure] at this

theorem findClose_paired {o c : Token → Bool} {k : Bracket} (ho : ∀ t, o t = true ↔ Opens k t)
    (hc : ∀ t, c t = true ↔ Closes k t) {a : List Token} (ha : Paired k a) (n : Nat) (r : List Token) :
    findClose o c n (a ++ r) = (findClose o c n r).map fun x => (a ++ x.1, x.2) := by
  induction ha generalizing n r with
  | nil => simp
  | other h1 h2 _ ih =>
    rw [List.cons_append, findClose, if_neg (fun h => h1 ((ho _).mp h)), if_neg (fun h => h2 ((hc _).mp h)), ih]
    cases findClose o c n r <;> rfl
  | @pair op cl ts us h1 h2 _ _ ih1 ih2 =>
    rw [List.cons_append, findClose, if_pos ((ho _).mpr h1), List.append_assoc, ih1, List.cons_append, findClose,
      if_neg (fun h => opens_not_closes ((ho _).mp h) h2), if_pos ((hc _).mpr h2), if_neg (by omega),
      Nat.add_sub_cancel, ih2]
    cases findClose o c n r with
    | none => rfl
    | some x => simp

theorem enclosed_panics {recur : List Token → Res DefinitionList} {start c : Token} {ts rest : List Token}
    {o cl : Token → Bool} {k : Bracket} (ho : ∀ t, o t = true ↔ Opens k t) (hc : ∀ t, cl t = true ↔ Closes k t)
    (hn : Paired k ts) (hcl : Closes k c) (hr : recur ts = oob) :
    readEnclosed recur start (ts ++ c :: rest) o cl = oob := by
  unfold readEnclosed
  rw [findClose_paired ho hc hn, findClose, if_neg (fun h => opens_not_closes ((ho _).mp h) hcl),
    if_pos ((hc _).mpr hcl), if_pos rfl]
  simp only [Option.map_some, List.append_nil]
  rw [hr]
  rfl

theorem primary_panics {g inner rest : List Token} {o c : Token} {k : Bracket} (hg : Blanks g) (ho : Opens k o)
    (hp : Paired k inner) (hc : Closes k c) (hl : ListP inner) {fuel : Nat} {last : Location} (hf : inner.length < fuel) :
    readPrimary (readDefinitionList fuel) last (g ++ o :: (inner ++ c :: rest)) = oob := by
  have h1 := hl.inner hf
  have hsk : skipGaps (g ++ o :: (inner ++ c :: rest)) = o :: (inner ++ c :: rest) := by
    rw [skipGaps_blanks_skip hg, skipGaps_cons]
    cases k <;> cases o <;> simp_all [Opens] <;> rfl
  have hhead' : k ≠ .group → ((inner ++ c :: rest).head?.map Token.isEndGroupSymbol).getD false = false := by
    intro hk
    cases inner with
    | nil => cases k <;> cases c <;> simp_all [Closes] <;> rfl
    | cons a as =>
      cases a with
      | endGroupSymbol l => exact absurd rfl (hl.head l as)
      | _ => rfl
  unfold readPrimary
  rw [hsk]
  cases k with
  | option =>
    cases o <;> simp only [Opens] at ho
    simp only
    rw [hhead' (by simp)]
    simp only [Bool.false_eq_true, and_false, if_false]
    rw [enclosed_panics (k := .option) (by intro t; cases t <;> simp [Token.isStartOptionSymbol, Opens])
      (by intro t; cases t <;> simp [Token.isEndOptionSymbol, Closes]) hp hc h1]
    rfl
  | «repeat» =>
    cases o <;> simp only [Opens] at ho
    simp only
    rw [hhead' (by simp)]
    simp only [Bool.false_eq_true, and_false, if_false]
    rw [enclosed_panics (k := .repeat) (by intro t; cases t <;> simp [Token.isStartRepeatSymbol, Opens])
      (by intro t; cases t <;> simp [Token.isEndRepeatSymbol, Closes]) hp hc h1]
    rfl
  | group =>
    cases o <;> simp only [Opens] at ho
    simp only
    rw [enclosed_panics (k := .group) (by intro t; cases t <;> simp [Token.isStartGroupSymbol, Opens])
      (by intro t; cases t <;> simp [Token.isEndGroupSymbol, Closes]) hp hc h1]
    rfl

theorem blanks_skip {g : List Token} (hg : Blanks g) : skipGaps g = [] := by
  have := skipGaps_blanks_skip (g := g) (r := []) hg
  simpa [skipGaps] using this

theorem factor_integer {g g' : List Token} {l : Location} {d : Str} (hg : Blanks g) (hg' : Blanks g') (hd : IsCount d) :
    FactorP (g ++ .integer l d :: g') := by
  intro fuel last _
  have : readCount (g ++ .integer l d :: g') = oob := by
    unfold readCount
    rw [skipGaps_blanks_skip hg, skipGaps_cons rfl]
    simp only
    rw [parseU32_eq hd.1 hd.2.1 hd.2.2]
    simp only
    rw [blanks_skip hg']
  rw [readFactor_eq, this]
  rfl

theorem multiplier_count {m : List Token} (hm : Multiplier m) {us : List Token} (hu : ∀ l d r, skipGaps us ≠ .integer l d :: r) :
    ∃ n, readCount (m ++ us) = .ok (n, skipGaps us) := by
  cases hm with
  | none => exact ⟨1, readCount_none hu⟩
  | @times g g' l l' d hg hg' hd =>
    refine ⟨decimal d, ?_⟩
    unfold readCount
    rw [List.append_assoc, skipGaps_blanks_skip hg, List.cons_append, skipGaps_cons rfl]
    simp only
    rw [parseU32_eq hd.1 hd.2.1 hd.2.2]
    simp only
    rw [List.append_assoc, skipGaps_blanks_skip hg', List.cons_append, skipGaps_cons rfl]
    rfl

theorem factor_inside {m g inner rest : List Token} {o c : Token} {k : Bracket} (hm : Multiplier m) (hg : Blanks g)
    (ho : Opens k o) (hp : Paired k inner) (hc : Closes k c) (hl : ListP inner) :
    FactorP (m ++ (g ++ o :: (inner ++ c :: rest))) := by
  intro fuel last hf
  have hsk : skipGaps (g ++ o :: (inner ++ c :: rest)) = o :: (inner ++ c :: rest) := by
    rw [skipGaps_blanks_skip hg, skipGaps_cons]
    cases k <;> cases o <;> simp_all [Opens] <;> rfl
  obtain ⟨n, hn⟩ := multiplier_count hm (us := g ++ o :: (inner ++ c :: rest)) (by
    intro l d r; rw [hsk]; cases k <;> cases o <;> simp_all [Opens])
  rw [readFactor_eq, hn]
  show (readPrimary (readDefinitionList fuel) last (skipGaps (g ++ o :: (inner ++ c :: rest))) >>= _) = _
  rw [readPrimary_skip, primary_panics hg ho hp hc hl (by simp at hf; omega)]
  rfl

theorem term_factor {ts : List Token} (h : FactorP ts) : TermP ts := by
  intro fuel last hf
  unfold readTerm
  rw [h fuel last hf]
  rfl

theorem term_exception {ts g us : List Token} {l : Location} {f : Factor} (hc : FactorC ts f) (hg : Blanks g)
    (h : FactorP us) : TermP (ts ++ g ++ .exceptSymbol l :: us) := by
  intro fuel last hl
  simp at hl
  obtain ⟨hfo, hsk⟩ := follows_cons (r := us) (t := .exceptSymbol l) hg rfl
  obtain ⟨f', r', h1, _, h3⟩ := hc fuel last (g ++ .exceptSymbol l :: us) (by omega) hfo
  unfold readTerm
  rw [List.append_assoc, h1]
  show (match skipGaps r' with | t :: rest => _ | [] => _) = _
  rw [h3, hsk]
  simp only [Token.isExceptSymbol, if_true]
  rw [h fuel last (by omega)]
  rfl

theorem single_term {ts : List Token} (h : TermP ts) : SingleP ts := by
  intro fuel last n hf hn
  cases n with
  | zero => omega
  | succ n =>
    unfold readSingle
    rw [h fuel last hf]
    rfl

theorem single_next {ts g us : List Token} {l : Location} {t : Term} (hc : TermC ts t) (hg : Blanks g)
    (h : SingleP us) : SingleP (ts ++ g ++ .concatenateSymbol l :: us) := by
  intro fuel last n hl hn
  simp at hl hn
  obtain ⟨hfo, hsk⟩ := follows_cons (r := us) (t := .concatenateSymbol l) hg rfl
  obtain ⟨t', r', h1, _, h3⟩ := hc fuel last (g ++ .concatenateSymbol l :: us) (by omega) hfo (by rw [hsk]; simp)
  cases n with
  | zero => omega
  | succ n =>
    unfold readSingle
    rw [List.append_assoc, h1]
    show (match skipGaps r' with | [] => _ | .concatenateSymbol _ :: rest => _ | .definitionSeparatorSymbol l c :: rest => _ | t :: rest => _) = _
    rw [h3, hsk]
    simp only
    rw [h fuel last n (by omega) (by omega)]
    rfl

theorem list_single {ts : List Token} (h : SingleP ts) : ListP ts := by
  intro fuel last n hf hn
  cases n with
  | zero => omega
  | succ n =>
    unfold readDefinitions
    rw [h fuel last _ hf (by omega)]
    rfl

theorem list_next {ts g us : List Token} {l : Location} {c : Char} {d : SingleDefinition} (hc : SingleC ts d)
    (hg : Blanks g) (h : ListP us) : ListP (ts ++ g ++ .definitionSeparatorSymbol l c :: us) := by
  intro fuel last n hl hn
  simp at hl hn
  obtain ⟨hfo, hsk⟩ := follows_cons (r := us) (t := .definitionSeparatorSymbol l c) hg rfl
  obtain ⟨d', h1, h2⟩ := hc fuel last ((ts ++ (g ++ .definitionSeparatorSymbol l c :: us)).length + 1)
    (g ++ .definitionSeparatorSymbol l c :: us) (by omega) (by omega) hfo (by rw [hsk]; simp) (by rw [hsk]; simp)
  cases n with
  | zero => omega
  | succ n =>
    unfold readDefinitions
    rw [List.append_assoc, h1, hsk]
    have hk : skipGaps (.definitionSeparatorSymbol l c :: us) = .definitionSeparatorSymbol l c :: us := skipGaps_cons rfl
    simp only [bind, Res.bind, hk, Token.isTerminator, h fuel last n (by omega) (by omega)]
    rfl

mutual
theorem hangingFactor_panics {ts : List Token} : HangingFactor ts → NamedOk ts → FactorP ts
  | .integer hg hg' hd, _ => factor_integer hg hg' hd
  | .inside hm hg ho hp hc hl, hn => factor_inside hm hg ho hp hc (hangingList_panics hl hn.right.right.tail.left)
theorem hangingTerm_panics {ts : List Token} : HangingTerm ts → NamedOk ts → TermP ts
  | .factor h, hn => term_factor (hangingFactor_panics h hn)
  | .exception hf hg h, hn => term_exception (factor_complete hf hn.left.left) hg (hangingFactor_panics h hn.right.tail)
theorem hangingSingle_panics {ts : List Token} : HangingSingle ts → NamedOk ts → SingleP ts
  | .term h, hn => single_term (hangingTerm_panics h hn)
  | .next ht hg h, hn => single_next (term_complete ht hn.left.left) hg (hangingSingle_panics h hn.right.tail)
theorem hangingList_panics {ts : List Token} : HangingList ts → NamedOk ts → ListP ts
  | .single h, hn => list_single (hangingSingle_panics h hn)
  | .next hd hg h, hn => list_next (single_complete hd hn.left.left) hg (hangingList_panics h hn.right.tail)
end

theorem hangingRule_panics {ts : List Token} (h : HangingRule ts) (hn : NamedOk ts) : buildSyntaxRule ts = oob := by
  cases h with
  | @rule g ts g' l us loc name hg hN hg' hl =>
    have hassoc : g ++ ts ++ g' ++ .definingSymbol l :: us = g ++ (ts ++ (g' ++ .definingSymbol l :: us)) := by simp
    rw [hassoc] at hn ⊢
    have hsk : skipGaps (g' ++ .definingSymbol l :: us) = .definingSymbol l :: us := by
      rw [skipGaps_blanks_skip hg', skipGaps_cons rfl]
    obtain ⟨nx, h1, h2⟩ := readMetaIdentifier_complete (rest := g' ++ .definingSymbol l :: us) hN hn.right.left (by
      rw [hsk]
      rintro t r he ⟨l, s, rfl⟩
      simp at he)
    have hmi : readMetaIdentifier (g ++ (ts ++ (g' ++ .definingSymbol l :: us))) = (name, some loc, nx) := by
      rw [← h1, ← readMetaIdentifier_skip, skipGaps_blanks_skip hg, readMetaIdentifier_skip]
    have h3 := hangingList_panics hl hn.right.right.right.tail (g ++ (ts ++ (g' ++ .definingSymbol l :: us))).length
      (lastLocation (g ++ (ts ++ (g' ++ .definingSymbol l :: us)))) (us.length + 1) (by simp; omega) (by omega)
    unfold buildSyntaxRule
    rw [hmi]
    simp only
    rw [h2, hsk]
    simp only [Token.isDefiningSymbol]
    have hne : name.isEmpty = false := by
      have := (hN.tight hn.right.left).1
      cases name with
      | nil => exact absurd rfl this
      | cons a as => rfl
    simp only [hne, Bool.not_true, Bool.false_eq_true, if_false]
    rw [h3]
    rfl

/-! ## Only hanging sequences panic -/

theorem bind_panic {α β : Type} {x : Res α} {f : α → Res β} {p : Panic} (h : (x >>= f) = .panic p) :
    x = .panic p ∨ ∃ a, x = .ok a ∧ f a = .panic p := by
  cases x with
  | ok a => exact .inr ⟨a, rfl, h⟩
  | err e => cases h
  | panic q => injection h with h; subst h; exact .inl rfl
  | diverge => cases h

/-- `n` closing brackets more than opening ones. -/
inductive Debt (k : Bracket) : Nat → List Token → Prop
  | zero {i} : Paired k i → Debt k 0 i
  | succ {n a c b} : Paired k a → Closes k c → Debt k n b → Debt k (n + 1) (a ++ c :: b)

theorem Debt.prepend {k : Bracket} {n : Nat} {x i : List Token} (hx : ∀ a, Paired k a → Paired k (x ++ a))
    (h : Debt k n i) : Debt k n (x ++ i) := by
  cases h with
  | zero h => exact .zero (hx _ h)
  | succ h1 h2 h3 => rw [← List.append_assoc]; exact .succ (hx _ h1) h2 h3

theorem findClose_debt {o c : Token → Bool} {k : Bracket} (ho : ∀ t, o t = true ↔ Opens k t)
    (hc : ∀ t, c t = true ↔ Closes k t) {n : Nat} {ts inner rest : List Token}
    (h : findClose o c n ts = some (inner, rest)) : Debt k n inner := by
  induction ts generalizing n inner with
  | nil => simp [findClose] at h
  | cons t ts ih =>
    rw [findClose] at h
    by_cases h1 : o t = true
    · rw [if_pos h1] at h
      cases hf : findClose o c (n + 1) ts with
      | none => rw [hf] at h; simp at h
      | some x =>
        obtain ⟨i, r⟩ := x
        rw [hf] at h
        simp at h
        obtain ⟨rfl, rfl⟩ := h
        have := ih hf
        generalize hm : n + 1 = m at this
        cases this with
        | zero _ => omega
        | @succ n' a cl b ha hcl hb =>
          have : n' = n := by omega
          subst this
          have hp := hb.prepend (x := t :: (a ++ [cl])) (fun x hx => by
            have := Paired.pair ((ho t).mp h1) hcl ha hx
            simpa using this)
          simpa using hp
    · rw [if_neg h1] at h
      by_cases h2 : c t = true
      · rw [if_pos h2] at h
        by_cases h3 : n = 0
        · rw [if_pos h3] at h
          simp at h
          obtain ⟨rfl, rfl⟩ := h
          subst h3
          exact .zero .nil
        · rw [if_neg h3] at h
          cases hf : findClose o c (n - 1) ts with
          | none => rw [hf] at h; simp at h
          | some x =>
            obtain ⟨i, r⟩ := x
            rw [hf] at h
            simp at h
            obtain ⟨rfl, rfl⟩ := h
            have := Debt.succ .nil ((hc t).mp h2) (ih hf)
            rwa [Nat.sub_add_cancel (by omega)] at this
      · rw [if_neg h2] at h
        cases hf : findClose o c n ts with
        | none => rw [hf] at h; simp at h
        | some x =>
          obtain ⟨i, r⟩ := x
          rw [hf] at h
          simp at h
          obtain ⟨rfl, rfl⟩ := h
          exact (ih hf).prepend (x := [t]) (fun a ha =>
            .other (fun h => h1 ((ho t).mpr h)) (fun h => h2 ((hc t).mpr h)) ha)

/-- What the recursive call may be assumed to do. -/
def RecurHang (recur : List Token → Res DefinitionList) : Prop :=
  ∀ inner p, NoTerm inner → NamedOk inner → recur inner = .panic p → p = .indexOutOfBounds ∧ HangingList inner

section hang
variable {recur : List Token → Res DefinitionList} {last : Location}

theorem readEnclosed_hang (hr : RecurHang recur) {k : Bracket} {start : Token} {ts : List Token} {o c : Token → Bool}
    (ho : ∀ t, o t = true ↔ Opens k t) (hc : ∀ t, c t = true ↔ Closes k t)
    {p : Panic} (hts : TermLast ts) (hn : NamedOk ts) (h : readEnclosed recur start ts o c = .panic p) :
    p = .indexOutOfBounds ∧ ∃ inner t rest, ts = inner ++ t :: rest ∧ Paired k inner ∧ Closes k t ∧ HangingList inner := by
  unfold readEnclosed at h
  cases hf : findClose o c 0 ts with
  | none => rw [hf] at h; simp [Res.fail] at h
  | some x =>
    obtain ⟨inner, rest⟩ := x
    obtain ⟨t, ht, hct⟩ := findClose_some hf
    have hd := findClose_debt ho hc hf
    rw [hf] at h
    rcases bind_panic h with h | ⟨a, _, h⟩
    · subst ht
      obtain ⟨rfl, hl⟩ := hr inner p hts.before (hn.sub (by simp +contextual)) h
      cases hd with
      | zero hp => exact ⟨rfl, inner, t, rest, rfl, hp, (hc t).mp hct, hl⟩
    · cases h

theorem readPrimary_hang (hr : RecurHang recur) {ts : List Token} {p : Panic} (hts : TermLast ts) (hn : NamedOk ts)
    (h : readPrimary recur last ts = .panic p) :
    p = .indexOutOfBounds ∧ ∃ g o inner c rest k, ts = g ++ o :: (inner ++ c :: rest) ∧ Blanks g ∧ Opens k o ∧
      Paired k inner ∧ Closes k c ∧ HangingList inner := by
  unfold readPrimary at h
  obtain ⟨g, hg1, hg2⟩ := skipGaps_blanks ts
  cases hs : skipGaps ts with
  | nil => rw [hs] at h; cases h
  | cons t r =>
    rw [hs] at h hg1
    simp only at h
    have hts' : TermLast r := hts.suffix ⟨g ++ [t], by rw [hg1]; simp⟩
    have hn' : NamedOk r := hn.sub (by rw [hg1]; simp +contextual)
    cases t with
    | startOptionSymbol l s =>
      simp only at h
      split at h
      · simp [Res.fail] at h
      · rcases bind_panic h with h | ⟨a, _, h⟩
        · obtain ⟨rfl, inner, c, rest, rfl, hp, hc, hl⟩ := readEnclosed_hang (k := .option) hr
            (by intro t; cases t <;> simp [Token.isStartOptionSymbol, Opens])
            (by intro t; cases t <;> simp [Token.isEndOptionSymbol, Closes]) hts' hn' h
          exact ⟨rfl, g, _, inner, c, rest, .option, hg1, hg2, trivial, hp, hc, hl⟩
        · cases h
    | startRepeatSymbol l s =>
      simp only at h
      split at h
      · simp [Res.fail] at h
      · rcases bind_panic h with h | ⟨a, _, h⟩
        · obtain ⟨rfl, inner, c, rest, rfl, hp, hc, hl⟩ := readEnclosed_hang (k := .repeat) hr
            (by intro t; cases t <;> simp [Token.isStartRepeatSymbol, Opens])
            (by intro t; cases t <;> simp [Token.isEndRepeatSymbol, Closes]) hts' hn' h
          exact ⟨rfl, g, _, inner, c, rest, .repeat, hg1, hg2, trivial, hp, hc, hl⟩
        · cases h
    | startGroupSymbol l =>
      simp only at h
      rcases bind_panic h with h | ⟨a, _, h⟩
      · obtain ⟨rfl, inner, c, rest, rfl, hp, hc, hl⟩ := readEnclosed_hang (k := .group) hr
          (by intro t; cases t <;> simp [Token.isStartGroupSymbol, Opens])
          (by intro t; cases t <;> simp [Token.isEndGroupSymbol, Closes]) hts' hn' h
        exact ⟨rfl, g, _, inner, c, rest, .group, hg1, hg2, trivial, hp, hc, hl⟩
      · cases h
    | _ => cases h

theorem readFactor_hang (hr : RecurHang recur) {ts : List Token} {p : Panic} (hts : TermLast ts) (hn : NamedOk ts)
    (h : readFactor recur last ts = .panic p) : p = .indexOutOfBounds ∧ HangingFactor ts := by
  rw [readFactor_eq] at h
  obtain ⟨g, hg1, hg2⟩ := skipGaps_blanks ts
  have noCount : readCount ts = .ok (1, skipGaps ts) → p = .indexOutOfBounds ∧ HangingFactor ts := by
    intro hc
    rw [hc] at h
    rcases bind_panic h with h | ⟨a, ha, h⟩
    · cases h
    · injection ha with ha
      subst ha
      rcases bind_panic h with h | ⟨a, _, h⟩
      · simp only at h
        rw [readPrimary_skip] at h
        obtain ⟨rfl, g', o, inner, c, rest, k, rfl, h1, h2, h3, h4, h5⟩ := readPrimary_hang hr hts hn h
        exact ⟨rfl, .inside (m := []) .none h1 h2 h3 h4 h5⟩
      · cases h
  cases hs : skipGaps ts with
  | nil => exact noCount (by unfold readCount; rw [hs])
  | cons t r =>
    cases t with
    | integer l d =>
      rw [hs] at hg1
      unfold readCount at h
      rw [hs] at h
      simp only at h
      cases hu : parseU32 d with
      | none => rw [hu] at h; simp [Res.fail, bind, Res.bind] at h
      | some n =>
        rw [hu] at h
        simp only at h
        obtain ⟨h1, h2, h3, h4⟩ := parseU32_some hu
        subst h3
        obtain ⟨g', hg1', hg2'⟩ := skipGaps_blanks r
        cases hs' : skipGaps r with
        | nil =>
          rw [hs'] at h hg1'
          rcases bind_panic h with h | ⟨a, ha, h⟩
          · injection h with h
            subst h
            rw [List.append_nil] at hg1'
            subst hg1'
            refine ⟨rfl, ?_⟩
            rw [hg1]
            exact .integer hg2 hg2' ⟨h1, h2, h4⟩
          · cases ha
        | cons t' r' =>
          rw [hs'] at h hg1'
          simp only at h
          by_cases ht' : t'.isRepetitionSymbol = true
          · rw [if_pos ht'] at h
            obtain ⟨l', rfl⟩ : ∃ l', t' = .repetitionSymbol l' := by
              cases t' <;> simp [Token.isRepetitionSymbol] at ht'; exact ⟨_, rfl⟩
            rcases bind_panic h with h | ⟨a, ha, h⟩
            · cases h
            · injection ha with ha
              subst ha
              rcases bind_panic h with h | ⟨a, _, h⟩
              · simp only at h
                rw [readPrimary_skip] at h
                have hsp : ts = (g ++ .integer l d :: (g' ++ [.repetitionSymbol l'])) ++ r' := by
                  rw [hg1, hg1']; simp
                have hsuf : r' <:+ ts := ⟨_, hsp.symm⟩
                obtain ⟨rfl, g'', o, inner, c, rest, k, rfl, k1, k2, k3, k4, k5⟩ :=
                  readPrimary_hang hr (hts.suffix hsuf) (hn.sub fun t ht => hsuf.subset ht) h
                rw [hsp]
                exact ⟨rfl, .inside (.times hg2 hg2' ⟨h1, h2, h4⟩) k1 k2 k3 k4 k5⟩
              · cases h
          · rw [if_neg ht'] at h
            simp [Res.fail, bind, Res.bind] at h
    | _ => exact noCount (by unfold readCount; rw [hs])

theorem readTerm_hang (hs : RecurSound recur) (hr : RecurHang recur) {ts : List Token} {p : Panic} (hts : TermLast ts)
    (hn : NamedOk ts) (h : readTerm recur last ts = .panic p) : p = .indexOutOfBounds ∧ HangingTerm ts := by
  unfold readTerm at h
  rcases bind_panic h with h | ⟨⟨f, nx⟩, hf, h⟩
  · obtain ⟨h1, h2⟩ := readFactor_hang hr hts hn h
    exact ⟨h1, .factor h2⟩
  · simp only at h
    obtain ⟨u, g, h1, h2, h3⟩ := (readFactor_sound hs hts hn hf).skip
    cases hsk : skipGaps nx with
    | nil => rw [hsk] at h; cases h
    | cons t' r =>
      rw [hsk] at h h1
      simp only at h
      split at h
      · next ht =>
        obtain ⟨l, rfl⟩ : ∃ l, t' = .exceptSymbol l := by
          cases t' <;> simp [Token.isExceptSymbol] at ht; exact ⟨_, rfl⟩
        rcases bind_panic h with h | ⟨a, _, h⟩
        · have hsp : ts = u ++ g ++ .exceptSymbol l :: r := by rw [h1]; simp
          have hsuf : r <:+ ts := ⟨u ++ g ++ [.exceptSymbol l], by rw [hsp]; simp⟩
          obtain ⟨k1, k2⟩ := readFactor_hang hr (hts.suffix hsuf) (hn.sub fun t ht => hsuf.subset ht) h
          rw [hsp]
          exact ⟨k1, .exception h3 h2 k2⟩
        · cases h
      · cases h

theorem readSingle_hang (hs : RecurSound recur) (hr : RecurHang recur) {fuel : Nat} {ts : List Token} {p : Panic}
    (hts : TermLast ts) (hn : NamedOk ts) (h : readSingle recur last fuel ts = .panic p) :
    p = .indexOutOfBounds ∧ HangingSingle ts := by
  induction fuel generalizing ts with
  | zero => simp [readSingle] at h
  | succ fuel ih =>
    unfold readSingle at h
    rcases bind_panic h with h | ⟨⟨t, nx⟩, ht, h⟩
    · obtain ⟨h1, h2⟩ := readTerm_hang hs hr hts hn h
      exact ⟨h1, .term h2⟩
    · simp only at h
      obtain ⟨u, g, h1, h2, h3⟩ := (readTerm_sound hs hts hn ht).skip
      cases hsk : skipGaps nx with
      | nil => rw [hsk] at h; cases h
      | cons t' r =>
        rw [hsk] at h h1
        have key : (if t'.isTerminator then pure (.cons t .nil, t' :: r)
            else .fail t'.location (.separatorExpected t'.name) : Res (SingleDefinition × List Token)) ≠ .panic p := by
          split
          · intro h; cases h
          · simp [Res.fail]
        cases t' with
        | concatenateSymbol l =>
          simp only at h
          rcases bind_panic h with h | ⟨a, _, h⟩
          · have hsp : ts = u ++ g ++ .concatenateSymbol l :: r := by rw [h1]; simp
            have hsuf : r <:+ ts := ⟨u ++ g ++ [.concatenateSymbol l], by rw [hsp]; simp⟩
            obtain ⟨k1, k2⟩ := ih (hts.suffix hsuf) (hn.sub fun t ht => hsuf.subset ht) h
            rw [hsp]
            exact ⟨k1, .next h3 h2 k2⟩
          · cases h
        | definitionSeparatorSymbol l c => cases h
        | _ => exact absurd h key

theorem readDefinitions_hang (hs : RecurSound recur) (hr : RecurHang recur) {fuel : Nat} {ts : List Token} {p : Panic}
    (hts : TermLast ts) (hn : NamedOk ts) (h : readDefinitions recur last fuel ts = .panic p) :
    p = .indexOutOfBounds ∧ HangingList ts := by
  induction fuel generalizing ts with
  | zero => simp [readDefinitions] at h
  | succ fuel ih =>
    unfold readDefinitions at h
    rcases bind_panic h with h | ⟨⟨d, nx⟩, hd, h⟩
    · obtain ⟨h1, h2⟩ := readSingle_hang hs hr hts hn h
      exact ⟨h1, .single h2⟩
    · simp only at h
      obtain ⟨⟨u, g, h1, h2, h3⟩, hst⟩ := readSingle_sound hs hts hn hd
      cases nx with
      | nil => cases h
      | cons t r =>
        cases t with
        | definitionSeparatorSymbol l' c =>
          rw [skipGaps_cons rfl] at h
          simp only [Token.isTerminator] at h
          rcases bind_panic h with h | ⟨a, _, h⟩
          · have hsp : ts = u ++ g ++ .definitionSeparatorSymbol l' c :: r := by rw [h1]; simp
            have hsuf : r <:+ ts := ⟨u ++ g ++ [.definitionSeparatorSymbol l' c], by rw [hsp]; simp⟩
            obtain ⟨k1, k2⟩ := ih (hts.suffix hsuf) (hn.sub fun t ht => hsuf.subset ht) h
            rw [hsp]
            exact ⟨k1, .next h3 h2 k2⟩
          · cases h
        | terminatorSymbol l' c => rw [skipGaps_cons rfl] at h; cases h
        | eof l' => rw [skipGaps_cons rfl] at h; cases h
        | _ => simp [StopsAt, Token.isTerminator] at hst

end hang

theorem readDefinitionList_hang (fuel : Nat) : RecurHang (readDefinitionList fuel) := by
  induction fuel with
  | zero => intro inner p _ _ h; simp [readDefinitionList] at h
  | succ fuel ih =>
    intro inner p hno hn h
    unfold readDefinitionList at h
    exact readDefinitions_hang (readDefinitionList_sound fuel) ih hno.termLast hn h

theorem termLast_concat {ts : List Token} {t : Token} (hno : NoTerm ts) : TermLast (ts ++ [t]) := by
  intro pre t' post he ht'
  rcases List.append_eq_append_iff.mp he with ⟨as, h1, h2⟩ | ⟨bs, h1, h2⟩
  · cases as with
    | nil => simp at h2; exact h2.2
    | cons a as => simp at h2
  · cases bs with
    | nil => simp at h2; exact h2.2
    | cons b bs =>
      simp at h2
      have := hno t' (by rw [h1, h2.1]; simp)
      rw [this] at ht'; simp at ht'

theorem buildSyntaxRule_hang {ts : List Token} {t : Token} {p : Panic} (ht : t.isTerminator = true)
    (hno : NoTerm ts) (hn : NamedOk (ts ++ [t])) (h : buildSyntaxRule (ts ++ [t]) = .panic p) :
    p = .indexOutOfBounds ∧ HangingRule (ts ++ [t]) := by
  have htl : TermLast (ts ++ [t]) := termLast_concat hno
  have hidx : p = .indexOutOfBounds := by
    have := buildSyntaxRule_sat (ts := ts) ht
    rw [h] at this
    exact (this hn).1
  refine ⟨hidx, ?_⟩
  subst hidx
  obtain ⟨g, hg1, hg2⟩ := skipGaps_blanks (ts ++ [t])
  have hskip : skipGaps (ts ++ [t]) ≠ [] := skipGaps_ne_nil (t := t) (by simp) (terminator_not_skippable ht)
  obtain ⟨a, as, hsk⟩ := List.exists_cons_of_ne_nil hskip
  have hmem : t ∈ (readMetaIdentifier (ts ++ [t])).2.2 := by
    unfold readMetaIdentifier
    exact readMetaLoop_last _ _ _ t ht (mem_skipGaps (by simp) ht)
  have hrest : skipGaps (readMetaIdentifier (ts ++ [t])).2.2 ≠ [] := skipGaps_ne_nil hmem (terminator_not_skippable ht)
  unfold buildSyntaxRule at h
  by_cases hm : ∃ l s, a = .metaIdentifier l s
  · obtain ⟨l, s, rfl⟩ := hm
    have hmi : readMetaIdentifier (ts ++ [t]) = readMetaIdentifier (.metaIdentifier l s :: as) := by
      unfold readMetaIdentifier
      rw [← hsk, skipGaps_idem]
    obtain ⟨u, gs, n, rest, h1, h2, h3, h4⟩ := readMetaIdentifier_sound (l := l) (s := s) (ts := as)
      (hn.sub (by rw [hg1, hsk]; intro t ht; exact List.mem_append_right _ ht))
    rw [hmi, h1] at h hrest
    simp only at h hrest
    obtain ⟨g', hg1', hg2'⟩ := skipGaps_blanks rest
    cases hs' : skipGaps rest with
    | nil => exact absurd hs' hrest
    | cons b bs =>
      rw [hs'] at h hg1'
      simp only at h
      split at h
      · simp [Res.fail] at h
      · next hdef =>
        obtain ⟨ld, rfl⟩ : ∃ ld, b = .definingSymbol ld := by
          cases b <;> simp [Token.isDefiningSymbol] at hdef; exact ⟨_, rfl⟩
        split at h
        · simp at h
        · rcases bind_panic h with h | ⟨a, _, h⟩
          · have hsplit : ts ++ [t] = g ++ u ++ (gs ++ g') ++ .definingSymbol ld :: bs := by
              rw [hg1, hsk, h2, hg1']; simp
            have hsuf : bs <:+ ts ++ [t] := ⟨g ++ u ++ (gs ++ g') ++ [.definingSymbol ld], by rw [hsplit]; simp⟩
            obtain ⟨_, k2⟩ := readDefinitions_hang (readDefinitionList_sound _) (readDefinitionList_hang _)
              (htl.suffix hsuf) (hn.sub fun t ht => hsuf.subset ht) h
            rw [hsplit]
            exact .rule hg2 h3 (blanks_append (fun t ht => isBlank_of_gap (h4 t ht)) hg2') k2
          · cases h
  · exfalso
    have hmi : readMetaIdentifier (ts ++ [t]) = ([], none, skipGaps (ts ++ [t])) := by
      have hns : a.isSkippable = false := by
        have h0 := hsk
        cases hb : a.isSkippable with
        | false => rfl
        | true =>
          have := skipGaps_idem (ts ++ [t])
          rw [hsk] at this
          unfold skipGaps at this
          rw [List.dropWhile_cons_of_pos hb] at this
          have hl := congrArg List.length this
          have := (List.dropWhile_suffix Token.isSkippable (l := as)).length_le
          simp at hl; omega
      unfold readMetaIdentifier
      rw [hsk]
      cases a with
      | metaIdentifier l s => exact absurd ⟨_, _, rfl⟩ hm
      | gapSeparatorSequence l s => cases hns
      | _ => rfl
    rw [hmi] at h
    simp only at h
    rw [skipGaps_idem, hsk] at h
    simp only at h
    split at h
    · simp at h
    · simp [Res.fail] at h

/-! ## Token sequences -/

theorem noTerm_iff (ts : List Token) : NoTerm ts ↔ ∀ x ∈ ts, ¬ IsTerminator x := by
  unfold NoTerm
  constructor
  · intro h x hx hi; rw [isTerminator_iff, h x hx] at hi; simp at hi
  · intro h x hx
    cases hb : x.isTerminator with
    | false => rfl
    | true => exact absurd ((isTerminator_iff x).mpr hb) (h x hx)

theorem hanging_append_panics {ts rest : List Token} (h : Hanging ts) (hn : NamedOk ts) :
    (Lexer.append [] (ts ++ rest)).1 = oob := by
  obtain ⟨us, rs, vs, t, rfl, hr, hno, ht, hh⟩ := h
  obtain ⟨rs', h1, _⟩ := append_complete hr hn.left
  have ht := (isTerminator_iff t).mp ht
  rw [List.append_assoc, append_append, h1]
  simp only [thenAppend]
  rw [List.append_assoc, append_seg ((noTerm_iff vs).mpr hno), List.singleton_append, append_cons_term ht,
    List.nil_append, hangingRule_panics hh hn.right]

theorem append_hang {toks ts : List Token} {p : Panic} (h0 : NoTerm toks) (hn : NamedOk (toks ++ ts))
    (h : (Lexer.append toks ts).1 = .panic p) :
    p = .indexOutOfBounds ∧ ∃ us rest, toks ++ ts = us ++ rest ∧ Hanging us := by
  induction ts generalizing toks with
  | nil => simp [Lexer.append] at h
  | cons t ts ih =>
    cases ht : t.isTerminator with
    | false =>
      rw [append_cons_other ht] at h
      have := ih (toks := toks ++ [t]) (by
        intro x hx
        rcases List.mem_append.mp hx with hx | hx
        · exact h0 x hx
        · simp at hx; subst hx; exact ht) (by simpa using hn) h
      simpa using this
    | true =>
      rw [append_cons_term ht] at h
      have hn1 : NamedOk (toks ++ [t]) := hn.sub (by simp; intro x hx; rcases hx with hx | hx <;> simp [hx])
      cases hb : buildSyntaxRule (toks ++ [t]) with
      | ok r =>
        rw [hb] at h
        simp only at h
        have hp : (Lexer.append [] ts).1 = .panic p := by
          revert h
          rcases Lexer.append [] ts with ⟨x, y⟩
          cases x with
          | ok rules => intro h; cases h
          | err e => intro h; cases h
          | panic q => intro h; exact h
          | diverge => intro h; cases h
        obtain ⟨h1, us, rest, h2, us', rs, vs, t', h3, h4, h5, h6, h7⟩ := ih noTerm_nil (by
          rw [List.nil_append]; exact hn.sub (by simp +contextual)) hp
        rw [List.nil_append] at h2
        refine ⟨h1, toks ++ [t] ++ us, rest, by rw [h2]; simp, ?_⟩
        obtain ⟨k1, k2⟩ := buildSyntaxRule_sound ht h0 hn1 hb
        cases r with
        | some r =>
          exact ⟨(toks ++ [t]) ++ us', r :: rs, vs, t', by rw [h3]; simp, .rule (k1 r rfl) h4, h5, h6, h7⟩
        | none =>
          refine ⟨toks ++ t :: us', rs, vs, t', by rw [h3]; simp, .blank (k2 rfl) ((isTerminator_iff t).mpr ht) h4, h5, h6, h7⟩
      | panic q =>
        rw [hb] at h
        injection h with h
        subst h
        obtain ⟨h1, h2⟩ := buildSyntaxRule_hang ht h0 hn1 hb
        exact ⟨h1, toks ++ [t], ts, by simp, [], [], toks, t, rfl, .nil, (noTerm_iff toks).mp h0,
          (isTerminator_iff t).mpr ht, h2⟩
      | err e => rw [hb] at h; cases h
      | diverge => rw [hb] at h; cases h

/-- The token parser panics exactly on sequences with a hanging beginning. -/
theorem append_panics_iff {ts : List Token} (hn : NamedOk ts) (p : Panic) :
    (Lexer.append [] ts).1 = .panic p ↔ p = .indexOutOfBounds ∧ ∃ us rest, ts = us ++ rest ∧ Hanging us := by
  constructor
  · intro h
    exact append_hang noTerm_nil hn h
  · rintro ⟨rfl, us, rest, rfl, h⟩
    exact hanging_append_panics h hn.left

end Ebnf
