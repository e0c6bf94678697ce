import Verif.Spec.Complaint
import Verif.Proofs.Hanging

set_option autoImplicit false

/-! # Where a term stops -/

namespace Ebnf

open Spec

/-- The next token that is not blank is none of these. -/
def NextNot (P : Token → Prop) (rem : List Token) : Prop := ∀ t r, skipGaps rem = t :: r → ¬ P t

/-- No word follows that would belong to the name before. -/
def NoWord (rem : List Token) : Prop := ∀ gs l s r, (∀ t ∈ gs, IsGapToken t) → rem ≠ gs ++ .metaIdentifier l s :: r

/-- Tokens with which a primary begins. -/
def StartsPrimary : Token → Prop
  | .startOptionSymbol _ _ | .startRepeatSymbol _ _ | .startGroupSymbol _ | .metaIdentifier _ _
  | .terminalString _ _ _ | .specialSequence _ _ => True
  | _ => False

def PrimaryStop : Primary → List Token → Prop
  | .metaIdentifier _ _, rem => NoWord rem
  | .empty _, rem => NextNot StartsPrimary rem
  | _, _ => True

def FactorStop (u : List Token) : Factor → List Token → Prop
  | .mk _ p, rem => PrimaryStop p rem ∧ (Blanks u → NextNot (kindOf · = .integer) rem)

/-- `u` is a term, and reading stops after it when `rem` follows. -/
inductive TermStop : List Token → Term → List Token → Prop
  | plain {u f rem} : FactorG u f → FactorStop u f rem → NextNot (kindOf · = .except) rem → TermStop u (.plain f) rem
  | except {u g l v f e rem} : FactorG u f → Blanks g → FactorG v e → FactorStop v e rem →
      TermStop (u ++ g ++ .exceptSymbol l :: v) (.except f e) rem

theorem TermStop.termG {u rem : List Token} {t : Term} (h : TermStop u t rem) : TermG u t := by
  cases h with
  | plain h _ _ => exact .plain h
  | except h hg h' _ => exact .except h hg h'

/-! ## The readers stop there -/

theorem readMetaLoop_stopped {rem : List Token} (h : NoWord rem) (acc : Str) (loc : Option Location) :
    ∃ acc' r, readMetaLoop rem acc loc = (acc', loc, r) ∧ skipGaps r = skipGaps rem := by
  induction rem generalizing acc with
  | nil => exact ⟨acc, [], rfl, rfl⟩
  | cons t ts ih =>
    cases t with
    | metaIdentifier l s => exact absurd rfl (h [] l s ts (by simp))
    | gapSeparatorSequence l s =>
      have hsk : skipGaps (.gapSeparatorSequence l s :: ts) = skipGaps ts :=
        skipGaps_skip (g := [.gapSeparatorSequence l s]) (by simp [Token.isSkippable, Token.isGapSeparatorSequence])
      obtain ⟨a, r, h1, h2⟩ := ih (fun gs l' s' r hg he => h (.gapSeparatorSequence l s :: gs) l' s' r
        (by
          intro t ht
          rcases List.mem_cons.mp ht with rfl | ht
          · trivial
          · exact hg t ht) (by rw [he]; rfl))
        (if acc.getLast? = some ' ' then acc else acc ++ [' '])
      exact ⟨a, r, by rw [readMetaLoop, h1], by rw [h2, hsk]⟩
    | _ => exact ⟨acc, _, rfl, rfl⟩

theorem primary_stops {u rem : List Token} {p : Primary} (h : PrimaryG u p) (hn : NamedOk u) (hs : PrimaryStop p rem)
    (fuel : Nat) (last : Location) (hf : u.length ≤ fuel) :
    ∃ p' r, readPrimary (readDefinitionList fuel) last (u ++ rem) = .ok (p', r) ∧ skipGaps r = skipGaps rem := by
  cases h with
  | @optional g ts g' l s l' s' list hg hg' hl =>
    obtain ⟨x, h1, _⟩ := primary_bracket (rest := rem) (last := last) (.startOptionSymbol l s) (.endOptionSymbol l' s') hg hg'
      (list_complete hl hn.right.tail.left.left) (nested_list hl) hf (k := .option) trivial trivial
    exact ⟨_, _, h1, rfl⟩
  | @repeated g ts g' l s l' s' list hg hg' hl =>
    obtain ⟨x, h1, _⟩ := primary_bracket (rest := rem) (last := last) (.startRepeatSymbol l s) (.endRepeatSymbol l' s') hg hg'
      (list_complete hl hn.right.tail.left.left) (nested_list hl) hf (k := .repeat) trivial trivial
    exact ⟨_, _, h1, rfl⟩
  | @grouped g ts g' l l' list hg hg' hl =>
    obtain ⟨x, h1, _⟩ := primary_bracket (rest := rem) (last := last) (.startGroupSymbol l) (.endGroupSymbol l') hg hg'
      (list_complete hl hn.right.tail.left.left) (nested_list hl) hf (k := .group) trivial trivial
    exact ⟨_, _, h1, rfl⟩
  | @metaIdentifier g ts l n hg hN =>
    have hsk := name_skip (rest := rem) hg hN
    obtain ⟨a, r, h1, h2⟩ := readMetaLoop_stopped hs n (some l)
    obtain ⟨s, ts', rfl⟩ := name_head hN
    have hsk' : skipGaps (.metaIdentifier l s :: ts' ++ rem) = .metaIdentifier l s :: ts' ++ rem := by
      rw [List.cons_append]; exact skipGaps_cons rfl
    have h3 : readMetaIdentifier (.metaIdentifier l s :: ts' ++ rem) = (trimSpaces a, some l, r) := by
      unfold readMetaIdentifier
      rw [hsk', readMetaLoop_name_complete hN hn.right, h1]
    refine ⟨.metaIdentifier l (trimSpaces a), r, ?_, h2⟩
    unfold readPrimary
    rw [hsk]
    simp only [List.cons_append] at h3 ⊢
    rw [h3]
  | @terminalString g l s q hg =>
    refine ⟨.terminalString l s, rem, ?_, rfl⟩
    unfold readPrimary
    rw [List.append_assoc, skipGaps_blanks_skip hg, List.cons_append, skipGaps_cons rfl]
    rfl
  | @specialSequence g l s hg =>
    refine ⟨.specialSequence l s, rem, ?_, rfl⟩
    unfold readPrimary
    rw [List.append_assoc, skipGaps_blanks_skip hg, List.cons_append, skipGaps_cons rfl]
    rfl
  | empty l hg =>
    unfold readPrimary
    rw [skipGaps_blanks_skip hg]
    cases h : skipGaps rem with
    | nil => exact ⟨.empty last, [], rfl, rfl⟩
    | cons t r =>
      have h1 := hs t r h
      refine ⟨.empty t.location, t :: r, ?_, ?_⟩
      · cases t <;> first | exact absurd trivial h1 | rfl
      · rw [← h, skipGaps_idem]

/-- Where a primary starts there is no integer. -/
theorem primary_no_count {u rem : List Token} {p : Primary} (h : PrimaryG u p) (hf : Blanks u → NextNot (kindOf · = .integer) rem) :
    ∀ l d r, skipGaps (u ++ rem) ≠ .integer l d :: r := by
  intro l d r
  cases h with
  | optional hg _ _ => rw [List.append_assoc, skipGaps_blanks_skip hg, List.cons_append, skipGaps_cons rfl]; simp
  | repeated hg _ _ => rw [List.append_assoc, skipGaps_blanks_skip hg, List.cons_append, skipGaps_cons rfl]; simp
  | grouped hg _ _ => rw [List.append_assoc, skipGaps_blanks_skip hg, List.cons_append, skipGaps_cons rfl]; simp
  | metaIdentifier hg hN =>
    rw [name_skip hg hN]
    obtain ⟨s, r', rfl⟩ := name_head hN
    simp
  | terminalString hg => rw [List.append_assoc, skipGaps_blanks_skip hg, List.cons_append, skipGaps_cons rfl]; simp
  | specialSequence hg => rw [List.append_assoc, skipGaps_blanks_skip hg, List.cons_append, skipGaps_cons rfl]; simp
  | empty _ hg =>
    rw [skipGaps_blanks_skip hg]
    intro he
    exact hf hg _ _ he rfl

theorem factor_stops {u rem : List Token} {f : Factor} (h : FactorG u f) (hn : NamedOk u) (hs : FactorStop u f rem)
    (fuel : Nat) (last : Location) (hf : u.length ≤ fuel) :
    ∃ f' r, readFactor (readDefinitionList fuel) last (u ++ rem) = .ok (f', r) ∧ skipGaps r = skipGaps rem := by
  cases h with
  | one h =>
    obtain ⟨p', r, h1, h2⟩ := primary_stops h hn hs.1 fuel last hf
    refine ⟨.mk 1 p', r, ?_, h2⟩
    rw [readFactor_eq, readCount_none (primary_no_count h hs.2)]
    show (readPrimary (readDefinitionList fuel) last (skipGaps (u ++ rem)) >>= _) = _
    rw [readPrimary_skip, h1]
    rfl
  | @times g g' ts l l' d p hg hg' hd hne hlt h =>
    obtain ⟨p', r, h1, h2⟩ := primary_stops h hn.right.tail.right.tail hs.1 fuel last (by simp at hf; omega)
    refine ⟨.mk (decimal d) p', r, ?_, h2⟩
    have : readCount (g ++ .integer l d :: (g' ++ .repetitionSymbol l' :: ts) ++ rem) = .ok (decimal d, skipGaps (ts ++ rem)) := by
      unfold readCount
      rw [List.append_assoc, skipGaps_blanks_skip hg, List.cons_append, skipGaps_cons rfl]
      simp only
      rw [parseU32_eq hd hne hlt]
      simp only
      rw [List.append_assoc, skipGaps_blanks_skip hg', List.cons_append, skipGaps_cons rfl]
      rfl
    rw [readFactor_eq, this]
    show (readPrimary (readDefinitionList fuel) last (skipGaps (ts ++ rem)) >>= _) = _
    rw [readPrimary_skip, h1]
    rfl

theorem term_stops {u rem : List Token} {t : Term} (h : TermStop u t rem) (hn : NamedOk u)
    (fuel : Nat) (last : Location) (hf : u.length ≤ fuel) :
    ∃ t' r, readTerm (readDefinitionList fuel) last (u ++ rem) = .ok (t', r) ∧ skipGaps r = skipGaps rem := by
  cases h with
  | plain h hs hx =>
    obtain ⟨f', r, h1, h2⟩ := factor_stops h hn hs fuel last hf
    refine ⟨.plain f', skipGaps rem, ?_, skipGaps_idem _⟩
    unfold readTerm
    rw [h1]
    show (match skipGaps r with | t :: rest => _ | [] => _) = _
    rw [h2]
    cases hsk : skipGaps rem with
    | nil => rfl
    | cons t r =>
      simp only
      rw [if_neg]
      · rfl
      · intro ht
        refine hx _ _ hsk ?_
        cases t <;> simp [Token.isExceptSymbol] at ht
        rfl
  | @except u g l v f e _ h hg h' hs =>
    simp at hf
    obtain ⟨hfo, hsk⟩ := follows_cons (r := v ++ rem) (t := .exceptSymbol l) hg rfl
    obtain ⟨f', r', h1, _, h3⟩ := factor_complete h hn.left.left fuel last (g ++ .exceptSymbol l :: (v ++ rem)) (by omega) hfo
    obtain ⟨e', r, h1', h2'⟩ := factor_stops h' hn.right.tail hs fuel last (by omega)
    refine ⟨.except f' e', r, ?_, h2'⟩
    have : u ++ g ++ .exceptSymbol l :: v ++ rem = u ++ (g ++ .exceptSymbol l :: (v ++ rem)) := by simp
    unfold readTerm
    rw [this, h1]
    show (match skipGaps r' with | t :: rest => _ | [] => _) = _
    rw [h3, hsk]
    simp only [Token.isExceptSymbol, if_true]
    rw [h1']
    rfl

/-! ## Only the kind of the next token matters -/

theorem NextNot.transfer {P : Token → Prop} {g more more' : List Token} {t t' : Token} (hg : Blanks g) (ht : ¬ IsBlank t)
    (hk : P t' → P t) (ht' : ¬ IsBlank t') (h : NextNot P (g ++ t :: more)) : NextNot P (g ++ t' :: more') := by
  have hb : ∀ {x : Token}, ¬ IsBlank x → x.isSkippable = false := by
    intro x hx
    cases hs : x.isSkippable with
    | false => rfl
    | true => exact absurd ((isSkippable_iff x).mp hs) hx
  have h1 : ¬ P t := h t more (by rw [skipGaps_blanks_skip hg, skipGaps_cons (hb ht)])
  intro x r he
  rw [skipGaps_blanks_skip hg, skipGaps_cons (hb ht')] at he
  injection he with he _
  subst he
  exact fun hp => h1 (hk hp)

theorem isBlank_of_kind {t t' : Token} (h : kindOf t' = kindOf t) : IsBlank t' → IsBlank t := by
  cases t <;> cases t' <;> simp_all [kindOf, IsBlank]

theorem startsPrimary_of_kind {t t' : Token} (h : kindOf t' = kindOf t) : StartsPrimary t' → StartsPrimary t := by
  cases t <;> cases t' <;> simp_all [kindOf, StartsPrimary]

theorem meta_of_kind {t : Token} {l : Location} {s : Str} (h : kindOf (.metaIdentifier l s) = kindOf t) :
    ∃ l' s', t = .metaIdentifier l' s' := by
  cases t <;> simp [kindOf] at h
  exact ⟨_, _, rfl⟩

theorem NoWord.transfer {g more more' : List Token} {t t' : Token} (hk : kindOf t' = kindOf t) (ht : ¬ IsBlank t)
    (h : NoWord (g ++ t :: more)) : NoWord (g ++ t' :: more') := by
  intro gs l s r hgs he
  rcases List.append_eq_append_iff.mp he with ⟨as, h1, h2⟩ | ⟨bs, h1, h2⟩
  · subst h1
    cases as with
    | nil =>
      injection h2 with h2 _
      subst h2
      obtain ⟨l', s', rfl⟩ := meta_of_kind hk
      exact h g l' s' more (fun t ht => hgs t (by simp [ht])) rfl
    | cons a as =>
      injection h2 with h2 _
      subst h2
      exact ht (isBlank_of_kind hk (isBlank_of_gap (hgs _ (by simp))))
  · subst h1
    cases bs with
    | nil =>
      simp only [List.nil_append] at h2
      injection h2 with h2 _
      subst h2
      obtain ⟨l', s', rfl⟩ := meta_of_kind hk
      exact h gs l' s' more hgs (by simp)
    | cons b bs =>
      injection h2 with h2 _
      subst h2
      exact h gs l s (bs ++ t :: more) hgs (by simp)

theorem TermStop.transfer {u g more more' : List Token} {t t' : Token} {tree : Term} (hg : Blanks g) (ht : ¬ IsBlank t)
    (hk : kindOf t' = kindOf t) (h : TermStop u tree (g ++ t :: more)) : TermStop u tree (g ++ t' :: more') := by
  have ht' : ¬ IsBlank t' := fun h => ht (isBlank_of_kind hk h)
  have key : ∀ {v : List Token} {f : Factor}, FactorStop v f (g ++ t :: more) → FactorStop v f (g ++ t' :: more') := by
    rintro v ⟨n, p⟩ ⟨h1, h2⟩
    refine ⟨?_, fun hb => (h2 hb).transfer hg ht (fun h => hk ▸ h) ht'⟩
    cases p with
    | metaIdentifier _ _ => exact NoWord.transfer hk ht h1
    | empty _ => exact NextNot.transfer hg ht (startsPrimary_of_kind hk) ht' h1
    | _ => trivial
  cases h with
  | plain h hs hx => exact .plain h (key hs) (hx.transfer hg ht (fun h => hk ▸ h) ht')
  | except h hg' h' hs => exact .except h hg' h' (key hs)

/-! ## Nothing longer is a term -/

/-- Make every name one that the tokenizer would produce. -/
def tame : Token → Token
  | .metaIdentifier l s => .metaIdentifier l (if s = [] ∨ ' ' ∈ s then ['a'] else s)
  | t => t

theorem tame_blank {t : Token} (h : IsBlank t) : tame t = t := by cases t <;> simp [IsBlank] at h <;> rfl
theorem tame_blanks {g : List Token} (h : Blanks g) : g.map tame = g := by
  rw [List.map_congr_left (g := id)]
  · simp
  · exact fun t ht => tame_blank (h t ht)
theorem tame_named {ts : List Token} (h : NamedOk ts) : ts.map tame = ts := by
  rw [List.map_congr_left (g := id)]
  · simp
  · intro t ht
    cases t with
    | metaIdentifier l s =>
      have := h l s ht
      simp only [tame, id]
      rw [if_neg]
      rintro (h | h)
      · exact this.1 h
      · exact this.2 _ h rfl
    | _ => rfl

theorem named_tame (ts : List Token) : NamedOk (ts.map tame) := by
  intro l s hm
  obtain ⟨t, _, ht⟩ := List.mem_map.mp hm
  cases t with
  | metaIdentifier l' s' =>
    simp only [tame, Token.metaIdentifier.injEq] at ht
    obtain ⟨_, rfl⟩ := ht
    by_cases h : s' = [] ∨ ' ' ∈ s'
    · rw [if_pos h]; simp
    · rw [if_neg h]
      exact ⟨fun h' => h (.inl h'), fun c hc h' => h (.inr (h' ▸ hc))⟩
  | _ => simp [tame] at ht

theorem tame_name {ts : List Token} {l : Location} {n : Str} (h : Name ts l n) : ∃ n', Name (ts.map tame) l n' := by
  induction h with
  | word l s => exact ⟨_, .word _ _⟩
  | adjacent l' s _ ih =>
    obtain ⟨n', ih⟩ := ih
    rw [List.map_append]
    exact ⟨_, .adjacent _ _ ih⟩
  | gap gs l' s _ hne hgs ih =>
    obtain ⟨n', ih⟩ := ih
    rw [List.map_append, List.map_append, tame_blanks (g := gs) fun t ht => isBlank_of_gap (hgs t ht)]
    exact ⟨_, .gap gs _ _ ih hne hgs⟩

mutual
theorem tame_primary {ts : List Token} {p : Primary} : PrimaryG ts p → ∃ p', PrimaryG (ts.map tame) p'
  | .optional hg hg' hl => by
    obtain ⟨x, h⟩ := tame_list hl
    exact ⟨_, by simpa [tame, tame_blanks hg, tame_blanks hg'] using PrimaryG.optional hg hg' h⟩
  | .repeated hg hg' hl => by
    obtain ⟨x, h⟩ := tame_list hl
    exact ⟨_, by simpa [tame, tame_blanks hg, tame_blanks hg'] using PrimaryG.repeated hg hg' h⟩
  | .grouped hg hg' hl => by
    obtain ⟨x, h⟩ := tame_list hl
    exact ⟨_, by simpa [tame, tame_blanks hg, tame_blanks hg'] using PrimaryG.grouped hg hg' h⟩
  | .metaIdentifier hg hN => by
    obtain ⟨x, h⟩ := tame_name hN
    exact ⟨_, by simpa [tame_blanks hg] using PrimaryG.metaIdentifier hg h⟩
  | .terminalString hg => ⟨_, by simpa [tame, tame_blanks hg] using PrimaryG.terminalString hg⟩
  | .specialSequence hg => ⟨_, by simpa [tame, tame_blanks hg] using PrimaryG.specialSequence hg⟩
  | .empty l hg => ⟨_, by rw [tame_blanks hg]; exact .empty l hg⟩
theorem tame_factor {ts : List Token} {f : Factor} : FactorG ts f → ∃ f', FactorG (ts.map tame) f'
  | .one h => by obtain ⟨x, h⟩ := tame_primary h; exact ⟨_, .one h⟩
  | .times hg hg' h1 h2 h3 hp => by
    obtain ⟨x, h⟩ := tame_primary hp
    exact ⟨_, by simpa [tame, tame_blanks hg, tame_blanks hg'] using FactorG.times hg hg' h1 h2 h3 h⟩
theorem tame_term {ts : List Token} {t : Term} : TermG ts t → ∃ t', TermG (ts.map tame) t'
  | .plain h => by obtain ⟨x, h⟩ := tame_factor h; exact ⟨_, .plain h⟩
  | .except h hg h' => by
    obtain ⟨x, h⟩ := tame_factor h
    obtain ⟨y, h'⟩ := tame_factor h'
    exact ⟨_, by simpa [tame, tame_blanks hg] using TermG.except h hg h'⟩
theorem tame_single {ts : List Token} {d : SingleDefinition} : SingleG ts d → ∃ d', SingleG (ts.map tame) d'
  | .one h => by obtain ⟨x, h⟩ := tame_term h; exact ⟨_, .one h⟩
  | .more h hg h' => by
    obtain ⟨x, h⟩ := tame_term h
    obtain ⟨y, h'⟩ := tame_single h'
    exact ⟨_, by simpa [tame, tame_blanks hg] using SingleG.more h hg h'⟩
theorem tame_list {ts : List Token} {l : DefinitionList} : ListG ts l → ∃ l', ListG (ts.map tame) l'
  | .one h => by obtain ⟨x, h⟩ := tame_single h; exact ⟨_, .one h⟩
  | .more h hg h' => by
    obtain ⟨x, h⟩ := tame_single h
    obtain ⟨y, h'⟩ := tame_list h'
    exact ⟨_, by simpa [tame, tame_blanks hg] using ListG.more h hg h'⟩
end

theorem kindOf_tame (t : Token) : kindOf (tame t) = kindOf t := by cases t <;> rfl

theorem TermStop.maximal {u g more : List Token} {t : Token} {tree : Term} (hn : NamedOk u) (hg : Blanks g) (ht : ¬ IsBlank t)
    (h : TermStop u tree (g ++ t :: more)) (t' : Token) (more' : List Token) (tree' : Term) (hk : kindOf t' = kindOf t) :
    ¬ TermG (u ++ g ++ t' :: more') tree' := by
  intro h'
  obtain ⟨t2, h2⟩ := tame_term h'
  have hn2 := named_tame (u ++ g ++ t' :: more')
  rw [List.map_append, List.map_append, tame_named hn, tame_blanks hg, List.map_cons] at h2 hn2
  have hs := h.transfer (more' := more'.map tame) hg ht ((kindOf_tame t').trans hk)
  obtain ⟨x, r, h3, h4⟩ := term_complete h2 hn2 (u ++ g ++ tame t' :: more'.map tame).length (Location.new []) [] (by simp)
    (by intro t r h; cases h) (by intro l r h; cases h)
  obtain ⟨y, r', h5, h6⟩ := term_stops hs hn (u ++ g ++ tame t' :: more'.map tame).length (Location.new []) (by simp)
  rw [← List.append_assoc] at h5
  rw [List.append_nil, h5] at h3
  injection h3 with h3
  injection h3 with _ h3
  subst h3
  have ht' : (tame t').isSkippable = false := by
    cases hs : (tame t').isSkippable with
    | false => rfl
    | true => exact absurd (isBlank_of_kind ((kindOf_tame t').trans hk) ((isSkippable_iff _).mp hs)) ht
  rw [h6, skipGaps_blanks_skip hg, skipGaps_cons ht'] at h4
  exact absurd h4.2 (by simp [skipGaps])

/-! ## A term that no token of that kind goes on with stops there -/

theorem nextNot_cons {P : Token → Prop} {g more : List Token} {t : Token} (hg : Blanks g) (ht : ¬ IsBlank t) (h : ¬ P t) :
    NextNot P (g ++ t :: more) := by
  intro x r he
  have hs : t.isSkippable = false := by
    cases hs : t.isSkippable with
    | false => rfl
    | true => exact absurd ((isSkippable_iff t).mp hs) ht
  rw [skipGaps_blanks_skip hg, skipGaps_cons hs] at he
  injection he with he _
  subst he
  exact h

theorem primary_extends {g : List Token} {t : Token} (hg : Blanks g) (ht : StartsPrimary t) : ∃ more p, PrimaryG (g ++ t :: more) p := by
  have hl : ListG [] (.cons (.cons (.plain (.mk 1 (.empty (Location.new [])))) .nil) .nil) :=
    .one (.one (.plain (.one (.empty _ blanks_nil))))
  cases t with
  | startOptionSymbol l s => exact ⟨[.endOptionSymbol l s], _, .optional hg blanks_nil hl⟩
  | startRepeatSymbol l s => exact ⟨[.endRepeatSymbol l s], _, .repeated hg blanks_nil hl⟩
  | startGroupSymbol l => exact ⟨[.endGroupSymbol l], _, .grouped hg blanks_nil hl⟩
  | metaIdentifier l s => exact ⟨[], _, .metaIdentifier hg (.word l s)⟩
  | terminalString l s q => exact ⟨[], _, .terminalString hg⟩
  | specialSequence l s => exact ⟨[], _, .specialSequence hg⟩
  | _ => exact absurd ht (by simp [StartsPrimary])

theorem name_extends {ts gs : List Token} {l l' : Location} {n s : Str} (hN : Name ts l n) (hgs : ∀ t ∈ gs, IsGapToken t) :
    ∃ n', Name (ts ++ gs ++ [.metaIdentifier l' s]) l n' := by
  by_cases h : gs = []
  · subst h
    exact ⟨_, by simpa using Name.adjacent l' s hN⟩
  · exact ⟨_, .gap gs l' s hN h hgs⟩

theorem noWord_or {ts g more : List Token} {t : Token} {l : Location} {n : Str} (hN : Name ts l n) (hg : Blanks g) (ht : ¬ IsBlank t)
    (h : ∀ n', ¬ Name (ts ++ g ++ [t]) l n') : NoWord (g ++ t :: more) := by
  intro gs l' s r hgs he
  have hsk := congrArg skipGaps he
  have hs : t.isSkippable = false := by
    cases hs : t.isSkippable with
    | false => rfl
    | true => exact absurd ((isSkippable_iff t).mp hs) ht
  rw [skipGaps_blanks_skip hg, skipGaps_cons hs, skipGaps_blanks_skip (g := gs) fun t ht => isBlank_of_gap (hgs t ht),
    skipGaps_cons rfl] at hsk
  rw [hsk] at he
  have := List.append_cancel_right he
  subst this
  injection hsk with hsk _
  subst hsk
  obtain ⟨n', h'⟩ := name_extends (l' := l') (s := s) hN hgs
  exact h n' h'

theorem factor_stop_or {u g more : List Token} {t : Token} {f : Factor} (h : FactorG u f) (hg : Blanks g) (ht : ¬ IsBlank t)
    (hno : ∀ t' more' f', kindOf t' = kindOf t → ¬ FactorG (u ++ g ++ t' :: more') f') : FactorStop u f (g ++ t :: more) := by
  have prim : ∀ {v : List Token} {p : Primary}, PrimaryG v p → (∀ more' p', ¬ PrimaryG (v ++ g ++ t :: more') p') →
      PrimaryStop p (g ++ t :: more) := by
    intro v p hp hno
    cases hp with
    | @metaIdentifier g0 ts l n hg0 hN =>
      refine noWord_or hN hg ht fun n' hN' => hno [] (.metaIdentifier l n') ?_
      have := PrimaryG.metaIdentifier hg0 hN'
      simpa using this
    | empty l hb =>
      refine nextNot_cons hg ht fun hs => ?_
      obtain ⟨m, p', h'⟩ := primary_extends (blanks_append hb hg) hs
      exact hno m p' h'
    | _ => trivial
  cases h with
  | one h =>
    refine ⟨prim h fun more' p' hp => hno t more' _ rfl (.one hp), fun hb => ?_⟩
    refine nextNot_cons hg ht fun hi => ?_
    refine hno (.integer (Location.new []) ['1']) (.repetitionSymbol (Location.new []) :: []) (.mk (decimal ['1']) (.empty (Location.new []))) hi.symm ?_
    exact FactorG.times (g' := []) (blanks_append hb hg) blanks_nil (by decide) (by decide) (by decide) (.empty _ blanks_nil)
  | @times g1 g2 ts l l' d p h1 h2 h3 h4 h5 h =>
    refine ⟨prim h fun more' p' hp => ?_, fun hb => absurd (hb (.integer l d) (by simp)) (by simp [IsBlank])⟩
    refine hno t more' (.mk (decimal d) p') rfl ?_
    have := FactorG.times (l := l) (l' := l') h1 h2 h3 h4 h5 hp
    simpa using this

theorem termStop_of_maximal {u g more : List Token} {t : Token} {tree : Term} (h : TermG u tree) (hg : Blanks g) (ht : ¬ IsBlank t)
    (hno : ∀ t' more' tree', kindOf t' = kindOf t → ¬ TermG (u ++ g ++ t' :: more') tree') : TermStop u tree (g ++ t :: more) := by
  cases h with
  | @plain _ f h =>
    refine .plain h (factor_stop_or h hg ht fun t' m f' hk hf => hno t' m _ hk (.plain hf)) (nextNot_cons hg ht fun hi => ?_)
    refine hno (.exceptSymbol (Location.new [])) [] (.except f (.mk 1 (.empty (Location.new [])))) hi.symm ?_
    exact TermG.except h hg (.one (.empty (Location.new []) blanks_nil))
  | @except u g' v l f e h hg' h' =>
    refine .except h hg' h' (factor_stop_or h' hg ht fun t' m f' hk hf => ?_)
    refine hno t' m (.except f f') hk ?_
    have := TermG.except (l := l) h hg' hf
    simpa using this

end Ebnf
