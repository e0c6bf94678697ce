import Verif.Spec.Hopeless
import Verif.Proofs.History

set_option autoImplicit false

/-! # The tokenizer rejects a text exactly when no continuation could be tokenized -/

namespace Ebnf

open Spec

/-- Close `d + 1` comments. -/
def closings : Nat → Str
  | 0 => [' ', '*', ')']
  | d + 1 => [' ', '*', ')'] ++ closings d

theorem printable_space : IsPrintable ' ' := by unfold IsPrintable; decide
theorem printable_star : IsPrintable '*' := by unfold IsPrintable; decide
theorem printable_close : IsPrintable ')' := by unfold IsPrintable; decide

theorem commentLoop_closings (loc : Location) (d : Nat) (prev : Char) :
    ∃ n, commentLoop loc d prev (closings d) = .closed n ∧ n + 1 = (closings d).length := by
  induction d generalizing loc prev with
  | zero =>
    refine ⟨2, ?_, rfl⟩
    unfold closings
    simp [commentLoop_cons, depthStep, printable_space, printable_star]
  | succ d ih =>
    obtain ⟨n, h1, h2⟩ := ih (((loc.push ' ').push '*').push ')') ')'
    refine ⟨n + 3, ?_, by simp [closings]; omega⟩
    rw [closings]
    simp only [List.cons_append, List.nil_append]
    simp [commentLoop_cons, depthStep, printable_space, printable_star, printable_close, h1]

/-- A comment that is still open can be closed. -/
theorem commentLoop_open {loc : Location} {d : Nat} {prev : Char} {ds : Str} (h : commentLoop loc d prev ds = .open) :
    ∃ k n, commentLoop loc d prev (ds ++ closings k) = .closed n ∧ n + 1 = (ds ++ closings k).length := by
  induction ds generalizing loc d prev with
  | nil =>
    obtain ⟨n, h1, h2⟩ := commentLoop_closings loc d prev
    exact ⟨d, n, h1, h2⟩
  | cons c cs ih =>
    rw [commentLoop_cons] at h
    cases hd : depthStep d prev c with
    | none => rw [hd] at h; simp at h
    | some d' =>
      rw [hd] at h
      simp only at h
      by_cases hok : IsPrintable c ∨ c ∈ gapChars
      · rw [if_pos hok] at h
        have ho : commentLoop (loc.push c) d' c cs = .open := by
          revert h
          cases commentLoop (loc.push c) d' c cs with
          | «open» => intro _; rfl
          | closed n => intro h; cases h
          | bad l c => intro h; cases h
        obtain ⟨k, n, h1, h2⟩ := ih ho
        refine ⟨k, n + 1, ?_, by simp at h2 ⊢; omega⟩
        rw [List.cons_append, commentLoop_cons, hd]
        simp only
        rw [if_pos hok, h1]
      · rw [if_neg hok] at h; cases h

theorem closings_head (k : Nat) : ∃ r, closings k = ' ' :: r := by cases k <;> exact ⟨_, rfl⟩

theorem stray_of {c : Char} (hp : c ∉ punct) (h1 : ¬ IsLetter c) (h2 : ¬ IsDigit c) (h3 : c ∉ gapChars) :
    ∀ tk s, ¬ Spelled tk (c :: s) := by
  intro tk s h
  generalize hx : c :: s = x at h
  simp only [punct, List.mem_cons, List.not_mem_nil, or_false, not_or] at hp
  cases h
  case metaIdentifier l c' s' hc _ => injection hx with hx; subst hx; exact h1 hc
  case integer l c' s' hc _ => injection hx with hx; subst hx; exact h2 hc
  case gapSeparator l c' s' hc _ => injection hx with hx; subst hx; exact h3 hc
  all_goals simp_all
  all_goals rename_i h; rcases h with rfl | rfl <;> simp_all

/-- What is pending is the beginning of a token, or a stray character. -/
theorem pending_completes {loc : Location} {rest : Str} (h : readNext loc rest false = .ok none) (hne : rest ≠ []) :
    (∃ tk more, Spelled tk (rest ++ more)) ∨ (∃ c, rest = [c] ∧ ∀ tk s, ¬ Spelled tk (c :: s)) := by
  rcases pending_flush h hne with ⟨tk, ht⟩ | ⟨e, he⟩
  · have := (readNext_sound _ _ _ _ _ ht).spelled
    rw [List.take_of_length_le (Nat.le_refl _)] at this
    exact .inl ⟨tk, [], by simpa using this⟩
  · cases rest with
    | nil => exact absurd rfl hne
    | cons c cs =>
      by_cases hp : c ∈ punct
      · left
        simp only [punct, List.mem_cons, List.not_mem_nil, or_false] at hp
        rcases hp with rfl | rfl | rfl | rfl | rfl | rfl | rfl | rfl | rfl | rfl | rfl | rfl | rfl | rfl |
          rfl | rfl | rfl | rfl | rfl
        iterate 12
          · simp [readNext] at h
        iterate 2
          · by_cases hcs : cs = []
            · subst hcs
              refine ⟨.terminalString loc ['a'] _, 'a' :: [_], Spelled.terminalString loc ['a'] _ (by simp) (by simp) ?_⟩
              intro c hc
              simp at hc; subst hc
              unfold IsPrintable; decide
            · simp [readNext, hcs, terminalString] at h
              split at h
              · simp [Res.fail] at h
              · rename_i m hm
                obtain ⟨_, h2, _⟩ := scanQuoted_sound _ _ _ _ hm
                split at h
                · rename_i hmm
                  rw [hmm, List.take_of_length_le (Nat.le_refl _)] at h2
                  refine ⟨.terminalString loc cs _, [_], Spelled.terminalString loc cs _ (by simp) hcs ?_⟩
                  intro c hc
                  exact ⟨(isTerminalChar_iff c).mp (h2 c hc).1, (h2 c hc).2⟩
                · split at h <;> simp [Res.fail] at h
        · cases cs with
          | nil => exact ⟨.startGroupSymbol loc, [], .startGroup loc⟩
          | cons d ds =>
            simp [readNext] at h
            split at h
            · rename_i hd
              subst hd
              split at h
              · simp [Res.fail] at h
              · rename_i hds
                simp only [commentToken] at h
                cases hc : commentLoop (loc.pushStr ['(', '*']) 0 '*' ds with
                | «open» =>
                  obtain ⟨k, n, h1, h2⟩ := commentLoop_open hc
                  have hr : readNext loc ('(' :: '*' :: (ds ++ closings k)) false =
                      .ok (some (.comment loc ((ds ++ closings k).take (n - 1)), n + 3)) := by
                    simp [readNext]
                    rw [if_neg]
                    · simp only [commentToken, h1]
                    · cases ds with
                      | nil =>
                        obtain ⟨r, hr⟩ := closings_head k
                        rw [hr]; simp
                      | cons x xs => simpa using hds
                  have := (readNext_sound _ _ _ _ _ hr).spelled
                  rw [List.take_of_length_le (l := '(' :: '*' :: (ds ++ closings k)) (by simp at h2 ⊢; omega)] at this
                  exact ⟨_, closings k, this⟩
                | closed n => rw [hc] at h; simp at h
                | bad l c => rw [hc] at h; simp [Res.fail] at h
            · split at h
              · simp at h
              · split at h <;> simp at h
        · by_cases hcs : cs = []
          · subst hcs; exact ⟨.definitionSeparatorSymbol loc '/', [], .separator loc '/' (by simp)⟩
          · simp [readNext, hcs] at h; split at h <;> simp at h
        · by_cases hcs : cs = []
          · subst hcs; exact ⟨.endRepeatSymbol loc [':', ')'], [')'], .endRepeat loc _ (by simp)⟩
          · simp [readNext, hcs] at h; split at h <;> simp [Res.fail] at h
        · by_cases hcs : cs = []
          · subst hcs; exact ⟨.repetitionSymbol loc, [], .repetition loc⟩
          · simp [readNext, hcs] at h; split at h <;> simp [Res.fail] at h
        · by_cases hcs : cs = []
          · subst hcs; exact ⟨.specialSequence loc [], ['?'], .specialSequence loc [] (by simp)⟩
          · simp [readNext, hcs, specialSequence] at h
            split at h
            · simp [Res.fail] at h
            · rename_i m hm
              obtain ⟨_, h2, _⟩ := scanQuoted_sound _ _ _ _ hm
              split at h
              · rename_i hmm
                rw [hmm, List.take_of_length_le (Nat.le_refl _)] at h2
                refine ⟨.specialSequence loc cs, ['?'], Spelled.specialSequence loc cs ?_⟩
                intro c hc
                have := (isSpecialSequenceChar_iff c).mp (h2 c hc).1
                exact this
              · simp at h
      · rw [readNext_word hp] at h he
        by_cases h1 : isMetaIdentifierFirstChar c = true
        · simp [h1] at he
        · by_cases h2 : isDecimalDigitChar c = true
          · simp [h1, h2] at he
          · by_cases h3 : isGapChar c = true
            · simp [h1, h2, h3] at he
            · right
              simp [h1, h2, h3, Res.fail] at h
              subst h
              exact ⟨c, rfl, stray_of hp (fun h => h1 ((isLetterChar_iff c).mpr h))
                (fun h => h2 ((isDecimalDigitChar_iff c).mpr h)) (fun h => h3 ((isGapChar_iff c).mpr h))⟩

theorem relocate {tk : Token} {s : Str} (h : Spelled tk s) (loc : Location) :
    ∃ tk', Spelled tk' s ∧ positionOf tk' = loc := by
  cases h with
  | repetition l => exact ⟨_, .repetition loc, rfl⟩
  | except l => exact ⟨_, .except loc, rfl⟩
  | concatenate l => exact ⟨_, .concatenate loc, rfl⟩
  | separator l c h => exact ⟨_, .separator loc c h, rfl⟩
  | defining l => exact ⟨_, .defining loc, rfl⟩
  | terminator l c h => exact ⟨_, .terminator loc c h, rfl⟩
  | startOption l s h => exact ⟨_, .startOption loc s h, rfl⟩
  | endOption l s h => exact ⟨_, .endOption loc s h, rfl⟩
  | startRepeat l s h => exact ⟨_, .startRepeat loc s h, rfl⟩
  | endRepeat l s h => exact ⟨_, .endRepeat loc s h, rfl⟩
  | startGroup l => exact ⟨_, .startGroup loc, rfl⟩
  | endGroup l => exact ⟨_, .endGroup loc, rfl⟩
  | metaIdentifier l c s h1 h2 => exact ⟨_, .metaIdentifier loc c s h1 h2, rfl⟩
  | terminalString l s q h1 h2 h3 => exact ⟨_, .terminalString loc s q h1 h2 h3, rfl⟩
  | integer l c s h1 h2 => exact ⟨_, .integer loc c s h1 h2, rfl⟩
  | comment l s h => exact ⟨_, .comment loc s h, rfl⟩
  | specialSequence l s h => exact ⟨_, .specialSequence loc s h, rfl⟩
  | gapSeparator l c s h1 h2 => exact ⟨_, .gapSeparator loc c s h1 h2, rfl⟩

/-- A character that starts no token ends every token. -/
theorem ends_stray {tk : Token} {c : Char} (h : ∀ tk s, ¬ Spelled tk (c :: s)) : Ends tk (some c) := by
  have h1 : ¬ IsLetter c := fun hc => h _ [] (.metaIdentifier (Location.new []) c [] hc (by simp))
  have h2 : ¬ IsDigit c := fun hc => h _ [] (.integer (Location.new []) c [] hc (by simp))
  have h3 : c ∉ gapChars := fun hc => h _ [] (.gapSeparator (Location.new []) c [] hc (by simp))
  have h4 : c ≠ '*' := by rintro rfl; exact h _ [] (.repetition (Location.new []))
  have h5 : c ≠ '/' := by rintro rfl; exact h _ [] (.separator (Location.new []) '/' (by simp))
  have h6 : c ≠ ':' := by rintro rfl; exact h _ [')'] (.endRepeat (Location.new []) _ (by simp))
  have h7 : c ≠ ')' := by rintro rfl; exact h _ [] (.endGroup (Location.new []))
  unfold Ends
  split <;> simp_all

theorem readNext_one (loc : Location) (c : Char) (e : Error) : readNext loc [c] false ≠ .err e := by
  unfold readNext
  simp only [List.isEmpty_nil, Bool.not_false, Bool.true_and, if_true]
  repeat' split
  all_goals simp

theorem tokLoop_one (loc : Location) (c : Char) : ∃ tks, (tokLoop loc [c]).1 = .ok tks := by
  rcases readNext_settled loc [c] false with ⟨o, h⟩ | ⟨e, h⟩
  · cases o with
    | none => exact ⟨[], by rw [tokLoop_none h]⟩
    | some x =>
      obtain ⟨tk, n⟩ := x
      have hr := readNext_sound _ _ _ _ _ h
      have h1 := hr.pos
      have h2 := hr.le
      have : n = 1 := by simp at h2; omega
      subst this
      exact ⟨[tk], by rw [tokLoop_some h]; rfl⟩
  · exact absurd h (readNext_one loc c e)

theorem prependTok_ok {tks us : List Token} {x : Res (List Token) × Location × Str} (h : x.1 = .ok us) :
    (prependTok tks x).1 = .ok (tks ++ us) := by
  obtain ⟨r, l, s⟩ := x
  simp only at h
  subst h
  rfl

/-- The tokenizer gets through a text exactly when it is viable or ends in a stray character. -/
theorem tokLoop_ok_iff (loc : Location) (text : Str) :
    (∃ tks, (tokLoop loc text).1 = .ok tks) ↔ Completable loc text ∨ StrayLast loc text := by
  constructor
  · rintro ⟨tks, h⟩
    have hx : tokLoop loc text = (.ok tks, (tokLoop loc text).2.1, (tokLoop loc text).2.2) := by rw [← h]
    generalize (tokLoop loc text).2.1 = loc' at hx
    generalize (tokLoop loc text).2.2 = rest at hx
    obtain ⟨hp, _⟩ := tokLoop_ok hx
    obtain ⟨used, hu, hl⟩ := tokLoop_lexes hx
    by_cases hr : rest = []
    · subst hr
      rw [List.append_nil] at hu
      subst hu
      exact .inl ⟨[], tks, by simpa using hl⟩
    · rcases pending_completes hp hr with ⟨tk, more, hs⟩ | ⟨c, rfl, hc⟩
      · left
        obtain ⟨tk', hs', hp'⟩ := relocate hs loc'
        have hlx : Lexes loc' (rest ++ more) [tk'] := by
          have := Lexes.cons (rest := []) (tks := []) hs' hp' (by rw [List.head?_nil]; exact ends_none _) (.nil _)
          simpa using this
        have hsc := scanAll_append hx more
        rw [scanAll_complete hlx] at hsc
        obtain ⟨ts, h1, _⟩ := scanAll_sound _ _ _ hsc
        exact ⟨more, ts, h1⟩
      · exact .inr ⟨used, c, tks, hu, hl, hc⟩
  · rintro (⟨more, ts, h⟩ | ⟨init, c, ts, rfl, h, hc⟩)
    · rcases tokLoop_settled loc text with ⟨tks, h1⟩ | ⟨e, h1⟩
      · exact ⟨tks, h1⟩
      · have := scanAll_append_err h1 more
        rw [scanAll_complete h] at this
        cases this
    · rcases tokLoop_settled loc init with ⟨tks, h1⟩ | ⟨e, h1⟩
      · have hx : tokLoop loc init = (.ok tks, (tokLoop loc init).2.1, (tokLoop loc init).2.2) := by rw [← h1]
        generalize (tokLoop loc init).2.1 = loc' at hx
        generalize (tokLoop loc init).2.2 = rest at hx
        rw [tokLoop_append hx]
        suffices ∃ us, (tokLoop loc' (rest ++ [c])).1 = .ok us by
          obtain ⟨us, hus⟩ := this
          exact ⟨_, prependTok_ok hus⟩
        obtain ⟨hp, _⟩ := tokLoop_ok hx
        by_cases hr : rest = []
        · subst hr; exact tokLoop_one _ _
        · rcases pending_flush hp hr with ⟨tk, ht⟩ | ⟨e, he⟩
          · have hs := readNext_sound _ _ _ _ _ ht
            have hsp := hs.spelled
            rw [List.take_of_length_le (Nat.le_refl _)] at hsp
            have := readNext_complete hsp [c] (by simpa using ends_stray hc)
            rw [hs.position] at this
            rcases this with h2 | ⟨h2, _⟩
            · rw [tokLoop_some h2]
              rw [List.take_left, List.drop_left]
              obtain ⟨us, hus⟩ := tokLoop_one (loc'.pushStr rest) c
              refine ⟨tk :: us, ?_⟩
              revert hus
              rcases tokLoop (loc'.pushStr rest) [c] with ⟨r, l, s⟩
              intro hus
              simp only at hus
              subst hus
              rfl
            · cases h2
          · have := scanAll_append hx []
            rw [List.append_nil, List.append_nil, scanAll_complete h] at this
            rw [scanAll_none hp] at this
            simp [flushTok, hr, he, Res.bind] at this
      · have := scanAll_append_err h1 []
        rw [List.append_nil, scanAll_complete h] at this
        cases this

end Ebnf
