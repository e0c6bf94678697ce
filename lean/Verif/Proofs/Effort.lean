import Verif.Model.Effort
import Verif.Proofs.ReadNext

set_option autoImplicit false

/-! # Proofs: the steps of the tokenizer -/

namespace Ebnf.Effort

theorem countWhile_eq (eval : Char → Bool) (s : Str) :
    (countWhile eval s).1 = (s.takeWhile eval).length ∧ (countWhile eval s).2 ≤ s.length ∧ (countWhile eval s).2 ≤ (countWhile eval s).1 + 1 := by
  induction s with
  | nil => simp [countWhile]
  | cons c cs ih =>
    rw [countWhile]
    by_cases h : eval c = true
    · rw [if_pos h, List.takeWhile_cons_of_pos h]
      simp only [List.length_cons]
      omega
    · rw [if_neg h, List.takeWhile_cons_of_neg h]
      simp

theorem readWhile_eq (rest : Str) (eval : Char → Bool) (flush : Bool) : (readWhile rest eval flush).1 = Ebnf.readWhile rest eval flush := by
  simp only [readWhile, Ebnf.readWhile, (countWhile_eq eval rest).1]

theorem readWhile_work (rest : Str) (eval : Char → Bool) (flush : Bool) : (readWhile rest eval flush).2 ≤ rest.length ∧
    ∀ n, (readWhile rest eval flush).1 = some n → (readWhile rest eval flush).2 ≤ n + 1 := by
  obtain ⟨_, h2, h3⟩ := countWhile_eq eval rest
  refine ⟨h2, fun n hn => ?_⟩
  simp only [readWhile] at hn ⊢
  by_cases h : (!flush && (countWhile eval rest).1 == rest.length) = true
  · rw [if_pos h] at hn; cases hn
  · rw [if_neg h] at hn; cases hn; exact h3

theorem scanQuoted_eq (close : Char) (allowed : Char → Bool) (s : Str) :
    (scanQuoted close allowed s).1 = Ebnf.scanQuoted close allowed s ∧ (scanQuoted close allowed s).2 ≤ s.length ∧
      ∀ n, Ebnf.scanQuoted close allowed s = .ok n → (scanQuoted close allowed s).2 ≤ n + 1 := by
  induction s with
  | nil => exact ⟨rfl, Nat.le_refl _, fun n _ => Nat.zero_le _⟩
  | cons c cs ih =>
    rw [scanQuoted, Ebnf.scanQuoted]
    by_cases h : c = close
    · rw [if_pos h, if_pos h]
      exact ⟨rfl, by simp, fun n _ => by simp⟩
    · rw [if_neg h, if_neg h]
      by_cases h' : (!allowed c) = true
      · rw [if_pos h', if_pos h']
        exact ⟨rfl, by simp, fun n _ => by simp⟩
      · rw [if_neg h', if_neg h']
        obtain ⟨h1, h2, h3⟩ := ih
        generalize Ebnf.scanQuoted close allowed cs = y at h1 h3
        generalize scanQuoted close allowed cs = x at h1 h2 h3
        obtain ⟨r, k⟩ := x
        simp only at h1 h2 h3
        subst h1
        cases r with
        | ok n =>
          refine ⟨rfl, by simp; exact h2, fun m hm => ?_⟩
          cases hm
          have := h3 n rfl
          simp only; omega
        | error d => exact ⟨rfl, by simp; exact h2, fun m hm => by cases hm⟩

/-- What `read_next` may cost. -/
def Cheap (rest : Str) (x : ReadRes × Nat) : Prop :=
  x.2 ≤ 2 * rest.length + 1 ∧ (∀ tk n, x.1 = .ok (some (tk, n)) → x.2 ≤ 2 * n + 1) ∧ ((∀ tk n, x.1 ≠ .ok (some (tk, n))) → x.2 ≤ rest.length + 1)

theorem scanQuoted_le {close : Char} {allowed : Char → Bool} {s : Str} {n : Nat} (h : Ebnf.scanQuoted close allowed s = .ok n) :
    n ≤ s.length := by
  induction s generalizing n with
  | nil => cases h; exact Nat.le_refl _
  | cons c cs ih =>
    rw [Ebnf.scanQuoted] at h
    by_cases h1 : c = close
    · rw [if_pos h1] at h; cases h; simp
    · rw [if_neg h1] at h
      by_cases h2 : (!allowed c) = true
      · rw [if_pos h2] at h; cases h
      · rw [if_neg h2] at h
        cases h3 : Ebnf.scanQuoted close allowed cs with
        | ok m => rw [h3] at h; cases h; have := ih h3; simp; omega
        | error d => rw [h3] at h; cases h

theorem cheap_other {rest : Str} {r : ReadRes} {k : Nat} (h : ∀ tk n, r ≠ .ok (some (tk, n))) (hk : k ≤ rest.length + 1) :
    Cheap rest (r, k) :=
  ⟨by simp only; omega, fun tk n hn => absurd hn (h tk n), fun _ => hk⟩

theorem cheap_token {rest : Str} {tk : Token} {n k : Nat} (hn : n ≤ rest.length) (hk : k ≤ 2 * n + 1) :
    Cheap rest (.ok (some (tk, n)), k) :=
  ⟨by simp only; omega, fun tk' n' h => by cases h; exact hk, fun h => absurd rfl (h tk n)⟩

theorem terminalString_work (loc : Location) (q : Char) (cs : Str) (flush : Bool) :
    (terminalString loc q cs flush).1 = Ebnf.terminalString loc q cs flush ∧
      Cheap (q :: cs) ((terminalString loc q cs flush).1, (terminalString loc q cs flush).2 + 1) := by
  unfold terminalString Ebnf.terminalString
  obtain ⟨h1, h2, h3⟩ := scanQuoted_eq q isTerminalChar cs
  have hle : ∀ n, Ebnf.scanQuoted q isTerminalChar cs = .ok n → n ≤ cs.length := fun n h => scanQuoted_le h
  generalize Ebnf.scanQuoted q isTerminalChar cs = y at h1 h3 hle
  generalize scanQuoted q isTerminalChar cs = x at h1 h2 h3
  obtain ⟨r, k⟩ := x
  simp only at h1 h2 h3
  subst h1
  cases r with
  | error c => exact ⟨rfl, cheap_other (fun _ _ h => by cases h) (by simp; omega)⟩
  | ok n =>
    have h4 := h3 n rfl
    have h5 := hle n rfl
    simp only
    by_cases ha : (n == cs.length) = true
    · rw [if_pos ha, if_pos ha]
      refine ⟨rfl, cheap_other (fun _ _ h => ?_) (by simp; omega)⟩
      cases flush <;> cases h
    · rw [if_neg ha, if_neg ha]
      by_cases hb : (n == 0) = true
      · rw [if_pos hb, if_pos hb]
        exact ⟨rfl, cheap_other (fun _ _ h => by cases h) (by simp; omega)⟩
      · rw [if_neg hb, if_neg hb]
        have : n ≠ cs.length := fun h => ha (by simp [h])
        exact ⟨rfl, cheap_token (by simp; omega) (by omega)⟩

theorem specialSequence_work (loc : Location) (q : Char) (cs : Str) (flush : Bool) :
    (specialSequence loc cs flush).1 = Ebnf.specialSequence loc cs flush ∧
      Cheap (q :: cs) ((specialSequence loc cs flush).1, (specialSequence loc cs flush).2 + 1) := by
  unfold specialSequence Ebnf.specialSequence
  obtain ⟨h1, h2, h3⟩ := scanQuoted_eq '?' isSpecialSequenceChar cs
  have hle : ∀ n, Ebnf.scanQuoted '?' isSpecialSequenceChar cs = .ok n → n ≤ cs.length := fun n h => scanQuoted_le h
  generalize Ebnf.scanQuoted '?' isSpecialSequenceChar cs = y at h1 h3 hle
  generalize scanQuoted '?' isSpecialSequenceChar cs = x at h1 h2 h3
  obtain ⟨r, k⟩ := x
  simp only at h1 h2 h3
  subst h1
  cases r with
  | error c => exact ⟨rfl, cheap_other (fun _ _ h => by cases h) (by simp; omega)⟩
  | ok n =>
    have h4 := h3 n rfl
    have h5 := hle n rfl
    simp only
    by_cases ha : (n == cs.length) = true
    · rw [if_pos ha, if_pos ha]
      refine ⟨rfl, cheap_other (fun _ _ h => ?_) (by simp; omega)⟩
      cases flush <;> cases h
    · rw [if_neg ha, if_neg ha]
      have : n ≠ cs.length := fun h => ha (by simp [h])
      exact ⟨rfl, cheap_token (by simp; omega) (by omega)⟩

/-- One more character in a comment. -/
def more : CommentScan → CommentScan
  | .closed n => .closed (n + 1)
  | r => r

theorem commentLoop_cons (location : Location) (depth : Nat) (prev c : Char) (cs : Str) :
    commentLoop location depth prev (c :: cs) =
      if prev = '*' ∧ c = ')' then
        if depth = 0 then (.closed 0, 1)
        else (more (commentLoop (location.push c) (depth - 1) c cs).1, (commentLoop (location.push c) (depth - 1) c cs).2 + 1)
      else if prev = '(' ∧ c = '*' then
        (more (commentLoop (location.push c) (depth + 1) c cs).1, (commentLoop (location.push c) (depth + 1) c cs).2 + 1)
      else if !isGapChar c && !isTerminalChar c then (.bad location c, 1)
      else (more (commentLoop (location.push c) depth c cs).1, (commentLoop (location.push c) depth c cs).2 + 1) := by
  rw [commentLoop]
  dsimp only
  generalize commentLoop (location.push c) (depth - 1) c cs = x
  generalize commentLoop (location.push c) (depth + 1) c cs = y
  generalize commentLoop (location.push c) depth c cs = z
  obtain ⟨_ | _ | _, _⟩ := x <;> obtain ⟨_ | _ | _, _⟩ := y <;> obtain ⟨_ | _ | _, _⟩ := z <;> rfl

theorem comment_cons' (location : Location) (depth : Nat) (prev c : Char) (cs : Str) :
    Ebnf.commentLoop location depth prev (c :: cs) =
      if prev = '*' ∧ c = ')' then
        if depth = 0 then .closed 0 else more (Ebnf.commentLoop (location.push c) (depth - 1) c cs)
      else if prev = '(' ∧ c = '*' then more (Ebnf.commentLoop (location.push c) (depth + 1) c cs)
      else if !isGapChar c && !isTerminalChar c then .bad location c
      else more (Ebnf.commentLoop (location.push c) depth c cs) := by
  rw [Ebnf.commentLoop]
  dsimp only
  generalize Ebnf.commentLoop (location.push c) (depth - 1) c cs = x
  generalize Ebnf.commentLoop (location.push c) (depth + 1) c cs = y
  generalize Ebnf.commentLoop (location.push c) depth c cs = z
  cases x <;> cases y <;> cases z <;> rfl

theorem commentLoop_eq (cs : Str) : ∀ (location : Location) (depth : Nat) (prev : Char),
    (commentLoop location depth prev cs).1 = Ebnf.commentLoop location depth prev cs ∧ (commentLoop location depth prev cs).2 ≤ cs.length ∧
      ∀ n, (commentLoop location depth prev cs).1 = .closed n → (commentLoop location depth prev cs).2 ≤ n + 1 ∧ n < cs.length := by
  induction cs with
  | nil => intro location depth prev; exact ⟨rfl, Nat.le_refl _, fun n h => by cases h⟩
  | cons c cs ih =>
    intro location depth prev
    have hm : ∀ d, (more (commentLoop (location.push c) d c cs).1) = more (Ebnf.commentLoop (location.push c) d c cs) ∧
        (commentLoop (location.push c) d c cs).2 + 1 ≤ (c :: cs).length ∧
        ∀ n, more (commentLoop (location.push c) d c cs).1 = .closed n →
          (commentLoop (location.push c) d c cs).2 + 1 ≤ n + 1 ∧ n < (c :: cs).length := by
      intro d
      obtain ⟨h1, h2, h3⟩ := ih (location.push c) d c
      refine ⟨by rw [h1], by simp; exact h2, fun n hn => ?_⟩
      cases hx : (commentLoop (location.push c) d c cs).1 with
      | closed m =>
        rw [hx] at hn
        cases hn
        have := h3 m hx
        simp; omega
      | «open» => rw [hx] at hn; cases hn
      | bad l c' => rw [hx] at hn; cases hn
    rw [commentLoop_cons, comment_cons']
    by_cases h1 : prev = '*' ∧ c = ')'
    · rw [if_pos h1, if_pos h1]
      by_cases h2 : depth = 0
      · rw [if_pos h2, if_pos h2]
        exact ⟨rfl, by simp, fun n h => by cases h; simp⟩
      · rw [if_neg h2, if_neg h2]; exact hm _
    · rw [if_neg h1, if_neg h1]
      by_cases h2 : prev = '(' ∧ c = '*'
      · rw [if_pos h2, if_pos h2]; exact hm _
      · rw [if_neg h2, if_neg h2]
        by_cases h3 : (!isGapChar c && !isTerminalChar c) = true
        · rw [if_pos h3, if_pos h3]
          exact ⟨rfl, by simp, fun n h => by cases h⟩
        · rw [if_neg h3, if_neg h3]; exact hm _

theorem commentToken_work (loc : Location) (a b : Char) (cs : Str) (flush : Bool) :
    (commentToken loc cs flush).1 = Ebnf.commentToken loc cs flush ∧
      Cheap (a :: b :: cs) ((commentToken loc cs flush).1, (commentToken loc cs flush).2 + 2) := by
  unfold commentToken Ebnf.commentToken
  obtain ⟨h1, h2, h3⟩ := commentLoop_eq cs (loc.pushStr ['(', '*']) 0 '*'
  generalize Ebnf.commentLoop (loc.pushStr ['(', '*']) 0 '*' cs = y at h1
  generalize commentLoop (loc.pushStr ['(', '*']) 0 '*' cs = x at h1 h2 h3
  obtain ⟨r, k⟩ := x
  simp only at h1 h2 h3
  subst h1
  cases r with
  | «open» =>
    refine ⟨rfl, cheap_other (fun _ _ h => ?_) (by simp; omega)⟩
    cases flush <;> cases h
  | bad l c => exact ⟨rfl, cheap_other (fun _ _ h => by cases h) (by simp; omega)⟩
  | closed n =>
    have := h3 n rfl
    exact ⟨rfl, cheap_token (by simp; omega) (by simp only; omega)⟩

theorem takeWhile_le (eval : Char → Bool) (s : Str) : (s.takeWhile eval).length ≤ s.length := (List.takeWhile_sublist _).length_le

theorem word_work {c : Char} {cs : Str} {eval : Char → Bool} {flush : Bool} {mk : Nat → Token} :
    (match readWhile cs eval flush with
      | (some n, k) => ((.ok (some (mk n, n + 1)), k + 1 + (n + 1)) : ReadRes × Nat)
      | (none, k) => (.ok none, k + 1)).1 = .ok ((Ebnf.readWhile cs eval flush).map fun n => (mk n, n + 1)) ∧
    Cheap (c :: cs) (match readWhile cs eval flush with
      | (some n, k) => ((.ok (some (mk n, n + 1)), k + 1 + (n + 1)) : ReadRes × Nat)
      | (none, k) => (.ok none, k + 1)) := by
  rw [← readWhile_eq]
  obtain ⟨h1, h2⟩ := readWhile_work cs eval flush
  have h3 : ∀ n, (readWhile cs eval flush).1 = some n → n ≤ cs.length := by
    intro n h
    rw [readWhile_eq, Ebnf.readWhile] at h
    have := takeWhile_le eval cs
    split at h
    · cases h
    · cases h; exact this
  generalize readWhile cs eval flush = x at h1 h2 h3
  obtain ⟨o, k⟩ := x
  cases o with
  | none => exact ⟨rfl, cheap_other (fun _ _ h => by cases h) (by simp at h1 ⊢; omega)⟩
  | some n =>
    have h4 := h2 n rfl
    have h5 := h3 n rfl
    simp only at h4
    exact ⟨rfl, cheap_token (by simp; omega) (by omega)⟩

theorem readNext_work (loc : Location) (rest : Str) (flush : Bool) :
    (readNext loc rest flush).1 = Ebnf.readNext loc rest flush ∧ Cheap rest (readNext loc rest flush) := by
  cases rest with
  | nil => exact ⟨rfl, cheap_other (fun _ _ h => by cases h) (by simp)⟩
  | cons c cs =>
    have ht : ∀ (tk : Token) k, k ≤ 3 → ((.ok (some (tk, 1)), k) : ReadRes × Nat).1 = .ok (some (tk, 1)) ∧
        Cheap (c :: cs) (.ok (some (tk, 1)), k) := fun tk k hk => ⟨rfl, cheap_token (by simp) (by omega)⟩
    have hf : ∀ (l : Location) (m : Msg) k, k ≤ 2 → ((.fail l m, k) : ReadRes × Nat).1 = .fail l m ∧
        Cheap (c :: cs) (.fail l m, k) := fun l m k hk => ⟨rfl, cheap_other (fun _ _ h => by cases h) (by simp; omega)⟩
    unfold readNext Ebnf.readNext
    dsimp only
    by_cases h : c = ','
    · rw [if_pos h, if_pos h]; exact ht _ _ (by omega)
    rw [if_neg h, if_neg h]; clear h
    by_cases h : c = '='
    · rw [if_pos h, if_pos h]; exact ht _ _ (by omega)
    rw [if_neg h, if_neg h]; clear h
    by_cases h : c = '|' ∨ c = '!'
    · rw [if_pos h, if_pos h]; exact ht _ _ (by omega)
    rw [if_neg h, if_neg h]; clear h
    by_cases h : c = ';' ∨ c = '.'
    · rw [if_pos h, if_pos h]; exact ht _ _ (by omega)
    rw [if_neg h, if_neg h]; clear h
    by_cases h : c = '-'
    · rw [if_pos h, if_pos h]; exact ht _ _ (by omega)
    rw [if_neg h, if_neg h]; clear h
    by_cases h : c = ')'
    · rw [if_pos h, if_pos h]; exact ht _ _ (by omega)
    rw [if_neg h, if_neg h]; clear h
    by_cases h : c = '['
    · rw [if_pos h, if_pos h]; exact ht _ _ (by omega)
    rw [if_neg h, if_neg h]; clear h
    by_cases h : c = ']'
    · rw [if_pos h, if_pos h]; exact ht _ _ (by omega)
    rw [if_neg h, if_neg h]; clear h
    by_cases h : c = '{'
    · rw [if_pos h, if_pos h]; exact ht _ _ (by omega)
    rw [if_neg h, if_neg h]; clear h
    by_cases h : c = '}'
    · rw [if_pos h, if_pos h]; exact ht _ _ (by omega)
    rw [if_neg h, if_neg h]; clear h
    by_cases h : (!flush && cs.isEmpty) = true
    · rw [if_pos h, if_pos h]; exact ⟨rfl, cheap_other (fun _ _ h => by cases h) (by simp)⟩
    rw [if_neg h, if_neg h]
    have hlen : flush = false → 1 ≤ cs.length := by
      intro hf; subst hf
      cases cs with
      | nil => exact absurd rfl h
      | cons d ds => simp
    clear h
    by_cases h : c = '\'' ∨ c = '"'
    · rw [if_pos h, if_pos h]; exact terminalString_work loc c cs flush
    rw [if_neg h, if_neg h]; clear h
    by_cases h : c = '('
    · rw [if_pos h, if_pos h]
      cases cs with
      | nil => exact ht _ _ (by omega)
      | cons d ds =>
        simp only
        by_cases h : d = '*'
        · rw [if_pos h, if_pos h]
          by_cases h' : ds.head? = some ')'
          · rw [if_pos h', if_pos h']
            refine ⟨rfl, cheap_other (fun _ _ h => by cases h) (by simp)⟩
          · rw [if_neg h', if_neg h']; exact commentToken_work loc c d ds flush
        rw [if_neg h, if_neg h]; clear h
        by_cases h : d = '/'
        · rw [if_pos h, if_pos h]; exact ⟨rfl, cheap_token (by simp) (by omega)⟩
        rw [if_neg h, if_neg h]; clear h
        by_cases h : d = ':'
        · rw [if_pos h, if_pos h]; exact ⟨rfl, cheap_token (by simp) (by omega)⟩
        rw [if_neg h, if_neg h]
        exact ht _ _ (by omega)
    rw [if_neg h, if_neg h]; clear h
    have hb : ∀ (b : Bool), (b && decide (cs.head? = some ')')) = true → 1 ≤ cs.length := by
      intro b hb
      cases cs with
      | nil => cases b <;> simp at hb
      | cons d ds => simp
    by_cases h : c = '/'
    · rw [if_pos h, if_pos h]
      by_cases h' : (!flush && decide (cs.head? = some ')')) = true
      · rw [if_pos h', if_pos h']
        have := hb _ h'
        exact ⟨rfl, cheap_token (by simp; omega) (by omega)⟩
      · rw [if_neg h', if_neg h']; exact ht _ _ (by omega)
    rw [if_neg h, if_neg h]; clear h
    by_cases h : c = ':'
    · rw [if_pos h, if_pos h]
      by_cases h' : (!flush && decide (cs.head? = some ')')) = true
      · rw [if_pos h', if_pos h']
        have := hb _ h'
        exact ⟨rfl, cheap_token (by simp; omega) (by omega)⟩
      · rw [if_neg h', if_neg h']; exact hf _ _ _ (by omega)
    rw [if_neg h, if_neg h]; clear h
    by_cases h : c = '*'
    · rw [if_pos h, if_pos h]
      by_cases h' : (!flush && decide (cs.head? = some ')')) = true
      · rw [if_pos h', if_pos h']; exact hf _ _ _ (by omega)
      · rw [if_neg h', if_neg h']; exact ht _ _ (by omega)
    rw [if_neg h, if_neg h]; clear h
    by_cases h : c = '?'
    · rw [if_pos h, if_pos h]; exact specialSequence_work loc c cs flush
    rw [if_neg h, if_neg h]; clear h
    by_cases h : isMetaIdentifierFirstChar c = true
    · rw [if_pos h, if_pos h]; exact word_work (mk := fun n => .metaIdentifier loc (c :: cs.take n))
    rw [if_neg h, if_neg h]; clear h
    by_cases h : isDecimalDigitChar c = true
    · rw [if_pos h, if_pos h]; exact word_work (mk := fun n => .integer loc (c :: cs.take n))
    rw [if_neg h, if_neg h]; clear h
    by_cases h : isGapChar c = true
    · rw [if_pos h, if_pos h]; exact word_work (mk := fun n => .gapSeparatorSequence loc (c :: cs.take n))
    rw [if_neg h, if_neg h]
    exact hf _ _ _ (by omega)

theorem readNext_eq (loc : Location) (rest : Str) (flush : Bool) : (readNext loc rest flush).1 = Ebnf.readNext loc rest flush :=
  (readNext_work loc rest flush).1

/-- The loop of `tokenize`: the same result; four steps for a character that becomes part of a token, one for one that remains. -/
theorem tokenizeLoop_work (fuel : Nat) : ∀ (loc : Location) (rest : Str),
    (tokenizeLoop fuel loc rest).1 = Tokenizer.tokenizeLoop fuel loc rest ∧ (tokenizeLoop fuel loc rest).2 ≤ 4 * rest.length + 1 ∧
    ∀ tks loc' rest', Tokenizer.tokenizeLoop fuel loc rest = (.ok tks, loc', rest') → tks.length + rest'.length ≤ rest.length ∧
      (tokenizeLoop fuel loc rest).2 + 3 * rest'.length ≤ 4 * rest.length + 1 := by
  induction fuel with
  | zero =>
    intro loc rest
    rw [tokenizeLoop, Tokenizer.tokenizeLoop]
    refine ⟨rfl, by simp, fun tks loc' rest' h => ?_⟩
    by_cases he : rest.isEmpty = true
    · rw [if_pos he] at h; cases h; simp; omega
    · rw [if_neg he] at h; cases h
  | succ fuel ih =>
    intro loc rest
    rw [tokenizeLoop, Tokenizer.tokenizeLoop]
    by_cases he : rest.isEmpty = true
    · rw [if_pos he, if_pos he]
      refine ⟨rfl, by simp, fun tks loc' rest' h => ?_⟩
      cases h; simp; omega
    · rw [if_neg he, if_neg he]
      obtain ⟨h1, hc1, hc2, hc3⟩ := readNext_work loc rest false
      have hs : ∀ tk n, Ebnf.readNext loc rest false = .ok (some (tk, n)) → 0 < n ∧ n ≤ rest.length := fun tk n h =>
        ⟨(readNext_sound _ _ _ _ _ h).pos, (readNext_sound _ _ _ _ _ h).le⟩
      rw [← h1] at hs ⊢
      generalize readNext loc rest false = x at hc1 hc2 hc3 hs
      obtain ⟨r, k⟩ := x
      simp only at hc1 hc2 hc3 hs ⊢
      cases r with
      | ok o =>
        cases o with
        | none =>
          have := hc3 (fun tk n h => by cases h)
          refine ⟨rfl, by simp only; omega, fun tks loc' rest' h => ?_⟩
          cases h; simp only [List.length_nil]; omega
        | some y =>
          obtain ⟨tk, n⟩ := y
          have ha := hc2 tk n rfl
          obtain ⟨hb, hd⟩ := hs tk n rfl
          obtain ⟨i1, i2, i3⟩ := ih (loc.pushStr (rest.take n)) (rest.drop n)
          simp only
          rw [← i1] at i3 ⊢
          rw [List.length_drop] at i2 i3
          generalize tokenizeLoop fuel (loc.pushStr (rest.take n)) (rest.drop n) = z at i2 i3
          obtain ⟨⟨r, loc1, rest1⟩, m⟩ := z
          simp only at i2 i3
          cases r with
          | ok ts =>
            have := i3 ts loc1 rest1 rfl
            refine ⟨rfl, by simp only; omega, fun tks loc' rest' h => ?_⟩
            cases h; simp only [List.length_cons]; omega
          | err e => exact ⟨rfl, by simp only; omega, fun tks loc' rest' h => by cases h⟩
          | panic e => exact ⟨rfl, by simp only; omega, fun tks loc' rest' h => by cases h⟩
          | diverge => exact ⟨rfl, by simp only; omega, fun tks loc' rest' h => by cases h⟩
      | err e =>
        have := hc3 (fun tk n h => by cases h)
        exact ⟨rfl, by simp only; omega, fun tks loc' rest' h => by cases h⟩
      | panic e =>
        have := hc3 (fun tk n h => by cases h)
        exact ⟨rfl, by simp only; omega, fun tks loc' rest' h => by cases h⟩
      | diverge =>
        have := hc3 (fun tk n h => by cases h)
        exact ⟨rfl, by simp only; omega, fun tks loc' rest' h => by cases h⟩

theorem tokenize_work (t : Tokenizer) :
    (tokenize t).1 = Tokenizer.tokenize t ∧ (tokenize t).2 ≤ 4 * t.buffer.length + 1 ∧
    ∀ tks t', Tokenizer.tokenize t = (.ok tks, t') → tks.length + t'.buffer.length ≤ t.buffer.length ∧
      (tokenize t).2 + 2 * t'.buffer.length ≤ 4 * t.buffer.length + 1 := by
  obtain ⟨h1, h2, h3⟩ := tokenizeLoop_work t.buffer.length t.location t.buffer
  unfold tokenize Tokenizer.tokenize
  rw [← h1] at h3 ⊢
  generalize tokenizeLoop t.buffer.length t.location t.buffer = x at h2 h3
  obtain ⟨⟨r, loc, rest⟩, k⟩ := x
  simp only at h2 h3
  cases r with
  | ok tks =>
    have := h3 tks loc rest rfl
    have hd : (if tks.isEmpty then 0 else rest.length) ≤ rest.length := by split <;> omega
    refine ⟨rfl, by simp only; omega, fun tks' t' h => ?_⟩
    cases h; simp only; omega
  | err e => exact ⟨rfl, by simp only; omega, fun tks' t' h => by cases h⟩
  | panic e => exact ⟨rfl, by simp only; omega, fun tks' t' h => by cases h⟩
  | diverge => exact ⟨rfl, by simp only; omega, fun tks' t' h => by cases h⟩

/-- What a method of the tokenizer does with `n` new characters. -/
def Fair (t : Tokenizer) (n : Nat) (extra : Nat) (x : (Res (List Token) × Tokenizer) × Nat) (y : Res (List Token) × Tokenizer) : Prop :=
  x.1 = y ∧ x.2 ≤ 4 * t.buffer.length + 6 * n + 1 ∧ ∀ tks t', y = (.ok tks, t') →
    tks.length + t'.buffer.length ≤ t.buffer.length + n + extra ∧ x.2 + 2 * t'.buffer.length ≤ 4 * t.buffer.length + 6 * n + 1

theorem tokenizerPushStr_fair (s : Str) (t : Tokenizer) : Fair t s.length 0 (tokenizerPushStr s t) (Tokenizer.pushStr s t) := by
  unfold tokenizerPushStr Tokenizer.pushStr
  cases hc : t.ensureCapacity s.length with
  | ok u =>
    obtain ⟨h1, h2, h3⟩ := tokenize_work { t with buffer := t.buffer ++ s }
    simp only [List.length_append] at h2 h3
    simp only
    refine ⟨h1, by simp only; omega, fun tks t' h => ?_⟩
    have := h3 tks t' h
    simp only; omega
  | err e => exact ⟨rfl, by simp only; omega, fun tks t' h => by cases h⟩
  | panic e => exact ⟨rfl, by simp only; omega, fun tks t' h => by cases h⟩
  | diverge => exact ⟨rfl, by simp only; omega, fun tks t' h => by cases h⟩

theorem tokenizerPush_fair (c : Char) (t : Tokenizer) : Fair t 1 0 (tokenizerPush c t) (Tokenizer.push c t) := by
  unfold tokenizerPush Tokenizer.push
  cases hc : t.ensureCapacity 1 with
  | ok u =>
    obtain ⟨h1, h2, h3⟩ := tokenize_work { t with buffer := t.buffer ++ [c] }
    simp only [List.length_append, List.length_cons, List.length_nil] at h2 h3
    simp only
    refine ⟨h1, by simp only; omega, fun tks t' h => ?_⟩
    have := h3 tks t' h
    simp only; omega
  | err e => exact ⟨rfl, by simp only; omega, fun tks t' h => by cases h⟩
  | panic e => exact ⟨rfl, by simp only; omega, fun tks t' h => by cases h⟩
  | diverge => exact ⟨rfl, by simp only; omega, fun tks t' h => by cases h⟩

theorem tokenizerFlush_fair (t : Tokenizer) : Fair t 0 1 (tokenizerFlush t) (Tokenizer.flush t) := by
  unfold tokenizerFlush Tokenizer.flush
  obtain ⟨h1, hc1, hc2, hc3⟩ := readNext_work t.location t.buffer true
  have hs : ∀ tk n, Ebnf.readNext t.location t.buffer true = .ok (some (tk, n)) → 0 < n ∧ n ≤ t.buffer.length := fun tk n h =>
    ⟨(readNext_sound _ _ _ _ _ h).pos, (readNext_sound _ _ _ _ _ h).le⟩
  rw [← h1] at hs ⊢
  generalize readNext t.location t.buffer true = x at hc1 hc2 hc3 hs
  obtain ⟨r, k⟩ := x
  simp only at hc1 hc2 hc3 hs ⊢
  cases r with
  | ok o =>
    cases o with
    | none =>
      have := hc3 (fun tk n h => by cases h)
      simp only
      by_cases he : t.buffer.isEmpty = true
      · rw [if_pos he, if_pos he]
        refine ⟨rfl, by simp only; omega, fun tks t' h => ?_⟩
        cases h
        simp only [List.isEmpty_iff] at he
        simp only [he, List.length_nil, List.length_cons] at this ⊢; omega
      · rw [if_neg he, if_neg he]
        exact ⟨rfl, by simp only; omega, fun tks t' h => by cases h⟩
    | some y =>
      obtain ⟨tk, n⟩ := y
      have ha := hc2 tk n rfl
      obtain ⟨hb, hd⟩ := hs tk n rfl
      simp only
      by_cases he : (t.buffer.drop n).isEmpty = true
      · rw [if_pos he, if_pos he]
        have he' := he
        simp only [List.isEmpty_iff] at he'
        have hl : (t.buffer.drop n).length = 0 := by rw [he']; rfl
        refine ⟨rfl, by simp only; omega, fun tks t' h => ?_⟩
        cases h
        simp only [hl, List.length_cons, List.length_nil]
        rw [List.length_drop] at hl
        omega
      · rw [if_neg he, if_neg he]
        refine ⟨rfl, by simp only [List.length_drop]; omega, fun tks t' h => by cases h⟩
  | err e =>
    have := hc3 (fun tk n h => by cases h)
    exact ⟨rfl, by simp only; omega, fun tks t' h => by cases h⟩
  | panic e =>
    have := hc3 (fun tk n h => by cases h)
    exact ⟨rfl, by simp only; omega, fun tks t' h => by cases h⟩
  | diverge =>
    have := hc3 (fun tk n h => by cases h)
    exact ⟨rfl, by simp only; omega, fun tks t' h => by cases h⟩

end Ebnf.Effort
