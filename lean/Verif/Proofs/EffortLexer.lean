import Verif.Proofs.EffortBound
import Verif.Proofs.EffortDeep
import Verif.Spec.Effort

set_option autoImplicit false

/-! # Proofs: the steps of the lexer -/

namespace Ebnf.Effort

open Work Spec

/-! ## `append` -/

/-- What building rules of `x` tokens together may cost. -/
def rent (x : Nat) : Nat := 38 * (x * (x + 1))

theorem rent_add (a b : Nat) : rent (a + b) = rent a + rent b + 76 * (a * b) := by
  unfold rent
  rw [Nat.add_mul, Nat.mul_add a, Nat.mul_add a, Nat.mul_add b, Nat.mul_add b, Nat.mul_add a, Nat.mul_add b, Nat.mul_comm b a]
  omega

theorem rent_super (a b : Nat) : rent a + rent b ≤ rent (a + b) := by
  rw [rent_add]; omega

theorem rent_mono {a b : Nat} (h : a ≤ b) : rent a ≤ rent b := by
  obtain ⟨d, rfl⟩ := Nat.exists_eq_add_of_le h
  exact Nat.le_trans (Nat.le_add_right _ _) (rent_super a d)

theorem rent_convex {q s m : Nat} (h : q ≤ s) : rent s + rent (q + m) ≤ rent (s + m) + rent q := by
  rw [rent_add, rent_add]
  have := Nat.mul_le_mul_right m h
  omega

theorem build_rent (ts : List Token) (h : 1 ≤ ts.length) : (buildSyntaxRule ts).2 ≤ rent ts.length := by
  have h1 := buildSyntaxRule_cost ts
  have h2 : 1 * 2 ≤ ts.length * (ts.length + 1) := Nat.mul_le_mul h (by omega)
  unfold rent
  omega

/-- What holds of `append`. -/
structure Appended (q ts : List Token) (x : (Res (List SyntaxRule) × List Token) × Effort) : Prop where
  chars : x.2.chars = 0
  moves : 2 * x.2.moves + ts.length ≤ ts.length * ts.length
  tokens : x.2.tokens ≤ rent (q.length + ts.length) + ts.length
  ok : ∀ rules q', x.1 = (.ok rules, q') → q'.length ≤ q.length + ts.length ∧ rules.length ≤ ts.length ∧
    2 * x.2.moves + ts.length = ts.length * ts.length ∧
    x.2.tokens + rent q'.length ≤ rent (q.length + ts.length) + ts.length ∧
    ∀ r ∈ rules, depthOf r.definitionList * depthOf r.definitionList ≤ x.2.tokens

theorem square_succ (n : Nat) : (n + 1) * (n + 1) = n * n + 2 * n + 1 := by
  rw [Nat.add_mul, Nat.mul_add, Nat.one_mul, Nat.mul_one]; omega

theorem append_work (ts : List Token) : ∀ q : List Token, Appended q ts (append q ts) := by
  induction ts with
  | nil =>
    intro q
    refine ⟨rfl, Nat.le_refl _, Nat.zero_le _, ?_⟩
    intro rules q' h
    cases h
    exact ⟨Nat.le_refl _, Nat.le_refl _, rfl, by simp [append], by simp⟩
  | cons t ts ih =>
    intro q
    rw [append]
    dsimp only
    have hsq := square_succ ts.length
    have hself := Nat.le_mul_self ts.length
    have hlen : (q ++ [t]).length = q.length + 1 := by simp
    have hsum : q.length + (t :: ts).length = q.length + 1 + ts.length := by simp only [List.length_cons]; omega
    by_cases ht : t.isTerminator = true
    · rw [if_pos ht]
      have hb := build_rent (q ++ [t]) (by omega)
      have hd := buildSyntaxRule_deep (q ++ [t])
      rw [hlen] at hb
      have hs := rent_super (q.length + 1) ts.length
      generalize buildSyntaxRule (q ++ [t]) = x at hb hd
      obtain ⟨r, k⟩ := x
      simp only at hb hd
      have stop : ∀ r : Res (List SyntaxRule), (∀ rules, r ≠ .ok rules) →
          Appended q (t :: ts) (((r, q ++ [t]), ⟨0, ts.length, 1 + k⟩) : (Res (List SyntaxRule) × List Token) × Effort) := by
        intro r hr
        refine ⟨rfl, ?_, ?_, ?_⟩
        · simp only [List.length_cons]; omega
        · rw [hsum]
          simp only [List.length_cons]
          have := rent_mono (show q.length + 1 ≤ q.length + 1 + ts.length by omega)
          omega
        · intro rules q' h
          cases h
          exact absurd rfl (hr rules)
      cases r with
      | ok r =>
        simp only
        have h := ih []
        generalize append [] ts = y at h
        obtain ⟨⟨z, toks⟩, e⟩ := y
        obtain ⟨h1, h2, h3, h4⟩ := h
        simp only [List.length_nil, Nat.zero_add] at h1 h2 h3 h4
        have hbase : ∀ z' : Res (List SyntaxRule), (∀ rules, z' ≠ .ok rules) →
            Appended q (t :: ts) (((z', toks), Effort.add ⟨0, ts.length, 1 + k⟩ e) : (Res (List SyntaxRule) × List Token) × Effort) := by
          intro z' hz
          refine ⟨?_, ?_, ?_, ?_⟩
          · simp only [Effort.add]; omega
          · simp only [Effort.add, List.length_cons]; omega
          · rw [hsum]; simp only [Effort.add, List.length_cons]; omega
          · intro rules q' h
            cases h
            exact absurd rfl (hz rules)
        cases z with
        | ok rules =>
          simp only
          obtain ⟨h5, h6, h7, h8, h9⟩ := h4 rules toks rfl
          refine ⟨?_, ?_, ?_, ?_⟩
          · simp only [Effort.add]; omega
          · simp only [Effort.add, List.length_cons]; omega
          · rw [hsum]; simp only [Effort.add, List.length_cons]; omega
          · intro rules' q' h
            cases h
            refine ⟨by simp only [List.length_cons]; omega, ?_, ?_, ?_, ?_⟩
            · have : r.toList.length ≤ 1 := by cases r <;> simp
              simp only [List.length_append, List.length_cons]; omega
            · simp only [Effort.add, List.length_cons]; omega
            · rw [hsum]; simp only [Effort.add, List.length_cons]; omega
            · intro r' hr'
              simp only [Effort.add]
              rcases List.mem_append.mp hr' with h | h
              · cases r with
                | none => cases h
                | some r =>
                  rw [Option.toList_some, List.mem_singleton] at h
                  subst h
                  have := hd r' rfl
                  omega
              · have := h9 r' h
                omega
        | err x => exact hbase (.err x) (fun _ h => by cases h)
        | panic x => exact hbase (.panic x) (fun _ h => by cases h)
        | diverge => exact hbase .diverge (fun _ h => by cases h)
      | err x => exact stop (.err x) (fun _ h => by cases h)
      | panic x => exact stop (.panic x) (fun _ h => by cases h)
      | diverge => exact stop .diverge (fun _ h => by cases h)
    · rw [if_neg ht]
      have h := ih (q ++ [t])
      generalize append (q ++ [t]) ts = y at h
      obtain ⟨⟨z, toks⟩, e⟩ := y
      obtain ⟨h1, h2, h3, h4⟩ := h
      simp only [hlen] at h1 h2 h3 h4 ⊢
      refine ⟨?_, ?_, ?_, ?_⟩
      · simp only [Effort.add]; omega
      · simp only [Effort.add, List.length_cons]; omega
      · rw [hsum]; simp only [Effort.add, List.length_cons]; omega
      · intro rules' q' h
        cases h
        obtain ⟨h5, h6, h7, h8, h9⟩ := h4 rules' toks rfl
        refine ⟨by simp only [List.length_cons]; omega, by simp only [List.length_cons]; omega, ?_, ?_, ?_⟩
        · simp only [Effort.add, List.length_cons]; omega
        · rw [hsum]; simp only [Effort.add, List.length_cons]; omega
        · intro r hr
          have := h9 r hr
          simp only [Effort.add]; omega

/-! ## One call -/

/-- What holds of a call that adds `n` characters to a lexer, and may give `extra` tokens more than that. -/
structure Fed {α : Type} (l : Lexer) (n extra : Nat) (x : (Res α × Lexer) × Effort) (y : Res α × Lexer) : Prop where
  same : x.1 = y
  chars : x.2.chars ≤ 4 * l.tokenizer.buffer.length + 6 * n + 1
  moves : 2 * x.2.moves ≤ (l.tokenizer.buffer.length + n + extra) * (l.tokenizer.buffer.length + n + extra)
  tokens : x.2.tokens ≤ rent (l.tokens.length + (l.tokenizer.buffer.length + n + extra)) + (l.tokenizer.buffer.length + n + extra)
  ok : ∀ a l', y = (.ok a, l') → x.2.chars + 2 * l'.tokenizer.buffer.length ≤ 4 * l.tokenizer.buffer.length + 6 * n + 1 ∧
    ∃ new, new + l'.tokenizer.buffer.length ≤ l.tokenizer.buffer.length + n + extra ∧ l'.tokens.length ≤ l.tokens.length + new ∧
      2 * x.2.moves + new = new * new ∧ x.2.tokens + rent l'.tokens.length ≤ rent (l.tokens.length + new) + new

theorem feed_fed {m : Tokenizer → (Res (List Token) × Tokenizer) × Nat} {m' : RM Tokenizer (List Token)} {n extra : Nat} {l : Lexer}
    (h : Fair l.tokenizer n extra (m l.tokenizer) (m' l.tokenizer)) :
    Fed l n extra (feed m l) (Lexer.feed m' l) ∧ ∀ rules l', Lexer.feed m' l = (.ok rules, l') →
      ∃ new, rules.length ≤ new ∧ 2 * (feed m l).2.moves + new = new * new ∧
      ∀ r ∈ rules, depthOf r.definitionList * depthOf r.definitionList ≤ (feed m l).2.tokens := by
  obtain ⟨h1, h2, h3⟩ := h
  unfold feed Lexer.feed
  rw [← h1] at h3 ⊢
  generalize m l.tokenizer = x at h2 h3
  obtain ⟨⟨r, tz⟩, k⟩ := x
  simp only at h2 h3
  cases r with
  | ok tks =>
    dsimp only
    obtain ⟨h4, h5⟩ := h3 tks tz rfl
    have h := append_work tks l.tokens
    rw [← append_eq]
    generalize append l.tokens tks = y at h
    obtain ⟨⟨z, toks⟩, e⟩ := y
    obtain ⟨h6, h7, h8, h9⟩ := h
    simp only at h6 h7 h8 h9 ⊢
    have hle : tks.length ≤ l.tokenizer.buffer.length + n + extra := by omega
    have hsq := Nat.mul_le_mul hle hle
    have hr := rent_mono (show l.tokens.length + tks.length ≤ l.tokens.length + (l.tokenizer.buffer.length + n + extra) by omega)
    refine ⟨⟨rfl, ?_, ?_, ?_, ?_⟩, ?_⟩
    · simp only [Effort.add]; omega
    · simp only [Effort.add]; omega
    · simp only [Effort.add]; omega
    · intro a l' h
      cases h
      obtain ⟨h10, h11, h12, h13, _⟩ := h9 a toks rfl
      refine ⟨by simp only [Effort.add]; omega, tks.length, h4, h10, ?_, ?_⟩
      · simp only [Effort.add]; omega
      · simp only [Effort.add]; omega
    · intro rules l' h
      cases h
      obtain ⟨h10, h11, h12, h13, h14⟩ := h9 rules toks rfl
      refine ⟨tks.length, h11, by simp only [Effort.add]; omega, ?_⟩
      intro r hr
      have := h14 r hr
      simp only [Effort.add]; omega
  | err e => exact ⟨⟨rfl, h2, Nat.zero_le _, Nat.zero_le _, fun a l' h => by cases h⟩, fun a l' h => by cases h⟩
  | panic e => exact ⟨⟨rfl, h2, Nat.zero_le _, Nat.zero_le _, fun a l' h => by cases h⟩, fun a l' h => by cases h⟩
  | diverge => exact ⟨⟨rfl, h2, Nat.zero_le _, Nat.zero_le _, fun a l' h => by cases h⟩, fun a l' h => by cases h⟩

theorem first_fed {l : Lexer} {n extra : Nat} {x : (Res (List SyntaxRule) × Lexer) × Effort} {y : RM Lexer (List SyntaxRule)}
    (h : Fed l n extra x (y l)) : Fed l n extra (first x) (Lexer.first y l) := by
  have e : Lexer.first y l = match y l with
      | (.ok r, l) => (.ok r.head?, l)
      | (.err e, l) => (.err e, l)
      | (.panic p, l) => (.panic p, l)
      | (.diverge, l) => (.diverge, l) := by
    show RM.bind y _ l = _
    unfold RM.bind
    generalize y l = z
    obtain ⟨r, l1⟩ := z
    cases r <;> rfl
  rw [e]
  obtain ⟨h1, h2, h3, h4, h5⟩ := h
  obtain ⟨⟨r, l1⟩, e⟩ := x
  have h1 : (r, l1) = y l := h1
  rw [← h1] at h5 ⊢
  cases r with
  | ok rules => exact ⟨rfl, h2, h3, h4, fun a l' h => by cases h; exact h5 rules l1 rfl⟩
  | err x => exact ⟨rfl, h2, h3, h4, fun a l' h => by cases h⟩
  | panic x => exact ⟨rfl, h2, h3, h4, fun a l' h => by cases h⟩
  | diverge => exact ⟨rfl, h2, h3, h4, fun a l' h => by cases h⟩

theorem push_fed (c : Char) (l : Lexer) : Fed l 1 0 (push c l) (Lexer.push c l) := first_fed (feed_fed (tokenizerPush_fair c l.tokenizer)).1

theorem pushStr_fed (s : Str) (l : Lexer) : Fed l s.length 0 (pushStr s l) (Lexer.pushStr s l) := (feed_fed (tokenizerPushStr_fair s l.tokenizer)).1

theorem flush_fed (l : Lexer) : Fed l 0 1 (flush l) (Lexer.flush l) := first_fed (feed_fed (tokenizerFlush_fair l.tokenizer)).1

/-! ## Many calls -/

theorem op_step (op : Op) (l : Lexer) : (op.effort l).chars ≤ 4 * l.tokenizer.buffer.length + 6 * op.chars + 1 ∧
    ∀ f, f = flushesOf [op] →
    2 * (op.effort l).moves ≤ (l.tokenizer.buffer.length + op.chars + f) * (l.tokenizer.buffer.length + op.chars + f) ∧
    (op.effort l).tokens ≤ rent (l.tokens.length + (l.tokenizer.buffer.length + op.chars + f)) + (l.tokenizer.buffer.length + op.chars + f) ∧
    ((op.answer l).fine = true → ∃ new, new + (op.next l).tokenizer.buffer.length ≤ l.tokenizer.buffer.length + op.chars + f ∧
      (op.next l).tokens.length ≤ l.tokens.length + new ∧ 2 * (op.effort l).moves ≤ new * new ∧
      (op.effort l).tokens + rent (op.next l).tokens.length ≤ rent (l.tokens.length + new) + new) := by
  cases op with
  | push c =>
    obtain ⟨h1, h2, h3, h4, h5⟩ := push_fed c l
    refine ⟨h2, fun f hf => ?_⟩
    subst hf
    refine ⟨h3, h4, fun h => ?_⟩
    have h : (Answer.rule (Lexer.push c l).1).fine = true := h
    cases hr : (Lexer.push c l).1 with
    | ok r =>
      obtain ⟨_, new, h6, h7, h8, h9⟩ := h5 r (Lexer.push c l).2 (by rw [← hr])
      exact ⟨new, h6, h7, by show 2 * (push c l).2.moves ≤ _; omega, h9⟩
    | err e => rw [hr] at h; cases h
    | panic e => rw [hr] at h; cases h
    | diverge => rw [hr] at h; cases h
  | pushStr s =>
    obtain ⟨h1, h2, h3, h4, h5⟩ := pushStr_fed s l
    refine ⟨h2, fun f hf => ?_⟩
    subst hf
    refine ⟨h3, h4, fun h => ?_⟩
    have h : (Answer.rules (Lexer.pushStr s l).1).fine = true := h
    cases hr : (Lexer.pushStr s l).1 with
    | ok r =>
      obtain ⟨_, new, h6, h7, h8, h9⟩ := h5 r (Lexer.pushStr s l).2 (by rw [← hr])
      exact ⟨new, h6, h7, by show 2 * (pushStr s l).2.moves ≤ _; omega, h9⟩
    | err e => rw [hr] at h; cases h
    | panic e => rw [hr] at h; cases h
    | diverge => rw [hr] at h; cases h
  | flush =>
    obtain ⟨h1, h2, h3, h4, h5⟩ := flush_fed l
    refine ⟨h2, fun f hf => ?_⟩
    subst hf
    refine ⟨h3, h4, fun h => ?_⟩
    have h : (Answer.rule (Lexer.flush l).1).fine = true := h
    cases hr : (Lexer.flush l).1 with
    | ok r =>
      obtain ⟨_, new, h6, h7, h8, h9⟩ := h5 r (Lexer.flush l).2 (by rw [← hr])
      exact ⟨new, h6, h7, by show 2 * (flush l).2.moves ≤ _; omega, h9⟩
    | err e => rw [hr] at h; cases h
    | panic e => rw [hr] at h; cases h
    | diverge => rw [hr] at h; cases h
  | reset =>
    refine ⟨Nat.zero_le _, fun f hf => ?_⟩
    subst hf
    exact ⟨Nat.zero_le _, Nat.zero_le _, fun _ => ⟨0, Nat.zero_le _, Nat.zero_le _, Nat.le_refl _, by show 0 + rent 0 ≤ _; rw [show rent 0 = 0 from rfl]; omega⟩⟩

theorem flushes_cons (op : Op) (ops : List Op) : flushesOf (op :: ops) = flushesOf [op] + flushesOf ops := by
  cases op <;> simp [flushesOf] <;> omega

theorem square_add (a b : Nat) : a * a + b * b ≤ (a + b) * (a + b) := by
  rw [Nat.add_mul, Nat.mul_add, Nat.mul_add]; omega

theorem effort_bound (ops : List Op) : ∀ (l : Lexer) (all : Nat), all = l.tokenizer.buffer.length + charsOf ops + flushesOf ops →
    (effort ops l).chars ≤ ops.length * (4 * (l.tokenizer.buffer.length + charsOf ops + flushesOf ops) + 1) + 6 * charsOf ops ∧
    2 * (effort ops l).moves ≤ all * all ∧ (effort ops l).tokens ≤ rent (l.tokens.length + all) + all := by
  induction ops with
  | nil => intro l all h; exact ⟨Nat.zero_le _, Nat.zero_le _, Nat.zero_le _⟩
  | cons op ops ih =>
    intro l all hall
    obtain ⟨h1, h2⟩ := op_step op l
    obtain ⟨h3, h4, h5⟩ := h2 _ rfl
    rw [flushes_cons] at hall ⊢
    generalize flushesOf [op] = f at h3 h4 h5 hall
    have hc : charsOf (op :: ops) = op.chars + charsOf ops := rfl
    rw [hc] at hall ⊢
    rw [effort]
    have hone : (op.effort l).chars ≤ 1 * (4 * (l.tokenizer.buffer.length + (op.chars + charsOf ops) + (f + flushesOf ops)) + 1) + 6 * op.chars := by omega
    by_cases hf : (op.answer l).fine = true
    · rw [if_pos hf]
      obtain ⟨new, h6, h7, h8, h9⟩ := h5 hf
      obtain ⟨h10, h11, h12⟩ := ih (op.next l) _ rfl
      simp only [Effort.add, List.length_cons]
      refine ⟨?_, ?_, ?_⟩
      · have hm : ops.length * (4 * ((op.next l).tokenizer.buffer.length + charsOf ops + flushesOf ops) + 1) ≤
            ops.length * (4 * (l.tokenizer.buffer.length + (op.chars + charsOf ops) + (f + flushesOf ops)) + 1) :=
          Nat.mul_le_mul_left _ (by omega)
        rw [Nat.add_mul]
        omega
      · have hsq := square_add new ((op.next l).tokenizer.buffer.length + charsOf ops + flushesOf ops)
        have hle : new + ((op.next l).tokenizer.buffer.length + charsOf ops + flushesOf ops) ≤ all := by omega
        have := Nat.mul_le_mul hle hle
        omega
      · generalize hM : (op.next l).tokenizer.buffer.length + charsOf ops + flushesOf ops = M at h11 h12
        have hcv := rent_convex (m := M) h7
        have hmono := rent_mono (show l.tokens.length + new + M ≤ l.tokens.length + all by omega)
        omega
    · rw [if_neg hf]
      simp only [Effort.add, List.length_cons, Nat.add_zero]
      have hle : l.tokenizer.buffer.length + op.chars + f ≤ all := by omega
      refine ⟨?_, ?_, ?_⟩
      · rw [Nat.add_mul]; omega
      · have := Nat.mul_le_mul hle hle; omega
      · have := rent_mono (show l.tokens.length + (l.tokenizer.buffer.length + op.chars + f) ≤ l.tokens.length + all by omega)
        omega

/-! ## `parse_str` -/

theorem parse_eq (name s : Str) : Ebnf.parseStr name s =
    match Lexer.pushStr s (Lexer.new name) with
    | (.ok rules, l) =>
      (match (Lexer.flush l).1 with
      | .ok rule => .ok (rules ++ rule.toList)
      | .err x => .err x
      | .panic p => .panic p
      | .diverge => .diverge)
    | (.err x, _) => .err x
    | (.panic p, _) => .panic p
    | (.diverge, _) => .diverge := by
  show (RM.bind (Lexer.pushStr s) _ (Lexer.new name)).1 = _
  unfold RM.bind
  generalize Lexer.pushStr s (Lexer.new name) = x
  obtain ⟨r, l⟩ := x
  cases r with
  | ok rules =>
    show (RM.bind Lexer.flush _ l).1 = _
    unfold RM.bind
    dsimp only
    generalize Lexer.flush l = y
    obtain ⟨r, l'⟩ := y
    cases r <;> rfl
  | err e => rfl
  | panic e => rfl
  | diverge => rfl

theorem parseStr_same (name s : Str) : (parseStr name s).1 = Ebnf.parseStr name s := by
  rw [parse_eq, ← (pushStr_fed s (Lexer.new name)).same]
  unfold parseStr
  generalize pushStr s (Lexer.new name) = x
  obtain ⟨⟨r, l⟩, e⟩ := x
  cases r with
  | ok rules =>
    dsimp only
    rw [← (flush_fed l).same]
    generalize flush l = y
    obtain ⟨⟨r, l'⟩, e'⟩ := y
    cases r <;> rfl
  | err e => rfl
  | panic e => rfl
  | diverge => rfl

theorem parseStr_work (name s : Str) : (parseStr name s).2.chars ≤ 8 * s.length + 2 ∧
    2 * (parseStr name s).2.moves ≤ (s.length + 1) * (s.length + 1) ∧
    (parseStr name s).2.tokens ≤ rent (s.length + 1) + (s.length + 1) := by
  obtain ⟨h1, h2, h3, h4, h5⟩ := pushStr_fed s (Lexer.new name)
  have hb : (Lexer.new name).tokenizer.buffer.length = 0 := rfl
  have ht : (Lexer.new name).tokens.length = 0 := rfl
  rw [hb] at h2 h3 h4 h5
  rw [ht] at h4 h5
  simp only [Nat.zero_add, Nat.add_zero, Nat.mul_zero] at h2 h3 h4 h5
  rw [← h1] at h5
  unfold parseStr
  generalize pushStr s (Lexer.new name) = x at h2 h3 h4 h5
  obtain ⟨⟨r, l⟩, e⟩ := x
  simp only at h2 h3 h4 h5
  have hsq := square_succ s.length
  have hm := rent_mono (show s.length ≤ s.length + 1 by omega)
  cases r with
  | ok rules =>
    dsimp only
    obtain ⟨h6, new, h7, h8, h9, h10⟩ := h5 rules l rfl
    obtain ⟨g1, g2, g3, g4, g5⟩ := flush_fed l
    simp only [Nat.add_zero, Nat.mul_zero] at g2 g3 g4 g5
    generalize flush l = y at g2 g3 g4
    obtain ⟨⟨r, l'⟩, e'⟩ := y
    have key : (e.add e').chars ≤ 8 * s.length + 2 ∧ 2 * (e.add e').moves ≤ (s.length + 1) * (s.length + 1) ∧
        (e.add e').tokens ≤ rent (s.length + 1) + (s.length + 1) := by
      simp only at g2 g3 g4
      simp only [Effort.add]
      refine ⟨by omega, ?_, ?_⟩
      · have := square_add new (l.tokenizer.buffer.length + 1)
        have hle : new + (l.tokenizer.buffer.length + 1) ≤ s.length + 1 := by omega
        have := Nat.mul_le_mul hle hle
        omega
      · have hcv := rent_convex (m := l.tokenizer.buffer.length + 1) h8
        have := rent_mono (show new + (l.tokenizer.buffer.length + 1) ≤ s.length + 1 by omega)
        omega
    cases r <;> exact key
  | err e => exact ⟨by simp only; omega, by simp only; omega, by simp only; omega⟩
  | panic e => exact ⟨by simp only; omega, by simp only; omega, by simp only; omega⟩
  | diverge => exact ⟨by simp only; omega, by simp only; omega, by simp only; omega⟩

/-! ## Where the steps are needed -/

theorem depth_all {rules : List SyntaxRule} {n : Nat} (h : ∀ r ∈ rules, depthOf r.definitionList * depthOf r.definitionList ≤ n) :
    depthOfRules rules * depthOfRules rules ≤ n := by
  induction rules with
  | nil => exact Nat.zero_le _
  | cons r rules ih =>
    rw [depthOfRules]
    have h1 := h r (by simp)
    have h2 := ih fun r hr => h r (by simp [hr])
    by_cases hle : depthOf r.definitionList ≤ depthOfRules rules
    · rw [Nat.max_eq_right hle]; exact h2
    · rw [Nat.max_eq_left (by omega)]; exact h1

theorem parseStr_needs (name s : Str) (rules : List SyntaxRule) (h : Ebnf.parseStr name s = .ok rules) :
    (rules.length - 1) * (rules.length - 2) ≤ 2 * (parseStr name s).2.moves ∧
    depthOfRules rules * depthOfRules rules ≤ (parseStr name s).2.tokens := by
  rw [parse_eq] at h
  unfold parseStr
  obtain ⟨h1, h2⟩ := feed_fed (tokenizerPushStr_fair s (Lexer.new name).tokenizer)
  have h1 : (pushStr s (Lexer.new name)).1 = Lexer.pushStr s (Lexer.new name) := h1.same
  have h2 : ∀ rules l', Lexer.pushStr s (Lexer.new name) = (.ok rules, l') →
      ∃ new, rules.length ≤ new ∧ 2 * (pushStr s (Lexer.new name)).2.moves + new = new * new ∧
      ∀ r ∈ rules, depthOf r.definitionList * depthOf r.definitionList ≤ (pushStr s (Lexer.new name)).2.tokens := h2
  rw [← h1] at h h2
  generalize pushStr s (Lexer.new name) = x at h h2
  obtain ⟨⟨r, l⟩, e⟩ := x
  cases r with
  | ok some1 =>
    obtain ⟨new, h3, h4, h5⟩ := h2 some1 l rfl
    dsimp only at h h4 h5 ⊢
    obtain ⟨g1, g2⟩ := feed_fed (tokenizerFlush_fair l.tokenizer)
    have g3 := (flush_fed l).same
    have g4 : (flush l).2 = (feed tokenizerFlush l).2 := by
      show (first (feed tokenizerFlush l)).2 = _
      generalize feed tokenizerFlush l = y
      obtain ⟨⟨r, l'⟩, e'⟩ := y
      cases r <;> rfl
    have g5 : ∀ rule l', flush l = ((.ok rule, l'), (flush l).2) → ∀ r ∈ rule.toList,
        depthOf r.definitionList * depthOf r.definitionList ≤ (flush l).2.tokens := by
      intro rule l' hf r hr
      rw [g4]
      have g6 : first (feed tokenizerFlush l) = ((.ok rule, l'), (flush l).2) := hf
      have g7 := g1.same
      have g8 : ∃ rs l1, (feed tokenizerFlush l).1 = (.ok rs, l1) ∧ rule = rs.head? := by
        generalize feed tokenizerFlush l = y at g6
        obtain ⟨⟨r, l1⟩, e'⟩ := y
        cases r with
        | ok rs => cases g6; exact ⟨rs, _, rfl, rfl⟩
        | err x => cases g6
        | panic x => cases g6
        | diverge => cases g6
      obtain ⟨rs, l1, g9, g10⟩ := g8
      obtain ⟨_, _, _, g11⟩ := g2 rs l1 (by rw [← g7, g9])
      refine g11 r ?_
      subst g10
      cases rs with
      | nil => cases hr
      | cons r0 rs => rw [List.head?_cons, Option.toList_some, List.mem_singleton] at hr; subst hr; simp
    rw [← g3] at h
    generalize flush l = y at h g5
    obtain ⟨⟨r, l'⟩, e'⟩ := y
    cases r with
    | ok rule =>
      cases h
      have h6 := g5 rule l' rfl
      simp only at h6
      simp only [Effort.add]
      refine ⟨?_, depth_all fun r hr => ?_⟩
      · have hlen : (some1 ++ rule.toList).length ≤ some1.length + 1 := by cases rule <;> simp
        generalize (some1 ++ rule.toList).length = m at hlen
        obtain ⟨d, hd⟩ := Nat.exists_eq_add_of_le (show m - 1 ≤ new by omega)
        by_cases hm : m ≤ 2
        · rw [show m - 2 = 0 by omega, Nat.mul_zero]; exact Nat.zero_le _
        · have h7 : (m - 1) * (m - 2) + (m - 1) = (m - 1) * (m - 1) := by
            rw [← Nat.mul_succ]; congr 1; omega
          have h8 : new * new = (m - 1) * (m - 1) + (m - 1) * d + d * (m - 1) + d * d := by
            rw [hd, Nat.add_mul, Nat.mul_add, Nat.mul_add]; omega
          have h9 : d ≤ (m - 1) * d := Nat.le_mul_of_pos_left _ (by omega)
          omega
      · rcases List.mem_append.mp hr with h | h
        · have := h5 r h; omega
        · have := h6 r h; omega
    | err x => cases h
    | panic x => cases h
    | diverge => cases h
  | err x => cases h
  | panic x => cases h
  | diverge => cases h

/-- The state of a lexer that has received `q` and some characters of a terminal string. -/
def Waiting (l : Lexer) (q : Char) (s : Str) : Prop :=
  l.tokenizer.buffer = q :: s ∧ l.tokenizer.maxBufferSize = 0 ∧ l.tokens = []

theorem scan_all {q : Char} {s : Str} (h : ∀ c ∈ s, c ≠ q ∧ isTerminalChar c = true) : scanQuoted q isTerminalChar s = (.ok s.length, s.length) := by
  induction s with
  | nil => rfl
  | cons c s ih =>
    obtain ⟨h1, h2⟩ := h c (by simp)
    rw [scanQuoted, if_neg h1, h2, ih fun c hc => h c (by simp [hc])]
    rfl

theorem next_waits {q : Char} (hq : q = '\'' ∨ q = '"') {s : Str} (h : ∀ c ∈ s, c ≠ q ∧ isTerminalChar c = true) (loc : Location) :
    readNext loc (q :: s) false = (.ok none, s.length + 1) := by
  cases s with
  | nil => rcases hq with rfl | rfl <;> rfl
  | cons c s =>
    have ht : terminalString loc q (c :: s) false = (.ok none, (c :: s).length) := by
      unfold terminalString
      rw [scan_all h]
      simp
    rcases hq with rfl | rfl <;>
    · unfold readNext
      simp [ht]

theorem push_waits {q c : Char} (hq : q = '\'' ∨ q = '"') {s : Str} (h : ∀ d ∈ s ++ [c], d ≠ q ∧ isTerminalChar d = true) {l : Lexer}
    (hl : Waiting l q s) : (push c l).2.chars = s.length + 3 ∧ ∃ l', (push c l).1 = (.ok none, l') ∧ Waiting l' q (s ++ [c]) := by
  obtain ⟨⟨max, buf, loc⟩, toks⟩ := l
  obtain ⟨h1, h2, h3⟩ := hl
  simp only at h1 h2 h3
  subst h1 h2 h3
  have hn := next_waits hq h loc
  unfold push feed tokenizerPush tokenize
  simp only [Tokenizer.ensureCapacity, List.cons_append, List.length_cons]
  rw [tokenizeLoop, hn]
  simp [first, append, Effort.add, Waiting]
  omega

theorem pieces_wait {q : Char} (hq : q = '\'' ∨ q = '"') (s : Str) : ∀ (done : Str) (l : Lexer), Waiting l q done →
    (∀ d ∈ done ++ s, d ≠ q ∧ isTerminalChar d = true) →
    (done.length + s.length) * (done.length + s.length) ≤ done.length * done.length + 2 * (effort (s.map .push) l).chars := by
  induction s with
  | nil => intro done l _ _; simp
  | cons c s ih =>
    intro done l hl h
    obtain ⟨h1, l', h2, h3⟩ := push_waits hq (c := c) (fun d hd => h d (by simp at hd ⊢; rcases hd with h | h <;> simp [h])) hl
    have hs := (push_fed c l).same
    have ha : (Op.push c).answer l = .rule (.ok none) := by show Answer.rule (Lexer.push c l).1 = _; rw [← hs, h2]
    have hn : (Op.push c).next l = l' := by show (Lexer.push c l).2 = _; rw [← hs, h2]
    rw [List.map_cons, effort, ha, if_pos (show (Answer.rule (.ok none)).fine = true from rfl), hn]
    have h4 := ih (done ++ [c]) l' h3 (by intro d hd; exact h d (by simp at hd ⊢; exact hd))
    simp only [List.length_append, List.length_cons, List.length_nil, Nat.zero_add] at h4 ⊢
    have e1 : done.length + (s.length + 1) = done.length + 1 + s.length := by omega
    rw [e1]
    have e2 := square_succ done.length
    have e3 : ((Op.push c).effort l).chars = done.length + 3 := h1
    simp only [Effort.add]
    omega

theorem pieces_slow (name : Str) {q : Char} (hq : q = '\'' ∨ q = '"') (s : Str) (h : ∀ d ∈ s, d ≠ q ∧ isTerminalChar d = true) :
    s.length * s.length ≤ 2 * (effort ((q :: s).map .push) (Lexer.new name)).chars := by
  have hp : ∃ l', (push q (Lexer.new name)).1 = (.ok none, l') ∧ Waiting l' q [] := by
    rcases hq with rfl | rfl
    · exact ⟨_, rfl, rfl, rfl, rfl⟩
    · exact ⟨_, rfl, rfl, rfl, rfl⟩
  obtain ⟨l', h2, h3⟩ := hp
  have hs := (push_fed q (Lexer.new name)).same
  have ha : (Op.push q).answer (Lexer.new name) = .rule (.ok none) := by show Answer.rule (Lexer.push q _).1 = _; rw [← hs, h2]
  have hn : (Op.push q).next (Lexer.new name) = l' := by show (Lexer.push q _).2 = _; rw [← hs, h2]
  rw [List.map_cons, effort, ha, if_pos (show (Answer.rule (.ok none)).fine = true from rfl), hn]
  have := pieces_wait hq s [] l' h3 (by simpa using h)
  simp only [List.length_nil, Nat.zero_add, Nat.zero_mul] at this
  simp only [Effort.add]
  omega

end Ebnf.Effort
