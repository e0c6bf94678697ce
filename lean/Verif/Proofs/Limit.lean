import Verif.Proofs.History
import Verif.Proofs.Decoder

set_option autoImplicit false

/-! # Lemmas: a limit changes nothing but rejections -/

namespace Ebnf

open Spec

/-- The same lexer without a limit. -/
def unlimit (l : Lexer) : Lexer := ⟨{ l.tokenizer with maxBufferSize := 0 }, l.tokens⟩

theorem unlimit_new (name : Str) (limit : Nat) : unlimit (Lexer.withCapacity name limit) = Lexer.withCapacity name 0 := rfl

theorem isTooLong_iff {e : Error} : Error.isTooLong e = true ↔ ∃ b a m, e.msg = .tooLong b a m := by
  unfold Error.isTooLong
  split
  · rename_i h
    exact ⟨fun _ => ⟨_, _, _, h⟩, fun _ => rfl⟩
  · rename_i h
    refine ⟨fun h' => (by cases h'), fun ⟨b, a, m, h'⟩ => absurd h' (h b a m)⟩

theorem pushStr_limit (s : Str) (l : Lexer) :
    (∃ e, Lexer.pushStr s l = (.err e, l) ∧ Error.isTooLong e = true) ∨
    (Lexer.pushStr s (unlimit l) = ((Lexer.pushStr s l).1, unlimit (Lexer.pushStr s l).2) ∧
      ∀ e, (Lexer.pushStr s l).1 = .err e → Error.isTooLong e = false) := by
  by_cases hc : l.tokenizer.maxBufferSize > 0 ∧ l.tokenizer.buffer.length + s.length > l.tokenizer.maxBufferSize
  · left
    exact ⟨_, by simp [Lexer.pushStr, Lexer.feed, Tokenizer.pushStr, Tokenizer.ensureCapacity, hc, Res.fail]; rfl, rfl⟩
  · right
    constructor
    · rw [lexer_pushStr_eq _ _ hc, lexer_pushStr_eq (unlimit l) s (by simp [unlimit])]
      simp only [unlimit]
      generalize tokLoop l.tokenizer.location (l.tokenizer.buffer ++ s) = x
      obtain ⟨r, loc, rest⟩ := x
      cases r <;> rfl
    · intro e he
      cases ht : Error.isTooLong e with
      | false => rfl
      | true =>
        obtain ⟨b, a, m, h⟩ := isTooLong_iff.mp ht
        exact absurd ((pushStr_tooLong_iff l s).mp ⟨e, b, a, m, he, h⟩) hc

theorem push_limit (ch : Char) (l : Lexer) :
    (∃ e, Lexer.push ch l = (.err e, l) ∧ Error.isTooLong e = true) ∨
    (Lexer.push ch (unlimit l) = ((Lexer.push ch l).1, unlimit (Lexer.push ch l).2) ∧
      ∀ e, (Lexer.push ch l).1 = .err e → Error.isTooLong e = false) := by
  simp only [lexer_push_eq, first_run]
  rcases pushStr_limit [ch] l with ⟨e, h, he⟩ | ⟨h, he⟩
  · exact .inl ⟨e, by rw [h]; rfl, he⟩
  · right
    rw [h]
    refine ⟨rfl, fun e h' => he e ?_⟩
    revert h'
    cases (Lexer.pushStr [ch] l).1 <;> simp [headRes]

theorem flush_limit (l : Lexer) :
    Lexer.flush (unlimit l) = ((Lexer.flush l).1, unlimit (Lexer.flush l).2) ∧
      ∀ e, (Lexer.flush l).1 = .err e → Error.isTooLong e = false := by
  have hr := readNext_lexSat l.tokenizer.location l.tokenizer.buffer true
  have h1 : Tokenizer.flush (unlimit l).tokenizer =
      ((Tokenizer.flush l.tokenizer).1, { (Tokenizer.flush l.tokenizer).2 with maxBufferSize := 0 }) := by
    simp only [Tokenizer.flush, unlimit]
    cases readNext l.tokenizer.location l.tokenizer.buffer true with
    | ok o =>
      cases o with
      | none => by_cases h : List.isEmpty l.tokenizer.buffer = true <;> simp [h]
      | some x => by_cases h : (List.drop x.2 l.tokenizer.buffer).isEmpty = true <;> simp only [h] <;> rfl
    | err e => rfl
    | panic p => rfl
    | diverge => rfl
  have h2 : ∀ e, (Tokenizer.flush l.tokenizer).1 = .err e → e.msg.ofTokenizer = true := by
    intro e he
    simp only [Tokenizer.flush] at he
    cases hx : readNext l.tokenizer.location l.tokenizer.buffer true with
    | ok o =>
      rw [hx] at he
      cases o with
      | none => simp only at he; split at he <;> cases he
      | some x => simp only at he; split at he <;> cases he
    | err e' =>
      rw [hx] at he hr
      simp only [Res.err.injEq] at he
      subst he
      exact hr.2
    | panic p => rw [hx] at he; cases he
    | diverge => rw [hx] at he; cases he
  simp only [Lexer.flush, first_run, Lexer.feed, h1]
  revert h2
  obtain ⟨r, t⟩ := Tokenizer.flush l.tokenizer
  intro h2
  cases r with
  | ok tks =>
    refine ⟨rfl, fun e he => ?_⟩
    have := append_sat l.tokens tks
    simp only at he
    cases hx : (Lexer.append l.tokens tks).1 with
    | err e' =>
      rw [hx] at he this
      simp only [headRes, Res.err.injEq] at he
      subst he
      cases ht : Error.isTooLong e' with
      | false => rfl
      | true =>
        obtain ⟨b, a, m, h⟩ := isTooLong_iff.mp ht
        have := this.2
        rw [h] at this
        cases this
    | ok x => rw [hx] at he; cases he
    | panic x => rw [hx] at he; cases he
    | diverge => rw [hx] at he; cases he
  | err e' =>
    refine ⟨rfl, fun e he => ?_⟩
    simp only [headRes, Res.err.injEq] at he
    subst he
    cases ht : Error.isTooLong e' with
    | false => rfl
    | true =>
      obtain ⟨b, a, m, h⟩ := isTooLong_iff.mp ht
      have := h2 e' rfl
      rw [h] at this
      cases this
  | panic p => exact ⟨rfl, fun e he => (by cases he)⟩
  | diverge => exact ⟨rfl, fun e he => (by cases he)⟩

theorem op_limit (op : Op) (l : Lexer) :
    ((op.answer l).isTooLong = true ∧ op.next l = l) ∨
    ((op.answer l).isTooLong = false ∧ op.answer (unlimit l) = op.answer l ∧ op.next (unlimit l) = unlimit (op.next l)) := by
  cases op with
  | push ch =>
    rcases push_limit ch l with ⟨e, h, he⟩ | ⟨h, he⟩
    · exact .inl ⟨by simp only [Op.answer, h]; exact he, by simp only [Op.next, h]⟩
    · refine .inr ⟨?_, by simp only [Op.answer, h], by simp only [Op.next, h]⟩
      simp only [Op.answer]
      cases hx : (Lexer.push ch l).1 with
      | err e => exact he e hx
      | _ => rfl
  | pushStr s =>
    rcases pushStr_limit s l with ⟨e, h, he⟩ | ⟨h, he⟩
    · exact .inl ⟨by simp only [Op.answer, h]; exact he, by simp only [Op.next, h]⟩
    · refine .inr ⟨?_, by simp only [Op.answer, h], by simp only [Op.next, h]⟩
      simp only [Op.answer]
      cases hx : (Lexer.pushStr s l).1 with
      | err e => exact he e hx
      | _ => rfl
  | flush =>
    obtain ⟨h, he⟩ := flush_limit l
    refine .inr ⟨?_, by simp only [Op.answer, h], by simp only [Op.next, h]⟩
    simp only [Op.answer]
    cases hx : (Lexer.flush l).1 with
    | err e => exact he e hx
    | _ => rfl
  | reset => exact .inr ⟨rfl, rfl, rfl⟩

theorem answers_limit (ops : List Op) (l : Lexer) :
    answers (unrejected ops l) (unlimit l) = (answers ops l).filter (fun a => !a.isTooLong) := by
  induction ops generalizing l with
  | nil => rfl
  | cons op ops ih =>
    simp only [unrejected, answers]
    rcases op_limit op l with ⟨h1, h2⟩ | ⟨h1, h2, h3⟩
    · rw [if_pos h1, List.filter_cons_of_neg (by simp [h1]), ← ih, h2]
    · rw [if_neg (by simp [h1]), List.filter_cons_of_pos (by simp [h1]), ← ih, answers, h2, h3]

theorem pushAll_limit (ps : List Str) (l : Lexer) :
    (∃ e, (pushAll ps l).1 = .err e ∧ Error.isTooLong e = true) ∨
    pushAll ps (unlimit l) = ((pushAll ps l).1, unlimit (pushAll ps l).2) := by
  induction ps generalizing l with
  | nil => exact .inr rfl
  | cons p ps ih =>
    simp only [pushAll, RM.bind_run]
    rcases pushStr_limit p l with ⟨e, h, he⟩ | ⟨h, -⟩
    · exact .inl ⟨e, by rw [h], he⟩
    · rw [h]
      obtain ⟨r, l1⟩ := Lexer.pushStr p l
      cases r with
      | ok rules =>
        simp only
        rcases ih l1 with ⟨e, h1, he⟩ | h1
        · left
          refine ⟨e, ?_, he⟩
          rw [show pushAll ps l1 = (.err e, (pushAll ps l1).2) from Prod.ext h1 rfl]
        · right
          rw [h1]
          obtain ⟨r2, l2⟩ := pushAll ps l1
          cases r2 <;> rfl
      | err e => exact .inr rfl
      | panic p => exact .inr rfl
      | diverge => exact .inr rfl

theorem feedAll_limit (ps : List Str) (l : Lexer) :
    (∃ e, (feedAll ps l).1 = .err e ∧ Error.isTooLong e = true) ∨ (feedAll ps (unlimit l)).1 = (feedAll ps l).1 := by
  simp only [feedAll, RM.bind_run]
  rcases pushAll_limit ps l with ⟨e, h, he⟩ | h
  · left
    refine ⟨e, ?_, he⟩
    rw [show pushAll ps l = (.err e, (pushAll ps l).2) from Prod.ext h rfl]
  · right
    rw [h]
    obtain ⟨r, l1⟩ := pushAll ps l
    cases r with
    | ok rules =>
      simp only
      rw [(flush_limit l1).1]
      obtain ⟨r2, l2⟩ := Lexer.flush l1
      cases r2 <;> rfl
    | err e => rfl
    | panic p => rfl
    | diverge => rfl

/-- What waits in the buffer is part of the next token. -/
theorem pending_short {loc : Location} {buf more : Str} {ts : List Token} {m : Nat} (hp : Pending loc buf)
    (hl : Lexes loc (buf ++ more) ts) (hm : ∀ t ∈ ts, ∀ s, Spelled t s → s.length ≤ m) : buf.length ≤ m := by
  generalize hx : buf ++ more = text at hl
  cases hl with
  | nil => simp at hx; simp [hx.1]
  | cons hsp hpos hend hrest =>
    rename_i tk s rest tks
    refine Nat.le_trans ?_ (hm tk (by simp) s hsp)
    rcases Nat.lt_or_ge s.length buf.length with h | h
    · exfalso
      have h1 : s <+: buf := List.prefix_of_prefix_length_le (List.prefix_append s rest) (hx ▸ List.prefix_append buf more) (by omega)
      obtain ⟨r, rfl⟩ := h1
      rw [List.append_assoc] at hx
      have h2 := List.append_cancel_left hx
      have hr : r ≠ [] := by intro h'; subst h'; simp at h
      have h3 : r.head? = rest.head? := by
        cases r with
        | nil => exact absurd rfl hr
        | cons a b => rw [← h2]; rfl
      rcases readNext_complete hsp r (h3 ▸ hend) with h4 | ⟨h4, -⟩
      · rw [hpos] at h4
        unfold Pending at hp
        rw [h4] at hp
        cases hp
      · exact hr h4
    · exact h

theorem pushStr_rest {l l' : Lexer} {s more : Str} {r : List SyntaxRule} {ts : List Token}
    (h : Lexer.pushStr s l = (.ok r, l')) (hl : Lexes l.tokenizer.location (l.tokenizer.buffer ++ s ++ more) ts) :
    l'.tokenizer.maxBufferSize = l.tokenizer.maxBufferSize ∧
    ∃ us, Lexes l'.tokenizer.location (l'.tokenizer.buffer ++ more) us ∧ ∀ t ∈ us, t ∈ ts := by
  obtain ⟨tks, h1, h2, h3⟩ := pushStr_ok h
  refine ⟨h3, ?_⟩
  have h4 := scanAll_complete hl
  rw [scanAll_append h1] at h4
  obtain ⟨us, h5, h6⟩ := Res.bind_eq_ok.mp h4
  obtain ⟨vs, h7, rfl⟩ := scanAll_sound _ _ _ h5
  refine ⟨vs, h7, fun t ht => ?_⟩
  simp only [Res.ok.injEq, ← List.append_assoc] at h6
  rw [← List.append_inj_left' h6 rfl]
  simp [ht]

theorem pushAll_roomy {m k limit : Nat} (hk : m + k ≤ limit) (chunks : List Str) (hc : ∀ c ∈ chunks, c.length ≤ k) (l : Lexer)
    (hlim : l.tokenizer.maxBufferSize = limit) (hi : LexInv l) (ts : List Token)
    (hl : Lexes l.tokenizer.location (l.tokenizer.buffer ++ chunks.flatten) ts)
    (hm : ∀ t ∈ ts, ∀ s, Spelled t s → s.length ≤ m) (e : Error) (he : (pushAll chunks l).1 = .err e) :
    Error.isTooLong e = false := by
  induction chunks generalizing l ts with
  | nil => cases he
  | cons c cs ih =>
    rw [List.flatten_cons, ← List.append_assoc] at hl
    simp only [pushAll, RM.bind_run] at he
    have hb := pending_short hi (by rw [List.append_assoc] at hl; exact hl) hm
    have hck := hc c (by simp)
    cases hx : Lexer.pushStr c l with
    | mk r l1 =>
      rw [hx] at he
      cases r with
      | ok rules =>
        obtain ⟨h1, us, h2, h3⟩ := pushStr_rest hx hl
        simp only at he
        refine ih (fun c hc' => hc c (by simp [hc'])) l1 (by rw [h1]; exact hlim) (pushStr_inv hx) us h2
          (fun t ht => hm t (h3 t ht)) ?_
        cases hy : pushAll cs l1 with
        | mk r2 l2 =>
          rw [hy] at he
          cases r2 <;> simp_all
      | err e' =>
        simp only [Res.err.injEq] at he
        subst he
        cases ht : Error.isTooLong e' with
        | false => rfl
        | true =>
          obtain ⟨b, a, m', h⟩ := isTooLong_iff.mp ht
          have := (pushStr_tooLong_iff l c).mp ⟨e', b, a, m', by rw [hx], h⟩
          omega
      | panic p => cases he
      | diverge => cases he

theorem feedAll_roomy {m k limit : Nat} (hk : m + k ≤ limit) (chunks : List Str) (hc : ∀ c ∈ chunks, c.length ≤ k) (l : Lexer)
    (hlim : l.tokenizer.maxBufferSize = limit) (hi : LexInv l) (ts : List Token)
    (hl : Lexes l.tokenizer.location (l.tokenizer.buffer ++ chunks.flatten) ts)
    (hm : ∀ t ∈ ts, ∀ s, Spelled t s → s.length ≤ m) : (feedAll chunks l).1 = (feedAll chunks (unlimit l)).1 := by
  rcases feedAll_limit chunks l with ⟨e, he, ht⟩ | h
  · exfalso
    simp only [feedAll, RM.bind_run] at he
    cases hx : pushAll chunks l with
    | mk r l1 =>
      rw [hx] at he
      cases r with
      | ok rules =>
        simp only at he
        have := (flush_limit l1).2 e (by
          cases hy : Lexer.flush l1 with
          | mk r2 l2 => rw [hy] at he; cases r2 <;> simp_all)
        rw [this] at ht; cases ht
      | err e' =>
        simp only [Res.err.injEq] at he
        subst he
        have := pushAll_roomy hk chunks hc l hlim hi ts hl hm e' (by rw [hx])
        rw [this] at ht; cases ht
      | panic p => cases he
      | diverge => cases he
  · exact h.symm

end Ebnf
