import Verif.Spec.Capacity
import Verif.Proofs.Unruly

set_option autoImplicit false

/-! # C111: limits are not demands -/

namespace Ebnf.Props

open Ebnf Ebnf.Spec

private theorem vec_ok {n : Nat} (h : n < 2 ^ 61) : vecOfChars n = .ok (n * 4) := by
  unfold vecOfChars isizeMax
  rw [if_neg (by omega)]

private theorem vec_panic {n : Nat} (h : 2 ^ 61 ≤ n) : vecOfChars n = .panic .capacityOverflow := by
  unfold vecOfChars isizeMax
  rw [if_pos (by omega)]

private theorem initial_default {limit : Nat} : Capacity.initial Capacity.defaultInit limit < 2 ^ 61 ↔ limit < 2 ^ 61 := by
  unfold Capacity.initial Capacity.defaultInit
  by_cases h : limit = 0
  · rw [if_pos h]; omega
  · rw [if_neg h]; omega

/-- C111: making a lexer panics exactly if the size of its initial buffer or its limit is 2^61 or more. -/
theorem c111_lexer_panics_iff (name : Str) (size limit : Nat) :
    (∃ p, Capacity.lexer name size limit = .panic p) ↔ 2 ^ 61 ≤ size ∨ 2 ^ 61 ≤ limit := by
  unfold Capacity.lexer Capacity.tokenizer
  by_cases h : Capacity.initial size limit < 2 ^ 61
  · rw [vec_ok h]
    constructor
    · rintro ⟨p, hp⟩; cases hp
    · intro h2
      unfold Capacity.initial at h
      by_cases h3 : limit = 0
      · rw [if_pos h3] at h; omega
      · rw [if_neg h3] at h; omega
  · rw [vec_panic (Nat.le_of_not_lt h)]
    refine ⟨fun _ => ?_, fun _ => ⟨_, rfl⟩⟩
    unfold Capacity.initial at h
    by_cases h3 : limit = 0
    · rw [if_pos h3] at h; omega
    · rw [if_neg h3] at h; omega

/-- C111: otherwise it is the lexer with this limit, whatever the size of the initial buffer; and it has room for as many characters as the limit
allows, four bytes each, before it has been given any. -/
theorem c111_lexer_partial (name : Str) (size limit : Nat) (h : size < 2 ^ 61) (hl : limit < 2 ^ 61) :
    ∃ bytes, Capacity.lexer name size limit = .ok (Lexer.withCapacity name limit, bytes) ∧ 4 * size ≤ bytes ∧ 4 * limit ≤ bytes ∧
      (bytes = 4 * size ∨ bytes = 4 * limit) := by
  have h1 : Capacity.initial size limit < 2 ^ 61 := by
    unfold Capacity.initial
    by_cases h3 : limit = 0
    · rw [if_pos h3]; exact h
    · rw [if_neg h3]; omega
  refine ⟨Capacity.initial size limit * 4, ?_, ?_⟩
  · unfold Capacity.lexer Capacity.tokenizer
    rw [vec_ok h1]; rfl
  · unfold Capacity.initial
    by_cases h3 : limit = 0
    · rw [if_pos h3]; omega
    · rw [if_neg h3]; omega

/-- C111: a lexer without limit is always made. -/
theorem c111_new (name : Str) : ∃ bytes, Capacity.lexerNew name = .ok (Lexer.new name, bytes) := ⟨254 * 4, by
  unfold Capacity.lexerNew Capacity.tokenizer
  rw [vec_ok (initial_default.mpr (by decide))]; rfl⟩

/-- C111: so `parse_str` does not need the memory of a limit. -/
theorem c111_parse_str (name text : Str) : Capacity.parseStr name text = parseStr name text := by
  obtain ⟨b, h⟩ := c111_new name
  unfold Capacity.parseStr
  rw [h]; rfl

/-- C111: reading a grammar with a limit of 2^61 or more panics, whatever there is to read. -/
theorem c111_parse_panics (labels : Labels) (name : Str) (chunks : List (Except Nat (List Byte))) (label : Str) (limit : Nat)
    (sched : List (Option Nat)) (h : 2 ^ 61 ≤ limit) (c : Codec) (hc : labels label = some c) :
    Capacity.parse labels name chunks label limit sched = .panic .capacityOverflow ∧
    Capacity.parseFile labels name (.ok chunks) label limit sched = .panic .capacityOverflow ∧
    Capacity.readFrom labels name chunks label limit sched = .panic .capacityOverflow := by
  have h1 : Capacity.parse labels name chunks label limit sched = .panic .capacityOverflow := by
    unfold Capacity.parse withCodec
    rw [hc]
    simp only [Capacity.lexer, Capacity.tokenizer]
    rw [vec_panic (Nat.le_of_not_lt (fun h2 => by have := initial_default.mp h2; omega))]
    rfl
  refine ⟨h1, h1, ?_⟩
  unfold Capacity.readFrom
  rw [h1]; rfl

/-- C111: with a smaller limit it does what it is said to do elsewhere (C14, C31, C64, C65, C74). -/
theorem c111_parse_partial (labels : Labels) (name : Str) (chunks : List (Except Nat (List Byte))) (label : Str) (limit : Nat)
    (sched : List (Option Nat)) (h : limit < 2 ^ 61) :
    Capacity.parse labels name chunks label limit sched = parseWithLabel labels name chunks label limit sched ∧
    (∀ opened, Capacity.parseFile labels name opened label limit sched = parseFile labels name opened label limit sched) ∧
    Capacity.readFrom labels name chunks label limit sched = Syntax.readFromWithLabel labels name chunks label limit sched ∧
    Capacity.readFromUtf8 name chunks limit sched = Syntax.readFromUtf8 name chunks limit sched ∧
    ∀ text, Capacity.readFromStr name text limit sched = Syntax.readFromStr name text limit sched := by
  have h1 : ∀ labels name chunks label, Capacity.parse labels name chunks label limit sched = parseWithLabel labels name chunks label limit sched := by
    intro labels name chunks label
    obtain ⟨b, hb, _⟩ := c111_lexer_partial name Capacity.defaultInit limit (by decide) h
    unfold Capacity.parse parseWithLabel withCodec
    cases labels label with
    | none => rfl
    | some c =>
      simp only [hb, Res.bind_ok]
      rfl
  have h2 : ∀ name chunks, Capacity.readFromUtf8 name chunks limit sched = Syntax.readFromUtf8 name chunks limit sched := by
    intro name chunks
    unfold Capacity.readFromUtf8 Capacity.readFrom
    rw [h1]; rfl
  refine ⟨h1 _ _ _ _, ?_, ?_, h2 _ _, fun text => h2 _ _⟩
  · intro opened
    cases opened with
    | error e => rfl
    | ok chunks => exact h1 _ _ _ _
  · unfold Capacity.readFrom Syntax.readFromWithLabel
    rw [h1]

/-- C111: `usize::MAX` is no limit: a grammar that is read without a limit makes `read_from_str` panic. -/
theorem c111_no_limit : Capacity.readFromStr [] "a='x';".toList (2 ^ 64 - 1) [] = .panic .capacityOverflow ∧
    ∃ s, Capacity.readFromStr [] "a='x';".toList 0 [] = .ok s := by
  refine ⟨(c111_parse_panics _ _ _ _ _ _ (by decide) utf8Decoder rfl).2.2, ?_⟩
  have h : (match Capacity.readFromStr [] "a='x';".toList 0 [] with | .ok _ => true | _ => false) = true := by decide +kernel
  cases hs : Capacity.readFromStr [] "a='x';".toList 0 [] with
  | ok s => exact ⟨s, rfl⟩
  | _ => rw [hs] at h; cases h

/-- C111: `peek` panics for 2^61 characters or more, however few there are, and then leaves its mark behind. -/
theorem c111_peek_panics (n : Nat) (h : 2 ^ 61 ≤ n) (r : Reader) (hr : r.buffer.dbg = false) :
    Capacity.peek n r = (.panic .capacityOverflow, (perform .mark r).2) := by
  simp only [Capacity.peek, perform, answer, RM.bind_run, RM.lift_run, vec_panic h, Reader.mark, UnreadBuffer.mark, hr, Bool.false_and, Bool.false_eq_true,
    if_false]

/-- C111: calls that do not look that far ahead do what they are said to do elsewhere (C24, C26, C28, C60, C110). -/
theorem c111_calls_partial (ops : List ReaderOp) (h : ∀ op ∈ ops, Modest op) (r : Reader) : performAllRoom ops r = performAll ops r := by
  induction ops generalizing r with
  | nil => rfl
  | cons op ops ih =>
    have h1 : performRoom op r = perform op r := by
      cases op with
      | peek n =>
        have hn : n < 2 ^ 61 := h (.peek n) List.mem_cons_self
        simp only [performRoom, perform, Capacity.peek, vec_ok hn]
        rfl
      | _ => rfl
    simp only [performAllRoom, performAll, h1]
    rw [ih (fun o ho => h o (List.mem_cons_of_mem _ ho))]

/-- C111: in a release build a call panics, after any such history, exactly if it looks 2^61 characters ahead or more. -/
theorem c111_panics_iff (location : Location) (s : Source) (ops : List ReaderOp) (h : ∀ op ∈ ops, Modest op) (op : ReaderOp) :
    (performRoom op (performAllRoom ops (Reader.withLocation location s false)).2).1 = .crash ↔ ¬ Modest op := by
  rw [c111_calls_partial ops h]
  have hb : (performAll ops (Reader.withLocation location s false)).2.buffer.dbg = false := by rw [Unruly.performAll_build]; rfl
  by_cases hm : Modest op
  · have h1 := c111_calls_partial [op] (fun o ho => by rw [List.mem_singleton.mp ho]; exact hm) (performAll ops (Reader.withLocation location s false)).2
    simp only [performAllRoom, performAll] at h1
    injection h1 with h2 h3
    injection h2 with h2
    rw [h2]
    refine ⟨fun h4 => ?_, fun h4 => absurd hm h4⟩
    exfalso
    refine Unruly.release_no_crash location s (ops ++ [op]) ?_
    rw [Unruly.performAll_append]
    refine List.mem_append.mpr (.inr ?_)
    simp only [performAll, h4]
    exact List.mem_cons_self
  · cases op with
    | peek n =>
      have hn : 2 ^ 61 ≤ n := Nat.le_of_not_lt hm
      simp only [performRoom, c111_peek_panics n hn _ hb, answer, true_iff]
      exact hm
    | _ => exact absurd trivial hm

/-- A look at as many characters as there may be: the first two calls do what they should, the third panics. -/
example : (performAllRoom [.read, .peek 3] (Reader.new [] (.buffered "abc".toList) false)).1 = [.char (some 'a'), .chars ['b', 'c']] ∧
    (performRoom (.peek (2 ^ 64 - 1)) (performAllRoom [.read, .peek 3] (Reader.new [] (.buffered "abc".toList) false)).2).1 = .crash := by
  have hm : ∀ op ∈ [ReaderOp.read, .peek 3], Modest op := by
    intro op ho
    rcases List.mem_cons.mp ho with rfl | ho
    · trivial
    · rw [List.mem_singleton.mp ho]; show (3 : Nat) < 2 ^ 61; decide
  refine ⟨?_, (c111_panics_iff _ _ _ hm _).mpr ?_⟩
  · rw [c111_calls_partial _ hm]; decide +kernel
  · show ¬ (2 ^ 64 - 1 < 2 ^ 61); decide

/-- A limit of 2^40 characters is accepted, and costs 2^42 bytes before the first character has been read. -/
example : Capacity.lexer [] 254 (2 ^ 40) = .ok (Lexer.withCapacity [] (2 ^ 40), 2 ^ 42) := by decide +kernel

end Ebnf.Props
