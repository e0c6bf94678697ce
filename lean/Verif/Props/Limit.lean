import Verif.Proofs.Limit
import Verif.Proofs.Utf8
import Verif.Props.Utf8

set_option autoImplicit false

/-! # C64, C65: what a limit of the buffer does -/

namespace Ebnf.Props

open Ebnf Ebnf.Spec

/-! ## C64 -/

/-- C64: for every history of calls of a lexer with a limit, the calls that it did not reject as too long return what the
same calls, without the rejected ones, return from a lexer without limit. -/
theorem c64_only_rejections (name : Str) (limit : Nat) (ops : List Op) :
    answers (unrejected ops (Lexer.withCapacity name limit)) (Lexer.new name) =
      (answers ops (Lexer.withCapacity name limit)).filter (fun a => !a.isTooLong) :=
  answers_limit ops (Lexer.withCapacity name limit)

example : answers [.pushStr "a='x".toList, .pushStr "yzuvw".toList, .push '\'', .push ';', .flush] (Lexer.withCapacity [] 6) =
    [.rules (.ok []), .rules (.err ⟨⟨[], 1, 3⟩, .tooLong 2 5 6⟩), .rule (.ok none),
      .rule (.ok (some ⟨⟨[], 1, 1⟩, ['a'], .cons (.cons (.plain (.mk 1 (.terminalString ⟨[], 1, 3⟩ ['x']))) .nil) .nil⟩)),
      .rule (.ok none)] ∧
    (unrejected [.pushStr "a='x".toList, .pushStr "yzuvw".toList, .push '\'', .push ';', .flush] (Lexer.withCapacity [] 6)).length = 4 := by
  decide +kernel

/-- C64: reading rules from a byte stream with a limit fails as too long, or does what it does without limit. -/
theorem c64_parse (c : Codec) (name : Str) (chunks : List (List Byte)) (hne : ∀ x ∈ chunks, x ≠ []) (limit : Nat)
    (sched : List (Option Nat)) :
    (∃ e, parse c name (chunks.map .ok) limit sched = .err e ∧ Error.isTooLong e = true) ∨
      parse c name (chunks.map .ok) limit sched = parse c name (chunks.map .ok) 0 sched := by
  rw [parse_outputs c name chunks hne, parse_outputs c name chunks hne]
  rcases feedAll_limit (outputs c c.init chunks ++ [(c.finish (c.run c.init chunks.flatten).1).1]) (Lexer.withCapacity name limit)
    with h | h
  · exact .inl h
  · exact .inr h.symm

/-- C64: the same for `read_from_str`; so with any limit it never returns another syntax than `parse_str` of the text. -/
theorem c64_read_from_str (name text : Str) (limit : Nat) (sched : List (Option Nat)) :
    (∃ e, Syntax.readFromStr name text limit sched = .err e ∧ Error.isTooLong e = true) ∨
      Syntax.readFromStr name text limit sched = Syntax.readFromStr name text 0 sched := by
  have h2 := (cursorReads_flatten 4096 _ (by decide) (asBytes text) (Nat.le_refl _)).2
  simp only [Syntax.readFromStr, Syntax.readFromUtf8, Syntax.readFrom]
  rcases c64_parse utf8Decoder name _ h2 limit sched with ⟨e, h, he⟩ | h
  · exact .inl ⟨e, by rw [h]; rfl, he⟩
  · exact .inr (by rw [h])

/-! ## C65 -/

/-- C65 does not hold: no token of the text is longer than 3 characters, and the whole text is longer than the limit, so
that `read_from_str` (which passes up to 4096 bytes at once) rejects it; the same text passed character by character is
accepted. -/
theorem c65_chunk_too_long :
    (∃ e, Syntax.readFromStr [] "a='b';c='d';".toList 10 [] = .err e ∧ Error.isTooLong e = true) ∧
    ∃ rules, (feedChars "a='b';c='d';".toList (Lexer.withCapacity [] 10)).1 = .ok rules ∧ rules.length = 2 :=
  ⟨⟨_, rfl, rfl⟩,
    [⟨⟨[], 1, 1⟩, ['a'], .cons (.cons (.plain (.mk 1 (.terminalString ⟨[], 1, 3⟩ ['b']))) .nil) .nil⟩,
      ⟨⟨[], 1, 7⟩, ['c'], .cons (.cons (.plain (.mk 1 (.terminalString ⟨[], 1, 9⟩ ['d']))) .nil) .nil⟩],
    by decide +kernel, rfl⟩

/-- C65 with room for a piece: if no token of the text has more than `token` characters, no piece has more than `piece`
characters and the limit is at least the sum, then feeding the pieces does what `parse_str` does, and in particular nothing is
rejected as too long.  Missing: limits between the length of the longest token and this sum. -/
theorem c65_roomy_partial (name text : Str) (token piece limit : Nat) (hlimit : token + piece ≤ limit) (ts : List Token)
    (hlex : Lexes (Location.new name) text ts) (htoken : ∀ t ∈ ts, ∀ s, Spelled t s → s.length ≤ token)
    (pieces : List Str) (h : pieces.flatten = text) (hpiece : ∀ p ∈ pieces, p.length ≤ piece) :
    (feedAll pieces (Lexer.withCapacity name limit)).1 = parseStr name text := by
  rw [← c03_error_independence_partial name text ts hlex pieces h]
  exact feedAll_roomy hlimit pieces hpiece (Lexer.withCapacity name limit) rfl (pending_nil _) ts (by rw [h]; exact hlex) htoken

/-- C65 for `read_from_str`: a limit of 4096 more than the longest token is enough. -/
theorem c65_read_from_str_partial (name text : Str) (token limit : Nat) (hlimit : token + 4096 ≤ limit) (ts : List Token)
    (hlex : Lexes (Location.new name) (withoutMark text) ts) (htoken : ∀ t ∈ ts, ∀ s, Spelled t s → s.length ≤ token)
    (sched : List (Option Nat)) :
    Syntax.readFromStr name text limit sched = Syntax.ofStr name (withoutMark text) := by
  obtain ⟨h1, h2⟩ := cursorReads_flatten 4096 _ (by decide) (asBytes text) (Nat.le_refl _)
  obtain ⟨h3, h4⟩ := utf8Decoder_text text
  rw [garbled_eq, Bool.or_eq_false_iff] at h4
  simp only [Syntax.readFromStr, Syntax.readFromUtf8, Syntax.readFrom]
  rw [parse_outputs utf8Decoder name _ h2, c65_roomy_partial name (withoutMark text) token 4096 limit hlimit ts hlex htoken]
  · rfl
  · rw [List.flatten_append, outputs_flatten, h1, ← h3, decode_eq, decodeOpen_eq]; simp
  · intro p hp
    rw [List.mem_append] at hp
    rcases hp with hp | hp
    · exact outputs_short (st := .start []) _ 4096 (cursorReads_short _ _ _) (Or.inl rfl) (by rw [h1]; exact h4.1) p hp
    · rw [List.mem_singleton] at hp
      rw [hp, h1, finish_clean (sniff_run (st := .start []) (asBytes text) (Or.inl rfl)).1 h4.2]
      simp

example : Lexes (Location.new []) ['a', '=', '\'', 'b', '\'', ';'] [.metaIdentifier ⟨[], 1, 1⟩ ['a'], .definingSymbol ⟨[], 1, 2⟩,
      .terminalString ⟨[], 1, 3⟩ ['b'] '\'', .terminatorSymbol ⟨[], 1, 6⟩ ';'] ∧
    (∀ t ∈ [.metaIdentifier ⟨[], 1, 1⟩ ['a'], .definingSymbol ⟨[], 1, 2⟩,
      .terminalString ⟨[], 1, 3⟩ ['b'] '\'', .terminatorSymbol ⟨[], 1, 6⟩ ';'], ∀ s, Spelled t s → s.length ≤ 3) ∧
    (feedAll ["a".toList, "=".toList, "'".toList, "b".toList, "'".toList, ";".toList] (Lexer.withCapacity [] 4)).1 =
      .ok [⟨⟨[], 1, 1⟩, ['a'], .cons (.cons (.plain (.mk 1 (.terminalString ⟨[], 1, 3⟩ ['b']))) .nil) .nil⟩] := by
  refine ⟨.cons (s := ['a']) (.metaIdentifier _ 'a' [] (by decide) (by simp)) rfl (by constructor <;> decide)
    (.cons (s := ['=']) (.defining _) rfl trivial
      (.cons (s := ['\'', 'b', '\'']) (.terminalString _ ['b'] '\'' (by decide) (by decide) (by decide)) rfl trivial
        (.cons (s := [';']) (.terminator _ ';' (by decide)) rfl trivial (.nil _)))), ?_, by decide +kernel⟩
  intro t ht s hs
  simp only [List.mem_cons, List.not_mem_nil, or_false] at ht
  rcases ht with rfl | rfl | rfl | rfl <;> cases hs <;> simp

end Ebnf.Props
