import Verif.Proofs.Exact
import Verif.Proofs.Limit
import Verif.Props.Utf8

set_option autoImplicit false

/-! # Exactly what happens where C03, C63 and C65 fail -/

namespace Ebnf.Props

open Ebnf Ebnf.Spec

/-! ## C03 -/

/-- C03, exactly: how the cuts matter.  Fed piece by piece, a lexer stops at the first cut at which the text so far, passed
in one piece, fails (with an error or a panic), and reports exactly that; if there is no such cut, the outcome is that of
`parse_str`. -/
theorem c03_first_failing_prefix (name : Str) (chunks : List Str) :
    (∃ k, k < chunks.length ∧
      (∀ j, j ≤ k → ∃ rules, (Lexer.pushStr (chunks.take j).flatten (Lexer.new name)).1 = .ok rules) ∧
      (∀ rules, (Lexer.pushStr (chunks.take (k + 1)).flatten (Lexer.new name)).1 ≠ .ok rules) ∧
      (feedAll chunks (Lexer.new name)).1 = (Lexer.pushStr (chunks.take (k + 1)).flatten (Lexer.new name)).1) ∨
    (∀ j, ∃ rules, (Lexer.pushStr (chunks.take j).flatten (Lexer.new name)).1 = .ok rules) ∧
      (feedAll chunks (Lexer.new name)).1 = parseStr name chunks.flatten := by
  rw [parseStr_eq_feedAll]
  exact feedAll_first (new_unlimited name) (new_inv name)

/-- The first case, with an error, for the text of `c03_depends_on_cut`; the second case with an error. -/
example : (feedAll ["= 'x';".toList, " :x".toList] (Lexer.new [])).1 = (Lexer.pushStr "= 'x';".toList (Lexer.new [])).1 ∧
    (Lexer.pushStr "= 'x';".toList (Lexer.new [])).1 = .err ⟨⟨[], 1, 1⟩, .metaIdentifierExpected .defining⟩ ∧
    (feedAll ["a=".toList, "'x".toList] (Lexer.new [])).1 = .err ⟨⟨[], 1, 3⟩, .terminalNotClosed '\''⟩ ∧
    parseStr [] "a='x".toList = .err ⟨⟨[], 1, 3⟩, .terminalNotClosed '\''⟩ := by decide +kernel

/-! ## C63 -/

/-- C63, exactly: a decoder that stops at malformed sequences reports the place behind the first U+FFFD of what it
decodes from the fragment in which the first malformed sequence is found, or from the end of the stream if it is found
there; whether that U+FFFD stands for the malformed sequence or is one of the text. -/
theorem c63_place (c : Codec) (hc : ReplacesMalformed c) (name : Str) (sched : List (Option Nat)) (fragments : List (List Byte))
    (hg : garbled c c.init fragments.flatten = true) :
    ∃ e, (pushFragments fragments (Decoder.new c name true sched)).1 = .err e ∧
      ((∃ before fragment after decoded, fragments = before ++ fragment :: after ∧
          garbledSoFar c c.init before.flatten = false ∧ garbledSoFar c c.init (before.flatten ++ fragment) = true ∧
          decodeOpen c c.init (before.flatten ++ fragment) = decodeOpen c c.init before.flatten ++ decoded ∧
          e.location = lineColumn (Location.new name) (decodeOpen c c.init before.flatten ++ upToReplacement decoded)) ∨
        (garbledSoFar c c.init fragments.flatten = false ∧
          ∃ decoded, decode c c.init fragments.flatten = decodeOpen c c.init fragments.flatten ++ decoded ∧
            e.location =
              lineColumn (Location.new name) (decodeOpen c c.init fragments.flatten ++ upToReplacement decoded))) := by
  have h := pushFragments_where hc fragments (new_ready c name true sched) hg
  simp only [Location.pushStr_eq_lineColumn] at h
  exact h

/-- The bytes of `c63_genuine_replacement`. -/
example : garbled utf8Decoder utf8Decoder.init [0xEF, 0xBF, 0xBD, 97, 0xFF] = true ∧
    garbledSoFar utf8Decoder utf8Decoder.init [0xEF, 0xBF, 0xBD] = false ∧
    garbledSoFar utf8Decoder utf8Decoder.init [0xEF, 0xBF, 0xBD, 97, 0xFF] = true ∧
    decodeOpen utf8Decoder utf8Decoder.init [0xEF, 0xBF, 0xBD, 97, 0xFF] = ['�', 'a', '�'] ∧
    upToReplacement ['a', '�'] = ['a', '�'] := by decide +kernel

/-! ## C65 -/

/-- C65, exactly: a piece is rejected as too long exactly if it and the part of the text so far that is not yet certain —
what follows the longest beginning that is made of complete tokens whatever comes next — are together longer than the limit.
The error names both lengths, the limit, and the place where the uncertain part begins. -/
theorem c65_too_long_iff (name : Str) (limit : Nat) (before : List Str) (rules : List SyntaxRule) (l : Lexer)
    (h : pushAll before (Lexer.withCapacity name limit) = (.ok rules, l)) (piece : Str) :
    ∃ used, MostCertain (Location.new name) before.flatten used ∧
      ((∃ e, (Lexer.pushStr piece l).1 = .err e ∧ Error.isTooLong e = true) ↔
        0 < limit ∧ limit < (before.flatten.length - used.length) + piece.length) ∧
      ∀ e, (Lexer.pushStr piece l).1 = .err e → Error.isTooLong e = true →
        e = ⟨lineColumn (Location.new name) used, .tooLong (before.flatten.length - used.length) piece.length limit⟩ := by
  obtain ⟨hm, tks, ht⟩ := pushAll_tokLoop (l := Lexer.withCapacity name limit) (pending_nil _) h
  change tokLoop (Location.new name) ([] ++ before.flatten) = _ at ht
  rw [List.nil_append] at ht
  obtain ⟨used, h1, h2, h3⟩ := tokLoop_mostCertain ht
  have hlen : before.flatten.length - used.length = l.tokenizer.buffer.length := by rw [h1]; simp
  change l.tokenizer.maxBufferSize = limit at hm
  refine ⟨used, h3, ?_⟩
  rw [hlen]
  by_cases hc : l.tokenizer.maxBufferSize > 0 ∧ l.tokenizer.buffer.length + piece.length > l.tokenizer.maxBufferSize
  · have hp : (Lexer.pushStr piece l).1 =
        .err ⟨l.tokenizer.location, .tooLong l.tokenizer.buffer.length piece.length l.tokenizer.maxBufferSize⟩ := by
      simp only [Lexer.pushStr, Lexer.feed, Tokenizer.pushStr, Tokenizer.ensureCapacity, if_pos hc, Res.fail]
    rw [hp, hm, h2, Location.pushStr_eq_lineColumn]
    rw [hm] at hc
    exact ⟨⟨fun _ => hc, fun _ => ⟨_, rfl, rfl⟩⟩, fun e he _ => (Res.err.inj he).symm⟩
  · have hn : ∀ e, (Lexer.pushStr piece l).1 = .err e → Error.isTooLong e = true → False := by
      intro e he ht
      obtain ⟨b, a, m, h⟩ := isTooLong_iff.mp ht
      exact hc ((pushStr_tooLong_iff l piece).mp ⟨e, b, a, m, he, h⟩)
    rw [hm] at hc
    exact ⟨⟨fun ⟨e, he, hl⟩ => (hn e he hl).elim, fun hx => absurd hx hc⟩, fun e he hl => (hn e he hl).elim⟩

/-- With a limit of 6, after `a='x` the certain part is `a=`; four more characters fit and five do not. -/
example : MostCertain (Location.new []) ['a', '=', '\'', 'x'] ['a', '='] ∧
    (∃ l, pushAll ["a='".toList, "x".toList] (Lexer.withCapacity [] 6) = (.ok [], l) ∧
      (Lexer.pushStr "yzuv".toList l).1 = .ok [] ∧
      (Lexer.pushStr "yzuvw".toList l).1 = .err ⟨⟨[], 1, 3⟩, .tooLong 2 5 6⟩) := by
  refine ⟨?_, ?_⟩
  · have h : tokLoop (Location.new []) ['a', '=', '\'', 'x'] =
        (.ok [.metaIdentifier ⟨[], 1, 1⟩ ['a'], .definingSymbol ⟨[], 1, 2⟩], ⟨[], 1, 3⟩, ['\'', 'x']) := by decide +kernel
    obtain ⟨used, h1, _, h2⟩ := tokLoop_mostCertain h
    have : used = ['a', '='] := List.append_cancel_right (h1.symm.trans (by rfl : _ = ['a', '='] ++ ['\'', 'x']))
    rwa [this] at h2
  · exact ⟨⟨⟨6, "'x".toList, ⟨[], 1, 3⟩⟩, [.metaIdentifier ⟨[], 1, 1⟩ ['a'], .definingSymbol ⟨[], 1, 2⟩]⟩,
      by decide +kernel, by decide +kernel, by decide +kernel⟩

end Ebnf.Props
