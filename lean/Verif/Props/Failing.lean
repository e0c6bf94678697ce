import Verif.Proofs.Failing
import Verif.Props.Faults

set_option autoImplicit false

/-! # Byte streams that fail (C30, C59, C60) -/

namespace Ebnf.Props

open Ebnf Ebnf.Spec

/-- C30: over a byte stream that delivers any (non-empty) chunks with any I/O errors in between, `CharDecodeReader`, read with
any (non-zero) buffer sizes and read on after errors, returns the characters of the bytes and the errors, each error once, in its
place among the characters and with the location that place has; it never crashes, and once everything has been said it reports
the end. -/
theorem c30_failing_stream (c : Codec) (name : Str) (chunks : List (Except Nat (List Byte))) (hne : .ok [] ∉ chunks)
    (sched : List (Option Nat)) (sizes : List Nat) (hs : ∀ n ∈ sizes, 0 < n) :
    ∃ heard done, listen sizes (charDecodeReader c name chunks sched) = some (heard, done) ∧
      heard <+: toSay c c.init (Location.new name) chunks ∧
      (done = true → heard = toSay c c.init (Location.new name) chunks) ∧
      ((toSay c c.init (Location.new name) chunks).length < sizes.length → done = true) := by
  have h : sourceSays (charDecodeReader c name chunks sched) = toSay c c.init (Location.new name) chunks :=
    decodeRounds_says (new_ready c name false sched) chunks hne (Location.new name)
  rw [← h]
  exact listen_spec sizes hs _

example : listen [2, 2, 1, 1, 1, 1] (charDecodeReader twoByte [] [.ok [0], .error 5, .ok [97, 0], .ok [98, 0, 99], .error 6] [none, some 0]) =
    some ([.inr ⟨⟨[], 1, 1⟩, .streamError 5⟩, .inl 'a', .inl 'b', .inl 'c', .inr ⟨⟨[], 1, 4⟩, .streamError 6⟩], true) := by decide +kernel

/-- C59, C60: a byte stream that fails now and then is a source as these properties take it, with the text its bytes
decode to and with the stream's own errors in their order. -/
theorem c60_byte_stream (c : Codec) (name : Str) (chunks : List (Except Nat (List Byte))) (hne : .ok [] ∉ chunks)
    (sched : List (Option Nat)) :
    Supplies (charDecodeReader c name chunks sched) (decodeOpen c c.init (bytesOf chunks)) (codesOf chunks) :=
  ⟨_, decodeRounds_supplies (new_ready c name false sched) chunks hne, rfl⟩

example : bytesOf [.ok [0], .error 5, .ok [97, 0], .ok [98, 0, 99], .error 6] = [0, 97, 0, 98, 0, 99] ∧
    codesOf [.ok [0], .error 5, .ok [97, 0], .ok [98, 0, 99], .error 6] = [5, 6] ∧
    (.ok [] ∉ [Except.ok [0], .error 5, .ok [97, 0], .ok [98, 0, 99], .error (6 : Nat)]) ∧
    decodeOpen twoByte none [0, 97, 0, 98, 0, 99] = ['a', 'b', 'c'] := by
  refine ⟨by decide +kernel, by decide +kernel, by simp, by decide +kernel⟩

/-- C31: a stream that fails while it is read.  If the lexer takes the text that was decoded before the failure, `lex::parse`
returns the failure, placed where the part of that text begins that no token has been made of (a tokenizer that is given
that part makes no token of it); otherwise what it returns is not a failure of the stream. -/
theorem c31_io_error_place (c : Codec) (name : Str) (chunks : List (List Byte)) (hne : ∀ x ∈ chunks, x ≠ [])
    (io : Nat) (more : List (Except Nat (List Byte))) (sched : List (Option Nat)) :
    (∀ rules, (Lexer.pushStr (decodeOpen c c.init chunks.flatten) (Lexer.new name)).1 = .ok rules →
      ∃ done rest, decodeOpen c c.init chunks.flatten = done ++ rest ∧
        (Tokenizer.pushStr rest { Tokenizer.new name with location := (Location.new name).pushStr done }).1 = .ok [] ∧
        parse c name (chunks.map .ok ++ .error io :: more) 0 sched = .err ⟨(Location.new name).pushStr done, .ioError io⟩) ∧
    ((∀ rules, (Lexer.pushStr (decodeOpen c c.init chunks.flatten) (Lexer.new name)).1 ≠ .ok rules) →
      ∀ place code, parse c name (chunks.map .ok ++ .error io :: more) 0 sched ≠ .err ⟨place, .ioError code⟩) := by
  rw [parse_failing c name io more chunks hne 0 sched]
  have hl : Lexer.withCapacity name 0 = Lexer.new name := rfl
  rw [hl]
  refine ⟨fun rules h => ?_, fun h place code => ?_⟩
  · obtain ⟨l', h1⟩ : ∃ l', Lexer.pushStr (decodeOpen c c.init chunks.flatten) (Lexer.new name) = (.ok rules, l') :=
      ⟨_, Prod.ext h rfl⟩
    obtain ⟨tks, h2, _, _⟩ := pushStr_ok h1
    obtain ⟨h3, used, h4, h5⟩ := tokLoop_ok h2
    rw [← outputs_flatten] at h1
    rw [(pushAll_flatten (new_unlimited name) (new_inv name)).2 h1]
    refine ⟨used, l'.tokenizer.buffer, h4, ?_, ?_⟩
    · have h6 : (Location.new name).pushStr used = l'.tokenizer.location := h5.symm
      rw [h6, tokenizer_pushStr_eq _ _ rfl, tokenizer_tokenize]
      have h7 : tokLoop l'.tokenizer.location ([] ++ l'.tokenizer.buffer) = _ := tokLoop_none h3
      simp only [Tokenizer.new, Tokenizer.withCapacity]
      rw [h7]
    · show Res.err _ = Res.err _
      rw [h5]; rfl
  · have h1 : ∀ rules l', pushAll (outputs c c.init chunks) (Lexer.new name) ≠ (.ok rules, l') := by
      intro rules l' h2
      rw [pushAll_flatten (new_unlimited name) (new_inv name), outputs_flatten] at h2
      exact h rules (by rw [h2])
    have h2 := fun e => pushAll_composed (chunks := outputs c c.init chunks) (l := Lexer.new name) (e := e) []
    revert h1 h2
    generalize pushAll (outputs c c.init chunks) (Lexer.new name) = y
    obtain ⟨r, l1⟩ := y
    intro h1 h2 h3
    cases r with
    | ok rules => exact h1 rules l1 rfl
    | err e =>
      have h4 : e = ⟨place, .ioError code⟩ := by simpa using h3
      have h5 := (h2 e rfl).1
      rw [h4] at h5
      exact h5
    | panic p => cases h3
    | diverge => cases h3

example : ∃ rules, (Lexer.pushStr (decodeOpen twoByte none [[0, 97, 0, 61], [0, 98, 0]].flatten) (Lexer.new [])).1 = .ok rules ∧
    parse twoByte [] ([[0, 97, 0, 61], [0, 98, 0]].map .ok ++ [.error 5]) 0 [none] = .err ⟨⟨[], 1, 3⟩, .ioError 5⟩ := by
  refine ⟨[], ?_, ?_⟩ <;> decide +kernel

/-- C30: a read of no bytes is the end of the stream: whatever the stream would deliver afterwards, the reader is as if there were nothing. -/
theorem c30_end (c : Codec) (name : Str) (chunks more : List (Except Nat (List Byte))) (sched : List (Option Nat)) :
    charDecodeReader c name (chunks ++ .ok [] :: more) sched = charDecodeReader c name chunks sched := by
  simp only [charDecodeReader, decodeRounds_end]

/-- C31: the same for `lex::parse`: what the stream would deliver after a read of no bytes is not looked at, failures included. -/
theorem c31_end (c : Codec) (name : Str) (chunks more : List (Except Nat (List Byte))) (maxBufferSize : Nat) (sched : List (Option Nat)) :
    parse c name (chunks ++ .ok [] :: more) maxBufferSize sched = parse c name chunks maxBufferSize sched := by
  simp only [parse, parseLoop_end]

-- The rule ends with the stream; the bytes `c;` and the failure behind the end are not seen.
example : parse twoByte [] ([.ok [0, 97, 0, 61], .ok [0, 98]] ++ .ok [] :: [.ok [0, 99, 0, 59], .error 5]) 0 [none] =
    .ok [⟨⟨[], 1, 1⟩, ['a'], .cons (.cons (.plain (.mk 1 (.metaIdentifier ⟨[], 1, 3⟩ ['b']))) .nil) .nil⟩] := by decide +kernel

end Ebnf.Props
