import Verif.Proofs.Life
import Verif.Model.Utf8

set_option autoImplicit false

/-! # C78: a decoder must not be used after its flush -/

namespace Ebnf.Props

open Ebnf Ebnf.Spec

/-- C78: what every call in every history of calls of a decoder that replaces malformed sequences returns.  In particular a call
panics exactly when there was a flush before it, and a byte before that flush. -/
theorem c78_history (c : Codec) (name : Str) (sched : List (Option Nat)) (calls : List DecoderCall) :
    (decoderCalls calls (Decoder.new c name false sched)).1 = lifeOf c false c.init calls :=
  calls_life calls (new_ready c name false sched) false ⟨fun _ => rfl, fun _ => rfl⟩

/-- C78: until it is flushed no decoder panics, or loops forever: whatever is pushed, and also after errors. -/
theorem c78_before_flush (c : Codec) (name : Str) (stop : Bool) (sched : List (Option Nat)) (fragments : List (List Byte)) :
    ∀ r ∈ (decoderCalls (fragments.map .push) (Decoder.new c name stop sched)).1, (∃ out, r = .ok out) ∨ ∃ e, r = .err e :=
  (pushes_open fragments (fun h => by cases h)).1

/-- C78: once a decoder that was given any byte has been flushed with success, each of the calls that follow panics, whatever the calls before
returned. -/
theorem c78_after_flush (c : Codec) (name : Str) (stop : Bool) (sched : List (Option Nat)) (before after : List DecoderCall)
    (h : givenBytes before ≠ []) (d : Decoder c) (out : Str)
    (hf : Decoder.flush (decoderCalls before (Decoder.new c name stop sched)).2 = (.ok out, d)) :
    (decoderCalls after d).1 = after.map (fun _ => .panic .decoderFinished) := by
  refine calls_finished after ?_
  generalize hd : (decoderCalls before (Decoder.new c name stop sched)).2 = d0 at hf
  have h0 : d0.life ≠ .fresh := fun e => h (calls_fresh before (by rw [hd]; exact e)).1
  by_cases h1 : d0.life = .finished
  · have := (make_finished .flush h1).1
    rw [DecoderCall.make, hf] at this
    cases this
  · obtain ⟨d', i, h2, h3⟩ := convert_life [] true h1
    rw [Decoder.flush] at hf
    rcases h2 with ⟨o, h2, rfl⟩ | ⟨e, h2⟩
    · rw [h2] at hf
      rw [← (Prod.mk.inj hf).2, h3, Decoder.lived, if_neg (fun e => h0 e.1)]
      rfl
    · rw [h2] at hf; cases (Prod.mk.inj hf).1

/-- C78: the library keeps to it: reading rules from a byte stream is pushing pieces of the decoded text to a lexer, and returns (or panics)
exactly as that does. -/
theorem c78_library (c : Codec) (name : Str) (chunks : List (List Byte)) (hne : ∀ x ∈ chunks, x ≠ []) (sched : List (Option Nat)) :
    ∃ pieces : List Str, pieces.flatten = decode c c.init chunks.flatten ∧
      ∀ limit, parse c name (chunks.map .ok) limit sched = (feedAll pieces (Lexer.withCapacity name limit)).1 :=
  parse_pieces c name chunks hne sched

/-- A history with everything in it, and one of a decoder that stops at malformed sequences. -/
example : (decoderCalls [.flush, .push [], .flush, .push [0, 97, 0], .push [98], .flush, .push [0, 99], .flush]
      (Decoder.new twoByte [] false [some 0, none])).1 =
    [.ok [], .ok [], .ok [], .ok ['a'], .ok ['b'], .ok [], .panic .decoderFinished, .panic .decoderFinished] ∧
    givenBytes [.push [0, 97]] ≠ [] ∧
    (Decoder.flush (decoderCalls [.push [0, 97]] (Decoder.new twoByte [] true [])).2).1 = .ok [] := by decide +kernel

end Ebnf.Props
