import Verif.Proofs.Decoder
import Verif.Props.Stream
import Verif.Props.Reader

set_option autoImplicit false

/-! # C29–C31: decoding byte streams

`c : Codec` is an arbitrary encoding, `sched` an arbitrary choice of how much the underlying decoder does in
each call (see the trusted base). -/

namespace Ebnf.Props

open Ebnf Ebnf.Spec

/-! ## C29 -/

/-- C29: a decoder that replaces malformed sequences never fails, and returns the decoding of all bytes, for
every fragmentation and every schedule of the underlying decoder. -/
theorem c29_fragmentation (c : Codec) (name : Str) (sched : List (Option Nat)) (fragments : List (List Byte)) :
    (pushFragments fragments (Decoder.new c name false sched)).1 = .ok (decode c c.init fragments.flatten) :=
  (pushFragments_spec fragments (new_ready c name false sched)).1 rfl

/-- C29: a decoder that stops at malformed sequences returns the decoding of all bytes iff nothing is malformed,
and otherwise an error, again for every fragmentation and schedule. -/
theorem c29_stop_with_garbled (c : Codec) (name : Str) (sched : List (Option Nat)) (fragments : List (List Byte)) :
    (garbled c c.init fragments.flatten = false →
      (pushFragments fragments (Decoder.new c name true sched)).1 = .ok (decode c c.init fragments.flatten)) ∧
    (garbled c c.init fragments.flatten = true →
      ∃ e, (pushFragments fragments (Decoder.new c name true sched)).1 = .err e) :=
  pushFragments_spec fragments (new_ready c name true sched)

example : (pushFragments [[0], [97, 0], [], [98, 0, 99, 0]] (Decoder.new twoByte [] false [some 0, none, some 1])).1 =
    .ok ['a', 'b', 'c', '�'] ∧
    (∃ e, (pushFragments [[0], [97, 0]] (Decoder.new twoByte [] true [])).1 = .err e) ∧
    garbled twoByte none [0, 97] = false ∧ garbled twoByte none [0, 97, 0] = true := by
  refine ⟨by decide +kernel, ?_, by decide +kernel, by decide +kernel⟩
  exact (c29_stop_with_garbled twoByte [] [] [[0], [97, 0]]).2 (by decide +kernel)

/-! ## C30 -/

/-- C30 does not hold: the last byte is dropped silently, although the decoding of all bytes ends with a
replacement character. -/
theorem c30_last_bytes_dropped :
    (readSizes [2, 2] (charDecodeReader twoByte [] [.ok [0, 97, 0]] [])).1 = .ok (['a'], true) ∧
    decode twoByte none [0, 97, 0] = ['a', '�'] := by decide +kernel

/-- C30: `CharDecodeReader` over any (non-empty) byte chunks, read with any (non-zero) buffer sizes, delivers the
decoding of the bytes without their end, in order, nothing lost or duplicated, and does report the end.
Missing: what the end of the stream adds. -/
theorem c30_delivers_partial (c : Codec) (name : Str) (chunks : List (List Byte)) (hne : ∀ x ∈ chunks, x ≠ [])
    (sched : List (Option Nat)) (sizes : List Nat) (hs : ∀ n ∈ sizes, 0 < n) :
    ∃ out done, (readSizes sizes (charDecodeReader c name (chunks.map .ok) sched)).1 = .ok (out, done) ∧
      out <+: decodeOpen c c.init chunks.flatten ∧
      (done = true → out = decodeOpen c c.init chunks.flatten) ∧
      ((decodeOpen c c.init chunks.flatten).length < sizes.length → done = true) := by
  obtain ⟨out, done, s', h1, h2⟩ := readSizes_spec sizes hs (charDecodeReader_delivers c name chunks hne sched)
  exact ⟨out, done, by rw [h1], h2⟩

/-- C30 holds for byte sequences at whose end the decoder has nothing pending. -/
theorem c30_complete_partial (c : Codec) (name : Str) (chunks : List (List Byte)) (hne : ∀ x ∈ chunks, x ≠ [])
    (hend : (c.finish (c.run c.init chunks.flatten).1).1 = [])
    (sched : List (Option Nat)) (sizes : List Nat) (hs : ∀ n ∈ sizes, 0 < n) (out : Str)
    (h : (readSizes sizes (charDecodeReader c name (chunks.map .ok) sched)).1 = .ok (out, true)) :
    out = decode c c.init chunks.flatten := by
  obtain ⟨out', done, h1, _, h2, _⟩ := c30_delivers_partial c name chunks hne sched sizes hs
  rw [h1] at h
  injection h with h
  injection h with h3 h4
  rw [← h3, h2 h4, decodeOpen_eq, decode_eq, hend, List.append_nil]

example : (twoByte.finish (twoByte.run twoByte.init [[0], [97, 0], [98]].flatten).1).1 = [] ∧
    (readSizes [1, 1, 1] (charDecodeReader twoByte [] ([[0], [97, 0], [98]].map .ok) [none, some 0])).1 = .ok (['a', 'b'], true) := by
  decide +kernel

/-- C24 and C30 together: a `MarkableReader` over a `CharDecodeReader` is a cursor over the decoded text. -/
theorem c30_markable_partial (c : Codec) (name : Str) (chunks : List (List Byte)) (hne : ∀ x ∈ chunks, x ≠ [])
    (sched : List (Option Nat)) (location : Location) (ops : List ReaderOp) :
    ∃ cur, CursorSteps ⟨location, decodeOpen c c.init chunks.flatten, 0, []⟩ ops
      (performAll ops (Reader.withLocation location (charDecodeReader c name (chunks.map .ok) sched) false)).1 cur :=
  c24_refines_cursor location _ _ (charDecodeReader_delivers c name chunks hne sched) ops

/-! ## C31 -/

/-- C31: reading rules from a byte stream without limit succeeds exactly when parsing the decoded text does,
with the same rules. -/
theorem c31_parse_stream (c : Codec) (name : Str) (chunks : List (List Byte)) (hne : ∀ x ∈ chunks, x ≠ [])
    (sched : List (Option Nat)) (rules : List SyntaxRule) :
    parse c name (chunks.map .ok) 0 sched = .ok rules ↔
      parseStr name (decode c c.init chunks.flatten) = .ok rules := by
  obtain ⟨ps, h1, h2⟩ := parse_pieces c name chunks hne sched
  rw [h2, ← c01_chunk_independence name _ ps h1 rules]
  rfl

/-- C31: if the decoded text has no lexical error, then also the error (or panic) is the same. -/
theorem c31_parse_stream_outcome (c : Codec) (name : Str) (chunks : List (List Byte)) (hne : ∀ x ∈ chunks, x ≠ [])
    (sched : List (Option Nat)) (ts : List Token)
    (hlex : Lexes (Location.new name) (decode c c.init chunks.flatten) ts) :
    parse c name (chunks.map .ok) 0 sched = parseStr name (decode c c.init chunks.flatten) := by
  obtain ⟨ps, h1, h2⟩ := parse_pieces c name chunks hne sched
  rw [h2, ← c03_error_independence_partial name _ ts hlex ps h1]
  rfl

/-- C31: an I/O error never goes unnoticed. -/
theorem c31_io_error (c : Codec) (name : Str) (chunks : List (List Byte)) (hne : ∀ x ∈ chunks, x ≠ [])
    (io : Nat) (more : List (Except Nat (List Byte))) (limit : Nat) (sched : List (Option Nat)) (rules : List SyntaxRule) :
    parse c name (chunks.map .ok ++ .error io :: more) limit sched ≠ .ok rules := by
  suffices h : ∀ (chunks : List (List Byte)), (∀ x ∈ chunks, x ≠ []) → ∀ (d : Decoder c) (l : Lexer) x,
      parseLoop d l (chunks.map .ok ++ .error io :: more) ≠ .ok x by
    intro hp
    obtain ⟨x, hx, _⟩ := Res.bind_eq_ok.mp hp
    exact h chunks hne _ _ x hx
  intro chunks
  induction chunks with
  | nil => intro _ d l x; simp [parseLoop, Res.fail]
  | cons b bs ih =>
    intro hne d l x
    cases b with
    | nil => exact absurd rfl (hne [] (by simp))
    | cons y ys =>
      simp only [List.map_cons, List.cons_append, parseLoop]
      generalize Decoder.push (y :: ys) d = p
      obtain ⟨r, d1⟩ := p
      cases r with
      | ok input =>
        simp only
        generalize Lexer.pushStr input l = q
        obtain ⟨r2, l1⟩ := q
        cases r2 with
        | ok rules =>
          simp only
          intro hp
          obtain ⟨z, hz, _⟩ := Res.bind_eq_ok.mp hp
          exact ih (fun w hw => hne w (by simp [hw])) _ _ z hz
        | _ => simp
      | _ => simp

/-- C31: `Syntax::read_from`. -/
theorem c31_read_syntax (c : Codec) (name : Str) (chunks : List (List Byte)) (hne : ∀ x ∈ chunks, x ≠ [])
    (sched : List (Option Nat)) (syn : Syntax) :
    Syntax.readFrom c name (chunks.map .ok) 0 sched = .ok syn ↔
      ∃ rules, parseStr name (decode c c.init chunks.flatten) = .ok rules ∧ Syntax.new rules = .ok syn := by
  unfold Syntax.readFrom
  constructor
  · intro h
    obtain ⟨rules, h1, h2⟩ := Res.bind_eq_ok.mp h
    exact ⟨rules, (c31_parse_stream c name chunks hne sched rules).mp h1, h2⟩
  · rintro ⟨rules, h1, h2⟩
    exact Res.bind_eq_ok.mpr ⟨rules, (c31_parse_stream c name chunks hne sched rules).mpr h1, h2⟩

/-- A syntax in the two-byte encoding, cut inside characters: `a='x'`. -/
private def bytes : List (List Byte) := [[0], [97, 0, 61, 0], [39, 0, 120, 0, 39]]

example : (∀ x ∈ bytes, x ≠ []) ∧ decode twoByte none bytes.flatten = "a='x'".toList ∧
    ∃ r, parse twoByte [] (bytes.map .ok) 0 [some 1, none] = .ok [r] ∧ r.metaIdentifier = ['a'] ∧
      ∃ syn, Syntax.readFrom twoByte [] (bytes.map .ok) 0 [] = .ok syn := by
  refine ⟨by decide, by decide +kernel, ?_⟩
  have h1 : decode twoByte twoByte.init bytes.flatten = "a='x'".toList := by decide +kernel
  have h2 : parseStr [] "a='x'".toList = .ok [⟨⟨[], 1, 1⟩, ['a'],
      .cons (.cons (.plain (.mk 1 (.terminalString ⟨[], 1, 3⟩ ['x']))) .nil) .nil⟩] := by decide +kernel
  refine ⟨_, (c31_parse_stream twoByte [] bytes (by decide) _ _).mpr (by rw [h1]; exact h2), rfl, _,
    (c31_read_syntax twoByte [] bytes (by decide) _ _).mpr ⟨_, by rw [h1]; exact h2, rfl⟩⟩

end Ebnf.Props
