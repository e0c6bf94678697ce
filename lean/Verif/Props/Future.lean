import Verif.Proofs.FutureMachine
import Verif.Props.Builds
import Verif.Model.Utf8

set_option autoImplicit false

/-! # C108: what has not been asked for does not matter -/

namespace Ebnf.Props

open Ebnf Ebnf.Spec

/-- C108, readers: after any calls on a reader over any byte stream, some of the stream has been taken and the rest is still there.  Unless nothing is left, the
calls return the same, and leave the same reader, whatever else the stream brings after what has been taken. -/
theorem c108_calls (location : Location) (s : Source) (dbg : Bool) (ops : List ReaderOp) :
    ∃ taken, s.rounds = taken ++ (performAll ops (Reader.withLocation location s dbg)).2.source.rounds ∧
      ((performAll ops (Reader.withLocation location s dbg)).2.source.rounds ≠ [] →
        ∀ rest, performAll ops (Reader.withLocation location { s with rounds := taken ++ rest } dbg) =
          ((performAll ops (Reader.withLocation location s dbg)).1, withFuture (performAll ops (Reader.withLocation location s dbg)).2 rest)) := by
  obtain ⟨_, h⟩ := Future.performAll_causal ops (Reader.withLocation location s dbg) (Nat.zero_le _)
  exact h

/-- A reader has answered six calls and not yet seen the I/O error. -/
example : (performAll [.read, .mark, .peek 2, .readChars 5, .resetToMark 1, .prefixMatches ['b']]
      (Reader.withLocation (Location.new []) ⟨[], [.ok ['a', 'b'], .ok [], .ok ['c'], .error 5, .ok ['d']], Location.new []⟩ false)).2.source.rounds =
    [.error 5, .ok ['d']] := by decide +kernel

/-- C108: each call of a reader is such a method, and so is everything that is made of them. -/
theorem c108_methods : (Causal Reader.read ∧ (∀ n, Causal (Reader.readChars n)) ∧ Causal Reader.readAll ∧ (∀ n, Causal (Reader.peek n)) ∧
      (∀ p, Causal (Reader.prefixMatches p)) ∧ Causal Reader.isEof ∧ (∀ n, Causal (Reader.skip n)) ∧ Causal Reader.mark ∧
      (∀ m, Causal (Reader.resetToMark m)) ∧ (∀ m, Causal (Reader.unmark m)) ∧ Causal Reader.location) ∧
    (∀ (α : Type) (x : Res α), Causal (RM.lift x)) ∧
    ∀ (α β : Type) (f : RM Reader α) (k : α → RM Reader β), Causal f → (∀ a, Causal (k a)) → Causal (f >>= k) :=
  ⟨⟨Future.causal_read, Future.causal_readChars, Future.causal_readAll, Future.causal_peek, Future.causal_prefixMatches, Future.causal_isEof,
    Future.causal_skip, Future.causal_mark, Future.causal_reset, Future.causal_unmark, Future.causal_location⟩, fun _ => Future.causal_lift,
    fun _ _ _ _ => Future.causal_bind⟩

/-- A method that would know how much is to come is not. -/
example : ¬ Causal (fun r => (.ok r.source.rounds.length, r) : RM Reader Nat) := by
  intro h
  obtain ⟨_, t, h1, h2⟩ := h (Reader.withLocation (Location.new []) ⟨[], [.ok ['a']], Location.new []⟩ false) (Nat.le_refl _)
  have e : t = [] := List.append_cancel_right (h1.symm.trans (List.nil_append _).symm)
  subst e
  have h3 := h2 (by simp [Reader.withLocation]) []
  rw [Prod.mk.injEq] at h3
  have h4 := h3.1
  simp [withFuture, Reader.withLocation] at h4

/-- C108: the scanners that come with the library are such methods. -/
theorem c108_library {scanner : SpecialScanner} (h : LibraryScanner scanner) : ∀ definition, Causal (scanner.scan definition) :=
  Future.library_causal h

/-- A parser has only the scanners it was given. -/
private theorem given {rules : List SyntaxRule} {s : Syntax} {config : Config} {g : Graph} {query : Str} {m : Machine}
    (h1 : Syntax.new rules = .ok s) (h2 : ∀ r ∈ rules, RuleShape r) (h3 : Graph.compile s config = .ok g)
    (h4 : Machine.new g query = .ok (some m)) (hc : ∀ l t d, Causal ((config l t).scan d)) : CausalScanners m.graph := by
  obtain ⟨g', h8, h9⟩ := compile_ok (G := ⟨rules, fun _ _ => defaultRecognizer, fun l t => (config l t).symbol⟩)
    (config := config) (fun _ _ => rfl) h1 h2
  rw [h3] at h8; injection h8 with h8; subst h8
  have hm : m.graph = g := by
    unfold Machine.new at h4
    cases ha : g.indexOfLabel ('$' :: query) with
    | none => rw [ha] at h4; simp at h4
    | some a =>
      rw [ha] at h4
      simp only at h4
      cases hn : g.canonicalName query with
      | none => rw [hn] at h4; simp at h4
      | some n => rw [hn] at h4; simp at h4; subst h4; rfl
  subst hm
  intro addr instr scanner hi hst
  obtain ⟨_, hx⟩ := h9.closed instr (List.mem_of_getElem? hi)
  rw [hst] at hx
  obtain ⟨l, t, rfl⟩ := hx
  exact hc l t

/-- C108, parsers: a parse on a reader that any calls have left, over any byte stream, returns and leaves the same whatever the stream brings after what the calls
and the parse have taken, unless they have taken all. -/
theorem c108_parse {rules : List SyntaxRule} {s : Syntax} {config : Config} {g : Graph} {query : Str} {m : Machine}
    (h1 : Syntax.new rules = .ok s) (h2 : ∀ r ∈ rules, RuleShape r) (h3 : Graph.compile s config = .ok g)
    (h4 : Machine.new g query = .ok (some m)) (hc : ∀ l t d, Causal ((config l t).scan d)) (location : Location) (source : Source) (dbg : Bool)
    (ops : List ReaderOp) (fuel : Nat) :
    ∃ taken, source.rounds = taken ++ (m.parse fuel (performAll ops (Reader.withLocation location source dbg)).2).2.source.rounds ∧
      ((m.parse fuel (performAll ops (Reader.withLocation location source dbg)).2).2.source.rounds ≠ [] →
        ∀ rest, m.parse fuel (performAll ops (Reader.withLocation location { source with rounds := taken ++ rest } dbg)).2 =
          ((m.parse fuel (performAll ops (Reader.withLocation location source dbg)).2).1,
            withFuture (m.parse fuel (performAll ops (Reader.withLocation location source dbg)).2).2 rest)) := by
  obtain ⟨a1, t1, a2, a3⟩ := Future.performAll_causal ops (Reader.withLocation location source dbg) (Nat.zero_le _)
  obtain ⟨_, t2, b2, b3⟩ := Future.causal_parse (given h1 h2 h3 h4 hc) fuel _ a1
  refine ⟨t1 ++ t2, by rw [List.append_assoc, ← b2]; exact a2, fun hn rest => ?_⟩
  have hn1 : (performAll ops (Reader.withLocation location source dbg)).2.source.rounds ≠ [] := by rw [b2]; simp [hn]
  have h := a3 hn1 (t2 ++ rest)
  have e : withFuture (Reader.withLocation location source dbg) (t1 ++ (t2 ++ rest)) =
      Reader.withLocation location { source with rounds := (t1 ++ t2) ++ rest } dbg := by rw [List.append_assoc]; rfl
  rw [e] at h
  rw [h]
  exact b3 hn rest

/-- A parser for the examples. -/
private theorem made (grammar : String) (h : (sampleMachine .default grammar).isSome = true) :
    ∃ rules start m s g, Syntax.new rules = .ok s ∧ (∀ r ∈ rules, RuleShape r) ∧ Graph.compile s .default = .ok g ∧
      Machine.new g start = .ok (some m) ∧ (∀ l t d, Causal ((Config.default l t).scan d)) ∧
      ∀ r, (sampleMachine .default grammar).map (fun x => ((x.2.2.parse 100 r).1, (x.2.2.parse 100 r).2.source.rounds)) =
        some ((m.parse 100 r).1, (m.parse 100 r).2.source.rounds) := by
  cases hm : sampleMachine .default grammar with
  | none => rw [hm] at h; simp at h
  | some x =>
    obtain ⟨rules, start, m⟩ := x
    obtain ⟨h1, s, g, h2, h3, h4, h5⟩ := sample_made hm
    exact ⟨rules, start.metaIdentifier, m, s, g, h2, fun r hr => (c12_shape [] _ _ h1 r hr).1, h3, h4,
      fun _ t => Future.library_causal (.default t), fun _ => rfl⟩

/-- The parser of `A={'a'},'b';` rejects `aaax23456789` after two deliveries; it has not seen the I/O error that comes next. -/
example : ∃ rules start m s g, Syntax.new rules = .ok s ∧ (∀ r ∈ rules, RuleShape r) ∧ Graph.compile s .default = .ok g ∧
    Machine.new g start = .ok (some m) ∧ (∀ l t d, Causal ((Config.default l t).scan d)) ∧
    (m.parse 100 (performAll [.read] (Reader.withLocation (Location.new [])
      ⟨[], [.ok "aa".toList, .ok "ax23456789".toList, .error 5, .ok ['b']], Location.new []⟩ false)).2).1 =
        .fail ⟨[], 1, 4⟩ (.expected "\"b\"".toList (.text "x2345678".toList true)) ∧
    (m.parse 100 (performAll [.read] (Reader.withLocation (Location.new [])
      ⟨[], [.ok "aa".toList, .ok "ax23456789".toList, .error 5, .ok ['b']], Location.new []⟩ false)).2).2.source.rounds = [.error 5, .ok ['b']] := by
  obtain ⟨rules, start, m, s, g, h1, h2, h3, h4, h5, h6⟩ := made "A={'a'},'b';" (by decide +kernel)
  refine ⟨rules, start, m, s, g, h1, h2, h3, h4, h5, ?_⟩
  have h7 := h6 (performAll [.read] (Reader.withLocation (Location.new [])
    ⟨[], [.ok "aa".toList, .ok "ax23456789".toList, .error 5, .ok ['b']], Location.new []⟩ false)).2
  have h8 : (sampleMachine .default "A={'a'},'b';").map (fun x => ((x.2.2.parse 100 (performAll [.read] (Reader.withLocation (Location.new [])
      ⟨[], [.ok "aa".toList, .ok "ax23456789".toList, .error 5, .ok ['b']], Location.new []⟩ false)).2).1,
      (x.2.2.parse 100 (performAll [.read] (Reader.withLocation (Location.new [])
      ⟨[], [.ok "aa".toList, .ok "ax23456789".toList, .error 5, .ok ['b']], Location.new []⟩ false)).2).2.source.rounds)) =
      some (.fail ⟨[], 1, 4⟩ (.expected "\"b\"".toList (.text "x2345678".toList true)), [.error 5, .ok ['b']]) := by decide +kernel
  rw [h7] at h8
  injection h8 with h8
  rw [Prod.mk.injEq] at h8
  exact h8

private theorem decodeRounds_take {c : Codec} (chunks : List (Except Nat (List Byte))) : ∀ (d : Decoder c) (n : Nat), n < (decodeRounds d chunks).length →
    n < chunks.length ∧ ∀ other, ∃ more, decodeRounds d (chunks.take n ++ other) = (decodeRounds d chunks).take n ++ more := by
  induction chunks with
  | nil => intro d n hn; simp [decodeRounds] at hn
  | cons ch chunks ih =>
    intro d n hn
    cases n with
    | zero => exact ⟨Nat.succ_pos _, fun other => ⟨_, rfl⟩⟩
    | succ n =>
      cases ch with
      | error e =>
        simp only [decodeRounds, List.length_cons, Nat.succ_lt_succ_iff] at hn ⊢
        obtain ⟨h1, h2⟩ := ih d n hn
        refine ⟨h1, fun other => ?_⟩
        obtain ⟨more, h3⟩ := h2 other
        exact ⟨more, by simp only [List.take_succ_cons, List.cons_append, decodeRounds, h3]⟩
      | ok bytes =>
        cases bytes with
        | nil => simp [decodeRounds] at hn
        | cons b bs =>
          have step : ∀ cs, decodeRounds d (.ok (b :: bs) :: cs) =
              (match Decoder.push (b :: bs) d with | (.ok out, _) => .ok out | _ => .error 0) :: decodeRounds (Decoder.push (b :: bs) d).2 cs := by
            intro cs
            simp only [decodeRounds]
            generalize Decoder.push (b :: bs) d = x
            obtain ⟨x, d'⟩ := x
            cases x <;> rfl
          rw [step] at hn ⊢
          simp only [List.length_cons, Nat.succ_lt_succ_iff] at hn ⊢
          obtain ⟨h1, h2⟩ := ih _ n hn
          refine ⟨h1, fun other => ?_⟩
          obtain ⟨more, h3⟩ := h2 other
          exact ⟨more, by rw [List.take_succ_cons, List.cons_append, step, h3]; rfl⟩

/-- C108, bytes: a parse of a byte stream in any encoding that leaves some of the stream's deliveries alone returns the same for every other stream that begins
with the deliveries it has taken. -/
theorem c108_bytes {rules : List SyntaxRule} {s : Syntax} {config : Config} {g : Graph} {query : Str} {m : Machine}
    (h1 : Syntax.new rules = .ok s) (h2 : ∀ r ∈ rules, RuleShape r) (h3 : Graph.compile s config = .ok g)
    (h4 : Machine.new g query = .ok (some m)) (hc : ∀ l t d, Causal ((config l t).scan d)) (location : Location) (c : Codec) (name : Str)
    (chunks : List (Except Nat (List Byte))) (sched : List (Option Nat)) (dbg : Bool) (fuel : Nat)
    (hleft : (m.parse fuel (Reader.withLocation location (charDecodeReader c name chunks sched) dbg)).2.source.rounds ≠ []) :
    ∃ n, n < chunks.length ∧
      n + (m.parse fuel (Reader.withLocation location (charDecodeReader c name chunks sched) dbg)).2.source.rounds.length =
        (charDecodeReader c name chunks sched).rounds.length ∧
      ∀ other, (m.parse fuel (Reader.withLocation location (charDecodeReader c name (chunks.take n ++ other) sched) dbg)).1 =
        (m.parse fuel (Reader.withLocation location (charDecodeReader c name chunks sched) dbg)).1 := by
  obtain ⟨taken, e1, e2⟩ := c108_parse h1 h2 h3 h4 hc location (charDecodeReader c name chunks sched) dbg [] fuel
  simp only [performAll] at e1 e2
  have hpos := List.length_pos_iff.mpr hleft
  have hlen := congrArg List.length e1
  rw [List.length_append] at hlen
  have hlen' : (decodeRounds (Decoder.new c name false sched) chunks).length = taken.length +
    (m.parse fuel (Reader.withLocation location (charDecodeReader c name chunks sched) dbg)).2.source.rounds.length := hlen
  obtain ⟨f1, f2⟩ := decodeRounds_take chunks (Decoder.new c name false sched) taken.length (by omega)
  refine ⟨taken.length, f1, by omega, fun other => ?_⟩
  obtain ⟨more, f3⟩ := f2 other
  have e3 := e2 hleft more
  have e : (decodeRounds (Decoder.new c name false sched) chunks).take taken.length = taken := by
    have : decodeRounds (Decoder.new c name false sched) chunks = _ := e1
    rw [this, List.take_left]
  rw [e] at f3
  have e4 : charDecodeReader c name (chunks.take taken.length ++ other) sched =
      { charDecodeReader c name chunks sched with rounds := taken ++ more } := by
    simp only [charDecodeReader, f3]
  rw [e4, e3]

/-- The same with bytes in UTF-8: `aaax23456789` in two deliveries that cut nothing, an I/O error, and more. -/
example : ∃ rules start m s g, Syntax.new rules = .ok s ∧ (∀ r ∈ rules, RuleShape r) ∧ Graph.compile s .default = .ok g ∧
    Machine.new g start = .ok (some m) ∧ (∀ l t d, Causal ((Config.default l t).scan d)) ∧
    (m.parse 100 (Reader.withLocation (Location.new []) (charDecodeReader utf8Decoder []
      [.ok [97, 97, 97, 120], .ok [50, 51, 52, 53, 54, 55, 56, 57], .error 5, .ok [98]] []) false)).2.source.rounds ≠ [] := by
  obtain ⟨rules, start, m, s, g, h1, h2, h3, h4, h5, h6⟩ := made "A={'a'},'b';" (by decide +kernel)
  refine ⟨rules, start, m, s, g, h1, h2, h3, h4, h5, ?_⟩
  have h7 := h6 (Reader.withLocation (Location.new []) (charDecodeReader utf8Decoder []
    [.ok [97, 97, 97, 120], .ok [50, 51, 52, 53, 54, 55, 56, 57], .error 5, .ok [98]] []) false)
  have h8 : ((sampleMachine .default "A={'a'},'b';").map (fun x => ((x.2.2.parse 100 (Reader.withLocation (Location.new []) (charDecodeReader utf8Decoder []
      [.ok [97, 97, 97, 120], .ok [50, 51, 52, 53, 54, 55, 56, 57], .error 5, .ok [98]] []) false)).1,
      (x.2.2.parse 100 (Reader.withLocation (Location.new []) (charDecodeReader utf8Decoder []
      [.ok [97, 97, 97, 120], .ok [50, 51, 52, 53, 54, 55, 56, 57], .error 5, .ok [98]] []) false)).2.source.rounds))).map (fun x => x.2.length) = some 2 := by
    decide +kernel
  rw [h7] at h8
  intro h9
  rw [h9] at h8
  simp at h8

private theorem parseLoop_decided {c : Codec} (first : List (Except Nat (List Byte))) : ∀ (d : Decoder c) (l : Lexer),
    (∃ x, ∀ more, parseLoop d l (first ++ more) = x) ∨
      ∀ code more, ∃ loc, parseLoop d l (first ++ .error code :: more) = .fail loc (.ioError code) := by
  induction first with
  | nil => intro d l; exact .inr fun code more => ⟨_, rfl⟩
  | cons ch first ih =>
    intro d l
    cases ch with
    | error e => exact .inl ⟨_, fun more => rfl⟩
    | ok bytes =>
      cases bytes with
      | nil => exact .inl ⟨_, fun more => rfl⟩
      | cons b bs =>
        simp only [List.cons_append, parseLoop]
        cases Decoder.push (b :: bs) d with
        | mk x d' =>
        cases x with
        | ok input =>
          simp only
          cases Lexer.pushStr input l with
          | mk y l' =>
          cases y with
          | ok rules =>
            simp only
            rcases ih d' l' with ⟨x, h⟩ | h
            · exact .inl ⟨_, fun more => by rw [h more]⟩
            · refine .inr fun code more => ?_
              obtain ⟨loc, h⟩ := h code more
              exact ⟨loc, by rw [h]; rfl⟩
          | err e => exact .inl ⟨_, fun more => rfl⟩
          | panic e => exact .inl ⟨_, fun more => rfl⟩
          | diverge => exact .inl ⟨_, fun more => rfl⟩
        | err e => exact .inl ⟨_, fun more => rfl⟩
        | panic e => exact .inl ⟨_, fun more => rfl⟩
        | diverge => exact .inl ⟨_, fun more => rfl⟩

/-- C108, grammars: after any first deliveries of a byte stream either the outcome of reading a grammar is decided, whatever else the stream brings, or the
stream is asked again: an I/O error is then the outcome. -/
theorem c108_grammar (c : Codec) (name : Str) (first : List (Except Nat (List Byte))) (maxBufferSize : Nat) (sched : List (Option Nat)) :
    (∃ x, ∀ more, Syntax.readFrom c name (first ++ more) maxBufferSize sched = x) ∨
      ∀ code more, ∃ loc, Syntax.readFrom c name (first ++ .error code :: more) maxBufferSize sched = .fail loc (.ioError code) := by
  unfold Syntax.readFrom parse
  rcases parseLoop_decided first (Decoder.new c name false sched) (Lexer.withCapacity name maxBufferSize) with ⟨x, h⟩ | h
  · exact .inl ⟨_, fun more => by rw [h more]⟩
  · refine .inr fun code more => ?_
    obtain ⟨loc, h⟩ := h code more
    exact ⟨loc, by rw [h]; rfl⟩

/-- Both cases occur: `a==;b` is an error whatever follows; after `a=` the stream is asked for more. -/
example : (∀ more, Syntax.readFrom utf8Decoder [] ([.ok [97, 61, 61, 59, 98]] ++ more) 1024 [] =
      Syntax.readFrom utf8Decoder [] ([.ok [97, 61, 61, 59, 98]] ++ [.error 5]) 1024 []) ∧
    ∀ code more, ∃ loc, Syntax.readFrom utf8Decoder [] ([.ok [97, 61]] ++ .error code :: more) 1024 [] = .fail loc (.ioError code) := by
  have h1 : (match Syntax.readFrom utf8Decoder [] ([.ok [97, 61, 61, 59, 98]] ++ [.error 5]) 1024 [] with
      | .err e => decide (e.msg = .ioError 5) | _ => true) = false := by decide +kernel
  have h2 : (match Syntax.readFrom utf8Decoder [] ([.ok [97, 61]] ++ [.error 5]) 1024 [] with
      | .err e => decide (e.msg = .ioError 5) | _ => false) = true := by decide +kernel
  have h3 : (match Syntax.readFrom utf8Decoder [] ([.ok [97, 61]] ++ [.error 6]) 1024 [] with
      | .err e => decide (e.msg = .ioError 5) | _ => false) = false := by decide +kernel
  constructor
  · rcases c108_grammar utf8Decoder [] [.ok [97, 61, 61, 59, 98]] 1024 [] with ⟨x, h⟩ | h
    · intro more
      rw [h more, h [.error 5]]
    · obtain ⟨loc, h⟩ := h 5 []
      rw [h] at h1
      simp [Res.fail] at h1
  · rcases c108_grammar utf8Decoder [] [.ok [97, 61]] 1024 [] with ⟨x, h⟩ | h
    · rw [h] at h2 h3
      rw [h2] at h3
      simp at h3
    · exact h

end Ebnf.Props
