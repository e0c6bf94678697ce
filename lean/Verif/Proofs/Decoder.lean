import Verif.Spec.Decoding
import Verif.Spec.Driver
import Verif.Spec.Cursor
import Verif.Proofs.Stream

set_option autoImplicit false

/-! # Lemmas about the decoder -/

namespace Ebnf

open Spec

variable {c : Codec}

theorem run_append (st : c.State) (a b : List Byte) :
    c.run st (a ++ b) = ((c.run (c.run st a).1 b).1, (c.run st a).2.1 ++ (c.run (c.run st a).1 b).2.1,
      (c.run st a).2.2 || (c.run (c.run st a).1 b).2.2) := by
  induction a generalizing st with
  | nil => simp [Codec.run]
  | cons x xs ih => simp [Codec.run, ih, Bool.or_assoc]

theorem decodeOpen_eq (st : c.State) (bs : List Byte) : decodeOpen c st bs = (c.run st bs).2.1 := by
  induction bs generalizing st with
  | nil => rfl
  | cons b bs ih => simp [decodeOpen, Codec.run, ih]

theorem decode_eq (st : c.State) (bs : List Byte) :
    decode c st bs = (c.run st bs).2.1 ++ (c.finish (c.run st bs).1).1 := by
  induction bs generalizing st with
  | nil => rfl
  | cons b bs ih => simp [decode, Codec.run, ih]

theorem garbled_eq (st : c.State) (bs : List Byte) :
    garbled c st bs = ((c.run st bs).2.2 || (c.finish (c.run st bs).1).2) := by
  induction bs generalizing st with
  | nil => simp [garbled, Codec.run]
  | cons b bs ih => simp [garbled, Codec.run, ih, Bool.or_assoc]

/-- What a conversion reports as malformed. -/
def bad (c : Codec) (flush : Bool) (st : c.State) (bs : List Byte) : Bool :=
  (c.run st bs).2.2 || (flush && (c.finish (c.run st bs).1).2)

/-- What a conversion outputs. -/
def outOf (c : Codec) (flush : Bool) (st : c.State) (bs : List Byte) : Str :=
  (c.run st bs).2.1 ++ if flush then (c.finish (c.run st bs).1).1 else []

theorem decodeToString_spec (st : c.State) (src : List Byte) (last : Bool) (cut : Option Nat) :
    Decoder.decodeToString c st src last cut =
      (true, src.length, bad c last st src, outOf c last st src, (c.run st src).1) ∨
    ∃ a b, src = a ++ b ∧ a ≠ [] ∧
      Decoder.decodeToString c st src last cut = (false, a.length, (c.run st a).2.2, (c.run st a).2.1, (c.run st a).1) := by
  have hw : (if last then (true, src.length, (c.run st src).2.2 || (c.finish (c.run st src).1).2,
        (c.run st src).2.1 ++ (c.finish (c.run st src).1).1, (c.run st src).1)
      else (true, src.length, (c.run st src).2.2, (c.run st src).2.1, (c.run st src).1) : Bool × Nat × Bool × Str × c.State) =
      (true, src.length, bad c last st src, outOf c last st src, (c.run st src).1) := by
    cases last <;> simp [bad, outOf]
  cases cut with
  | none => cases src <;> exact .inl hw
  | some k =>
    cases src with
    | nil => exact .inl hw
    | cons x xs =>
      refine .inr ⟨(x :: xs).take (k + 1), (x :: xs).drop (k + 1), by simp, by simp, ?_⟩
      have : (x :: xs).take (min (k + 1) (x :: xs).length) = (x :: xs).take (k + 1) := by
        rw [← List.take_take, List.take_length]
      simp only [Decoder.decodeToString, this, List.length_take]

theorem convertLoop_spec (flush stop : Bool) : ∀ (fuel : Nat) (st : c.State) (sched : List (Option Nat))
    (rest : List Byte) (position : Nat) (output : Str), rest.length < fuel →
    ((stop && bad c flush st rest) = false → ∃ sched', Decoder.convertLoop c flush stop fuel st sched rest position output =
      .ok (false, true, position + rest.length, output ++ outOf c flush st rest, (c.run st rest).1, sched')) ∧
    ((stop && bad c flush st rest) = true → ∃ i p o st' sched',
      Decoder.convertLoop c flush stop fuel st sched rest position output = .ok (true, i, p, o, st', sched')) := by
  intro fuel
  induction fuel with
  | zero => intro st sched rest position output h; omega
  | succ fuel ih =>
    intro st sched rest position output h
    rcases decodeToString_spec (c := c) st rest flush sched.head?.join with hd | ⟨a, b, rfl, ha, hd⟩
    · simp only [Decoder.convertLoop, hd, Bool.true_or, if_true]
      rw [Bool.and_comm]
      constructor
      · intro hb
        exact ⟨sched.tail, by rw [hb]; rfl⟩
      · intro hb
        exact ⟨_, _, _, _, _, by rw [if_pos hb]⟩
    · have hrun := run_append (c := c) st a b
      have hal : 0 < a.length := List.length_pos_iff.mpr ha
      have hbad : bad c flush st (a ++ b) = ((c.run st a).2.2 || bad c flush (c.run st a).1 b) := by
        simp only [bad, hrun, Bool.or_assoc]
      have hout : outOf c flush st (a ++ b) = (c.run st a).2.1 ++ outOf c flush (c.run st a).1 b := by
        simp only [outOf, hrun, List.append_assoc]
      have hnb : (a.length == 0) = false := by simp [ha]
      simp only [Decoder.convertLoop, hd, Bool.false_or, hnb, Bool.false_eq_true, if_false, List.drop_left]
      have ih' := ih (c.run st a).1 sched.tail b (position + a.length) (output ++ (c.run st a).2.1)
        (by rw [List.length_append] at h; omega)
      rw [hbad, hout]
      by_cases hg : ((c.run st a).2.2 && stop) = true
      · rw [if_pos hg]
        constructor
        · intro h'
          rw [Bool.and_eq_true] at hg
          rw [hg.1, hg.2] at h'
          simp at h'
        · intro _
          exact ⟨_, _, _, _, _, rfl⟩
      · rw [if_neg hg]
        have hstop : (stop && ((c.run st a).2.2 || bad c flush (c.run st a).1 b)) = (stop && bad c flush (c.run st a).1 b) := by
          revert hg
          cases stop <;> cases (c.run st a).2.2 <;> simp
        rw [hstop, hrun]
        constructor
        · intro h'
          obtain ⟨s', hs'⟩ := ih'.1 h'
          refine ⟨s', ?_⟩
          rw [hs', List.append_assoc, List.length_append, Nat.add_assoc]
        · exact ih'.2

theorem lived_open (life : Life) (src : List Byte) (inputEmpty : Bool) :
    Decoder.lived life src false inputEmpty ≠ .finished := by
  rw [Decoder.lived]
  by_cases h : life = .fresh ∧ src = []
  · rw [if_pos h]; intro h; cases h
  · rw [if_neg h, Bool.false_and, if_neg Bool.false_ne_true]; intro h; cases h

/-- A decoder between two calls: it has not finished and nothing is left in its byte buffer. -/
structure Ready (d : Decoder c) (st : c.State) (stop : Bool) : Prop where
  state : d.state = st
  buffer : d.buffer = []
  stop : d.stopWithGarbled = stop
  unfinished : d.life ≠ .finished

theorem convert_spec {d : Decoder c} {st : c.State} {stop : Bool} (h : Ready d st stop) (bytes : List Byte) (flush : Bool) :
    ((stop && bad c flush st bytes) = false → ∃ d', Decoder.convert bytes flush d = (.ok (outOf c flush st bytes), d') ∧
      (flush = false → Ready d' (c.run st bytes).1 stop)) ∧
    ((stop && bad c flush st bytes) = true → ∃ e d', Decoder.convert bytes flush d = (.err e, d')) := by
  obtain ⟨rfl, h2, rfl, h4⟩ := h
  have := convertLoop_spec (c := c) flush d.stopWithGarbled (bytes.length + 1) d.state d.sched bytes 0 [] (by omega)
  constructor
  · intro hb
    obtain ⟨s', hs⟩ := this.1 hb
    have hc : Decoder.convert bytes flush d = (.ok (outOf c flush d.state bytes),
        { d with state := (c.run d.state bytes).1, sched := s', location := d.location.pushStr (outOf c flush d.state bytes),
                 life := Decoder.lived d.life bytes flush true, buffer := bytes.drop (0 + bytes.length) }) := by
      simp only [Decoder.convert, h2, List.nil_append, hs, if_neg h4]
    exact ⟨_, hc, fun hf => ⟨rfl, by simp, rfl, by subst hf; exact lived_open _ _ _⟩⟩
  · intro hb
    obtain ⟨i, p, o, st', s', hs⟩ := this.2 hb
    exact ⟨_, _, by simp only [Decoder.convert, h2, List.nil_append, hs, if_neg h4]; rfl⟩

theorem new_ready (c : Codec) (name : Str) (stop : Bool) (sched : List (Option Nat)) :
    Ready (Decoder.new c name stop sched) c.init stop := ⟨rfl, rfl, rfl, (fun h => by cases h)⟩

/-- One successful push. -/
theorem push_spec {d : Decoder c} {st : c.State} (h : Ready d st false) (bytes : List Byte) :
    ∃ d', Decoder.push bytes d = (.ok (decodeOpen c st bytes), d') ∧ Ready d' (c.run st bytes).1 false := by
  obtain ⟨d', h1, h2⟩ := (convert_spec h bytes false).1 rfl
  exact ⟨d', by rw [Decoder.push, h1, decodeOpen_eq]; simp [outOf], h2 rfl⟩

theorem flush_spec {d : Decoder c} {st : c.State} (h : Ready d st false) :
    ∃ d', Decoder.flush d = (.ok (c.finish st).1, d') := by
  obtain ⟨d', h1, h2⟩ := (convert_spec h [] true).1 rfl
  exact ⟨d', by rw [Decoder.flush, h1]; rfl⟩

theorem pushFragments_spec (fs : List (List Byte)) {d : Decoder c} {st : c.State} {stop : Bool} (h : Ready d st stop) :
    ((stop && garbled c st fs.flatten) = false → (pushFragments fs d).1 = .ok (decode c st fs.flatten)) ∧
    ((stop && garbled c st fs.flatten) = true → ∃ e, (pushFragments fs d).1 = .err e) := by
  induction fs generalizing d st with
  | nil =>
    have := convert_spec h [] true
    have hb : bad c true st [] = garbled c st [] := by simp [bad, garbled, Codec.run]
    rw [hb] at this
    refine ⟨fun h1 => ?_, fun h1 => ?_⟩
    · obtain ⟨d', h2, _⟩ := this.1 h1
      simp [pushFragments, Decoder.flush, h2, outOf, Codec.run, decode]
    · obtain ⟨e, d', h2⟩ := this.2 h1
      exact ⟨e, by simp [pushFragments, Decoder.flush, h2]⟩
  | cons f fs ih =>
    have := convert_spec h f false
    have hb : bad c false st f = (c.run st f).2.2 := by simp [bad]
    rw [hb] at this
    have hg : garbled c st (f :: fs).flatten = ((c.run st f).2.2 || garbled c (c.run st f).1 fs.flatten) := by
      rw [List.flatten_cons, garbled_eq, garbled_eq, run_append]; simp [Bool.or_assoc]
    have hd : decode c st (f :: fs).flatten = (c.run st f).2.1 ++ decode c (c.run st f).1 fs.flatten := by
      rw [List.flatten_cons, decode_eq, decode_eq, run_append]; simp
    rw [hg, hd]
    simp only [pushFragments, RM.bind_run, Decoder.push]
    cases hs : (stop && (c.run st f).2.2) with
    | true =>
      obtain ⟨e, d', h2⟩ := this.2 hs
      rw [h2]
      refine ⟨fun h1 => ?_, fun h1 => ⟨e, rfl⟩⟩
      rw [Bool.and_eq_true] at hs
      simp [hs.1, hs.2] at h1
    | false =>
      obtain ⟨d', h2, h3⟩ := this.1 hs
      rw [h2]
      have hs' : (stop && ((c.run st f).2.2 || garbled c (c.run st f).1 fs.flatten)) =
          (stop && garbled c (c.run st f).1 fs.flatten) := by
        revert hs
        cases stop <;> cases (c.run st f).2.2 <;> simp
      rw [hs']
      have ih' := ih (h3 rfl)
      refine ⟨fun h1 => ?_, fun h1 => ?_⟩
      · have := ih'.1 h1
        simp only
        rw [show pushFragments fs d' = (.ok _, (pushFragments fs d').2) from Prod.ext this rfl]
        simp [outOf]
      · obtain ⟨e, h4⟩ := ih'.2 h1
        simp only
        rw [show pushFragments fs d' = (.err e, (pushFragments fs d').2) from Prod.ext h4 rfl]
        exact ⟨e, rfl⟩

/-! ## `CharDecodeReader` -/

theorem decodeRounds_spec {d : Decoder c} {st : c.State} (h : Ready d st false) (chunks : List (List Byte))
    (hne : ∀ x ∈ chunks, x ≠ []) :
    ∃ pieces : List Str, decodeRounds d (chunks.map .ok) = pieces.map .ok ∧
      pieces.flatten = decodeOpen c st chunks.flatten := by
  induction chunks generalizing d st with
  | nil => exact ⟨[], rfl, rfl⟩
  | cons x xs ih =>
    obtain ⟨d', h1, h2⟩ := push_spec h x
    obtain ⟨ps, h3, h4⟩ := ih h2 fun y hy => hne y (by simp [hy])
    have hx := hne x (by simp)
    refine ⟨decodeOpen c st x :: ps, ?_, ?_⟩
    · cases x with
      | nil => exact absurd rfl hx
      | cons b bs => simp only [List.map_cons, decodeRounds, h1, h3]
    · rw [List.flatten_cons, h4, List.flatten_cons, decodeOpen_eq, decodeOpen_eq, decodeOpen_eq, run_append]

theorem charDecodeReader_delivers (c : Codec) (name : Str) (chunks : List (List Byte)) (hne : ∀ x ∈ chunks, x ≠ [])
    (sched : List (Option Nat)) :
    Delivers (charDecodeReader c name (chunks.map .ok) sched) (decodeOpen c c.init chunks.flatten) := by
  obtain ⟨ps, h1, h2⟩ := decodeRounds_spec (new_ready c name false sched) chunks hne
  exact ⟨ps, h1, by rw [← h2]; rfl⟩

/-- One `read_chars` of a source that delivers the text. -/
theorem source_read {s : Source} {text : Str} (h : Delivers s text) (n : Nat) (hn : 0 < n) :
    ∃ cs s' text', Source.readChars n s = (.ok cs, s') ∧ text = cs ++ text' ∧ Delivers s' text' ∧
      (cs = [] → text = []) := by
  obtain ⟨pieces, h1, h2⟩ := h
  unfold Source.readChars
  by_cases hp : s.pending = []
  · rw [hp]
    simp only [List.isEmpty_nil, Bool.not_true, Bool.false_eq_true, if_false]
    rw [hp, List.nil_append] at h2
    subst h2
    rw [h1]
    generalize s.location = loc
    clear h1 hp
    induction pieces with
    | nil => exact ⟨[], _, [], rfl, rfl, ⟨[], rfl, rfl⟩, fun _ => rfl⟩
    | cons p ps ih =>
      simp only [List.map_cons, Source.readRounds]
      cases p with
      | nil => simpa using ih
      | cons x xs =>
        simp only [List.isEmpty_cons, Bool.false_eq_true, if_false]
        refine ⟨_, _, (x :: xs).drop n ++ ps.flatten, rfl, ?_, ⟨ps, rfl, rfl⟩, ?_⟩
        · rw [← List.append_assoc, List.take_append_drop]; simp
        · intro he
          cases n with
          | zero => omega
          | succ n => simp at he
  · have : s.pending.isEmpty = false := by simpa using hp
    rw [this]
    simp only [Bool.not_false, if_true]
    refine ⟨_, _, s.pending.drop n ++ pieces.flatten, rfl, ?_, ⟨pieces, h1, rfl⟩, ?_⟩
    · rw [← List.append_assoc, List.take_append_drop, h2]
    · intro he
      cases n with
      | zero => omega
      | succ n => simp at he; exact absurd he hp

theorem readSizes_spec (ns : List Nat) (hn : ∀ n ∈ ns, 0 < n) : ∀ {s : Source} {text : Str}, Delivers s text →
    ∃ out done s', readSizes ns s = (.ok (out, done), s') ∧ out <+: text ∧ (done = true → out = text) ∧
      (text.length < ns.length → done = true) := by
  induction ns with
  | nil => exact fun {s text} _ => ⟨[], false, s, rfl, List.nil_prefix, by simp, by simp⟩
  | cons n ns ih =>
    intro s text h
    obtain ⟨cs, s1, text1, h1, h2, h3, h4⟩ := source_read h n (hn n (by simp))
    obtain ⟨out, done, s2, h5, h6, h7, h8⟩ := ih (fun m hm => hn m (by simp [hm])) h3
    simp only [readSizes, RM.bind_run, h1]
    cases cs with
    | nil =>
      have := h4 rfl
      subst this
      exact ⟨[], true, s1, rfl, List.nil_prefix, fun _ => rfl, fun _ => rfl⟩
    | cons x xs =>
      simp only [List.isEmpty_cons, Bool.false_eq_true, if_false]
      refine ⟨(x :: xs) ++ out, done, s2, by simp [RM.bind_run, h5], ?_, fun hd => ?_, fun hl => ?_⟩
      · rw [h2]; exact (List.prefix_append_right_inj _).mpr h6
      · rw [h2, h7 hd]
      · refine h8 ?_
        rw [h2] at hl
        simp at hl
        omega

/-! ## `lex::parse` -/

/-- What the decoder makes of each chunk. -/
def outputs (c : Codec) : c.State → List (List Byte) → List Str
  | _, [] => []
  | st, x :: xs => decodeOpen c st x :: outputs c (c.run st x).1 xs

theorem outputs_flatten (st : c.State) (chunks : List (List Byte)) :
    (outputs c st chunks).flatten = decodeOpen c st chunks.flatten := by
  induction chunks generalizing st with
  | nil => rfl
  | cons x xs ih => rw [outputs, List.flatten_cons, ih, List.flatten_cons, decodeOpen_eq, decodeOpen_eq, decodeOpen_eq, run_append]

theorem parseLoop_pieces (chunks : List (List Byte)) (hne : ∀ x ∈ chunks, x ≠ []) :
    ∀ {d : Decoder c} {st : c.State} (_ : Ready d st false),
    ∃ d', Ready d' (c.run st chunks.flatten).1 false ∧
      ∀ l : Lexer, parseLoop d l (chunks.map .ok) =
        match pushAll (outputs c st chunks) l with
        | (.ok rules, l') => .ok (rules, d', l')
        | (.err e, _) => .err e
        | (.panic p, _) => .panic p
        | (.diverge, _) => .diverge := by
  induction chunks with
  | nil =>
    intro d st h
    exact ⟨d, h, fun l => rfl⟩
  | cons x xs ih =>
    intro d st h
    obtain ⟨d1, h1, h2⟩ := push_spec h x
    have hx := hne x (by simp)
    obtain ⟨d2, h4, h5⟩ := ih (fun y hy => hne y (by simp [hy])) h2
    refine ⟨d2, ?_, fun l => ?_⟩
    · rw [List.flatten_cons, run_append]; exact h4
    · cases x with
      | nil => exact absurd rfl hx
      | cons b bs =>
        simp only [List.map_cons, parseLoop, h1, outputs, pushAll, RM.bind_run]
        generalize Lexer.pushStr (decodeOpen c st (b :: bs)) l = y
        obtain ⟨r, l1⟩ := y
        cases r with
        | ok rules =>
          simp only
          rw [h5]
          generalize pushAll (outputs c (c.run st (b :: bs)).1 xs) l1 = z
          obtain ⟨r2, l2⟩ := z
          cases r2 <;> rfl
        | err e => rfl
        | panic p => rfl
        | diverge => rfl

theorem pushAll_snoc (ps : List Str) (p : Str) (l : Lexer) :
    pushAll (ps ++ [p]) l = match pushAll ps l with
      | (.ok rules, l') =>
        match Lexer.pushStr p l' with
        | (.ok rules', l'') => (.ok (rules ++ rules'), l'')
        | (.err e, l'') => (.err e, l'')
        | (.panic p, l'') => (.panic p, l'')
        | (.diverge, l'') => (.diverge, l'')
      | (.err e, l') => (.err e, l')
      | (.panic p, l') => (.panic p, l')
      | (.diverge, l') => (.diverge, l') := by
  induction ps generalizing l with
  | nil =>
    simp only [List.nil_append, pushAll, RM.bind_run, RM.pure_run]
    generalize Lexer.pushStr p l = y
    obtain ⟨r, l1⟩ := y
    cases r <;> simp
  | cons q qs ih =>
    simp only [List.cons_append, pushAll, RM.bind_run]
    generalize Lexer.pushStr q l = y
    obtain ⟨r, l1⟩ := y
    cases r with
    | ok rules =>
      simp only [ih]
      generalize pushAll qs l1 = z
      obtain ⟨r2, l2⟩ := z
      cases r2 with
      | ok rules2 =>
        simp only [RM.pure_run]
        generalize Lexer.pushStr p l2 = w
        obtain ⟨r3, l3⟩ := w
        cases r3 <;> simp
      | err e => rfl
      | panic p => rfl
      | diverge => rfl
    | err e => rfl
    | panic p => rfl
    | diverge => rfl

/-- `lex::parse` feeds the lexer with what the decoder makes of each chunk and of the end. -/
theorem parse_outputs (c : Codec) (name : Str) (chunks : List (List Byte)) (hne : ∀ x ∈ chunks, x ≠ [])
    (sched : List (Option Nat)) (limit : Nat) : parse c name (chunks.map .ok) limit sched =
      (feedAll (outputs c c.init chunks ++ [(c.finish (c.run c.init chunks.flatten).1).1]) (Lexer.withCapacity name limit)).1 := by
  obtain ⟨d', h2, h3⟩ := parseLoop_pieces chunks hne (new_ready c name false sched)
  obtain ⟨d2, h4⟩ := flush_spec h2
  rw [parse, h3, feedAll, RM.bind_run, pushAll_snoc]
  generalize pushAll (outputs c c.init chunks) (Lexer.withCapacity name limit) = y
  obtain ⟨r, l1⟩ := y
  cases r with
  | ok rules =>
    simp only [Res.bind_ok, h4]
    generalize Lexer.pushStr _ l1 = z
    obtain ⟨r2, l2⟩ := z
    cases r2 with
    | ok rules2 =>
      simp only [RM.bind_run]
      generalize Lexer.flush l2 = w
      obtain ⟨r3, l3⟩ := w
      cases r3 <;> rfl
    | err e => rfl
    | panic p => rfl
    | diverge => rfl
  | err e => rfl
  | panic p => rfl
  | diverge => rfl

/-- `lex::parse` feeds the lexer with pieces of the decoded text. -/
theorem parse_pieces (c : Codec) (name : Str) (chunks : List (List Byte)) (hne : ∀ x ∈ chunks, x ≠ [])
    (sched : List (Option Nat)) :
    ∃ pieces : List Str, pieces.flatten = decode c c.init chunks.flatten ∧
      ∀ limit, parse c name (chunks.map .ok) limit sched = (feedAll pieces (Lexer.withCapacity name limit)).1 := by
  refine ⟨_, ?_, parse_outputs c name chunks hne sched⟩
  rw [List.flatten_append, outputs_flatten, decode_eq, decodeOpen_eq]; simp

end Ebnf
