import Verif.Proofs.FaultsRun
import Verif.Props.Builds

set_option autoImplicit false

/-! # C58–C60: sources that fail -/

namespace Ebnf.Props

open Ebnf Ebnf.Spec

/-! ## C58 -/

/-- C58: whatever pieces the source supplies the text in, and whatever I/O errors come in between, every operation does what
the cursor over the whole text says, or fails with the next I/O error, at the place reached.  So each error is reported once,
in order, and reading goes on in the same text. -/
theorem c58_errors_in_order (location : Location) (s : Source) (text : Str) (faults : List Nat) (h : Supplies s text faults)
    (ops : List ReaderOp) :
    ∃ c left, FaultySteps ⟨location, text, 0, []⟩ faults ops (performAll ops (Reader.withLocation location s false)).1 c left := by
  obtain ⟨h1, h2⟩ := supplies_steady h location false
  obtain ⟨c, h3, _⟩ := performAll_faulty ops h1
  rw [h2] at h3
  exact ⟨c, _, h3⟩

/-- `ab`, an error, `cd`, another error. -/
private def shaky : Source := ⟨['a', 'b'], [.error 5, .ok ['c', 'd'], .error 6], Location.new []⟩

private theorem shaky_supplies : Supplies shaky "abcd".toList [5, 6] :=
  ⟨['c', 'd'], .fault (.piece (text := []) (.fault .nil)), rfl⟩

example : (performAll [.read, .read, .read, .read, .read, .read, .read] (Reader.withLocation (Location.new []) shaky false)).1 =
    [.char (some 'a'), .char (some 'b'), .error ⟨⟨[], 1, 3⟩, .wrapped ⟨[], 1, 3⟩ 5⟩, .char (some 'c'), .char (some 'd'),
      .error ⟨⟨[], 1, 5⟩, .wrapped ⟨[], 1, 5⟩ 6⟩, .char none] := by decide +kernel

/-- Without faults, this is C24. -/
theorem c58_no_errors (location : Location) (s : Source) (text : Str) (h : Supplies s text []) (ops : List ReaderOp) :
    ∃ c, CursorSteps ⟨location, text, 0, []⟩ ops (performAll ops (Reader.withLocation location s false)).1 c := by
  obtain ⟨c, left, h1⟩ := c58_errors_in_order location s text [] h ops
  have key : ∀ {c0 faults ops as c left}, FaultySteps c0 faults ops as c left → faults = [] → CursorSteps c0 ops as c := by
    intro c0 faults ops as c left h
    induction h with
    | nil c _ => exact fun _ => .nil c
    | step h1 _ ih => exact fun he => .cons h1 (ih he)
    | fault => intro he; cases he
  exact ⟨c, key h1 rfl⟩

/-- Never more errors are reported than the source has. -/
theorem c58_each_error_once (location : Location) (s : Source) (text : Str) (faults : List Nat) (h : Supplies s text faults)
    (ops : List ReaderOp) :
    ∃ left, faults = (performAll ops (Reader.withLocation location s false)).1.filterMap (fun
      | .error ⟨_, .wrapped _ code⟩ => some code
      | _ => none) ++ left := by
  obtain ⟨c, left, h1⟩ := c58_errors_in_order location s text faults h ops
  refine ⟨left, ?_⟩
  clear h
  generalize (⟨location, text, 0, []⟩ : Cursor) = c0 at h1
  generalize (performAll ops (Reader.withLocation location s false)).1 = as at h1
  induction h1 with
  | nil => rfl
  | step hs _ ih => rw [ih]; cases hs <;> rfl
  | fault _ _ ih => rw [ih]; rfl

/-! ## C59 -/

/-- C59 fails: a `peek` that fails moves the reader.  Over `ab`, an error, `cd` the characters `ab` are gone. -/
theorem c59_look_ahead_moves :
    Supplies shaky "abcd".toList [5, 6] ∧
    (performAll [.peek 3, .location, .read] (Reader.withLocation (Location.new []) shaky false)).1 =
      [.error ⟨⟨[], 1, 3⟩, .wrapped ⟨[], 1, 3⟩ 5⟩, .location ⟨[], 1, 3⟩, .char (some 'c')] ∧
    (performAll [.prefixMatches ['a', 'b', 'c'], .location, .read] (Reader.withLocation (Location.new []) shaky false)).1 =
      [.error ⟨⟨[], 1, 3⟩, .wrapped ⟨[], 1, 3⟩ 5⟩, .location ⟨[], 1, 3⟩, .char (some 'c')] ∧
    (performAll [.skip 3, .location, .read] (Reader.withLocation (Location.new []) shaky false)).1 =
      [.error ⟨⟨[], 1, 3⟩, .wrapped ⟨[], 1, 3⟩ 5⟩, .location ⟨[], 1, 3⟩, .char (some 'c')] ∧
    (performAll [.readAll, .readAll, .readAll] (Reader.withLocation (Location.new []) shaky false)).1 =
      [.error ⟨⟨[], 1, 3⟩, .wrapped ⟨[], 1, 3⟩ 5⟩, .error ⟨⟨[], 1, 5⟩, .wrapped ⟨[], 1, 5⟩ 6⟩, .chars []] :=
  ⟨shaky_supplies, by decide +kernel, by decide +kernel, by decide +kernel, by decide +kernel⟩

/-- C59 fails: an `is_eof` that fails leaves a mark that the caller did not take (and `reset_to_mark` accepts its number). -/
theorem c59_mark_left :
    (performAll [.read, .read, .isEof, .read, .resetToMark 2, .location] (Reader.withLocation (Location.new []) shaky false)).1 =
      [.char (some 'a'), .char (some 'b'), .error ⟨⟨[], 1, 3⟩, .wrapped ⟨[], 1, 3⟩ 5⟩, .char (some 'c'), .num 1,
        .location ⟨[], 1, 3⟩] := by decide +kernel

/-- The reader after a history, and the cursor it stands at. -/
private theorem after_faulty {location : Location} {s : Source} {text : Str} {faults : List Nat} (h : Supplies s text faults)
    (ops : List ReaderOp) :
    ∃ c, FaultySteps ⟨location, text, 0, []⟩ faults ops (performAll ops (Reader.withLocation location s false)).1 c
        (faultsOf (performAll ops (Reader.withLocation location s false)).2) ∧
      StandsF false (performAll ops (Reader.withLocation location s false)).2 c := by
  obtain ⟨h1, h2⟩ := supplies_steady h location false
  obtain ⟨c, h3, h4⟩ := performAll_faulty ops h1
  rw [h2] at h3
  exact ⟨c, h3, h4⟩

/-- C59 (partial): a `read` or `read_chars` that fails leaves the reader where it was: after any history, whatever is done
next is answered as it would be there, without the error.  Missing are the other operations (see the counterexamples). -/
theorem c59_read_repeatable_partial (location : Location) (s : Source) (text : Str) (faults : List Nat)
    (h : Supplies s text faults) (ops : List ReaderOp) {op : ReaderOp} (ho : op = .read ∨ ∃ n, op = .readChars n) {e : Error}
    (he : (perform op (performAll ops (Reader.withLocation location s false)).2).1 = .error e) :
    ∃ c code left, FaultySteps ⟨location, text, 0, []⟩ faults ops (performAll ops (Reader.withLocation location s false)).1 c
        (code :: left) ∧
      (∃ below, e = ⟨c.location, .wrapped below code⟩) ∧
      ∀ next, ∃ c' left', FaultySteps c left next
        (performAll next (perform op (performAll ops (Reader.withLocation location s false)).2).2).1 c' left' := by
  obtain ⟨c, h1, h2⟩ := after_faulty (location := location) h ops
  generalize (performAll ops (Reader.withLocation location s false)).2 = r at he h1 h2 ⊢
  rcases perform_passes op r with ⟨below, code, a1, a2⟩ | ⟨a1, _⟩
  · obtain ⟨c', a3, a4⟩ := perform_fault h2 a1 ⟨below, code, rfl⟩
    have : c' = c := by
      rcases ho with rfl | ⟨n, rfl⟩ <;> cases a3 <;> rfl
    subst this
    rw [a2] at h1
    refine ⟨c', code, _, h1, ⟨below, ?_⟩, fun next => ?_⟩
    · have hl : (perform op r).2.buffer.location = c'.location := a4.1.loc
      rw [he, hl] at a1
      injection a1
    · obtain ⟨c2, b1, _⟩ := performAll_faulty next a4
      exact ⟨c2, _, b1⟩
  · exfalso
    obtain ⟨a, r1, c1, b1, b2, _⟩ := perform_rep (r := steady r) (rel_release h2.2 ▸ rel_rep h2.1) op (by rw [h2.2]; simp)
    rw [a1] at b1
    have := congrArg Prod.fst b1
    simp only at this
    rw [he] at this; subst this
    rcases ho with rfl | ⟨n, rfl⟩ <;> cases b2

/-- C59 (partial): any operation that fails with an I/O error under a mark is undone by `reset_to_mark`: after any history,
`mark` returns `m`, and when the operation fails, `reset_to_mark(m)` goes back, and whatever is done next is answered as it
would be at the cursor before, without the error.  Missing is that no reset is needed; and marks may be left over. -/
theorem c59_reset_undoes_partial (location : Location) (s : Source) (text : Str) (faults : List Nat)
    (h : Supplies s text faults) (ops : List ReaderOp) :
    ∃ m, (perform .mark (performAll ops (Reader.withLocation location s false)).2).1 = .num m ∧
      ∀ op e, IsFault e →
        (perform op (performAll (ops ++ [.mark]) (Reader.withLocation location s false)).2).1 = .error e →
        ∃ c code left k extra,
          FaultySteps ⟨location, text, 0, []⟩ faults ops (performAll ops (Reader.withLocation location s false)).1 c (code :: left) ∧
          (∃ place below, e = ⟨place, .wrapped below code⟩) ∧
          (perform (.resetToMark m) (performAll (ops ++ [.mark, op]) (Reader.withLocation location s false)).2).1 = .num k ∧
          ∀ next, ∃ c' left', FaultySteps { c with marks := extra ++ c.marks } left next
            (performAll next (performAll (ops ++ [.mark, op, .resetToMark m]) (Reader.withLocation location s false)).2).1
            c' left' := by
  obtain ⟨c, h1, h2⟩ := after_faulty (location := location) h ops
  simp only [performAll_append]
  generalize hr : (performAll ops (Reader.withLocation location s false)).2 = r at h1 h2 ⊢
  obtain ⟨m, r1, h3, h4, _⟩ := mark_F h2
  have hp : perform .mark r = (.num m, r1) := by rw [perform, h3]; rfl
  have hfr : faultsOf r1 = faultsOf r := by
    have := congrArg (fun x => faultsOf x.2) h3
    exact this.symm
  refine ⟨m, by rw [hp], fun op e hf he => ?_⟩
  simp only [performAll, hp] at he ⊢
  rcases perform_passes op r1 with ⟨below, code, a1, a2⟩ | ⟨a1, _⟩
  · obtain ⟨c', a3, a4⟩ := perform_fault h4 a1 ⟨below, code, rfl⟩
    obtain ⟨own, p, hc⟩ : ∃ own p, c' = ⟨c.start, c.text, p, own ++ (m, c.pos) :: c.marks⟩ := by
      cases a3 with
      | read => exact ⟨[], _, rfl⟩
      | readChars n => exact ⟨[], _, rfl⟩
      | readAll k => exact ⟨[], _, rfl⟩
      | skip n k => exact ⟨[], _, rfl⟩
      | peek n k m' => exact ⟨[(m', c.pos)], _, rfl⟩
      | prefixMatches p k m' => exact ⟨[(m', c.pos)], _, rfl⟩
      | isEof m' => exact ⟨[(m', c.pos)], _, rfl⟩
    subst hc
    obtain ⟨k, r3, own', b1, b2⟩ := reset_F a4
    have hfr3 : faultsOf r3 = faultsOf (perform op r1).2 := by
      have := congrArg (fun x => faultsOf x.2) b1
      exact this.symm
    have hp3 : perform (.resetToMark m) (perform op r1).2 = (.num k, r3) := by rw [perform, b1]; rfl
    rw [← hfr, a2] at h1
    refine ⟨c, code, _, k, own', h1, ⟨_, _, ReaderAns.error.inj (he.symm.trans a1)⟩, by rw [hp3], fun next => ?_⟩
    rw [hp3]
    obtain ⟨c2, d1, _⟩ := performAll_faulty next b2
    rw [hfr3] at d1
    exact ⟨c2, _, d1⟩
  · exfalso
    obtain ⟨a, r2, c1, b1, b2, _⟩ := perform_rep (r := steady r1) (rel_release h4.2 ▸ rel_rep h4.1) op (by rw [h4.2]; simp)
    rw [a1] at b1
    have := congrArg Prod.fst b1
    simp only at this
    rw [he] at this; subst this
    obtain ⟨_, _, hf⟩ := hf
    cases b2 <;> cases hf

/-- Both hypotheses are met. -/
example : (perform .read (performAll [.read, .read] (Reader.withLocation (Location.new []) shaky false)).2).1 =
      .error ⟨⟨[], 1, 3⟩, .wrapped ⟨[], 1, 3⟩ 5⟩ ∧
    (performAll [.read, .mark, .peek 3, .resetToMark 1, .readAll, .location]
      (Reader.withLocation (Location.new []) ⟨['a', 'b'], [.error 5, .ok ['c', 'd']], Location.new []⟩ false)).1 =
      [.char (some 'a'), .num 1, .error ⟨⟨[], 1, 3⟩, .wrapped ⟨[], 1, 3⟩ 5⟩, .num 1, .chars ['b', 'c', 'd'],
        .location ⟨[], 1, 5⟩] := by decide +kernel

/-! ## C60 -/

/-- C60 (partial): over a source that fails, after any history that does not panic, `parse` returns the failure, or what it
returns over a source that supplies the same text without failing, or an error where that is an error too.  In particular
what it accepts is accepted, with the same events, without the failures.  Scanners must report the failures they meet and
not forward.  Missing: that every failure `parse` meets is returned (see the counterexamples). -/
theorem c60_parse_over_failures_partial {dbg : Bool} {G : Language} {start : SyntaxRule} {m m' : Machine}
    (hp : ReportingParser dbg G start m) (hp' : ParserFor dbg G start m') (location : Location) (s : Source) (text : Str)
    (faults : List Nat) (h : Supplies s text faults) (ops : List ReaderOp)
    (hc : .crash ∉ (performAll ops (Reader.withLocation location s dbg)).1) :
    ∃ c left, FaultySteps ⟨location, text, 0, []⟩ faults ops (performAll ops (Reader.withLocation location s dbg)).1 c left ∧
      ∀ r', InputAt dbg r' c.location c.rest →
        (∀ x, Returns m (performAll ops (Reader.withLocation location s dbg)).2 x →
          (∃ e, x = .err e ∧ IsFault e) ∨ Returns m' r' x ∨ ∃ e e', x = .err e ∧ Returns m' r' (.err e')) ∧
        (Loops m (performAll ops (Reader.withLocation location s dbg)).2 → Loops m' r') := by
  obtain ⟨h1, h2⟩ := supplies_steady h location false
  obtain ⟨c, h3, h4⟩ := performAll_faulty ops h1
  rw [h2] at h3
  rcases performAll_mirrors ops (Reader.withLocation location s dbg) with h6 | ⟨h6, h7⟩
  · exact absurd h6 hc
  · have e : rel (Reader.withLocation location s dbg) = Reader.withLocation location s false := rfl
    rw [e] at h6
    rw [h6] at h3 h4
    simp only at h3 h4
    refine ⟨c, _, h3, fun r' hi => ?_⟩
    exact parse_compared hp hp' ⟨rep_of_rel (r := steady _) h4.1, h7⟩ hi rfl rfl

/-- The same for a fresh reader: what is accepted over a failing source is accepted without the failures. -/
theorem c60_accepted_partial {dbg : Bool} {G : Language} {start : SyntaxRule} {m : Machine}
    (hp : ReportingParser dbg G start m) (location : Location) (s s' : Source) (text : Str) (faults : List Nat)
    (h : Supplies s text faults) (h' : Delivers s' text) {evs : List Event}
    (hr : Returns m (Reader.withLocation location s dbg) (.ok evs)) :
    Returns m (Reader.withLocation location s' dbg) (.ok evs) := by
  obtain ⟨h1, _⟩ := supplies_steady h location dbg
  have := (parse_compared hp (reporting_parser hp) h1 (input_new (location := location) h')
    (start_location _ _).symm (start_rest location _).symm).1 _ hr
  rcases this with ⟨e, h2, _⟩ | h2 | ⟨e, _, h2, _⟩
  · cases h2
  · exact h2
  · cases h2

/-- The scanners of the library report failures and do not forward. -/
theorem c60_library_reports {s : SpecialScanner} (h : LibraryScanner s) : ReportsFaults s := library_reports h

/-- A sample parser with the default scanner. -/
private theorem plain_sample (grammar : String) (h : (sampleMachine .default grammar).isSome = true) :
    ∃ rules start m, parseStr [] grammar.toList = .ok rules ∧ (∀ dbg, ReportingParser dbg (plainLanguage rules) start m) ∧
      ∀ r, (sampleMachine .default grammar).map (fun x => m.parse 100 r = x.2.2.parse 100 r) = some True := by
  cases hm : sampleMachine .default grammar with
  | none => rw [hm] at h; simp at h
  | some x =>
    obtain ⟨rules, start, m⟩ := x
    obtain ⟨h1, s, g, h2, h3, h4, h5⟩ := sample_made hm
    refine ⟨rules, start, m, h1, fun dbg => ⟨⟨s, .default, g, start.metaIdentifier, h2, plain_realizes rules, fun l t =>
      library_reports (.default t), h3, .refl _, h4⟩, fun r hr => (c12_shape [] _ _ h1 r hr).1, h5, ?_⟩, fun r => by simp⟩
    intro l t d here rest name n hc
    cases hc

private theorem plain_run {grammar : String} {m : Machine} {r : Reader} {x : Res (List Event)}
    (h : (sampleMachine .default grammar).map (fun x => m.parse 100 r = x.2.2.parse 100 r) = some True)
    (hx : (sampleMachine .default grammar).map (fun y => (y.2.2.parse 100 r).1) = some x) : (m.parse 100 r).1 = x := by
  cases hm : sampleMachine .default grammar with
  | none => rw [hm] at h; simp at h
  | some y => rw [hm] at h hx; simp at h hx; rw [h, hx]

/-- C60 fails: an I/O error that `parse` meets while it looks ahead to compose an error message is lost.  With
`a={'x'},'b';`, over `xxb` and then an error, `parse` accepts; the error is gone afterwards. -/
theorem c60_failure_lost :
    ∃ rules start m, parseStr [] "a={'x'},'b';".toList = .ok rules ∧ ReportingParser false (plainLanguage rules) start m ∧
      Supplies ⟨['x', 'x', 'b'], [.error 5], Location.new []⟩ "xxb".toList [5] ∧
      (∃ out, Returns m (Reader.withLocation (Location.new []) ⟨['x', 'x', 'b'], [.error 5], Location.new []⟩ false) (.ok out)) ∧
      (perform .isEof (m.parse 100 (Reader.withLocation (Location.new []) ⟨['x', 'x', 'b'], [.error 5], Location.new []⟩
        false)).2).1 = .bool true := by
  obtain ⟨rules, start, m, h1, h2, h3⟩ := plain_sample "a={'x'},'b';" (by decide +kernel)
  refine ⟨rules, start, m, h1, h2 false, ⟨[], .fault .nil, rfl⟩,
    ⟨_, returns_of_fuel (plain_run (h3 _) (x := .ok [.begin ⟨[], 1, 1⟩ ⟨[], 1, 1⟩ ['a'], .token ⟨[], 1, 4⟩ ⟨[], 1, 1⟩ ['x'],
      .token ⟨[], 1, 4⟩ ⟨[], 1, 2⟩ ['x'], .token ⟨[], 1, 9⟩ ⟨[], 1, 3⟩ ['b'], .end ⟨[], 1, 1⟩ ⟨[], 1, 4⟩ ['a']])
      (by decide +kernel)) (by simp)⟩, ?_⟩
  have h4 := h3 (Reader.withLocation (Location.new []) ⟨['x', 'x', 'b'], [.error 5], Location.new []⟩ false)
  have h5 : (sampleMachine .default "a={'x'},'b';").map (fun y => (perform .isEof (y.2.2.parse 100 (Reader.withLocation
      (Location.new []) ⟨['x', 'x', 'b'], [.error 5], Location.new []⟩ false)).2).1) = some (.bool true) := by decide +kernel
  cases hm : sampleMachine .default "a={'x'},'b';" with
  | none => rw [hm] at h4; simp at h4
  | some y => rw [hm] at h4 h5; simp at h4 h5; rw [h4, h5]

/-- The failure is returned when it is met while matching. -/
example :
    ∃ rules start m, parseStr [] "a={'x'},'b';".toList = .ok rules ∧ ReportingParser true (plainLanguage rules) start m ∧
      Supplies ⟨['x', 'x'], [.error 5, .ok ['b']], Location.new []⟩ "xxb".toList [5] ∧
      Returns m (Reader.withLocation (Location.new []) ⟨['x', 'x'], [.error 5, .ok ['b']], Location.new []⟩ true)
        (.err ⟨⟨[], 1, 3⟩, .wrapped ⟨[], 1, 3⟩ 5⟩) ∧ IsFault ⟨⟨[], 1, 3⟩, .wrapped ⟨[], 1, 3⟩ 5⟩ := by
  obtain ⟨rules, start, m, h1, h2, h3⟩ := plain_sample "a={'x'},'b';" (by decide +kernel)
  exact ⟨rules, start, m, h1, h2 true, ⟨['b'], .fault (.piece (text := []) .nil), rfl⟩,
    returns_of_fuel (plain_run (h3 _) (by decide +kernel)) (by simp), ⟨_, _, rfl⟩⟩

/-- A scanner that forwards to `B`. -/
private def toB : Config := fun _ s => ⟨'?' :: s ++ ['?'], fun _ => pure (.forward ['B'])⟩

/-- C60 fails: with a scanner that forwards, a failure can make `parse` accept what it does not accept otherwise.  With
`A=?x?;B='b';` and a scanner that forwards to `B`, `parse` rejects `xxx`, but accepts it when the source fails at its end. -/
theorem c60_forward_accepts :
    ∃ (rules : List SyntaxRule) (start : SyntaxRule) (m : Machine) (s : Syntax) (g : Graph),
      parseStr [] "A=?x?;B='b';".toList = .ok rules ∧ Syntax.new rules = .ok s ∧
      Graph.compile s toB = .ok g ∧ Machine.new g start.metaIdentifier = .ok (some m) ∧ (∀ l t, ReportsFaults (toB l t)) ∧
      (∃ e, Returns m (readerOn "xxx") (.err e)) ∧
      ∃ out, Returns m (Reader.withLocation (Location.new []) ⟨['x', 'x', 'x'], [.error 5], Location.new []⟩ false) (.ok out) := by
  cases hm : sampleMachine toB "A=?x?;B='b';" with
  | none => exact absurd hm (by decide +kernel)
  | some x =>
    obtain ⟨rules, start, m⟩ := x
    obtain ⟨h1, s, g, h2, h3, h4, h5⟩ := sample_made hm
    refine ⟨rules, start, m, s, g, h1, h2, h3, h4, fun _ _ _ => (passes_pure _).spec, ?_, ?_⟩
    · have : (sampleMachine toB "A=?x?;B='b';").map (fun y => (y.2.2.parse 100 (readerOn "xxx")).1) =
        some (.err ⟨⟨[], 1, 1⟩, .expected "EOF".toList (.text ['x', 'x', 'x'] false)⟩) := by decide +kernel
      rw [hm] at this
      simp only [Option.map_some, Option.some.injEq] at this
      exact ⟨_, returns_of_fuel this (by simp)⟩
    · have : (sampleMachine toB "A=?x?;B='b';").map (fun y => (y.2.2.parse 100 (Reader.withLocation (Location.new [])
          ⟨['x', 'x', 'x'], [.error 5], Location.new []⟩ false)).1) =
        some (.ok [.begin ⟨[], 1, 1⟩ ⟨[], 1, 1⟩ ['A'], .end ⟨[], 1, 1⟩ ⟨[], 1, 4⟩ ['A']]) := by decide +kernel
      rw [hm] at this
      simp only [Option.map_some, Option.some.injEq] at this
      exact ⟨_, returns_of_fuel this (by simp)⟩

end Ebnf.Props
