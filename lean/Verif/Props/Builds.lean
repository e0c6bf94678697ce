import Verif.Proofs.Running
import Verif.Proofs.BuildsMachine
import Verif.Props.Errors

set_option autoImplicit false

/-! # C57: debug builds and release builds -/

namespace Ebnf.Props

open Ebnf Ebnf.Spec

/-- C57, readers: whatever the source (with or without I/O errors) and the operations, a debug build panics somewhere, or
returns what a release build returns. -/
theorem c57_reader (location : Location) (s : Source) (ops : List ReaderOp) :
    .crash ∈ (performAll ops (Reader.withLocation location s true)).1 ∨
      (performAll ops (Reader.withLocation location s true)).1 = (performAll ops (Reader.withLocation location s false)).1 := by
  rcases performAll_mirrors ops (Reader.withLocation location s true) with h | ⟨h, _⟩
  · exact .inl h
  · right
    have e : rel (Reader.withLocation location s true) = Reader.withLocation location s false := rfl
    rw [e] at h
    rw [h]

/-- Both cases occur. -/
example : .crash ∈ (performAll [.mark, .read, .unmark 0, .read]
      (Reader.withLocation (Location.new []) (.buffered ['a', 'b']) true)).1 ∧
    (performAll [.mark, .read, .resetToMark 0, .read] (Reader.withLocation (Location.new []) (.buffered ['a', 'b']) true)).1 =
      [.num 0, .char (some 'a'), .num 1, .char (some 'a')] := by decide +kernel

/-- A parser whose scanners do not look at the build has only such scanners. -/
private theorem independent {rules : List SyntaxRule} {s : Syntax} {config : Config} {g : Graph} {query : Str} {m : Machine}
    (h1 : Syntax.new rules = .ok s) (h2 : ∀ r ∈ rules, RuleShape r) (h3 : Graph.compile s config = .ok g)
    (h4 : Machine.new g query = .ok (some m)) (hc : ∀ l t, BuildIndependent (config l t)) : GraphIndependent m.graph := by
  obtain ⟨g', h8, h9⟩ := compile_ok (G := ⟨rules, fun _ _ => defaultRecognizer, fun l t => (config l t).symbol⟩)
    (config := config) (fun _ _ => rfl) h1 h2
  rw [h3] at h8; injection h8 with h8; subst h8
  have hm : m.graph = g := by
    unfold Machine.new at h4
    cases ha : g.indexOfLabel ('$' :: query) with
    | none => rw [ha] at h4; simp at h4
    | some a =>
      rw [ha] at h4
      simp only at h4
      cases hn : g.canonicalName query with
      | none => rw [hn] at h4; simp at h4
      | some n => rw [hn] at h4; simp at h4; subst h4; rfl
  subst hm
  intro addr instr scanner hi hst
  obtain ⟨_, hx⟩ := h9.closed instr (List.mem_of_getElem? hi)
  rw [hst] at hx
  obtain ⟨l, t, rfl⟩ := hx
  exact hc l t

/-- C57, parsers: with scanners that do not look at the build, on a reader that any operations have left, over any source
(with or without I/O errors), a debug build panics (in the operations, or by a debug assertion in `parse`), or returns what
a release build returns. -/
theorem c57_either {rules : List SyntaxRule} {s : Syntax} {config : Config} {g : Graph} {query : Str} {m : Machine}
    (h1 : Syntax.new rules = .ok s) (h2 : ∀ r ∈ rules, RuleShape r) (h3 : Graph.compile s config = .ok g)
    (h4 : Machine.new g query = .ok (some m)) (hc : ∀ l t, BuildIndependent (config l t)) (location : Location) (source : Source)
    (ops : List ReaderOp) (fuel : Nat) :
    .crash ∈ (performAll ops (Reader.withLocation location source true)).1 ∨
      (m.parse fuel (performAll ops (Reader.withLocation location source true)).2).1 = .panic .debugAssert ∨
      (m.parse fuel (performAll ops (Reader.withLocation location source true)).2).1 =
        (m.parse fuel (performAll ops (Reader.withLocation location source false)).2).1 := by
  rcases performAll_mirrors ops (Reader.withLocation location source true) with h | ⟨h, _⟩
  · exact .inl h
  · right
    have e : rel (Reader.withLocation location source true) = Reader.withLocation location source false := rfl
    rw [e] at h
    rw [h]
    rcases mirrors_parse (independent h1 h2 h3 h4 hc) fuel (performAll ops (Reader.withLocation location source true)).2 with
      h5 | ⟨h5, _, _⟩
    · exact .inl h5
    · exact .inr h5.symm

/-- C57: when the scanners keep their contract in both builds, both builds return the same, or both run forever, and no
debug assertion fails. -/
theorem c57_same_result {G : Language} {start : SyntaxRule} {m m' : Machine} (hp : ParserFor true G start m)
    (hp' : ParserFor false G start m') {r r' : Reader} {here : Location} {text : Str} (hi : InputAt true r here text)
    (hi' : InputAt false r' here text) :
    (∀ x, Returns m r x ↔ Returns m' r' x) ∧ (Loops m r ↔ Loops m' r') ∧
      ∀ fuel, (m.parse fuel r).1 ≠ .panic .debugAssert := by
  refine ⟨fun x => by rw [returns_iff hp hi, returns_iff hp' hi'], by rw [loops_iff hp hi, loops_iff hp' hi'], ?_⟩
  intro fuel h
  have h2 := (returns_iff hp hi _).mp (returns_of_run hp hi h (by simp))
  cases h2 with
  | crashed h => have := ev_panic h _ rfl; simp at this

/-- The meaning of the scanners of the library, in both builds. -/
private theorem library_behaves {s : SpecialScanner} (h : LibraryScanner s) : ∃ f, ∀ dbg, Behaves dbg s f := by
  cases h with
  | default content => exact ⟨_, fun _ => default_behaves content⟩
  | chars allowed min max => exact ⟨_, fun _ => chars_behaves allowed min max⟩
  | regex source find => exact ⟨_, fun _ => regex_behaves source find⟩

/-- C57, for every grammar, every input and every parser that uses the scanners of the library: both builds return the same,
or both run forever, and no debug assertion fails. -/
theorem c57_library {rules : List SyntaxRule} {s : Syntax} {config : Config} {g : Graph} {query : Str} {m : Machine}
    {start : SyntaxRule} (h1 : Syntax.new rules = .ok s) (h2 : ∀ r ∈ rules, RuleShape r) (h3 : Graph.compile s config = .ok g)
    (h4 : Machine.new g query = .ok (some m)) (h5 : start ∈ rules) (h6 : SameName start.metaIdentifier query)
    (hc : ∀ l t, LibraryScanner (config l t)) {r r' : Reader} {here : Location} {text : Str} (hi : InputAt true r here text)
    (hi' : InputAt false r' here text) :
    (∀ x, Returns m r x ↔ Returns m r' x) ∧ (Loops m r ↔ Loops m r') ∧
      ∀ fuel, (m.parse fuel r).1 ≠ .panic .debugAssert := by
  have hz : ∀ dbg, Realizes dbg config ⟨rules, fun l t => (library_behaves (hc l t)).choose, fun l t => (config l t).symbol⟩ :=
    fun dbg l t => ⟨(library_behaves (hc l t)).choose_spec dbg, rfl⟩
  have hp : ∀ dbg, ParserFor dbg ⟨rules, fun l t => (library_behaves (hc l t)).choose, fun l t => (config l t).symbol⟩ start m :=
    fun dbg => ⟨⟨s, config, g, query, h1, hz dbg, h3, h6, h4⟩, h2, h5⟩
  exact c57_same_result (hp true) (hp false) hi hi'

/-- How a sample parser is made. -/
theorem sample_made {config : Config} {grammar : String} {rules : List SyntaxRule} {start : SyntaxRule} {m : Machine}
    (h : sampleMachine config grammar = some (rules, start, m)) :
    parseStr [] grammar.toList = .ok rules ∧ ∃ s g, Syntax.new rules = .ok s ∧ Graph.compile s config = .ok g ∧
      Machine.new g start.metaIdentifier = .ok (some m) ∧ start ∈ rules := by
  unfold sampleMachine at h
  cases h1 : parseStr [] grammar.toList with
  | ok rs0 =>
    rw [h1] at h
    cases rs0 with
    | nil => simp at h
    | cons r rs =>
      simp only at h
      cases h2 : Syntax.new (r :: rs) with
      | ok s =>
        rw [h2] at h
        simp only at h
        cases h3 : Graph.compile s config with
        | ok g =>
          rw [h3] at h
          simp only at h
          cases h4 : Machine.new g r.metaIdentifier with
          | ok x =>
            rw [h4] at h
            cases x with
            | none => simp at h
            | some m' =>
              simp only [Option.some.injEq, Prod.mk.injEq] at h
              obtain ⟨rfl, rfl, rfl⟩ := h
              exact ⟨rfl, s, g, h2, h3, h4, by simp⟩
          | err _ => rw [h4] at h; simp at h
          | panic _ => rw [h4] at h; simp at h
          | diverge => rw [h4] at h; simp at h
        | err _ => rw [h3] at h; simp at h
        | panic _ => rw [h3] at h; simp at h
        | diverge => rw [h3] at h; simp at h
      | err _ => rw [h2] at h; simp at h
      | panic _ => rw [h2] at h; simp at h
      | diverge => rw [h2] at h; simp at h
  | err _ => rw [h1] at h; simp at h
  | panic _ => rw [h1] at h; simp at h
  | diverge => rw [h1] at h; simp at h

/-- A reader over a text, in a release or a debug build. -/
private def readerIn (dbg : Bool) (text : String) : Reader := Reader.withLocation (Location.new []) (.buffered text.toList) dbg

/-- The sample parser, made. -/
private theorem sample_chain (config : Config) (grammar : String) (h : (sampleMachine config grammar).isSome = true) :
    ∃ rules start m s g, Syntax.new rules = .ok s ∧ (∀ r ∈ rules, RuleShape r) ∧ Graph.compile s config = .ok g ∧
      Machine.new g start.metaIdentifier = .ok (some m) ∧ start ∈ rules ∧
      ∀ dbg input, (sampleMachine config grammar).map (fun x => (x.2.2.parse 100 (readerIn dbg input)).1) =
        some (m.parse 100 (readerIn dbg input)).1 := by
  cases hm : sampleMachine config grammar with
  | none => rw [hm] at h; simp at h
  | some x =>
    obtain ⟨rules, start, m⟩ := x
    obtain ⟨h1, s, g, h2, h3, h4, h5⟩ := sample_made hm
    exact ⟨rules, start, m, s, g, h2, fun r hr => (c12_shape [] _ _ h1 r hr).1, h3, h4, h5, fun _ _ => rfl⟩

/-- A parser and inputs as in `c57_library`. -/
example : ∃ rules start m s g, Syntax.new rules = .ok s ∧ (∀ r ∈ rules, RuleShape r) ∧ Graph.compile s .default = .ok g ∧
    Machine.new g start.metaIdentifier = .ok (some m) ∧ start ∈ rules ∧ (∀ l t, LibraryScanner (Config.default l t)) ∧
    InputAt true (readerIn true "aab") (Location.new []) "aab".toList ∧
    ∃ evs, (m.parse 100 (readerIn true "aab")).1 = .ok evs ∧ evs.length = 5 := by
  obtain ⟨rules, start, m, s, g, h1, h2, h3, h4, h5, h6⟩ := sample_chain .default "A={'a'},'b';" (by decide +kernel)
  refine ⟨rules, start, m, s, g, h1, h2, h3, h4, h5, fun _ t => .default t, input_new ⟨[], rfl, by simp [Source.buffered]⟩, ?_⟩
  have h7 : ((sampleMachine .default "A={'a'},'b';").map (fun x => (x.2.2.parse 100 (readerIn true "aab")).1)).map
      (fun x => match x with | .ok evs => evs.length | _ => 0) = some 5 := by decide +kernel
  rw [h6] at h7
  revert h7
  cases (m.parse 100 (readerIn true "aab")).1 with
  | ok evs => intro h7; exact ⟨evs, rfl, by simpa using h7⟩
  | err _ => intro h7; simp at h7
  | panic _ => intro h7; simp at h7
  | diverge => intro h7; simp at h7

/-- A scanner whose events are not well nested. -/
private def crossed : Config :=
  fun _ s => ⟨'?' :: s ++ ['?'], fun d => pure (.match [.begin d d ['x'], .end d d ['y']])⟩

/-- C57 fails for scanners of one's own: a scanner that reports a begin event and an end event with another label makes
`parse` panic in a debug build; a release build succeeds. -/
theorem c57_crossed_events :
    ∃ rules start m s g, Syntax.new rules = .ok s ∧ (∀ r ∈ rules, RuleShape r) ∧ Graph.compile s crossed = .ok g ∧
      Machine.new g start.metaIdentifier = .ok (some m) ∧ start ∈ rules ∧ (∀ l t, BuildIndependent (crossed l t)) ∧
      (m.parse 100 (readerIn true "")).1 = .panic .debugAssert ∧
      (m.parse 100 (readerIn false "")).1 = .ok [.begin ⟨[], 1, 1⟩ ⟨[], 1, 1⟩ ['A'], .end ⟨[], 1, 1⟩ ⟨[], 1, 1⟩ ['A']] := by
  obtain ⟨rules, start, m, s, g, h1, h2, h3, h4, h5, h6⟩ := sample_chain crossed "A=?s?;" (by decide +kernel)
  refine ⟨rules, start, m, s, g, h1, h2, h3, h4, h5, fun _ _ _ => mirrors_pure _, ?_, ?_⟩
  · have := h6 true ""
    rw [show (sampleMachine crossed "A=?s?;").map (fun x => (x.2.2.parse 100 (readerIn true "")).1) =
      some (.panic .debugAssert) by decide +kernel] at this
    simpa using this.symm
  · have := h6 false ""
    rw [show (sampleMachine crossed "A=?s?;").map (fun x => (x.2.2.parse 100 (readerIn false "")).1) =
      some (.ok [.begin ⟨[], 1, 1⟩ ⟨[], 1, 1⟩ ['A'], .end ⟨[], 1, 1⟩ ⟨[], 1, 1⟩ ['A']]) by decide +kernel] at this
    simpa using this.symm

end Ebnf.Props
