import Verif.Proofs.Dyn
import Verif.Proofs.Running
import Verif.Props.Growing

set_option autoImplicit false

/-! # Readers of any make (C98, C99) -/

namespace Ebnf.Props

open Ebnf Ebnf.Spec

variable {σ : Type} {dbg : Bool}

/-! ## The methods -/

/-- C98: an implementation of `MarkableCharReader` only has to get the five required methods right: if they do what the cursor in
a text does, then so do the methods that the traits provide — `read`, `read_all`, `is_eof`, `prefix_matches`, `peek`, `skip`. -/
theorem c98_provided (I : Required σ) (At : σ → Cursor → Prop) (h : LikeCursorFor IsRequired dbg I.methods At) :
    LikeCursor dbg I.methods At := provided_like h

/-- C98: and then every history of calls is one the cursor may have. -/
theorem c98_history (I : Required σ) (At : σ → Cursor → Prop) (h : LikeCursorFor IsRequired dbg I.methods At) (s : σ) (c : Cursor)
    (hs : At s c) (ops : List ReaderOp) (ho : .readChars 0 ∉ ops) :
    ∃ c', AnySteps c ops (callAll I.methods ops s).1 c' ∧ At (callAll I.methods ops s).2 c' :=
  callAll_steps (provided_like h) ops ho s c hs

/-- C98: `MarkableReader` adds marks to any implementation of `CharReader`, however many characters that delivers per call: if
it has a text to tell, without errors and pauses, then (in a release build) every history of calls is one the cursor in that
text may have. -/
theorem c98_markable (readChars : Nat → RM σ Str) (Tells : σ → List Heard → Prop) (ht : TellsBy readChars Tells)
    (left : σ → Nat) (hl : ∀ s l, Tells s l → l.length ≤ left s) (s : σ) (text : Str) (hs : Tells s (text.map .char))
    (location : Location) (ops : List ReaderOp) (ho : .readChars 0 ∉ ops) :
    ∃ c', AnySteps ⟨location, text, 0, []⟩ ops
      (callAll (AnyReader.required readChars left).methods ops (AnyReader.withLocation location s false)).1 c' := by
  obtain ⟨c', h, _⟩ := callAll_steps (provided_like (any_like ht hl)) ops ho _ _ (any_new hs location)
  exact ⟨c', h⟩

/-- C98: on the readers of the library, these are the methods that the other theorems are about. -/
theorem c98_same : Reader.required.methods =
    { readChars := Reader.readChars, read := Reader.read, readAll := Reader.readAll, location := fun r => r.buffer.location,
      isEof := Reader.isEof, prefixMatches := Reader.prefixMatches, peek := Reader.peek, skip := Reader.skip,
      mark := Reader.mark, resetToMark := Reader.resetToMark, unmark := Reader.unmark, size := Reader.size,
      debug := fun r => r.buffer.dbg } := by
  have h0 : CharReader.readAllLoop Reader.readChars = Reader.readAllLoop := by
    funext n
    induction n with
    | zero => rfl
    | succ n ih => unfold CharReader.readAllLoop Reader.readAllLoop; rw [ih]
  have h1 : Reader.required.prefixLoop = Reader.prefixLoop := by
    funext p
    induction p with
    | nil => rfl
    | cons x p ih => unfold Required.prefixLoop Reader.prefixLoop; rw [ih]; rfl
  have h2 : Reader.required.peekLoop = Reader.peekLoop := by
    funext n
    induction n with
    | zero => rfl
    | succ n ih => unfold Required.peekLoop Reader.peekLoop; rw [ih]; rfl
  have h3 : Reader.required.skipLoop = Reader.skipLoop := by
    funext fuel
    induction fuel with
    | zero => funext n; cases n <;> rfl
    | succ fuel ih =>
      funext n
      cases n with
      | zero => rfl
      | succ n => unfold Required.skipLoop Reader.skipLoop; rw [ih]; rfl
  unfold Required.methods
  congr 1
  · unfold Required.readAll Reader.readAll; rw [← h0]; rfl
  · funext p; unfold Required.prefixMatches Reader.prefixMatches; rw [h1]; rfl
  · funext n; unfold Required.peek Reader.peek; rw [h2]; rfl
  · funext n; unfold Required.skip Reader.skip; rw [h3]

-- `MarkableReader` over the reader `hesitant`, which returns a character per call: the hypotheses hold for texts without `|`.
example (text : Str) (ht : '|' ∉ text) : hesitantTells false text = text.map .char := by
  induction text with
  | nil => rfl
  | cons x xs ih =>
    simp only [List.mem_cons, not_or] at ht
    have hx : ¬ x = '|' := fun h => ht.1 h.symm
    simp [hesitantTells, hx, ih ht.2]

example : ∀ (s : Bool × Str) l, l = hesitantTells s.1 s.2 → l.length ≤ 2 * s.2.length := by
  rintro ⟨b, cs⟩ l rfl
  induction cs generalizing b with
  | nil => simp [hesitantTells]
  | cons x xs ih =>
    have := ih false
    simp only [hesitantTells, List.length_append, List.length_cons]
    simp only at this
    split <;> simp <;> omega

example : (callAll (AnyReader.required hesitant (fun s => 2 * s.2.length)).methods
    [.readChars 5, .mark, .peek 2, .skip 2, .location, .resetToMark 1, .readAll, .isEof]
    (AnyReader.withLocation (Location.new []) (false, "abcd".toList) false)).1 =
    [.chars ['a'], .num 1, .chars ['b', 'c'], .num 2, .location ⟨[], 1, 4⟩, .num 2, .chars ['b', 'c', 'd'], .bool true] := by
  decide +kernel

/-! ### A reader of our own -/

/-- A reader over a text in memory: it delivers up to two characters per call, and never uses a number for two marks. -/
structure Tape where
  cursor : Cursor
  next : Nat

/-- Its five methods. -/
def tape : Required Tape where
  readChars n t :=
    let cs := t.cursor.rest.take (min n 2)
    (.ok cs, { t with cursor := t.cursor.advance cs.length })
  location t := t.cursor.location
  mark t := (.ok t.next, ⟨{ t.cursor with marks := (t.next, t.cursor.pos) :: t.cursor.marks }, t.next + 1⟩)
  resetToMark m t :=
    match t.cursor.marks.dropWhile (fun x => x.1 != m) with
    | [] => (.err ⟨t.cursor.location, .invalidMark m⟩, t)
    | (_, p) :: older => (.ok (t.cursor.pos - p), { t with cursor := { t.cursor with pos := p, marks := older } })
  unmark m t :=
    match t.cursor.marks.dropWhile (fun x => x.1 != m) with
    | [] => (.err ⟨t.cursor.location, .invalidMark m⟩, t)
    | _ :: older => (.ok (), { t with cursor := { t.cursor with marks := older } })
  size t := t.cursor.rest.length
  debug _ := false

/-- Where it stands. -/
def TapeAt (t : Tape) (c : Cursor) : Prop :=
  t.cursor = c ∧ (∀ x ∈ c.marks, x.1 < t.next) ∧ c.marks.Pairwise (fun x y => y.1 < x.1)

private theorem find_mark (marks : List (Nat × Nat)) (m : Nat) :
    (marks.dropWhile (fun x => x.1 != m) = [] ∧ ∀ x ∈ marks, x.1 ≠ m) ∨
    ∃ newer p older, marks.dropWhile (fun x => x.1 != m) = (m, p) :: older ∧ marks = newer ++ (m, p) :: older ∧
      ∀ x ∈ newer, x.1 ≠ m := by
  induction marks with
  | nil => exact .inl ⟨rfl, by simp⟩
  | cons y ys ih =>
    obtain ⟨k, q⟩ := y
    by_cases hk : k = m
    · subst hk
      exact .inr ⟨[], q, ys, by simp, rfl, by simp⟩
    · rcases ih with ⟨h1, h2⟩ | ⟨newer, p, older, h1, h2, h3⟩
      · refine .inl ⟨by simp [hk, h1], ?_⟩
        intro x hx
        rcases List.mem_cons.1 hx with rfl | hx
        · exact hk
        · exact h2 x hx
      · refine .inr ⟨(k, q) :: newer, p, older, by simp [hk, h1], by simp [h2], ?_⟩
        intro x hx
        rcases List.mem_cons.1 hx with rfl | hx
        · exact hk
        · exact h3 x hx

private theorem older_at {t : Tape} {newer older : List (Nat × Nat)} {y : Nat × Nat} {c : Cursor} (h : TapeAt t c)
    (hm : c.marks = newer ++ y :: older) (pos : Nat) (c' : Cursor) (hc : c' = { c with pos := pos, marks := older }) :
    TapeAt { t with cursor := c' } c' := by
  obtain ⟨rfl, h1, h2⟩ := h
  subst hc
  refine ⟨rfl, fun x hx => h1 x (by rw [hm]; simp [hx]), ?_⟩
  rw [hm] at h2
  exact (List.pairwise_cons.1 (List.pairwise_append.1 h2).2.1).2

theorem tape_like : LikeCursorFor IsRequired false tape.methods TapeAt := by
  refine ⟨fun op t c hw hne h => ?_, fun t c h => by rw [← h.1]; exact Nat.le_refl _, fun _ _ _ => rfl, fun t c h => ?_⟩
  · cases op with
    | readChars n =>
      obtain ⟨rfl, h1, h2⟩ := h
      refine ⟨_, _, _, rfl, .step (.readChars t.cursor n (t.cursor.rest.take (min n 2)) (List.take_prefix _ _) ?_ ?_), rfl, h1, h2⟩
      · rw [List.length_take]; omega
      · intro h0
        cases n with
        | zero => exact .inl rfl
        | succ n =>
          right
          have : min (n + 1) 2 = min n 1 + 1 := by omega
          rw [this] at h0
          cases hr : t.cursor.rest with
          | nil => rfl
          | cons x xs => rw [hr] at h0; simp at h0
    | mark =>
      obtain ⟨rfl, h1, h2⟩ := h
      refine ⟨_, _, _, rfl, .mark t.cursor t.next ?_, rfl, ?_, List.pairwise_cons.2 ⟨fun x hx => h1 x hx, h2⟩⟩
      · intro m p hm he
        have := h1 _ hm
        simp only at this
        omega
      · intro x hx
        rcases List.mem_cons.1 hx with rfl | hx
        · exact Nat.lt_succ_self _
        · exact Nat.lt_succ_of_lt (h1 x hx)
    | resetToMark m =>
      have h0 := h
      obtain ⟨rfl, h1, h2⟩ := h
      rcases find_mark t.cursor.marks m with ⟨h3, h4⟩ | ⟨newer, p, older, h3, h4, h5⟩
      · exact ⟨_, t, _, by simp only [call, Required.methods, tape, h3, answerOf], .step (.resetInvalid t.cursor m h4), h0⟩
      · exact ⟨_, _, _, by simp only [call, Required.methods, tape, h3, answerOf], .step (.reset t.cursor m newer p older h4 h5),
          older_at h0 h4 p _ rfl⟩
    | unmark m =>
      have h0 := h
      obtain ⟨rfl, h1, h2⟩ := h
      rcases find_mark t.cursor.marks m with ⟨h3, h4⟩ | ⟨newer, p, older, h3, h4, h5⟩
      · exact ⟨_, t, _, by simp only [call, Required.methods, tape, h3, answerOf], .step (.unmarkInvalid t.cursor m h4), h0⟩
      · exact ⟨_, _, _, by simp only [call, Required.methods, tape, h3, answerOf], .step (.unmark t.cursor m newer p older h4 h5),
          older_at h0 h4 t.cursor.pos _ rfl⟩
    | location =>
      obtain ⟨rfl, h1, h2⟩ := h
      exact ⟨_, t, _, rfl, .step (.location t.cursor), rfl, h1, h2⟩
    | read => exact hw.elim
    | readAll => exact hw.elim
    | peek n => exact hw.elim
    | prefixMatches p => exact hw.elim
    | isEof => exact hw.elim
    | skip n => exact hw.elim
  · obtain ⟨rfl, h1, h2⟩ := h
    revert h2
    generalize t.cursor.marks = l
    intro h2 m p p' hp hp'
    induction l with
    | nil => simp at hp
    | cons y ys ih =>
      obtain ⟨h3, h4⟩ := List.pairwise_cons.1 h2
      rcases List.mem_cons.1 hp with e | hp <;> rcases List.mem_cons.1 hp' with e' | hp'
      · rw [← e] at e'; exact (Prod.mk.inj e').2.symm
      · have := h3 _ hp'; rw [← e] at this; simp at this
      · have := h3 _ hp; rw [← e'] at this; simp at this
      · exact ih h4 hp hp'

theorem tape_new (location : Location) (text : Str) : TapeAt ⟨⟨location, text, 0, []⟩, 0⟩ ⟨location, text, 0, []⟩ :=
  ⟨rfl, by simp, .nil⟩

-- Two marks at the same position have different numbers; the cursor of `MarkableReader` would give them the same.
example : (callAll tape.methods [.mark, .mark, .readChars 5, .prefixMatches ['c'], .resetToMark 0, .readAll, .resetToMark 1]
    ⟨⟨Location.new [], "abcd".toList, 0, []⟩, 0⟩).1 =
    [.num 0, .num 1, .chars ['a', 'b'], .bool true, .num 2, .chars ['a', 'b', 'c', 'd'],
      .error ⟨⟨[], 1, 5⟩, .invalidMark 1⟩] := by decide +kernel

/-! ## Parsing -/

/-- C99: a parser returns on a reader of any make what it returns on a `MarkableReader` that stands at the same place with the same
text ahead, provided the methods of the reader do what the cursor does, and the scanners of the grammar do the same on both. -/
theorem c99_same_result {I : Methods σ} {At : σ → Cursor → Prop} {scan : SpecialScanner → Location → RM σ Reaction} {m : Machine}
    (hI : LikeCursor dbg I At) (hs : ScannersAgree dbg At scan m.graph) {s : σ} {c : Cursor} (h : At s c) {r : Reader}
    (hr : InputAt dbg r c.location c.rest) (fuel : Nat) : (Dyn.parse I scan m fuel s).1 = (m.parse fuel r).1 := by
  obtain ⟨c', h1, h2, h3⟩ := input_stands hr
  have hg : GraphBehaves dbg (semOf dbg) m.graph := fun addr instr scanner h4 h5 => by
    obtain ⟨f, h6, _⟩ := hs addr instr scanner h4 h5
    rw [semOf_eq h6]; exact h6
  have hd : Dyn.GraphBehavesOn dbg At scan (semOf dbg) m.graph := fun addr instr scanner h4 h5 => by
    obtain ⟨f, h6, h7⟩ := hs addr instr scanner h4 h5
    rw [semOf_eq h6]; exact h7
  rw [Dyn.parse_pure hI hd hg fuel h, parse_pure hg fuel h1, h2, h3]

/-- C99: what that is: `parse` returns what the grammar, as it is built, says about the text ahead. -/
theorem c99_as_built {I : Methods σ} {At : σ → Cursor → Prop} {scan : SpecialScanner → Location → RM σ Reaction} {G : Language}
    {start : SyntaxRule} {m : Machine} (hp : ParserFor dbg G start m) (hI : LikeCursor dbg I At)
    (hs : ScannersAgree dbg At scan m.graph) {s : σ} {c : Cursor} (h : At s c) (x : Res (List Event)) :
    ReturnsOn I scan m s x ↔ Parses asBuilt G start c.location c.rest x := by
  have hr : InputAt dbg (Reader.withLocation c.location (.buffered c.rest) dbg) c.location c.rest :=
    input_new ⟨[], rfl, by simp [Source.buffered]⟩
  rw [← returns_iff hp hr x]
  unfold ReturnsOn Returns
  constructor
  · rintro ⟨h1, n, h2⟩
    exact ⟨h1, n, fun fuel hf => by rw [← c99_same_result hI hs h hr]; exact h2 fuel hf⟩
  · rintro ⟨h1, n, h2⟩
    exact ⟨h1, n, fun fuel hf => by rw [c99_same_result hI hs h hr]; exact h2 fuel hf⟩

/-- C99: the scanners of the library do the same on readers of any make. -/
theorem c99_library {I : Methods σ} {At : σ → Cursor → Prop} (hI : LikeCursor dbg I At) {scanner : SpecialScanner}
    {scan : Location → RM σ Reaction} (h : LibraryScan I scanner scan) : ∃ f, Behaves dbg scanner f ∧ BehavesOn dbg At scan f := by
  cases h with
  | default content => exact ⟨_, default_behaves content, Dyn.default_on⟩
  | chars allowed min max => exact ⟨_, chars_behaves allowed min max, Dyn.chars_on hI allowed min max⟩
  | regex source find => exact ⟨_, regex_behaves source find, Dyn.regex_on hI find⟩

/-- C99: after `parse` the reader stands somewhere in the same text, at its end if the text was accepted, and the marks set before are
still there. -/
theorem c99_where {I : Methods σ} {At : σ → Cursor → Prop} {scan : SpecialScanner → Location → RM σ Reaction} {m : Machine}
    (hI : LikeCursor dbg I At) (hs : ScannersAgree dbg At scan m.graph) {s : σ} {c : Cursor} (h : At s c) (fuel : Nat) :
    (∀ out, (Dyn.parse I scan m fuel s).1 = .ok out → ∃ more, At (Dyn.parse I scan m fuel s).2
      ⟨c.start, c.text, c.pos + c.rest.length, more ++ c.marks⟩) ∧
    (∀ e, (Dyn.parse I scan m fuel s).1 = .err e → ∃ pos more, At (Dyn.parse I scan m fuel s).2
      ⟨c.start, c.text, pos, more ++ c.marks⟩) := by
  have hg : GraphBehaves dbg (semOf dbg) m.graph := fun addr instr scanner h4 h5 => by
    obtain ⟨f, h6, _⟩ := hs addr instr scanner h4 h5
    rw [semOf_eq h6]; exact h6
  have hd : Dyn.GraphBehavesOn dbg At scan (semOf dbg) m.graph := fun addr instr scanner h4 h5 => by
    obtain ⟨f, h6, h7⟩ := hs addr instr scanner h4 h5
    rw [semOf_eq h6]; exact h7
  exact Dyn.parse_where hI hd hg fuel h

/-- C99: the machine on a `MarkableReader` is the one the other theorems are about. -/
theorem c99_same (m : Machine) (fuel : Nat) : Dyn.parse Reader.required.methods SpecialScanner.scan m fuel = m.parse fuel :=
  by rw [c98_same]; exact Dyn.parse_same m fuel

/-- C99: the scanners agree if each scanner with the meaning of a special sequence of the language has it on both kinds of readers. -/
theorem c99_scanners {At : σ → Cursor → Prop} {scan : SpecialScanner → Location → RM σ Reaction} {G : Language} {start : SyntaxRule}
    {m : Machine} (hp : ParserFor dbg G start m)
    (h : ∀ l t scanner, Behaves dbg scanner (G.special l t) → BehavesOn dbg At (scan scanner) (G.special l t)) :
    ScannersAgree dbg At scan m.graph := by
  obtain ⟨config, L, hb, hz, _⟩ := parser_linked hp
  intro addr instr scanner h1 h2
  obtain ⟨_, hx⟩ := L.compiled.closed instr (List.mem_of_getElem? h1)
  rw [h2] at hx
  obtain ⟨l, t, rfl⟩ := hx
  exact ⟨_, (hz l t).1, h l t _ (hz l t).1⟩

/-- C99, put together for `MarkableReader` (in a release build) over any implementation of `CharReader`, and the default scanner: how the
text gets to the parser makes no difference. -/
theorem c99_markable (readChars : Nat → RM σ Str) (Tells : σ → List Heard → Prop) (ht : TellsBy readChars Tells)
    (left : σ → Nat) (hl : ∀ s l, Tells s l → l.length ≤ left s) (s : σ) (text : Str) (hs : Tells s (text.map .char))
    (location : Location) {rules : List SyntaxRule} {start : SyntaxRule} {m : Machine}
    (hp : ParserFor false (plainLanguage rules) start m) (x : Res (List Event)) :
    ReturnsOn (AnyReader.required readChars left).methods (fun _ => Dyn.defaultScan) m (AnyReader.withLocation location s false) x ↔
      Parses asBuilt (plainLanguage rules) start location text x := by
  have := c99_as_built hp (provided_like (any_like ht hl)) (c99_scanners hp (fun _ _ _ _ => Dyn.default_on)) (any_new hs location) x
  rw [this]
  have e : (⟨location, text, 0, []⟩ : Cursor).location = location := by simp [Cursor.location, lineColumn_nil]
  rw [e]
  rfl

/-- A grammar with an exception, choices, a repetition and a special sequence. -/
private def words : String := "S={W,[',']}-'b';W='a'|'b',?x?,'c';"

-- On the reader of our own.
example : ∃ rules start m, parseStr [] words.toList = .ok rules ∧ ParserFor false (plainLanguage rules) start m ∧
    (∃ out, ReturnsOn tape.methods (fun _ => Dyn.defaultScan) m ⟨⟨Location.new [], "a,bca".toList, 0, []⟩, 0⟩ (.ok out)) ∧
    ∃ e, ReturnsOn tape.methods (fun _ => Dyn.defaultScan) m ⟨⟨Location.new [], "a,bb".toList, 0, []⟩, 0⟩ (.err e) := by
  obtain ⟨rules, start, m, h1, h2, _, h3, h4⟩ := samplePlain words (by decide +kernel)
  have key : ∀ input x, Returns m (readerOn input) x →
      ReturnsOn tape.methods (fun _ => Dyn.defaultScan) m ⟨⟨Location.new [], input.toList, 0, []⟩, 0⟩ x := fun input x h =>
    (c99_as_built h2 (provided_like tape_like) (c99_scanners h2 (fun _ _ _ _ => Dyn.default_on))
      (tape_new (Location.new []) input.toList) x).mpr ((returns_iff h2 (input_readerOn input) x).mp h)
  refine ⟨rules, start, m, h1, h2, ?_, ⟨⟨[], 1, 3⟩, .expected "EOF".toList (.text ['b', 'b'] false)⟩,
    key _ _ (h3 "a,bb" 100 _ (by decide +kernel) (by simp))⟩
  have hok : (match sampleRun .default words "a,bca" 100 with | .ok _ => true | _ => false) = true := by decide +kernel
  revert hok
  cases hx : sampleRun .default words "a,bca" 100 with
  | ok out => intro _; exact ⟨out, key _ _ (h3 "a,bca" 100 _ hx (by simp))⟩
  | err e => simp
  | panic p => simp
  | diverge => simp

end Ebnf.Props
