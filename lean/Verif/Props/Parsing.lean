import Verif.Proofs.Running

set_option autoImplicit false

/-! # C33–C36: what `Parser::parse` returns -/

namespace Ebnf.Props

open Ebnf Ebnf.Spec

variable {dbg : Bool}

/-- The meaning of the start rule. -/
abbrev startTask (start : SyntaxRule) : Task := .primary (.metaIdentifier start.location start.metaIdentifier)

/-! ## C33 -/

/-- C33: `parse` returns events iff the start rule matches all of the text. -/
theorem c33_ok_iff {G : Language} {start : SyntaxRule} {m : Machine} (hp : ParserFor dbg G start m) {r : Reader} {here : Location}
    {text : Str} (hi : InputAt dbg r here text) :
    (∃ out, Returns m r (.ok out)) ↔ ∃ evs, Ev asBuilt G (startTask start) here text (.ok evs text.length) := by
  constructor
  · rintro ⟨out, h⟩
    cases (returns_iff hp hi _).mp h with
    | accepted h _ => exact ⟨_, h⟩
  · rintro ⟨evs, h⟩
    exact ⟨removeEmpty evs, (returns_iff hp hi _).mpr (.accepted h ((trimmed_iff _ _).mpr rfl))⟩

/-- C33: when `parse` returns events the reader stands at the end of the text. -/
theorem c33_at_end {G : Language} {start : SyntaxRule} {m : Machine} (hp : ParserFor dbg G start m) {r : Reader} {here : Location}
    {text : Str} (hi : InputAt dbg r here text) (fuel : Nat) (out : List Event) (h : (m.parse fuel r).1 = .ok out) :
    (perform .isEof (m.parse fuel r).2).1 = .bool true ∧
      (perform .location (m.parse fuel r).2).1 = .location (lineColumn here text) := parse_at_end hp hi h

/-- C33: when the start rule matches only a part, the result is an error at the first character left. -/
theorem c33_leftover {G : Language} {start : SyntaxRule} {m : Machine} (hp : ParserFor dbg G start m) {r : Reader} {here : Location}
    {pre post : Str} (hpost : post ≠ []) (hi : InputAt dbg r here (pre ++ post)) {evs : List Event}
    (h : Ev asBuilt G (startTask start) here (pre ++ post) (.ok evs pre.length)) :
    Returns m r (.err ⟨lineColumn here pre, .expected "EOF".toList (ahead post)⟩) := by
  have := (returns_iff hp hi _).mpr (.leftover h (by
    have := List.length_pos_iff.mpr hpost
    simp; omega))
  simpa [expectedAt] using this

example : ∃ rules start m, parseStr [] "A='a',{'b'};".toList = .ok rules ∧ ParserFor false (plainLanguage rules) start m ∧
    Returns m (readerOn "abb") (.ok [.begin ⟨[], 1, 1⟩ ⟨[], 1, 1⟩ ['A'], .token ⟨[], 1, 3⟩ ⟨[], 1, 1⟩ ['a'],
      .token ⟨[], 1, 8⟩ ⟨[], 1, 2⟩ ['b'], .token ⟨[], 1, 8⟩ ⟨[], 1, 3⟩ ['b'], .end ⟨[], 1, 1⟩ ⟨[], 1, 4⟩ ['A']]) ∧
    Returns m (readerOn "abc") (.err ⟨⟨[], 1, 3⟩, .expected "EOF".toList (.text ['c'] false)⟩) := by
  obtain ⟨rules, start, m, h1, h2, _, h3, _⟩ := samplePlain "A='a',{'b'};" (by decide +kernel)
  exact ⟨rules, start, m, h1, h2, h3 _ 100 _ (by decide +kernel) (by simp), h3 _ 100 _ (by decide +kernel) (by simp)⟩

/-! ## C34 -/

/-- C34: the result depends only on the place and the text ahead: not on the pieces in which the source delivers it, nor
on what was done with the reader before. -/
theorem c34_delivery_irrelevant {G : Language} {start : SyntaxRule} {m : Machine} (hp : ParserFor dbg G start m)
    {r r' : Reader} {here : Location} {text : Str} (hi : InputAt dbg r here text) (hi' : InputAt dbg r' here text) (fuel : Nat) :
    (m.parse fuel r).1 = (m.parse fuel r').1 := by
  obtain ⟨config, L, hb, _⟩ := parser_linked hp
  obtain ⟨c, hs, h1, h2⟩ := input_stands hi
  obtain ⟨c', hs', h1', h2'⟩ := input_stands hi'
  rw [parse_pure hb fuel hs, parse_pure hb fuel hs', ← h1, ← h2, ← h1', ← h2']

/-- C34 for fresh readers: any two deliveries of a text. -/
theorem c34_pieces_irrelevant {G : Language} {start : SyntaxRule} {m : Machine} (hp : ParserFor dbg G start m)
    (here : Location) (text : Str) (pieces pieces' : Source) (h : Delivers pieces text) (h' : Delivers pieces' text)
    (fuel : Nat) :
    (m.parse fuel (Reader.withLocation here pieces dbg)).1 = (m.parse fuel (Reader.withLocation here pieces' dbg)).1 :=
  c34_delivery_irrelevant hp (input_new h) (input_new h') fuel

/-- Readers that stand at the same place in different ways. -/
example : InputAt false (Reader.withLocation ⟨[], 1, 3⟩ ⟨[], [.ok ['b'], .ok [], .ok ['c', 'd']], Location.new []⟩ false)
      ⟨[], 1, 3⟩ "bcd".toList ∧
    InputAt false (performAll [.mark, .skip 4, .resetToMark 0, .skip 2]
      (Reader.withLocation (Location.new []) ⟨[], [.ok ['a', 'a', 'b'], .ok ['c', 'd']], Location.new []⟩ false)).2
      ⟨[], 1, 3⟩ "bcd".toList := by
  refine ⟨input_new ⟨[['b'], [], ['c', 'd']], rfl, rfl⟩, Location.new [], _, "aabcd".toList,
    [.mark, .skip 4, .resetToMark 0, .skip 2], ⟨Location.new [], "aabcd".toList, 2, []⟩,
    ⟨[['a', 'a', 'b'], ['c', 'd']], rfl, rfl⟩, rfl, ?_, by decide, by decide⟩
  have : (performAll [.mark, .skip 4, .resetToMark 0, .skip 2]
      (Reader.withLocation (Location.new []) ⟨[], [.ok ['a', 'a', 'b'], .ok ['c', 'd']], Location.new []⟩ false)).1 =
      [.num 0, .num 4, .num 4, .num 2] := by decide +kernel
  rw [this]
  refine .cons (.mark _ 0 (by simp)) (.cons (.skip _ 4) (.cons (.reset _ 0 [] 0 [] rfl (by simp)) (.cons (.skip _ 2) ?_)))
  exact .nil _

/-- A reader of a debug build whose only mark was dropped. -/
example : InputAt true (performAll [.mark, .skip 2, .unmark 0]
      (Reader.withLocation (Location.new []) ⟨[], [.ok ['a', 'a', 'b'], .ok ['c', 'd']], Location.new []⟩ true)).2
      ⟨[], 1, 3⟩ "bcd".toList := by
  refine ⟨Location.new [], _, "aabcd".toList, [.mark, .skip 2, .unmark 0], ⟨Location.new [], "aabcd".toList, 2, []⟩,
    ⟨[['a', 'a', 'b'], ['c', 'd']], rfl, rfl⟩, rfl, ?_, by decide, by decide⟩
  have : (performAll [.mark, .skip 2, .unmark 0]
      (Reader.withLocation (Location.new []) ⟨[], [.ok ['a', 'a', 'b'], .ok ['c', 'd']], Location.new []⟩ true)).1 =
      [.num 0, .num 2, .unit] := by decide +kernel
  rw [this]
  exact .cons (.mark _ 0 (by simp)) (.cons (.skip _ 2) (.cons (.unmark _ 0 [] 0 [] rfl (by simp)) (.nil _)))

/-! ## C35 -/

/-- C35: what `parse` returns is what the reading of the syntax tree says, with the deviations of the code (`asBuilt`):
it returns a result iff the reading gives that result, and there is at most one. -/
theorem c35_as_built {G : Language} {start : SyntaxRule} {m : Machine} (hp : ParserFor dbg G start m) {r : Reader}
    {here : Location} {text : Str} (hi : InputAt dbg r here text) :
    (∀ x, Returns m r x ↔ Parses asBuilt G start here text x) ∧
      (∀ x x', Parses asBuilt G start here text x → Parses asBuilt G start here text x' → x = x') ∧
      (Loops m r ↔ ∀ x, ¬ Parses asBuilt G start here text x) :=
  ⟨returns_iff hp hi, fun _ _ => parses_unique hp, loops_iff hp hi⟩

/-- C35 (partial): for grammars in which nothing follows a bare group, in which optional and repeated bodies are choices
or single terms, whose scanners do not forward and whose counts are below 2^32-1, on texts shorter than 2^32-1 characters,
what `parse` returns is the intended reading of the syntax tree.  Other grammars: `c36_continuation_dropped`,
`c37_stale_events`, `c52_forward_ignored`. -/
theorem c35_intended_partial {G : Language} {start : SyntaxRule} {m : Machine} (hp : ParserFor dbg G start m)
    (ht : Everywhere (tidy G) G) {r : Reader} {here : Location} {text : Str} (hi : InputAt dbg r here text)
    (hl : text.length < 4294967295) :
    (∀ x, Returns m r x ↔ Parses ideal G start here text x) ∧
      (∀ x x', Parses ideal G start here text x → Parses ideal G start here text x' → x = x') ∧
      (Loops m r ↔ ∀ x, ¬ Parses ideal G start here text x) := by
  obtain ⟨_, _, _, hz, _⟩ := parser_linked hp
  have key : ∀ x, Parses asBuilt G start here text x ↔ Parses ideal G start here text x := by
    intro x
    have he := fun o => ev_tidy ht (realizes_bounded hz) (loc := start.location) (name := start.metaIdentifier)
      (here := here) hl (o := o)
    constructor
    · intro h
      cases h with
      | accepted h h' => exact .accepted ((he _).mp h) h'
      | leftover h h' => exact .leftover ((he _).mp h) h'
      | rejected h => exact .rejected ((he _).mp h)
      | aborted h => exact .aborted ((he _).mp h)
      | crashed h => exact .crashed ((he _).mp h)
    · intro h
      cases h with
      | accepted h h' => exact .accepted ((he _).mpr h) h'
      | leftover h h' => exact .leftover ((he _).mpr h) h'
      | rejected h => exact .rejected ((he _).mpr h)
      | aborted h => exact .aborted ((he _).mpr h)
      | crashed h => exact .crashed ((he _).mpr h)
  obtain ⟨h1, h2, h3⟩ := c35_as_built hp hi
  simp only [key] at h1 h2 h3
  exact ⟨h1, h2, h3⟩

/-- The rule `A={'b'},'c';`. -/
private def repeatedB : SyntaxRule :=
  ⟨⟨[], 1, 1⟩, ['A'], .cons (.cons (.plain (.mk 1 (.repeated ⟨[], 1, 3⟩ (.cons (.cons (.plain
    (.mk 1 (.terminalString ⟨[], 1, 4⟩ ['b']))) .nil) .nil))))
    (.cons (.plain (.mk 1 (.terminalString ⟨[], 1, 9⟩ ['c']))) .nil)) .nil⟩

example : ∃ m, ParserFor false (plainLanguage [repeatedB]) repeatedB m ∧
    Everywhere (tidy (plainLanguage [repeatedB])) (plainLanguage [repeatedB]) ∧
    Returns m (readerOn "bbc") (.ok [.begin ⟨[], 1, 1⟩ ⟨[], 1, 1⟩ ['A'], .token ⟨[], 1, 4⟩ ⟨[], 1, 1⟩ ['b'],
      .token ⟨[], 1, 4⟩ ⟨[], 1, 2⟩ ['b'], .token ⟨[], 1, 9⟩ ⟨[], 1, 3⟩ ['c'], .end ⟨[], 1, 1⟩ ⟨[], 1, 4⟩ ['A']]) := by
  obtain ⟨rules, start, m, h1, h2, h4, h3, _⟩ := samplePlain "A={'b'},'c';" (by decide +kernel)
  have : parseStr [] "A={'b'},'c';".toList = .ok [repeatedB] := by decide +kernel
  rw [this] at h1
  simp at h1
  subst h1
  simp at h4
  subst h4
  refine ⟨m, h2, ?_, h3 _ 100 _ (by decide +kernel) (by simp)⟩
  intro r hr
  simp [plainLanguage] at hr
  subst hr
  simp [repeatedB, EveryList, EverySingle, EveryTerm, EveryFactor, EveryPrimary, tidy, smallCounts, quietBodies,
    noForwards, groupsLast, IsBareGroup, QuietList, QuietSingle, QuietTerm, QuietFactor, QuietPrimary]

/-! ## C36 -/

/-- C36 fails: what follows a bare group is not matched.  The grammar `A=('a'),'b';` accepts `a` and rejects `ab`, although
the intended reading rejects `a` and accepts `ab`. -/
theorem c36_continuation_dropped :
    ∃ rules start m, parseStr [] "A=('a'),'b';".toList = .ok rules ∧ ParserFor false (plainLanguage rules) start m ∧
      (∃ out, Returns m (readerOn "a") (.ok out)) ∧ (∃ e, Returns m (readerOn "ab") (.err e)) ∧
      (∃ e, Parses ideal (plainLanguage rules) start (Location.new []) "a".toList (.err e)) ∧
      (∃ out, Parses ideal (plainLanguage rules) start (Location.new []) "ab".toList (.ok out)) := by
  obtain ⟨rules, start, m, h1, h2, _, h3, h4⟩ := samplePlain "A=('a'),'b';" (by decide +kernel)
  exact ⟨rules, start, m, h1, h2, ⟨_, h3 _ 100 (.ok [.begin ⟨[], 1, 1⟩ ⟨[], 1, 1⟩ ['A'], .token ⟨[], 1, 4⟩ ⟨[], 1, 1⟩ ['a'],
      .end ⟨[], 1, 1⟩ ⟨[], 1, 2⟩ ['A']]) (by decide +kernel) (by simp)⟩,
    ⟨_, h3 _ 100 (.err ⟨⟨[], 1, 2⟩, .expected "EOF".toList (.text ['b'] false)⟩) (by decide +kernel) (by simp)⟩,
    ⟨⟨⟨[], 1, 2⟩, .expected "\"b\"".toList .eof⟩, h4 _ _ _ (by decide +kernel)⟩,
    ⟨[.begin ⟨[], 1, 1⟩ ⟨[], 1, 1⟩ ['A'], .token ⟨[], 1, 4⟩ ⟨[], 1, 1⟩ ['a'], .token ⟨[], 1, 9⟩ ⟨[], 1, 2⟩ ['b'],
      .end ⟨[], 1, 1⟩ ⟨[], 1, 3⟩ ['A']], h4 _ _ _ (by decide +kernel)⟩⟩

/-- C36 (partial): what follows a term other than a bare group has to match, right after it.  Missing are bare groups. -/
theorem c36_sequence_honoured_partial {G : Language} {start : SyntaxRule} {m : Machine} (hp : ParserFor dbg G start m) {r : Reader}
    {here : Location} {text : Str} (hi : InputAt dbg r here text) {t : Term} {d : SingleDefinition}
    (hd : start.definitionList = .cons (.cons t d) .nil) (hb : ¬ IsBareGroup t) (out : List Event) :
    Returns m r (.ok out) ↔ ∃ pre post evs evs', text = pre ++ post ∧
      Ev asBuilt G (.term t) here (pre ++ post) (.ok evs pre.length) ∧
      Ev asBuilt G (.sequence d) (lineColumn here pre) post (.ok evs' post.length) ∧
      Trimmed (.begin start.location here start.metaIdentifier :: evs ++ evs' ++
        [.end start.location (lineColumn here text) start.metaIdentifier]) out := by
  rw [returns_ok_iff hp hi, hd]
  constructor
  · rintro ⟨inner, h, ht⟩
    cases h with
    | single h =>
      generalize ho : Outcome.ok inner text.length = o at h
      cases h with
      | @next _ _ _ _ evs n o' _ h1 h2 =>
        have hn := ev_bounded_ok (parser_bounded hp) h1
        have hl : (text.take n).length = n := by rw [List.length_take]; omega
        cases o' with
        | ok evs' k =>
          simp only [Outcome.after, Outcome.ok.injEq] at ho
          obtain ⟨rfl, hk⟩ := ho
          refine ⟨text.take n, text.drop n, evs, evs', (List.take_append_drop n text).symm, ?_, ?_, ?_⟩
          · rw [List.take_append_drop, hl]; exact h1
          · rw [List.length_drop, hk, Nat.add_sub_cancel_left]; exact h2
          · simpa using ht
        | fail _ _ _ => simp [Outcome.after] at ho
        | abort _ => simp [Outcome.after] at ho
        | panic _ => simp [Outcome.after] at ho
      | dropped _ h => exact absurd h hb
      | nextFail _ h => subst ho; exact absurd trivial h
  · rintro ⟨pre, post, evs, evs', rfl, h1, h2, h3⟩
    refine ⟨evs ++ evs', .single ?_, by simpa using h3⟩
    have := Ev.next (d := d) (o := .ok evs' post.length) (fun hc => hb hc.2) h1 (by simpa using h2)
    simpa [Outcome.after] using this

/-- C36: precisely what happens with a bare group: the rest of its definition plays no role. -/
theorem c36_bare_group {G : Language} {start : SyntaxRule} {m : Machine} (hp : ParserFor dbg G start m) {r : Reader}
    {here : Location} {text : Str} (hi : InputAt dbg r here text) {t : Term} {d : SingleDefinition}
    (hd : start.definitionList = .cons (.cons t d) .nil) (hb : IsBareGroup t) (out : List Event) :
    Returns m r (.ok out) ↔ ∃ evs, Ev asBuilt G (.term t) here text (.ok evs text.length) ∧
      Trimmed (.begin start.location here start.metaIdentifier :: evs ++
        [.end start.location (lineColumn here text) start.metaIdentifier]) out := by
  rw [returns_ok_iff hp hi, hd]
  constructor
  · rintro ⟨inner, h, ht⟩
    cases h with
    | single h =>
      generalize ho : Outcome.ok inner text.length = o at h
      cases h with
      | next h _ _ => exact absurd ⟨rfl, hb⟩ h
      | dropped _ _ h => rw [← ho] at h; exact ⟨inner, h, ht⟩
      | nextFail _ h => subst ho; exact absurd trivial h
  · rintro ⟨evs, h1, h2⟩
    exact ⟨evs, .single (.dropped rfl hb h1), h2⟩

/-- With an optional sequence instead of the group the continuation counts. -/
example : ∃ rules start m, parseStr [] "A=['a'],'b';".toList = .ok rules ∧ ParserFor false (plainLanguage rules) start m ∧
    (∃ t d, start.definitionList = .cons (.cons t d) .nil ∧ ¬ IsBareGroup t) ∧
    (∃ out, Returns m (readerOn "ab") (.ok out)) := by
  obtain ⟨rules, start, m, h1, h2, h4, h3, _⟩ := samplePlain "A=['a'],'b';" (by decide +kernel)
  have hr : parseStr [] "A=['a'],'b';".toList = .ok [⟨⟨[], 1, 1⟩, ['A'], .cons (.cons (.plain (.mk 1 (.optional ⟨[], 1, 3⟩
    (.cons (.cons (.plain (.mk 1 (.terminalString ⟨[], 1, 4⟩ ['a']))) .nil) .nil))))
    (.cons (.plain (.mk 1 (.terminalString ⟨[], 1, 9⟩ ['b']))) .nil)) .nil⟩] := by decide +kernel
  have h1' := h1
  rw [hr] at h1'
  simp at h1'
  subst h1'
  simp at h4
  subst h4
  exact ⟨_, _, m, h1, h2, ⟨_, _, rfl, by simp [IsBareGroup]⟩, ⟨_, h3 _ 100 (.ok [.begin ⟨[], 1, 1⟩ ⟨[], 1, 1⟩ ['A'],
    .token ⟨[], 1, 4⟩ ⟨[], 1, 1⟩ ['a'], .token ⟨[], 1, 9⟩ ⟨[], 1, 2⟩ ['b'], .end ⟨[], 1, 1⟩ ⟨[], 1, 3⟩ ['A']])
    (by decide +kernel) (by simp)⟩⟩

end Ebnf.Props
