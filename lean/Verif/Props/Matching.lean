import Verif.Proofs.Matching

set_option autoImplicit false

/-! # C40, C42, C44, C46, C52: choices, exceptions, repetitions and forwarding

Each theorem is stated for any place of a grammar (`Ev asBuilt` is what the parser does there: `c35_as_built`), and for
`Parser::parse` on a rule that consists of just that construct. -/

namespace Ebnf.Props

open Ebnf Ebnf.Spec

variable {dbg : Bool}

/-! ## C40 -/

/-- C40: a definition-list matches what the first of its definitions that matches there matches: the definitions before it
fail at the same place, those after it play no role, and there are no events but its own. -/
theorem c40_ordered_choice (G : Language) (l : DefinitionList) (here : Location) (rest : Str) (evs : List Event) (n : Nat) :
    Matches asBuilt G (.list l) here rest evs n ↔
      ∃ pre d post, l.toList = pre ++ d :: post ∧ (∀ x ∈ pre, Fails asBuilt G (.sequence x) here rest) ∧
        Matches asBuilt G (.sequence d) here rest evs n := list_ok_iff l

/-- C40: it fails iff all of its definitions fail, each from the place at which the list was entered. -/
theorem c40_choice_fails (G : Language) (l : DefinitionList) (hl : l ≠ .nil) (here : Location) (rest : Str) :
    Fails asBuilt G (.list l) here rest ↔ ∀ x ∈ l.toList, Fails asBuilt G (.sequence x) here rest := list_fail_iff l hl

/-- C40 for the start rule: `parse` returns the events of the first definition that matches. -/
theorem c40_parse {G : Language} {start : SyntaxRule} {m : Machine} (hp : ParserFor dbg G start m) {r : Reader} {here : Location}
    {text : Str} (hi : InputAt dbg r here text) (out : List Event) :
    Returns m r (.ok out) ↔ ∃ pre d post evs, start.definitionList.toList = pre ++ d :: post ∧
      (∀ x ∈ pre, Fails asBuilt G (.sequence x) here text) ∧ Matches asBuilt G (.sequence d) here text evs text.length ∧
      Trimmed (.begin start.location here start.metaIdentifier :: evs ++
        [.end start.location (lineColumn here text) start.metaIdentifier]) out := by
  rw [returns_ok_iff hp hi]
  constructor
  · rintro ⟨inner, h1, h2⟩
    obtain ⟨pre, d, post, h3, h4, h5⟩ := (list_ok_iff _).mp h1
    exact ⟨pre, d, post, inner, h3, h4, h5, h2⟩
  · rintro ⟨pre, d, post, inner, h3, h4, h5, h2⟩
    exact ⟨inner, (list_ok_iff _).mpr ⟨pre, d, post, h3, h4, h5⟩, h2⟩

/-- C40: when the first definition that matches leaves text, `parse` returns an error, whatever the later definitions. -/
theorem c40_first_match_decides {G : Language} {start : SyntaxRule} {m : Machine} (hp : ParserFor dbg G start m) {r : Reader}
    {here : Location} {text : Str} (hi : InputAt dbg r here text) {pre post : List SingleDefinition} {d : SingleDefinition}
    (hl : start.definitionList.toList = pre ++ d :: post) (hpre : ∀ x ∈ pre, Fails asBuilt G (.sequence x) here text)
    {evs : List Event} {n : Nat} (hd : Matches asBuilt G (.sequence d) here text evs n) (hn : n < text.length) :
    Returns m r (.err (expectedAt "EOF".toList (lineColumn here (text.take n)) (text.drop n))) :=
  (returns_iff hp hi _).mpr (.leftover ((ev_start_ok (parser_oneMeaning hp) hp.start).mpr
    ⟨evs, (list_ok_iff _).mpr ⟨pre, d, post, hl, hpre, hd⟩, rfl⟩) hn)

/-- The rule `A='a'|'a','b';`. -/
private def prefixFirst : SyntaxRule :=
  ⟨⟨[], 1, 1⟩, ['A'], .cons (.cons (.plain (.mk 1 (.terminalString ⟨[], 1, 3⟩ ['a']))) .nil)
    (.cons (.cons (.plain (.mk 1 (.terminalString ⟨[], 1, 7⟩ ['a']))) (.cons (.plain (.mk 1
      (.terminalString ⟨[], 1, 11⟩ ['b']))) .nil)) .nil)⟩

/-- The second definition would match all of `ab`, but the first one matches. -/
example : ∃ m, ParserFor false (plainLanguage [prefixFirst]) prefixFirst m ∧
    (∃ d post, prefixFirst.definitionList.toList = [] ++ d :: post ∧
      Matches asBuilt (plainLanguage [prefixFirst]) (.sequence d) (Location.new []) "ab".toList
        [.token ⟨[], 1, 3⟩ ⟨[], 1, 1⟩ ['a']] 1) ∧
    Returns m (readerOn "ab") (.err ⟨⟨[], 1, 2⟩, .expected "EOF".toList (.text ['b'] false)⟩) := by
  obtain ⟨m, h1, h2, _⟩ := samplePlainOf "A='a'|'a','b';" prefixFirst [] (by decide +kernel) (by decide +kernel)
  refine ⟨m, h1, ⟨_, _, rfl, ?_⟩, h2 _ 100 _ (by decide +kernel) (by simp)⟩
  exact eval_sound 10 (by decide +kernel)

/-! ## C42 -/

/-- C42: `F - X` matches, with the events of `F`, what `F` matches, provided `X`, run on exactly that text, does not match all
of it (that is: it fails, or matches less). -/
theorem c42_exception (G : Language) (f x : Factor) (here : Location) (rest : Str) (evs : List Event) (n : Nat) :
    Matches asBuilt G (.term (.except f x)) here rest evs n ↔
      Matches asBuilt G (.factor f) here rest evs n ∧
        (Fails asBuilt G (.factor x) here (rest.take n) ∨
          ∃ evs' k, Matches asBuilt G (.factor x) here (rest.take n) evs' k ∧ k ≠ n) := by
  constructor
  · intro h
    generalize ho : Outcome.ok evs n = o at h
    cases h with
    | notExcluded h1 h2 h3 => cases ho; exact ⟨h1, .inr ⟨_, _, h2, h3⟩⟩
    | notExcludedFail h1 h2 => cases ho; exact ⟨h1, .inl ⟨_, _, _, h2⟩⟩
    | exceptStop _ h => subst ho; exact h.elim
    | excludedStop _ _ h => subst ho; exact h.elim
    | _ => cases ho
  · rintro ⟨h1, ⟨_, _, _, h2⟩ | ⟨evs', k, h2, h3⟩⟩
    · exact .notExcludedFail h1 h2
    · exact .notExcluded h1 h2 h3

/-- C42: when both match the same text, the term fails. -/
theorem c42_excluded (G : Language) (f x : Factor) (here : Location) (rest : Str) (evs evs' : List Event) (n : Nat)
    (hf : Matches asBuilt G (.factor f) here rest evs n) (hx : Matches asBuilt G (.factor x) here (rest.take n) evs' n) :
    Fails asBuilt G (.term (.except f x)) here rest := ⟨_, _, _, .excluded hf hx⟩

/-- C42 for whole rules: for `A = F - X;` the parser of `A` accepts a text only if that of `F` does and that of `X`
does not (it returns an error); and rejects a text that those of both `F` and `X` accept. -/
theorem c42_rules {G : Language} {a f x : SyntaxRule} {ma mf mx : Machine} (ha : ParserFor dbg G a ma) (hf : ParserFor dbg G f mf)
    (hx : ParserFor dbg G x mx) {l₁ l₂ : Location} {n₁ n₂ : Str} (hn₁ : SameName f.metaIdentifier n₁)
    (hn₂ : SameName x.metaIdentifier n₂)
    (hd : a.definitionList = oneTerm (.except (.mk 1 (.metaIdentifier l₁ n₁)) (.mk 1 (.metaIdentifier l₂ n₂))))
    {r : Reader} {here : Location} {text : Str} (hi : InputAt dbg r here text) :
    ((∃ out, Returns ma r (.ok out)) → (∃ out, Returns mf r (.ok out)) ∧ ∃ e, Returns mx r (.err e)) ∧
    ((∃ out, Returns mf r (.ok out)) → (∃ out, Returns mx r (.ok out)) → ∃ e, Returns ma r (.err e)) := by
  have U := parser_oneMeaning ha
  have accept : ∀ {s : SyntaxRule} {m : Machine}, ParserFor dbg G s m →
      ((∃ out, Returns m r (.ok out)) ↔ ∃ inner, Ev asBuilt G (.list s.definitionList) here text (.ok inner text.length)) := by
    intro s m hm
    constructor
    · rintro ⟨out, h⟩
      obtain ⟨inner, h, _⟩ := (returns_ok_iff hm hi out).mp h
      exact ⟨inner, h⟩
    · rintro ⟨inner, h⟩
      exact ⟨_, (returns_ok_iff hm hi _).mpr ⟨inner, h, (trimmed_iff _ _).mpr rfl⟩⟩
  have ref : ∀ {s : SyntaxRule} {l : Location} {n : Str} {evs : List Event} {k : Nat}, s ∈ G.rules → SameName s.metaIdentifier n →
      Ev asBuilt G (.factor (.mk 1 (.metaIdentifier l n))) here text (.ok evs k) →
      ∃ inner, Ev asBuilt G (.list s.definitionList) here text (.ok inner k) := by
    intro s l n evs k hs hn h
    generalize ho : Outcome.ok evs k = o at h
    cases h with
    | once h =>
      cases h with
      | reference h1 h2 h3 =>
        cases ho
        have := U.rule _ h1 _ hs _ h2 hn
        subst this
        exact ⟨_, h3⟩
      | referenceStop _ _ _ hs => subst ho; exact hs.elim
      | _ => cases ho
    | counted h _ => exact absurd rfl h
  constructor
  · intro h
    obtain ⟨inner, h⟩ := (accept ha).mp h
    rw [hd, oneTerm_iff] at h
    obtain ⟨h1, h2⟩ := (c42_exception ..).mp h
    refine ⟨(accept hf).mpr (ref hf.start hn₁ h1), ?_⟩
    rw [List.take_length] at h2
    rcases h2 with ⟨e, evs, n, h2⟩ | ⟨evs, k, h2, hk⟩
    · generalize ho : Outcome.fail e evs n = o at h2
      cases h2 with
      | once h2 =>
        cases h2 with
        | referenceFail h3 h4 h5 =>
          have := U.rule _ h3 _ hx.start _ h4 hn₂
          subst this
          exact ⟨_, (returns_iff hx hi _).mpr (.rejected (ev_start_fail hx.start h5))⟩
        | referenceStop _ _ _ hs => subst ho; exact hs.elim
        | _ => cases ho
      | counted h _ => exact absurd rfl h
    · have hle := ev_bounded_ok (parser_bounded ha) h2
      obtain ⟨inner', h3⟩ := ref hx.start hn₂ h2
      exact ⟨_, (returns_iff hx hi _).mpr (.leftover ((ev_start_ok U hx.start).mpr ⟨inner', h3, rfl⟩) (by omega))⟩
  · intro h1 h2
    obtain ⟨i1, h1⟩ := (accept hf).mp h1
    obtain ⟨i2, h2⟩ := (accept hx).mp h2
    have h3 : Fails asBuilt G (.term (.except (.mk 1 (.metaIdentifier l₁ n₁)) (.mk 1 (.metaIdentifier l₂ n₂)))) here text :=
      c42_excluded G _ _ here text _ _ text.length (.once (.reference hf.start hn₁ h1))
        (by rw [List.take_length]; exact .once (.reference hx.start hn₂ h2))
    obtain ⟨e, evs, n, h3⟩ := h3
    exact ⟨e, (returns_iff ha hi _).mpr (.rejected (ev_start_fail ha.start (by rw [hd, oneTerm_iff]; exact h3)))⟩

/-- The rules `A=B-C;`, `B={'a'|'b'};` and `C='b','a';`. -/
private def bMinusC : SyntaxRule :=
  ⟨⟨[], 1, 1⟩, ['A'], oneTerm (.except (.mk 1 (.metaIdentifier ⟨[], 1, 3⟩ ['B'])) (.mk 1 (.metaIdentifier ⟨[], 1, 5⟩ ['C'])))⟩
private def aOrBs : SyntaxRule :=
  ⟨⟨[], 1, 7⟩, ['B'], oneTerm (.plain (.mk 1 (.repeated ⟨[], 1, 9⟩
    (.cons (.cons (.plain (.mk 1 (.terminalString ⟨[], 1, 10⟩ ['a']))) .nil)
      (.cons (.cons (.plain (.mk 1 (.terminalString ⟨[], 1, 14⟩ ['b']))) .nil) .nil)))))⟩
private def ba : SyntaxRule :=
  ⟨⟨[], 1, 19⟩, ['C'], .cons (.cons (.plain (.mk 1 (.terminalString ⟨[], 1, 21⟩ ['b'])))
    (.cons (.plain (.mk 1 (.terminalString ⟨[], 1, 25⟩ ['a']))) .nil)) .nil⟩

/-- `C` matches all of `ba`, so `A` rejects it; of `bab` it matches only a part, so `A` accepts it. -/
example : ∃ ma mb mc, ParserFor false (plainLanguage [bMinusC, aOrBs, ba]) bMinusC ma ∧
    ParserFor false (plainLanguage [bMinusC, aOrBs, ba]) aOrBs mb ∧ ParserFor false (plainLanguage [bMinusC, aOrBs, ba]) ba mc ∧
    (∃ e, Returns ma (readerOn "ba") (.err e)) ∧ ∃ out, Returns ma (readerOn "bab") (.ok out) := by
  obtain ⟨m, h2, h3, _⟩ := samplePlainOf "A=B-C;B={'a'|'b'};C='b','a';" bMinusC [aOrBs, ba] (by decide +kernel) (by decide +kernel)
  obtain ⟨mb, hb⟩ := other_parser (start' := aOrBs) h2 (by simp [plainLanguage])
  obtain ⟨mc, hc⟩ := other_parser (start' := ba) h2 (by simp [plainLanguage])
  exact ⟨m, mb, mc, h2, hb, hc,
    ⟨_, h3 _ 100 (.err ⟨⟨[], 1, 1⟩, .expected "B-C".toList (.text ['b', 'a'] false)⟩) (by decide +kernel) (by simp)⟩,
    ⟨_, h3 _ 100 (.ok [.begin ⟨[], 1, 1⟩ ⟨[], 1, 1⟩ ['A'], .begin ⟨[], 1, 3⟩ ⟨[], 1, 1⟩ ['B'],
      .token ⟨[], 1, 14⟩ ⟨[], 1, 1⟩ ['b'], .token ⟨[], 1, 10⟩ ⟨[], 1, 2⟩ ['a'], .token ⟨[], 1, 14⟩ ⟨[], 1, 3⟩ ['b'],
      .end ⟨[], 1, 3⟩ ⟨[], 1, 4⟩ ['B'], .end ⟨[], 1, 1⟩ ⟨[], 1, 4⟩ ['A']]) (by decide +kernel) (by simp)⟩⟩

/-! ## C44 -/

/-- The largest number of rounds of `{ … }`. -/
abbrev roundLimit : Nat := 4294967295

private theorem repeated_iff {G : Language} {loc : Location} {l : DefinitionList} {here : Location} {rest : Str} {o : Outcome} :
    Ev asBuilt G (.primary (.repeated loc l)) here rest o ↔
      Ev asBuilt G (.rounds (.list l) 0 (some roundLimit) true 0) here rest o :=
  ⟨fun h => by cases h with | repeated h => exact h, fun h => .repeated h⟩

/-- C44: what `{ … }` matches: matches of its body in a row, each of at least one character, until the body fails (or the
limit is reached).  The events are those of the matches, followed by what the failed last round leaves
(`c37_stale_events`). -/
theorem c44_repetition (G : Language) (loc : Location) (l : DefinitionList) (here : Location) (rest : Str) (evs : List Event)
    (n : Nat) :
    Matches asBuilt G (.primary (.repeated loc l)) here rest evs n ↔
      ∃ ms left, InARow asBuilt G (.list l) here rest ms ∧ (∀ m ∈ ms, 0 < m.2) ∧ n = totalLength ms ∧
        evs = allEvents ms ++ left ∧
        ((ms.length = roundLimit ∧ left = []) ∨
         (ms.length < roundLimit ∧ ∃ e k, Ev asBuilt G (.list l) (lineColumn here (rest.take n)) (rest.drop n) (.fail e left k))) := by
  rw [Matches, repeated_iff, rounds_iff (by intro m _; omega)]
  constructor
  · rintro ⟨ms, o', h1, h2, h3, h4⟩
    cases h3 with
    | enough h =>
      simp at h4 h
      exact ⟨ms, [], h1, fun m hm => Nat.pos_of_ne_zero (h2 rfl m hm), h4.2, by simp [h4.1], .inl ⟨h.symm, rfl⟩⟩
    | @last e left k h5 _ h6 =>
      simp [asBuilt] at h4
      obtain ⟨rfl, rfl⟩ := h4
      exact ⟨ms, left, h1, fun m hm => Nat.pos_of_ne_zero (h2 rfl m hm), rfl, rfl,
        .inr ⟨by simpa using h5 _ rfl, e, k, h6⟩⟩
    | @stop o' _ _ h => cases o' <;> first | exact h.elim | cases h4
    | _ => cases h4
  · rintro ⟨ms, left, h1, h2, rfl, rfl, ⟨h3, rfl⟩ | ⟨h3, e, k, h4⟩⟩
    · exact ⟨ms, _, h1, fun _ m hm => Nat.ne_of_gt (h2 m hm), .enough (by simp [h3]), by simp⟩
    · exact ⟨ms, _, h1, fun _ m hm => Nat.ne_of_gt (h2 m hm), .last (by simp; exact h3) (by omega) h4, by simp [asBuilt]⟩

/-- C44: `{ … }` stops the parse with an error iff, after matches in a row each of at least one character, the body
stops the parse with that error, or the body matches nothing there and the error is a livelock at that place. -/
theorem c44_livelock (G : Language) (loc : Location) (l : DefinitionList) (here : Location) (rest : Str) (e : Error) :
    Ev asBuilt G (.primary (.repeated loc l)) here rest (.abort e) ↔
      ∃ ms, InARow asBuilt G (.list l) here rest ms ∧ (∀ m ∈ ms, 0 < m.2) ∧ ms.length < roundLimit ∧
        (Ev asBuilt G (.list l) (lineColumn here (rest.take (totalLength ms))) (rest.drop (totalLength ms)) (.abort e) ∨
         ((∃ evs, Matches asBuilt G (.list l) (lineColumn here (rest.take (totalLength ms))) (rest.drop (totalLength ms)) evs 0) ∧
           e = ⟨lineColumn here (rest.take (totalLength ms)), .livelock⟩)) := by
  rw [repeated_iff, rounds_iff (by intro m _; omega)]
  constructor
  · rintro ⟨ms, o', h1, h2, h3, h4⟩
    cases h3 with
    | livelock h5 _ h6 =>
      cases h4
      exact ⟨ms, h1, fun m hm => Nat.pos_of_ne_zero (h2 rfl m hm), by simpa using h5 _ rfl, .inr ⟨⟨_, h6⟩, rfl⟩⟩
    | @stop o' h5 h6 h =>
      cases o' with
      | abort e' => cases h4; exact ⟨ms, h1, fun m hm => Nat.pos_of_ne_zero (h2 rfl m hm), by simpa using h5 _ rfl, .inl h6⟩
      | _ => cases h4
    | _ => cases h4
  · rintro ⟨ms, h1, h2, h3, h4 | ⟨⟨evs, h4⟩, rfl⟩⟩
    · exact ⟨ms, _, h1, fun _ m hm => Nat.ne_of_gt (h2 m hm), .stop (by simp; exact h3) h4 trivial, rfl⟩
    · exact ⟨ms, _, h1, fun _ m hm => Nat.ne_of_gt (h2 m hm), .livelock (by simp; exact h3) rfl h4, rfl⟩

/-- C44: `{ … }` never fails. -/
theorem c44_never_fails (G : Language) (loc : Location) (l : DefinitionList) (here : Location) (rest : Str) :
    ¬ Fails asBuilt G (.primary (.repeated loc l)) here rest := by
  rintro ⟨e, evs, n, h⟩
  rw [repeated_iff, rounds_iff (by intro m _; omega)] at h
  obtain ⟨ms, o', _, _, h3, h4⟩ := h
  cases h3 with
  | tooFew _ h _ => omega
  | @stop o' _ _ h => cases o' <;> first | exact h.elim | cases h4
  | _ => cases h4

/-- C44 for the rule `A = { … };`: when the body matches nothing after matches in a row, `parse` returns a livelock error
at that place. -/
theorem c44_parse_livelock {G : Language} {start : SyntaxRule} {m : Machine} (hp : ParserFor dbg G start m) {loc : Location}
    {l : DefinitionList} (hd : start.definitionList = oneTerm (.plain (.mk 1 (.repeated loc l))))
    {r : Reader} {here : Location} {text : Str} (hi : InputAt dbg r here text) {ms : List AMatch}
    (hm : InARow asBuilt G (.list l) here text ms) (hpos : ∀ m ∈ ms, 0 < m.2) (hl : ms.length < roundLimit) {evs : List Event}
    (hz : Matches asBuilt G (.list l) (lineColumn here (text.take (totalLength ms))) (text.drop (totalLength ms)) evs 0) :
    Returns m r (.err ⟨lineColumn here (text.take (totalLength ms)), .livelock⟩) := by
  have := (c44_livelock G loc l here text _).mpr ⟨ms, hm, hpos, hl, .inr ⟨⟨evs, hz⟩, rfl⟩⟩
  refine (returns_iff hp hi _).mpr (.aborted (ev_start_stop hp.start ?_ trivial))
  rw [hd, oneTerm_iff]
  exact .plain (.once this)

/-- `A={['a']};` on `aab`: two rounds that match, then one that matches nothing. -/
example : ∃ rules start m, parseStr [] "A={['a']};".toList = .ok rules ∧ ParserFor false (plainLanguage rules) start m ∧
    Returns m (readerOn "aab") (.err ⟨⟨[], 1, 3⟩, .livelock⟩) := by
  obtain ⟨rules, start, m, h1, h2, _, h3, _⟩ := samplePlain "A={['a']};" (by decide +kernel)
  exact ⟨rules, start, m, h1, h2, h3 _ 100 _ (by decide +kernel) (by simp)⟩

/-! ## C46 -/

private theorem factor_iff {G : Language} {k : Nat} {p : Primary} {here : Location} {rest : Str} {evs : List Event} {n : Nat} :
    Matches asBuilt G (.factor (.mk k p)) here rest evs n ↔
      ∃ ms, InARow asBuilt G (.primary p) here rest ms ∧ ms.length = k ∧ (k = roundLimit → ∀ m ∈ ms, 0 < m.2) ∧
        evs = allEvents ms ∧ n = totalLength ms := by
  by_cases hk : k = 1
  · subst hk
    constructor
    · intro h
      cases h with
      | once h => exact ⟨[(evs, n)], .more h .none, rfl, fun hc => absurd hc (by decide), by simp [allEvents], by simp [totalLength]⟩
      | counted h _ => exact absurd rfl h
    · rintro ⟨ms, h1, h2, _, rfl, rfl⟩
      cases h1 with
      | none => simp at h2
      | @more _ _ evs n ms h h' =>
        cases ms with
        | nil => simpa [allEvents, totalLength] using Ev.once h
        | cons _ _ => simp at h2
  · have key : Matches asBuilt G (.factor (.mk k p)) here rest evs n ↔
        Ev asBuilt G (.rounds (.primary p) k (some k) (decide (some roundLimit = some k)) 0) here rest (.ok evs n) :=
      ⟨fun h => by cases h with
        | once h => exact absurd rfl hk
        | counted _ h => exact h, fun h => .counted hk h⟩
    rw [key, rounds_iff (by intro m _; omega)]
    constructor
    · rintro ⟨ms, o', h1, h2, h3, h4⟩
      cases h3 with
      | enough h =>
        simp at h4 h
        refine ⟨ms, h1, h.symm, ?_, h4.1, h4.2⟩
        intro hl m hm
        exact Nat.pos_of_ne_zero (h2 (by simp [hl]) m hm)
      | last h5 h6 _ => have := h5 _ rfl; omega
      | @stop o' _ _ h => cases o' <;> first | exact h.elim | cases h4
      | _ => cases h4
    · rintro ⟨ms, h1, h2, h3, rfl, rfl⟩
      exact ⟨ms, _, h1, fun hg m hm => Nat.ne_of_gt (h3 (by simp at hg; exact hg.symm) m hm), .enough (by simp [h2]), by simp⟩

/-- C46: precisely what `k * X` matches: `k` matches of `X` in a row, with their events; and for `k = 2^32-1` none of
them empty. -/
theorem c46_count_as_built (G : Language) (k : Nat) (p : Primary) (here : Location) (rest : Str) (evs : List Event) (n : Nat) :
    Matches asBuilt G (.factor (.mk k p)) here rest evs n ↔
      ∃ ms, InARow asBuilt G (.primary p) here rest ms ∧ ms.length = k ∧ (k = roundLimit → ∀ m ∈ ms, 0 < m.2) ∧
        evs = allEvents ms ∧ n = totalLength ms := factor_iff

/-- C46 (partial): `k * X` matches iff `X` can be matched `k` times in a row, and consumes exactly those matches.  Missing
is the count 2^32-1: `c46_huge_count`. -/
theorem c46_exact_count_partial (G : Language) (k : Nat) (hk : k ≠ roundLimit) (p : Primary) (here : Location) (rest : Str)
    (evs : List Event) (n : Nat) :
    Matches asBuilt G (.factor (.mk k p)) here rest evs n ↔
      ∃ ms, InARow asBuilt G (.primary p) here rest ms ∧ ms.length = k ∧ evs = allEvents ms ∧ n = totalLength ms := by
  rw [c46_count_as_built]
  simp only [hk, false_implies, true_and]

/-- C46: `0 * X` matches the empty text, and nothing else. -/
theorem c46_zero (G : Language) (p : Primary) (here : Location) (rest : Str) (evs : List Event) (n : Nat) :
    Matches asBuilt G (.factor (.mk 0 p)) here rest evs n ↔ evs = [] ∧ n = 0 := by
  rw [c46_exact_count_partial G 0 (by decide)]
  constructor
  · rintro ⟨ms, _, h, rfl, rfl⟩
    cases ms with
    | nil => exact ⟨rfl, rfl⟩
    | cons _ _ => simp at h
  · rintro ⟨rfl, rfl⟩; exact ⟨[], .none, rfl, rfl, rfl⟩

/-- C46 (partial) for the rule `A = k * X;`: `parse` accepts a text iff it consists of `k` matches of `X`. -/
theorem c46_parse_partial {G : Language} {start : SyntaxRule} {m : Machine} (hp : ParserFor dbg G start m) {k : Nat} {p : Primary}
    (hk : k ≠ roundLimit) (hd : start.definitionList = oneTerm (.plain (.mk k p))) {r : Reader} {here : Location} {text : Str}
    (hi : InputAt dbg r here text) (out : List Event) :
    Returns m r (.ok out) ↔ ∃ ms, InARow asBuilt G (.primary p) here text ms ∧ ms.length = k ∧ totalLength ms = text.length ∧
      Trimmed (.begin start.location here start.metaIdentifier :: allEvents ms ++
        [.end start.location (lineColumn here text) start.metaIdentifier]) out := by
  rw [returns_ok_iff hp hi, hd]
  have key : ∀ inner, Ev asBuilt G (.list (oneTerm (.plain (.mk k p)))) here text (.ok inner text.length) ↔
      Matches asBuilt G (.factor (.mk k p)) here text inner text.length := by
    intro inner
    rw [oneTerm_iff]
    exact ⟨fun h => by cases h with | plain h => exact h, fun h => .plain h⟩
  simp only [key, c46_exact_count_partial G k hk]
  constructor
  · rintro ⟨_, ⟨ms, h1, h2, rfl, h3⟩, h4⟩; exact ⟨ms, h1, h2, h3.symm, h4⟩
  · rintro ⟨ms, h1, h2, h3, h4⟩; exact ⟨_, ⟨ms, h1, h2, rfl, h3.symm⟩, h4⟩

/-- The rule `A=4294967295*['a'];`. -/
private def hugeCount : SyntaxRule :=
  ⟨⟨[], 1, 1⟩, ['A'], oneTerm (.plain (.mk 4294967295 (.optional ⟨[], 1, 14⟩ (oneTerm (.plain (.mk 1
    (.terminalString ⟨[], 1, 15⟩ ['a'])))))))⟩

private theorem many_in_a_row {G : Language} {task : Task} {here : Location} {rest : Str}
    (h : Matches asBuilt G task here rest [] 0) : ∀ k, ∃ ms, InARow asBuilt G task here rest ms ∧ ms.length = k ∧ totalLength ms = 0
  | 0 => ⟨[], .none, rfl, rfl⟩
  | k + 1 => by
    obtain ⟨ms, h1, h2, h3⟩ := many_in_a_row h k
    exact ⟨([], 0) :: ms, .more h (by simpa [lineColumn_nil] using h1), by simp [h2], by simp [totalLength, h3]⟩

/-- C46 fails for the count 2^32-1: `['a']` matches the empty text any number of times in a row, yet the parser for
`A=4294967295*['a'];` returns an error. -/
theorem c46_huge_count : ∃ start m p, parseStr [] "A=4294967295*['a'];".toList = .ok [start] ∧
    ParserFor false (plainLanguage [start]) start m ∧ start.definitionList = oneTerm (.plain (.mk 4294967295 p)) ∧
    (∃ ms, InARow asBuilt (plainLanguage [start]) (.primary p) (Location.new []) [] ms ∧ ms.length = 4294967295 ∧
      totalLength ms = 0) ∧
    Returns m (readerOn "") (.err ⟨⟨[], 1, 1⟩, .livelock⟩) := by
  have hr : parseStr [] "A=4294967295*['a'];".toList = .ok [hugeCount] := by decide +kernel
  obtain ⟨m, h1, h2, _⟩ := samplePlainOf "A=4294967295*['a'];" hugeCount [] hr (by decide +kernel)
  refine ⟨hugeCount, m, _, hr, h1, rfl, many_in_a_row ?_ _, h2 _ 100 _ (by decide +kernel) (by simp)⟩
  exact eval_sound 10 (by decide +kernel)

example : ∃ rules start m, parseStr [] "A=3*'ab';".toList = .ok rules ∧ ParserFor false (plainLanguage rules) start m ∧
    Returns m (readerOn "ababab") (.ok [.begin ⟨[], 1, 1⟩ ⟨[], 1, 1⟩ ['A'], .token ⟨[], 1, 5⟩ ⟨[], 1, 1⟩ ['a', 'b'],
      .token ⟨[], 1, 5⟩ ⟨[], 1, 3⟩ ['a', 'b'], .token ⟨[], 1, 5⟩ ⟨[], 1, 5⟩ ['a', 'b'], .end ⟨[], 1, 1⟩ ⟨[], 1, 7⟩ ['A']]) ∧
    ∃ e, Returns m (readerOn "abab") (.err e) := by
  obtain ⟨rules, start, m, h1, h2, _, h3, _⟩ := samplePlain "A=3*'ab';" (by decide +kernel)
  exact ⟨rules, start, m, h1, h2, h3 _ 100 _ (by decide +kernel) (by simp),
    ⟨_, h3 _ 100 (.err ⟨⟨[], 1, 5⟩, .expected "\"ab\"".toList .eof⟩) (by decide +kernel) (by simp)⟩⟩

/-! ## C52 -/

/-- A scanner that forwards to `B`. -/
private def toB : Config := fun _ s => ⟨'?' :: s ++ ['?'], fun _ => pure (.forward ['B'])⟩

private theorem toB_realizes (rules : List SyntaxRule) :
    Realizes dbg toB ⟨rules, fun _ _ _ _ _ => .forward ['B'] 0, fun _ s => '?' :: s ++ ['?']⟩ := by
  intro l s
  refine ⟨fun d r c h hd _ => ⟨r, [], rfl, by simp, ?_, hd⟩, rfl⟩
  simpa [Cursor.advance] using h

/-- C52 fails: the outcome of the rule that a scanner forwards to is ignored.  With a scanner that forwards to `B`, the grammar
`A=?x?;B='b','c';` accepts `b`; intended is an error. -/
theorem c52_forward_ignored :
    ∃ rules start m, parseStr [] "A=?x?;B='b','c';".toList = .ok rules ∧
      ParserFor false ⟨rules, fun _ _ _ _ _ => .forward ['B'] 0, fun _ s => '?' :: s ++ ['?']⟩ start m ∧
      (∃ out, Returns m (readerOn "b") (.ok out)) ∧
      ∃ e, Parses ideal ⟨rules, fun _ _ _ _ _ => .forward ['B'] 0, fun _ s => '?' :: s ++ ['?']⟩ start (Location.new [])
        "b".toList (.err e) := by
  obtain ⟨rules, start, m, h1, h2, _, h3, h4⟩ := sample toB _ _ toB_realizes "A=?x?;B='b','c';" (by decide +kernel)
  exact ⟨rules, start, m, h1, h2,
    ⟨_, h3 _ 100 (.ok [.begin ⟨[], 1, 1⟩ ⟨[], 1, 1⟩ ['A'], .token ⟨[], 1, 9⟩ ⟨[], 1, 1⟩ ['b'],
      .end ⟨[], 1, 1⟩ ⟨[], 1, 2⟩ ['A']]) (by decide +kernel) (by simp)⟩,
    ⟨⟨⟨[], 1, 2⟩, .expected "\"c\"".toList .eof⟩, h4 _ _ _ (by decide +kernel)⟩⟩

/-- C52 (partial): when the rule matches, so does the special sequence, with the events and the text of the rule; when
there is no such rule, the parse stops with an error; when the rule stops the parse, so does the special sequence.  Missing
is a rule that fails: the special sequence then matches the part that did match. -/
theorem c52_forward_partial {G : Language} {loc : Location} {s : Str} {here : Location} {rest : Str}
    {name : Str} {n : Nat} (hf : G.special loc s loc here rest = .forward name n) (o : Outcome) :
    Ev asBuilt G (.primary (.specialSequence loc s)) here rest o ↔
      ((∀ task, ¬ ForwardTarget G name task) ∧ o = .abort ⟨here, .forwardUndefined name (G.specialName loc s) loc⟩) ∨
      ∃ task, ForwardTarget G name task ∧
        ((∃ evs k, Matches asBuilt G task (lineColumn here (rest.take n)) (rest.drop n) evs k ∧ o = .ok evs (n + k)) ∨
         (Ev asBuilt G task (lineColumn here (rest.take n)) (rest.drop n) o ∧ o.IsStop) ∨
         ∃ e evs k, Ev asBuilt G task (lineColumn here (rest.take n)) (rest.drop n) (.fail e evs k) ∧ o = .ok evs (n + k)) := by
  constructor
  · intro h
    cases h with
    | special h => rw [hf] at h; cases h
    | specialFail h => rw [hf] at h; cases h
    | specialError h => rw [hf] at h; cases h
    | forward h h1 h2 => rw [hf] at h; cases h; exact .inr ⟨_, h1, .inl ⟨_, _, h2, rfl⟩⟩
    | forwardFail _ _ _ h => simp [asBuilt] at h
    | forwardIgnored h h1 h2 => rw [hf] at h; cases h; exact .inr ⟨_, h1, .inr (.inr ⟨_, _, _, h2, rfl⟩)⟩
    | forwardStop h h1 h2 h3 => rw [hf] at h; cases h; exact .inr ⟨_, h1, .inr (.inl ⟨h2, h3⟩)⟩
    | forwardUndefined h h1 => rw [hf] at h; cases h; exact .inl ⟨h1, rfl⟩
  · rintro (⟨h1, rfl⟩ | ⟨task, h1, ⟨evs, k, h2, rfl⟩ | ⟨h2, h3⟩ | ⟨e, evs, k, h2, rfl⟩⟩)
    · exact .forwardUndefined hf h1
    · exact .forward hf h1 h2
    · exact .forwardStop hf h1 h2 h3
    · exact .forwardIgnored hf h1 h2 rfl

/-- The rule `B` matches `bc`. -/
example : ∃ rules start m, parseStr [] "A=?x?;B='b','c';".toList = .ok rules ∧
    ParserFor false ⟨rules, fun _ _ _ _ _ => .forward ['B'] 0, fun _ s => '?' :: s ++ ['?']⟩ start m ∧
    Returns m (readerOn "bc") (.ok [.begin ⟨[], 1, 1⟩ ⟨[], 1, 1⟩ ['A'], .token ⟨[], 1, 9⟩ ⟨[], 1, 1⟩ ['b'],
      .token ⟨[], 1, 13⟩ ⟨[], 1, 2⟩ ['c'], .end ⟨[], 1, 1⟩ ⟨[], 1, 3⟩ ['A']]) := by
  obtain ⟨rules, start, m, h1, h2, _, h3, _⟩ := sample toB _ _ toB_realizes "A=?x?;B='b','c';" (by decide +kernel)
  exact ⟨rules, start, m, h1, h2, h3 _ 100 _ (by decide +kernel) (by simp)⟩

end Ebnf.Props
