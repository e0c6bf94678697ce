import Verif.Proofs.ErrorFacts
import Verif.Props.Grammar
import Verif.Props.Messages
import Verif.Props.Tree

set_option autoImplicit false

/-! # C85: the text of an error says everything -/

namespace Ebnf.Props

open Ebnf Ebnf.Spec

variable {dbg : Bool}

/-- C85: messages that the library composes itself have the same text only if they state the same facts. -/
theorem c85_texts_distinct (T : Texts) (name : Str) (m m' : Msg) (hm : Composed m) (hm' : Composed m') (hn : MentionsOnly name m)
    (hn' : MentionsOnly name m') : m.text T = m'.text T ↔ m = m' :=
  ⟨text_inj hm hm' hn hn', fun h => by rw [h]⟩

/-- `{:?}` of what a user wrote can be read back, whatever follows it in a message. -/
theorem c85_quoted (hidden : Char → Bool) (s s' x y : Str) (h : debugText hidden s ++ x = debugText hidden s' ++ y) : s = s' ∧ x = y :=
  debugText_inj h

/-- The name a terminal string has in messages is its `{:?}`. -/
theorem c85_terminal_name (hidden : Char → Bool) (hv : ∀ c, ' ' ≤ c → c < '\x7f' → hidden c = false) (s : Str)
    (hs : ∀ c ∈ s, ' ' ≤ c ∧ c < '\x7f') : debugStr s = debugText hidden s :=
  (debugText_printable fun c hc => ⟨(hs c hc).1, (hs c hc).2, hv c (hs c hc).1 (hs c hc).2⟩).symm

/-- Some texts for what comes from outside; nothing is hidden. -/
private def plainTexts : Texts := ⟨fun _ => false, fun _ => [], fun _ => [], fun _ => [], fun _ => [], [], fun _ => []⟩

/-- The space between the two parts of a message is no part of either of them, though it could be. -/
example : (Msg.expected "\"a\"".toList (.text " expected, but \"".toList false)).text plainTexts =
      "Syntactic Error: \"a\" expected, but \" expected, but \\\"\" appeared.".toList ∧
    (Msg.undefinedChar 'é').text plainTexts = "An undefined character was detected: 'é' (U+00E9)".toList ∧
    (Msg.terminalNotClosed '\'').text plainTexts = "terminal-string is not closed with '\\''.".toList ∧
    (Msg.expected "X".toList (.text "12345678".toList true)).text plainTexts =
      "Syntactic Error: X expected, but \"12345678...\" appeared.".toList ∧
    (Msg.terminalBadChar '\x07').text { plainTexts with hidden := (· = '\x07') } =
      "terminal-string contains a character '\\u{7}' that cannot be used.".toList := by
  decide +kernel

private theorem displayed {T : Texts} {n : Str} {e e' : Error} (hn : e.location.name = e'.location.name)
    (h : Composed e.msg ∧ MentionsOnly n e.msg) (h' : Composed e'.msg ∧ MentionsOnly n e'.msg) : e.display T = e'.display T ↔ e = e' := by
  refine ⟨fun hd => ?_, fun h => by rw [h]⟩
  obtain ⟨h1, h2⟩ := c56_errors_distinct _ _ _ _ hn hd
  have h3 := text_inj h.1 h'.1 h.2 h'.2 h2
  obtain ⟨l, m⟩ := e
  obtain ⟨l', m'⟩ := e'
  simp only at h1 h3
  rw [h1, h3]

/-- C85: two errors of lexers for sources of the same name are displayed alike only if they are the same error, however the texts were
delivered. -/
theorem c85_lexer (T : Texts) (name : Str) (limit limit' : Nat) (chunks chunks' : List Str) (e e' : Error)
    (h : (feedAll chunks (Lexer.withCapacity name limit)).1 = .err e) (h' : (feedAll chunks' (Lexer.withCapacity name limit')).1 = .err e') :
    e.display T = e'.display T ↔ e = e' := by
  refine displayed (n := []) ?_ (feedAll_composed [] h) (feedAll_composed [] h')
  have hs := (At.new name limit).feedAll_sat chunks
  have hs' := (At.new name limit').feedAll_sat chunks'
  rw [h] at hs
  rw [h'] at hs'
  obtain ⟨_, _, h1⟩ := hs
  obtain ⟨_, _, h2⟩ := hs'
  rw [h1, h2]
  simp

/-- C85 for `lex::parse_str`. -/
theorem c85_parse_str (T : Texts) (name text text' : Str) (e e' : Error) (h : parseStr name text = .err e)
    (h' : parseStr name text' = .err e') : e.display T = e'.display T ↔ e = e' := by
  rw [parseStr_eq_feedAll] at h h'
  exact c85_lexer T name 0 0 [text] [text'] e e' h h'

example : (∃ e, parseStr ['f'] "a=b,['x';".toList = .err e ∧ e.display plainTexts = "f(1,5) start-option-symbol '[' is not closed.".toList) ∧
    (∃ e, parseStr ['f'] "a=b,(/'x';".toList = .err e ∧ e.display plainTexts = "f(1,5) start-option-symbol '(/' is not closed.".toList) ∧
    ∃ e, parseStr ['f'] "a=\n1 b;".toList = .err e ∧
      e.display plainTexts = "f(2,3) repetition-symbol '*' expected, but meta-identifier appeared.".toList :=
  ⟨⟨⟨⟨['f'], 1, 5⟩, .bracketNotClosed .startOption ['[']⟩, by decide +kernel, by decide +kernel⟩,
    ⟨⟨⟨['f'], 1, 5⟩, .bracketNotClosed .startOption ['(', '/']⟩, by decide +kernel, by decide +kernel⟩,
    ⟨⟨⟨['f'], 2, 3⟩, .repetitionSymbolExpected .metaIdentifier⟩, by decide +kernel, by decide +kernel⟩⟩

private theorem ofStr_err {name text : Str} {e : Error} (h : Syntax.ofStr name text = .err e) :
    e.location.name = name ∧ Composed e.msg ∧ MentionsOnly [] e.msg := by
  rw [Syntax.ofStr] at h
  rcases bind_err_cases h with h | ⟨rs, hr, h⟩
  · rw [parseStr_eq_feedAll] at h
    refine ⟨?_, feedAll_composed [] h⟩
    have hs := (At.new name 0).feedAll_sat [text]
    rw [show Lexer.withCapacity name 0 = Lexer.new name from rfl, h] at hs
    obtain ⟨_, _, h1⟩ := hs
    rw [h1]
    exact Location.pushStr_name _ _
  · rcases newSyntax_err h with ⟨r, hm, h1, a, b, c, h2⟩ | ⟨r, hm, n, h1, h2⟩
    · obtain ⟨⟨pre, _, _, _, h3, _⟩, _⟩ := c08_rule_positions name text rs hr r hm
      rw [h1, h3, h2]
      exact ⟨rfl, trivial, trivial⟩
    · obtain ⟨pre, _, _, h3, _⟩ := (c08_rule_positions name text rs hr r hm).2 _ h1 (by simp)
      have h3 : e.location = lineColumn (Location.new name) pre := h3
      rw [h3, h2]
      exact ⟨rfl, trivial, trivial⟩

/-- C85 for reading a grammar: reading the text and validating the rules. -/
theorem c85_syntax (T : Texts) (name text text' : Str) (e e' : Error) (h : Syntax.ofStr name text = .err e)
    (h' : Syntax.ofStr name text' = .err e') : e.display T = e'.display T ↔ e = e' :=
  displayed ((ofStr_err h).1.trans (ofStr_err h').1.symm) (ofStr_err h).2 (ofStr_err h').2

example : (∃ e, Syntax.ofStr ['f'] "a='x';\na =b;".toList = .err e ∧
      e.display plainTexts = "f(2,1) The meta-identifier a is defined in (1,1).".toList) ∧
    ∃ e, Syntax.ofStr ['f'] "a=b\n c;".toList = .err e ∧ e.display plainTexts = "f(1,3) meta-identifier \"b c\" is not defined.".toList :=
  ⟨⟨⟨⟨['f'], 2, 1⟩, .duplicate ['a'] 1 1⟩, by decide +kernel, by decide +kernel⟩,
    ⟨⟨⟨['f'], 1, 3⟩, .notDefined ['b', ' ', 'c']⟩, by decide +kernel, by decide +kernel⟩⟩

private theorem ahead_quotable (post : Str) : Quotable (ahead post) := by
  cases ha : ahead post with
  | eof => trivial
  | text s more =>
    obtain ⟨_, _, h1, _, h2⟩ := (c66_quotation post).2 s more ha
    cases more
    · exact h1
    · exact h2 rfl

private theorem parser_err {G : Language} {start : SyntaxRule} {m : Machine} (hp : ParserFor dbg G start m)
    (hb : ∀ l s, IsBuiltIn (G.special l s)) {r : Reader} {here : Location} {text : Str} (hi : InputAt dbg r here text) {e : Error}
    (h : Returns m r (.err e)) : e.location.name = here.name ∧ Composed e.msg ∧ MentionsOnly [] e.msg := by
  obtain ⟨_, _, _, h1⟩ := c47_errors_point hp (c47_built_in_scanners hb) hi e h
  refine ⟨by rw [h1]; rfl, ?_⟩
  have hr := c45_error_reasons hp hi e h
  cases hr with
  | expected place name actual =>
    have ht := c66_library hp hb hi h
    refine ⟨?_, trivial⟩
    generalize he : (⟨place, .expected name actual⟩ : Error) = e' at ht
    cases ht with
    | eof => cases he; exact ahead_quotable _
    | unmet => cases he; exact ahead_quotable _
  | livelock => exact ⟨trivial, trivial⟩
  | @forward l s here rest name n hf =>
    exfalso
    have hb := hb l s
    generalize G.special l s = f at hb hf
    cases hb with
    | default => cases hf
    | chars allowed min max =>
      unfold charsRecognizer at hf
      simp only at hf
      split at hf <;> cases hf
    | regex find =>
      unfold regexRecognizer at hf
      split at hf
      · split at hf <;> cases hf
      · cases hf
  | @scanner l s d here rest e hf =>
    have hb := hb l s
    generalize G.special l s = f at hb hf
    cases hb with
    | default => cases hf
    | chars allowed min max =>
      unfold charsRecognizer at hf
      simp only at hf
      split at hf <;> cases hf
    | regex find =>
      unfold regexRecognizer at hf
      split at hf
      · split at hf
        · cases hf
        · cases hf; exact ⟨trivial, trivial⟩
      · cases hf

/-- C85 for parsing: two errors of parsers that use the scanners of the library, on inputs of the same name, are displayed alike only if
they are the same error.  The grammars, the start rules and the texts may be different. -/
theorem c85_parser (T : Texts) {G G' : Language} {start start' : SyntaxRule} {m m' : Machine} (hp : ParserFor dbg G start m)
    (hp' : ParserFor dbg G' start' m') (hb : ∀ l s, IsBuiltIn (G.special l s)) (hb' : ∀ l s, IsBuiltIn (G'.special l s))
    {r r' : Reader} {here here' : Location} {text text' : Str} (hi : InputAt dbg r here text) (hi' : InputAt dbg r' here' text')
    (hn : here.name = here'.name) (e e' : Error) (h : Returns m r (.err e)) (h' : Returns m' r' (.err e')) :
    e.display T = e'.display T ↔ e = e' := by
  obtain ⟨h1, h2⟩ := parser_err hp hb hi h
  obtain ⟨h3, h4⟩ := parser_err hp' hb' hi' h'
  exact displayed (h1.trans (hn.trans h3.symm)) h2 h4

example : ∃ rules start m, parseStr [] "A='a',{B};B=('b'|'c')-'b';".toList = .ok rules ∧
    ParserFor false (plainLanguage rules) start m ∧
    (∀ l s, IsBuiltIn ((plainLanguage rules).special l s)) ∧ InputAt false (readerOn "acc bx") (Location.new []) "acc bx".toList ∧
    ∃ e, Returns m (readerOn "acc bx") (.err e) ∧ e.display plainTexts = "(1,4) Syntactic Error: EOF expected, but \" bx\" appeared.".toList := by
  obtain ⟨rules, start, m, h1, h2, _, h3, _⟩ := samplePlain "A='a',{B};B=('b'|'c')-'b';" (by decide +kernel)
  have h4 := h3 "acc bx" 100 (.err ⟨⟨[], 1, 4⟩, .expected "EOF".toList (.text [' ', 'b', 'x'] false)⟩) (by decide +kernel) (by simp)
  exact ⟨rules, start, m, h1, h2, fun _ _ => .default, input_readerOn _, _, h4, by decide +kernel⟩

end Ebnf.Props
