import Verif.Model.Api
import Verif.Spec.Api
import Verif.Props.Syntax
import Verif.Props.Utf8
import Verif.Props.Scanners
import Verif.Props.Compile
import Verif.Props.Parsing

set_option autoImplicit false

/-! # C73–C75: from the text of a grammar and the bytes of an input to the events; encoding labels; scanner constructors -/

namespace Ebnf.Props

open Ebnf Ebnf.Spec

variable {dbg : Bool}

/-- A `MarkableReader` over a stream stands at the start of what the decoder makes of the bytes. -/
private theorem withEncoding_input (labels : Labels) (label : Str) (c : Codec) (hl : labels label = some c) (name : Str)
    (chunks : List (List Byte)) (hne : ∀ x ∈ chunks, x ≠ []) (sched : List (Option Nat)) :
    ∃ r, Reader.withEncoding labels name (chunks.map .ok) label sched dbg = .ok r ∧
      InputAt dbg r (Location.new name) (decodeOpen c c.init chunks.flatten) := by
  refine ⟨Reader.new name (charDecodeReader c name (chunks.map .ok) sched) dbg, ?_, input_new (charDecodeReader_delivers c name chunks hne sched)⟩
  unfold Reader.withEncoding charDecodeReaderNew withCodec
  rw [hl]
  rfl

private theorem forBytes_input (labels : Labels) (label : Str) (c : Codec) (hl : labels label = some c) (name : Str)
    (bytes : List Byte) (sched : List (Option Nat)) :
    ∃ r, Reader.forBytes labels name bytes label sched dbg = .ok r ∧
      InputAt dbg r (Location.new name) (decodeOpen c c.init bytes) := by
  obtain ⟨h1, h2⟩ := cursorReads_flatten 1024 _ (by decide) bytes (Nat.le_refl _)
  obtain ⟨r, a1, a2⟩ := withEncoding_input (dbg := dbg) labels label c hl name _ h2 sched
  exact ⟨r, a1, by rw [h1] at a2; exact a2⟩

private theorem decodeOpen_text (text : Str) : decodeOpen utf8Decoder utf8Decoder.init (asBytes text) = withoutMark text := by
  obtain ⟨h1, h2⟩ := utf8Decoder_text text
  have hf : (utf8Decoder.finish (utf8Decoder.run utf8Decoder.init (asBytes text)).1).1 = [] := by
    refine finish_clean (sniff_run (st := .start []) (asBytes text) (Or.inl rfl)).1 ?_
    rw [garbled_eq, Bool.or_eq_false_iff] at h2
    exact h2.2
  rw [decode_eq, hf, List.append_nil] at h1
  rw [decodeOpen_eq]
  exact h1

/-! ## C73 -/

/-- C73: the whole way.  If the syntax can be read from the text of the grammar, then it compiles, there are parsers for exactly the rules of
the text, a parser carries the name of its rule, and what a parser returns for an input given as bytes in some encoding is what the grammar
says about the decoded text.  (`special` and `specialName` say what the configured scanners recognize.) -/
theorem c73_end_to_end (labels : Labels) (config : Config) (special : Location → Str → Recognizer)
    (specialName : Location → Str → Str) (hz : ∀ rules, Realizes dbg config ⟨rules, special, specialName⟩)
    (gname gtext : Str) (gsched : List (Option Nat)) (syn : Syntax) (hsyn : Syntax.readFromStr gname gtext 0 gsched = .ok syn) :
    ∃ rules g, parseStr gname (withoutMark gtext) = .ok rules ∧ syn.allRules = rules ∧ Graph.compile syn config = .ok g ∧ ∀ query,
      ((∀ r ∈ rules, ¬ SameName r.metaIdentifier query) → Machine.new g query = .ok none) ∧
      ∀ start ∈ rules, SameName start.metaIdentifier query → ∃ m, Machine.new g query = .ok (some m) ∧
        m.name = start.metaIdentifier ∧
        ∀ label c, labels label = some c → ∀ name bytes sched, ∃ r, Reader.forBytes labels name bytes label sched dbg = .ok r ∧
          ∀ x, Returns m r x ↔
            Parses asBuilt ⟨rules, special, specialName⟩ start (Location.new name) (decodeOpen c c.init bytes) x := by
  rw [c62_read_from_str] at hsyn
  obtain ⟨rules, h1, h2⟩ := Res.bind_eq_ok.mp hsyn
  have hsh : ∀ r ∈ rules, RuleShape r := fun r hr => (c12_shape _ _ _ h1 r hr).1
  obtain ⟨g, h3, _⟩ := c51_compiles_closed config h2 hsh
  refine ⟨rules, g, h1, (c22_rules_in_order _ _ h2).1, h3, fun query => ?_⟩
  obtain ⟨k1, k2⟩ := c50_parser_new config h2 hsh h3 query
  refine ⟨k2, fun start hs hq => ?_⟩
  obtain ⟨m, hm, hn⟩ := k1 start hs hq
  refine ⟨m, hm, hn, fun label c hl name bytes sched => ?_⟩
  obtain ⟨r, a1, a2⟩ := forBytes_input (dbg := dbg) labels label c hl name bytes sched
  exact ⟨r, a1, fun x => returns_iff ⟨⟨syn, config, g, query, h2, hz rules, h3, hq, hm⟩, hsh, hs⟩ a2 x⟩

/-- C73 for texts: the input may be given as a string, as its UTF-8 bytes, or as a stream that delivers them in any pieces.  A byte order
mark at its start is a character of a string, but not of bytes. -/
theorem c73_text (labels : Labels) (hu : labels "utf-8".toList = some utf8Decoder) {G : Language} {start : SyntaxRule} {m : Machine}
    (hp : ParserFor dbg G start m) (name text : Str) (chunks : List (List Byte)) (hne : ∀ x ∈ chunks, x ≠ [])
    (hc : chunks.flatten = asBytes text) (sched sched' : List (Option Nat)) :
    ∃ r r', Reader.forBytes labels name (asBytes text) "utf-8".toList sched dbg = .ok r ∧
      Reader.withEncoding labels name (chunks.map .ok) "utf-8".toList sched' dbg = .ok r' ∧
      (∀ x, Returns m r x ↔ Parses asBuilt G start (Location.new name) (withoutMark text) x) ∧
      (∀ x, Returns m r' x ↔ Parses asBuilt G start (Location.new name) (withoutMark text) x) ∧
      (∀ x, Returns m (Reader.new name (Source.fromStr text) dbg) x ↔ Parses asBuilt G start (Location.new name) text x) := by
  obtain ⟨r, a1, a2⟩ := forBytes_input (dbg := dbg) labels _ _ hu name (asBytes text) sched
  obtain ⟨r', b1, b2⟩ := withEncoding_input (dbg := dbg) labels _ _ hu name chunks hne sched'
  rw [decodeOpen_text] at a2
  rw [hc, decodeOpen_text] at b2
  refine ⟨r, r', a1, b1, returns_iff hp a2, returns_iff hp b2, returns_iff hp (input_new ?_)⟩
  exact ⟨[], rfl, by simp [Source.fromStr, Source.buffered]⟩

/-- Labels for two encodings. -/
private def someLabels : Labels := fun label =>
  if label = "utf-8".toList then some utf8Decoder else if label = "utf-16be".toList then some (utf16Codec true).sniffing else none

private theorem isOk {α : Type} (x : Res α) : (match x with | .ok _ => true | _ => false) = true ↔ ∃ a, x = .ok a := by
  cases x <;> simp

/-- A grammar with a byte order mark; an input in UTF-16 and in UTF-8. -/
example : (∃ syn, Syntax.readFromStr "g".toList ('\uFEFF' :: "A B={'x'|?letters?};".toList) 0 [] = .ok syn) ∧
    someLabels "utf-16be".toList = some (utf16Codec true).sniffing ∧
    decodeOpen (utf16Codec true).sniffing (utf16Codec true).sniffing.init [0x30, 0x42, 0, 120] = "あx".toList ∧
    [[0xE3], [0x81, 0x82, 120]].flatten = asBytes "あx".toList :=
  ⟨(isOk _).mp (by decide +kernel), rfl, by decide +kernel, by decide +kernel⟩

/-! ## C74 -/

/-- C74: with an encoding label that is not known every function that takes a label fails, at the start of the input and with the label in the
message, whatever the stream holds. -/
theorem c74_unknown (labels : Labels) (label : Str) (h : labels label = none) (name : Str)
    (chunks : List (Except Nat (List Byte))) (limit : Nat) (sched : List (Option Nat)) (bytes : List Byte) :
    let e : Error := ⟨⟨name, 1, 1⟩, .unknownEncoding label⟩
    parseWithLabel labels name chunks label limit sched = .err e ∧
    parseFile labels name (.ok chunks) label limit sched = .err e ∧
    Syntax.readFromWithLabel labels name chunks label limit sched = .err e ∧
    charDecodeReaderNew labels name chunks label sched = .err e ∧
    charDecodeReaderForBytes labels name bytes label sched = .err e ∧
    Reader.withEncoding labels name chunks label sched dbg = .err e ∧
    Reader.forBytes labels name bytes label sched dbg = .err e := by
  simp only [parseFile, Syntax.readFromWithLabel, charDecodeReaderForBytes, Reader.forBytes, Reader.withEncoding, charDecodeReaderNew,
    parseWithLabel, withCodec, h]
  exact ⟨rfl, rfl, rfl, rfl, rfl, rfl, rfl⟩

/-- C74: a file that cannot be opened is an error at its start; otherwise the rules are those of its text, decoded with the encoding of the label,
however the file is read. -/
theorem c74_file (labels : Labels) (label : Str) (c : Codec) (h : labels label = some c) (name : Str) (sched : List (Option Nat)) :
    (∀ code limit, parseFile labels name (.error code) label limit sched = .err ⟨⟨name, 1, 1⟩, .notOpened code⟩) ∧
    (∀ chunks : List (List Byte), (∀ x ∈ chunks, x ≠ []) → ∀ rules,
      (parseFile labels name (.ok (chunks.map .ok)) label 0 sched = .ok rules ↔
        parseStr name (decode c c.init chunks.flatten) = .ok rules)) := by
  refine ⟨fun _ _ => rfl, fun chunks hne rules => ?_⟩
  simp only [parseFile, parseWithLabel, withCodec, h]
  exact c31_parse_stream c name chunks hne sched rules

example : (someLabels "utf-7".toList).isNone = true ∧
    parseFile someLabels "f".toList (.ok [.ok [0, 97, 0], .ok [61, 0], .ok [59]]) "utf-16be".toList 0 [] =
      .ok [⟨⟨"f".toList, 1, 1⟩, ['a'], .cons (.cons (.plain (.mk 1 (.empty ⟨"f".toList, 1, 3⟩))) .nil) .nil⟩] := by
  refine ⟨by decide, ?_⟩
  decide +kernel

/-! ## C75 -/

private theorem takes {allowed : Char → Bool} {min max : Option Nat} {r : Reader} {here : Location} {text : Str}
    (hi : InputAt dbg r here text) (h : ∀ m, min = some m → m ≤ (greedyRun allowed max text).length) :
    Takes (charsScanner allowed min max) r here text (greedyRun allowed max text) :=
  fun definition => c48_match allowed min max definition hi (isGreedyRun allowed max text) h

private theorem refuses {allowed : Char → Bool} {min : Nat} {max : Option Nat} {r : Reader} {here : Location} {text : Str}
    (hi : InputAt dbg r here text) (h : (greedyRun allowed max text).length < min) :
    Refuses (charsScanner allowed (some min) max) r here text :=
  fun definition => c48_unmatch allowed (some min) max definition hi (isGreedyRun allowed max text) min rfl h

private theorem take_takeWhile (p : Char → Bool) : ∀ (n : Nat) (l : Str), (l.takeWhile p).take n = (l.take n).takeWhile p
  | 0, l => by simp
  | _ + 1, [] => by simp
  | n + 1, a :: l => by
    simp only [List.takeWhile_cons, List.take_succ_cons]
    cases p a <;> simp [take_takeWhile p n l]

/-- C75: `with_one_of` takes the next character if it is allowed, and otherwise nothing. -/
theorem c75_one_of (allowed : Char → Bool) {r : Reader} {here : Location} {text : Str} (hi : InputAt dbg r here text) :
    (∀ ch rest, text = ch :: rest → allowed ch = true → Takes (charsWithOneOf allowed) r here text [ch]) ∧
    ((∀ ch rest, text = ch :: rest → allowed ch = false) → Refuses (charsWithOneOf allowed) r here text) := by
  constructor
  · rintro ch rest rfl ha
    have e : greedyRun allowed (some 1) (ch :: rest) = [ch] := by simp [greedyRun, ha]
    have := takes (min := some 1) (max := some 1) (allowed := allowed) hi (by rintro m hm; injection hm with hm; subst hm; simp [e])
    rw [e] at this
    exact this
  · intro h
    refine refuses hi ?_
    cases text with
    | nil => simp [greedyRun]
    | cons ch rest => simp [greedyRun, h ch rest rfl]

/-- C75: `with_zero_or_more` always matches: it takes the allowed characters ahead. -/
theorem c75_zero_or_more (allowed : Char → Bool) {r : Reader} {here : Location} {text : Str} (hi : InputAt dbg r here text) :
    Takes (charsWithZeroOrMore allowed) r here text (text.takeWhile allowed) :=
  takes hi (by intro m hm; cases hm)

/-- C75: `with_min` takes the allowed characters ahead if there are at least `min`. -/
theorem c75_min (allowed : Char → Bool) (min : Nat) {r : Reader} {here : Location} {text : Str} (hi : InputAt dbg r here text) :
    (min ≤ (text.takeWhile allowed).length → Takes (charsWithMin allowed min) r here text (text.takeWhile allowed)) ∧
    ((text.takeWhile allowed).length < min → Refuses (charsWithMin allowed min) r here text) :=
  ⟨fun h => takes (max := none) hi (by intro m hm; injection hm with hm; subst hm; exact h), fun h => refuses (max := none) hi h⟩

/-- C75: `with_one_or_more` takes the allowed characters ahead if there are any. -/
theorem c75_one_or_more (allowed : Char → Bool) {r : Reader} {here : Location} {text : Str} (hi : InputAt dbg r here text) :
    (text.takeWhile allowed ≠ [] → Takes (charsWithOneOrMore allowed) r here text (text.takeWhile allowed)) ∧
    (text.takeWhile allowed = [] → Refuses (charsWithOneOrMore allowed) r here text) :=
  ⟨fun h => (c75_min allowed 1 hi).1 (List.length_pos_iff.mpr h), fun h => (c75_min allowed 1 hi).2 (by simp [h])⟩

/-- C75: `with_max` always matches: it takes the allowed characters among the next `max`. -/
theorem c75_max (allowed : Char → Bool) (max : Nat) {r : Reader} {here : Location} {text : Str} (hi : InputAt dbg r here text) :
    Takes (charsWithMax allowed max) r here text ((text.take max).takeWhile allowed) := by
  rw [← take_takeWhile]
  exact takes (max := some max) hi (by intro m hm; cases hm)

/-- C75: `with_range` takes the allowed characters among the next `max` if there are at least `min`; so it never matches if `max < min`. -/
theorem c75_range (allowed : Char → Bool) (min max : Nat) {r : Reader} {here : Location} {text : Str} (hi : InputAt dbg r here text) :
    (min ≤ ((text.take max).takeWhile allowed).length →
      Takes (charsWithRange allowed min max) r here text ((text.take max).takeWhile allowed)) ∧
    (((text.take max).takeWhile allowed).length < min → Refuses (charsWithRange allowed min max) r here text) ∧
    (max < min → Refuses (charsWithRange allowed min max) r here text) := by
  have key : ((text.take max).takeWhile allowed).length < min → Refuses (charsWithRange allowed min max) r here text := by
    intro h
    rw [← take_takeWhile] at h
    exact refuses (max := some max) hi h
  refine ⟨fun h => ?_, key, fun h => key ?_⟩
  · rw [← take_takeWhile] at h ⊢
    exact takes (max := some max) hi (by intro m hm; injection hm with hm; subst hm; exact h)
  · have h1 := (List.takeWhile_prefix (p := allowed) (l := text.take max)).length_le
    have h2 := List.length_take_le max text
    omega

/-- C75: the scanner for the source of a regular expression is the scanner for the compiled expression; a malformed source is an error at the
place of the definition. -/
theorem c75_regex (compile : Str → Except Nat (Str → Option (Nat × Nat))) (definition : Location) (re : Str) :
    (∀ find, compile re = .ok find → regexFromStr compile definition re = .ok (regexScanner re find)) ∧
    (∀ code, compile re = .error code → regexFromStr compile definition re = .err ⟨definition, .malformedRegex code⟩) :=
  ⟨fun _ h => by rw [regexFromStr, h], fun _ h => by rw [regexFromStr, h]; rfl⟩

/-- The readers of the theorems: digits, in the middle of a text that comes in pieces. -/
example : InputAt false (performAll [.skip 1] (Reader.new [] ⟨[], [.ok ['a', '4'], .ok ['2', 'x']], Location.new []⟩ false)).2
      ⟨[], 1, 2⟩ "42x".toList ∧
    "42x".toList.takeWhile Char.isDigit = "42".toList ∧ ("42x".toList.take 1).takeWhile Char.isDigit = "4".toList ∧
    ((charsWithRange Char.isDigit 2 5).scan ⟨[], 9, 9⟩ (readerOn "42x")).1 = .ok (.match [.token ⟨[], 9, 9⟩ ⟨[], 1, 1⟩ "42".toList]) ∧
    ((charsWithOneOf Char.isDigit).scan ⟨[], 9, 9⟩ (readerOn "42x")).1 = .ok (.match [.token ⟨[], 9, 9⟩ ⟨[], 1, 1⟩ "4".toList]) ∧
    ((charsWithRange Char.isDigit 3 2).scan ⟨[], 9, 9⟩ (readerOn "4242")).1 = .ok .unmatch := by
  refine ⟨⟨Location.new [], ⟨[], [.ok ['a', '4'], .ok ['2', 'x']], Location.new []⟩, "a42x".toList, [.skip 1],
    ⟨Location.new [], "a42x".toList, 1, []⟩, ⟨[['a', '4'], ['2', 'x']], rfl, rfl⟩, rfl, ?_, by decide, by decide⟩,
    by decide, by decide, by decide +kernel, by decide +kernel, by decide +kernel⟩
  have : (performAll [.skip 1] (Reader.withLocation (Location.new []) ⟨[], [.ok ['a', '4'], .ok ['2', 'x']], Location.new []⟩ false)).1 =
      [.num 1] := by decide +kernel
  rw [this]
  exact .cons (.skip _ 1) (.nil _)

end Ebnf.Props
