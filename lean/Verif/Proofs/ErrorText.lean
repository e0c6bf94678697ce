import Verif.Spec.ErrorText
import Verif.Proofs.Escape

set_option autoImplicit false

/-! # Different messages have different texts -/

namespace Ebnf

open Ebnf.Spec

/-- All names of tokens. -/
def TokenName.all : List TokenName :=
  [.repetition, .except, .concatenate, .definitionSeparator, .defining, .terminator, .startOption, .endOption, .startRepeat, .endRepeat,
    .startGroup, .endGroup, .metaIdentifier, .terminalString, .integer, .comment, .specialSequence, .gapSeparator, .eof]

theorem TokenName.mem_all (n : TokenName) : n ∈ TokenName.all := by cases n <;> decide

theorem tokenName_inj {n n' : TokenName} (h : n.text = n'.text) : n = n' := by
  have key : ∀ a ∈ TokenName.all, ∀ b ∈ TokenName.all, a.text = b.text → a = b := by decide +kernel
  exact key n n.mem_all n' n'.mem_all h

/-- The kinds of messages. -/
inductive Kind
  | tooLong | ambiguousComment | colonNotAllowed | commentNotOpened | undefinedChar | terminalBadChar | terminalNotClosed | terminalEmpty
  | specialBadChar | specialNotClosed | commentNotClosed | commentBadChar | metaIdentifierExpected | definingExpected | separatorExpected
  | badRepetition | repetitionSymbolExpected | ambiguousOption | ambiguousRepeat | bracketNotClosed (n : TokenName) | duplicate | notDefined
  | garbled | livelock | expected | forwardUndefined | regexTooLong | unknownEncoding | opaque
deriving DecidableEq

def Kind.all : List Kind :=
  [.tooLong, .ambiguousComment, .colonNotAllowed, .commentNotOpened, .undefinedChar, .terminalBadChar, .terminalNotClosed, .terminalEmpty,
    .specialBadChar, .specialNotClosed, .commentNotClosed, .commentBadChar, .metaIdentifierExpected, .definingExpected, .separatorExpected,
    .badRepetition, .repetitionSymbolExpected, .ambiguousOption, .ambiguousRepeat, .duplicate, .notDefined, .garbled, .livelock, .expected,
    .forwardUndefined, .regexTooLong, .unknownEncoding] ++ TokenName.all.map .bracketNotClosed

/-- What the text of a kind begins with. -/
def Kind.head : Kind → Str
  | .tooLong => "Token such as identifier, comment, or special sequence are too long: ".toList
  | .ambiguousComment => "An ambiguous start/end-command-symbol: ".toList
  | .colonNotAllowed => "No colon ':' is allowed here.".toList
  | .commentNotOpened => "end-comment-symbol '*)' is not opened.".toList
  | .undefinedChar => "An undefined character was detected: ".toList
  | .terminalBadChar => "terminal-string contains a character ".toList
  | .terminalNotClosed => "terminal-string is not closed with ".toList
  | .terminalEmpty => "The terminal-string must contain one or more terminal-characters.".toList
  | .specialBadChar => "special-sequence contains a character ".toList
  | .specialNotClosed => "special-sequence is not closed with ".toList
  | .commentNotClosed => "This start-comment-symbol '(*' is not closed.".toList
  | .commentBadChar => "This comment contains a character ".toList
  | .metaIdentifierExpected => "meta-identifier expected, but ".toList
  | .definingExpected => "meta-identifier or defining-symbol '=' expected, but ".toList
  | .separatorExpected =>
    "concatenate-symbol ',', definition-separator-symbol '|', or terminator-symbol ';' expected, but ".toList
  | .badRepetition => "cannot convert the number of repetitions ".toList
  | .repetitionSymbolExpected => "repetition-symbol '*' expected, but ".toList
  | .ambiguousOption => "An ambiguous start/end-option-symbol: (/)".toList
  | .ambiguousRepeat => "An ambiguous start/end-repeat-symbol: (:)".toList
  | .bracketNotClosed n => n.text ++ " '".toList
  | .duplicate => "The meta-identifier ".toList
  | .notDefined => "meta-identifier \"".toList
  | .garbled => "Detected a byte sequence that cannot be changed to ".toList
  | .livelock => "Livelock: reading didn't proceed in repetation".toList
  | .expected => "Syntactic Error: ".toList
  | .forwardUndefined => "The non-existent meta-identifier ".toList
  | .regexTooLong => "Detect a match with more than ".toList
  | .unknownEncoding => "Unable to recognize the specified character encoding: ".toList
  | .opaque => []

/-- What the text of a kind ends with, where this is needed to tell kinds apart: in reverse. -/
def Kind.last : Kind → Str
  | .separatorExpected | .repetitionSymbolExpected => " appeared.".toList.reverse
  | .bracketNotClosed _ => "' is not closed.".toList.reverse
  | _ => []

def Msg.kind : Msg → Kind
  | .tooLong _ _ _ => .tooLong
  | .ambiguousComment _ => .ambiguousComment
  | .colonNotAllowed => .colonNotAllowed
  | .commentNotOpened => .commentNotOpened
  | .undefinedChar _ => .undefinedChar
  | .terminalBadChar _ => .terminalBadChar
  | .terminalNotClosed _ => .terminalNotClosed
  | .terminalEmpty => .terminalEmpty
  | .specialBadChar _ => .specialBadChar
  | .specialNotClosed => .specialNotClosed
  | .commentNotClosed => .commentNotClosed
  | .commentBadChar _ => .commentBadChar
  | .metaIdentifierExpected _ => .metaIdentifierExpected
  | .definingExpected _ => .definingExpected
  | .separatorExpected _ => .separatorExpected
  | .badRepetition _ => .badRepetition
  | .repetitionSymbolExpected _ => .repetitionSymbolExpected
  | .ambiguousOption => .ambiguousOption
  | .ambiguousRepeat => .ambiguousRepeat
  | .bracketNotClosed n _ => .bracketNotClosed n
  | .duplicate _ _ _ => .duplicate
  | .notDefined _ => .notDefined
  | .garbled _ _ _ _ => .garbled
  | .livelock => .livelock
  | .expected _ _ => .expected
  | .forwardUndefined _ _ _ => .forwardUndefined
  | .regexTooLong _ => .regexTooLong
  | .unknownEncoding _ => .unknownEncoding
  | .ioError _ | .streamError _ | .wrapped _ _ | .notOpened _ | .malformedRegex _ | .custom _ | .invalidMark _ => .opaque

theorem kind_mem {m : Msg} (h : Composed m) : m.kind ∈ Kind.all := by
  cases m
  case bracketNotClosed n s => exact List.mem_append_right _ (List.mem_map_of_mem n.mem_all)
  all_goals first | exact h.elim | simp [Msg.kind, Kind.all]

theorem head_prefix (T : Texts) (m : Msg) : m.kind.head <+: m.text T := by
  cases m
  case notDefined name =>
    refine ⟨name.flatMap (escapeChar T.hidden '"') ++ ['"'] ++ " is not defined.".toList, ?_⟩
    delta Msg.kind Kind.head Msg.text
    dsimp only
    simp [debugText]
  all_goals delta Msg.kind Kind.head Msg.text; dsimp only
  all_goals first | exact List.prefix_append _ _ | exact List.prefix_refl _ | exact List.nil_prefix

theorem last_prefix (T : Texts) (m : Msg) : m.kind.last <+: (m.text T).reverse := by
  cases m
  all_goals delta Msg.kind Kind.last; dsimp only
  case separatorExpected n =>
    delta Msg.text; simp only [List.reverse_append, List.append_assoc]; exact List.prefix_append _ _
  case repetitionSymbolExpected n =>
    delta Msg.text; simp only [List.reverse_append, List.append_assoc]; exact List.prefix_append _ _
  case bracketNotClosed n s =>
    delta Msg.text; simp only [List.reverse_append, List.append_assoc]; exact List.prefix_append _ _
  all_goals exact List.nil_prefix

/-- One of two texts begins with the other. -/
def comparable (a b : Str) : Bool := a.isPrefixOf b || b.isPrefixOf a

theorem comparable_of {a b c : Str} (h : a <+: c) (h' : b <+: c) : comparable a b = true := by
  unfold comparable
  rcases List.prefix_or_prefix_of_prefix h h' with h | h
  · simp [List.isPrefixOf_iff_prefix.mpr h]
  · simp [List.isPrefixOf_iff_prefix.mpr h]

theorem kinds_apart : ∀ k ∈ Kind.all, ∀ k' ∈ Kind.all, comparable k.head k'.head = true → comparable k.last k'.last = true → k = k' := by
  decide +kernel

theorem kind_eq {T : Texts} {m m' : Msg} (h : Composed m) (h' : Composed m') (e : m.text T = m'.text T) : m.kind = m'.kind :=
  kinds_apart _ (kind_mem h) _ (kind_mem h') (comparable_of (head_prefix T m) (e ▸ head_prefix T m'))
    (comparable_of (last_prefix T m) (e ▸ last_prefix T m'))

/-! ## Within a kind -/

/-- A number followed by something that is not a digit. -/
theorem number_cut {a b : Nat} {c : Char} {x y : Str} (hc : ¬ IsDigit c) (h : Nat.toDigits 10 a ++ c :: x = Nat.toDigits 10 b ++ c :: y) :
    a = b ∧ x = y := by
  obtain ⟨h1, h2⟩ := cut_first (not_digit hc _) (not_digit hc _) h
  exact ⟨digits_inj h1, h2⟩

theorem format_last (hidden : Char → Bool) (s : Str) (more : Bool) :
    ∃ t, (Actual.text s more).format hidden = debugText hidden t ∧ t = if more then s ++ "...".toList else s := by
  cases more
  · exact ⟨s, rfl, rfl⟩
  · exact ⟨_, rfl, rfl⟩

/-- The quoted text after "expected, but" can be found from the end. -/
theorem expected_inj {hidden : Char → Bool} {s s' : Str} {a a' : Actual} (ha : Quotable a) (ha' : Quotable a')
    (h : s ++ (" expected, but ".toList ++ a.format hidden) = s' ++ (" expected, but ".toList ++ a'.format hidden)) : s = s' ∧ a = a' := by
  have quoted : ∀ {s s' t t' : Str}, s ++ (" expected, but ".toList ++ debugText hidden t) = s' ++ (" expected, but ".toList ++ debugText hidden t') →
      s = s' ∧ t = t' := by
    intro s s' t t' h
    have split : ∀ t : Str, " expected, but ".toList ++ debugText hidden t =
        " expected, but".toList ++ ' ' :: '"' :: t.flatMap (escapeChar hidden '"') ++ ['"'] := by
      intro t; simp [debugText]
    rw [split, split] at h
    simp only [List.append_assoc, List.cons_append] at h
    simp only [← List.append_assoc, ← List.cons_append] at h
    have h := List.append_cancel_right h
    -- the last blank followed by a quotation mark
    have cut : ∀ {x x' t t' : Str}, x ++ ' ' :: '"' :: t.flatMap (escapeChar hidden '"') = x' ++ ' ' :: '"' :: t'.flatMap (escapeChar hidden '"') →
        ∀ k, x' = x ++ k → k = [] := by
      intro x x' t t' h k hk
      subst hk
      rw [List.append_assoc] at h
      have h := List.append_cancel_left h
      match k, h with
      | [], _ => rfl
      | [c], h =>
        simp at h
      | c :: d :: k, h =>
        simp only [List.cons_append, List.cons.injEq] at h
        exact absurd (escaped_quote h.2.2) (by decide)
    have both : s ++ " expected, but".toList = s' ++ " expected, but".toList := by
      rcases List.append_eq_append_iff.mp h with ⟨k, hk, _⟩ | ⟨k, hk, _⟩
      · rw [hk, cut h k hk]; simp
      · rw [hk, cut h.symm k hk]; simp
    refine ⟨List.append_cancel_right both, ?_⟩
    rw [both] at h
    have h := List.append_cancel_left h
    injection h with _ h
    injection h with _ h
    exact (escaped_inj (x := []) (y := []) (by rw [h])).1
  have ends : ∀ {s s' : Str} {t : Str}, s ++ (" expected, but ".toList ++ "EOF".toList) ≠ s' ++ (" expected, but ".toList ++ debugText hidden t) := by
    intro s s' t h
    have e1 : s ++ (" expected, but ".toList ++ "EOF".toList) = (s ++ " expected, but EO".toList) ++ ['F'] := by simp
    have e2 : s' ++ (" expected, but ".toList ++ debugText hidden t) =
        (s' ++ (" expected, but ".toList ++ '"' :: t.flatMap (escapeChar hidden '"'))) ++ ['"'] := by simp [debugText]
    rw [e1, e2] at h
    have := (List.append_inj' h rfl).2
    simp at this
  cases a with
  | eof =>
    cases a' with
    | eof => exact ⟨List.append_cancel_right h, rfl⟩
    | text u more =>
      obtain ⟨t, e, _⟩ := format_last hidden u more
      rw [e] at h
      exact absurd h ends
  | text u more =>
    cases a' with
    | eof =>
      obtain ⟨t, e, _⟩ := format_last hidden u more
      rw [e] at h
      exact absurd h.symm ends
    | text u' more' =>
      obtain ⟨t, e, d⟩ := format_last hidden u more
      obtain ⟨t', e', d'⟩ := format_last hidden u' more'
      rw [e, e'] at h
      obtain ⟨h1, h2⟩ := quoted h
      refine ⟨h1, ?_⟩
      rw [d, d'] at h2
      have dots : "...".toList.length = 3 := rfl
      cases more with
      | false =>
        cases more' with
        | false => exact congrArg (Actual.text · false) h2
        | true =>
          have ha : u.length ≤ 8 := ha
          have ha' : u'.length = 8 := ha'
          have hl : u.length = (u' ++ "...".toList).length := congrArg List.length h2
          rw [List.length_append] at hl
          omega
      | true =>
        cases more' with
        | false =>
          have ha : u.length = 8 := ha
          have ha' : u'.length ≤ 8 := ha'
          have hl : (u ++ "...".toList).length = u'.length := congrArg List.length h2
          rw [List.length_append] at hl
          omega
        | true => exact congrArg (Actual.text · true) (List.append_cancel_right h2)

/-- The place at the end of a message, in a source whose name is known. -/
theorem defined_inj {s s' : Str} {l l' : Location} (hn : l.name = l'.name)
    (h : s ++ (" defined in ".toList ++ l.display) = s' ++ (" defined in ".toList ++ l'.display)) : s = s' ∧ l = l' := by
  obtain ⟨n, i, j⟩ := l
  obtain ⟨n', i', j'⟩ := l'
  simp only at hn
  subst hn
  simp only [Location.display, List.append_assoc, List.cons_append] at h
  simp only [← List.append_assoc] at h
  obtain ⟨h1, h2⟩ := cut_last (by simp [not_digit (c := '(') (by decide)]) (by simp [not_digit (c := '(') (by decide)]) h
  obtain ⟨h3, h4⟩ := number_cut (by decide) h2
  rw [h3, digits_inj (List.append_cancel_right h4)]
  exact ⟨List.append_cancel_right (List.append_cancel_right h1), rfl⟩

/-- Different messages have different texts. -/
theorem text_inj {T : Texts} {name : Str} {m m' : Msg} (hm : Composed m) (hm' : Composed m') (hn : MentionsOnly name m)
    (hn' : MentionsOnly name m') (h : m.text T = m'.text T) : m = m' := by
  have hk := kind_eq hm hm' h
  cases m <;> cases m' <;> first | (exfalso; revert hk; delta Msg.kind; dsimp only; intro hk; cases hk; done) | skip
  all_goals first | exact hm.elim | rfl | skip
  all_goals delta Msg.text at h; dsimp only at h
  case tooLong =>
    have h := List.append_cancel_left h
    obtain ⟨h1, h⟩ := number_cut (c := ' ') (by decide) h
    have h := List.append_cancel_left (as := "+ ".toList) h
    obtain ⟨h2, h⟩ := number_cut (c := ' ') (by decide) h
    have h := List.append_cancel_left (as := "> ".toList) h
    have h3 := digits_inj (List.append_cancel_right h)
    rw [h1, h2, h3]
  case ambiguousComment => rw [List.append_cancel_left h]
  case undefinedChar => rw [(debugChar_inj (List.append_cancel_left h)).1]
  case terminalBadChar => rw [(debugChar_inj (List.append_cancel_left h)).1]
  case terminalNotClosed => rw [(debugChar_inj (List.append_cancel_left h)).1]
  case specialBadChar => rw [(debugChar_inj (List.append_cancel_left h)).1]
  case commentBadChar => rw [(debugChar_inj (List.append_cancel_left h)).1]
  case metaIdentifierExpected => rw [tokenName_inj (List.append_cancel_right (List.append_cancel_left h))]
  case definingExpected => rw [tokenName_inj (List.append_cancel_right (List.append_cancel_left h))]
  case separatorExpected => rw [tokenName_inj (List.append_cancel_right (List.append_cancel_left h))]
  case badRepetition => rw [(debugText_inj (List.append_cancel_left h)).1]
  case repetitionSymbolExpected => rw [tokenName_inj (List.append_cancel_right (List.append_cancel_left h))]
  case bracketNotClosed =>
    injection hk with hk
    subst hk
    rw [List.append_cancel_right (List.append_cancel_left h)]
  case duplicate n a b n' a' b' =>
    have h := List.append_cancel_left h
    have e : ∀ (n : Str) (a b : Nat), n ++ (" is defined in (".toList ++ (Nat.toDigits 10 a ++ (",".toList ++ (Nat.toDigits 10 b ++ ").".toList)))) =
        (n ++ " is defined in ".toList) ++ '(' :: (Nat.toDigits 10 a ++ ',' :: (Nat.toDigits 10 b ++ ").".toList)) := by intros; simp
    rw [e, e] at h
    obtain ⟨h1, h2⟩ := cut_last (by simp [not_digit (c := '(') (by decide)]) (by simp [not_digit (c := '(') (by decide)]) h
    obtain ⟨h3, h4⟩ := number_cut (by decide) h2
    rw [List.append_cancel_right h1, h3, digits_inj (List.append_cancel_right h4)]
  case notDefined => rw [(debugText_inj (List.append_cancel_left h)).1]
  case garbled =>
    have h := List.append_cancel_left (List.append_cancel_left (List.append_cancel_left h))
    obtain ⟨h1, h⟩ := number_cut (c := ',') (by decide) h
    obtain ⟨h2, h⟩ := number_cut (c := ')') (by decide) h
    have h := List.append_cancel_left (as := " and (".toList) h
    obtain ⟨h3, h⟩ := number_cut (c := ',') (by decide) h
    obtain ⟨h4, h⟩ := number_cut (c := ')') (by decide) h
    rw [h1, h2, h3, h4]
  case expected =>
    have h := List.append_cancel_left h
    simp only [← List.append_assoc] at h
    have h := List.append_cancel_right h
    simp only [List.append_assoc] at h
    obtain ⟨h1, h2⟩ := expected_inj hm hm' h
    rw [h1, h2]
  case forwardUndefined =>
    obtain ⟨h1, h⟩ := debugText_inj (List.append_cancel_left h)
    obtain ⟨h2, h3⟩ := defined_inj (hn.trans hn'.symm) (List.append_cancel_left h)
    rw [h1, h2, h3]
  case regexTooLong =>
    obtain ⟨h1, _⟩ := number_cut (c := ' ') (by decide) (List.append_cancel_left h)
    rw [h1]
  case unknownEncoding => rw [List.append_cancel_left h]

end Ebnf
