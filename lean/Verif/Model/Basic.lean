/-!
# Basic types of the model

Text is `List Char`.  Counters (`u64`, `usize`) are `Nat`; overflow is modelled in `Model/Words.lean` only.
-/

namespace Ebnf

/-- A Rust `String` / `&str` / `Vec<char>`: the list of its characters. -/
abbrev Str := List Char

/-- `struct Location` — src/lib.rs:287-297.  `u64` fields are `Nat`. -/
structure Location where
  name : Str
  lines : Nat
  columns : Nat
deriving DecidableEq, Repr

namespace Location

/-- `Location::with_location` — src/lib.rs:305-311. -/
def withLocation (name : Str) (lines columns : Nat) : Location := ⟨name, lines, columns⟩

/-- `Location::new` — src/lib.rs:301-303. -/
def new (name : Str) : Location := withLocation name 1 1

/-- `Location::reset` — src/lib.rs:312-315. -/
def reset (l : Location) : Location := { l with lines := 1, columns := 1 }

/-- `Location::push` — src/lib.rs:326-333. -/
def push (l : Location) (ch : Char) : Location :=
  if ch = '\n' then { l with lines := l.lines + 1, columns := 1 }
  else { l with columns := l.columns + 1 }

/-- `Location::push_str` and `Location::push_chars` — src/lib.rs:316-325. -/
def pushStr (l : Location) (s : Str) : Location := s.foldl push l

/-- `String::cmp`: lexicographic comparison.  Rust compares UTF-8 bytes, which orders strings like
the lists of their code points. -/
def cmpStr : Str → Str → Ordering
  | [], [] => .eq
  | [], _ :: _ => .lt
  | _ :: _, [] => .gt
  | a :: as, b :: bs => if a.val < b.val then .lt else if b.val < a.val then .gt else cmpStr as bs

/-- `impl Ord for Location` — src/lib.rs:336-352. -/
def cmp (a b : Location) : Ordering :=
  if a.name ≠ b.name then cmpStr a.name b.name
  else if a.lines < b.lines then .lt
  else if a.lines > b.lines then .gt
  else if a.columns < b.columns then .lt
  else if a.columns > b.columns then .gt
  else .eq

/-- The derived `PartialOrd for Location` — src/lib.rs:287 (`#[derive(.., PartialOrd)]`): fields in
declaration order `name`, `lines`, `columns`, lexicographically. -/
def partialCmp (a b : Location) : Option Ordering :=
  some (match cmpStr a.name b.name with
    | .eq => match compare a.lines b.lines with
      | .eq => compare a.columns b.columns
      | o => o
    | o => o)

/-- The operator `<` on locations (used at src/parser/machine.rs:102): derived `PartialOrd::lt`. -/
def lt (a b : Location) : Bool := partialCmp a b == some .lt

end Location

/-- Kinds of tokens as named by `Token::name` — src/lex/mod.rs:630-652 (second component). -/
inductive TokenName
  | repetition | except | concatenate | definitionSeparator | defining | terminator
  | startOption | endOption | startRepeat | endRepeat | startGroup | endGroup
  | metaIdentifier | terminalString | integer | comment | specialSequence | gapSeparator | eof
deriving DecidableEq, Repr

/-- What the input stream looks like at an error position: `stream_prefix_to_string` —
src/parser/machine.rs:159-171.  `prefix s more`: at most eight characters, and whether `...` follows. -/
inductive Actual
  | eof
  | text (s : Str) (more : Bool)
deriving DecidableEq, Repr

/-- Error messages.  The code formats text with `format!`; the model keeps the same data structured. -/
inductive Msg
  /-- tokenizer/mod.rs:129-134 -/
  | tooLong (buffered added max : Nat)
  /-- tokenizer/mod.rs:303-306 -/
  | ambiguousComment (s : Str)
  /-- tokenizer/mod.rs:336 -/
  | colonNotAllowed
  /-- tokenizer/mod.rs:343 -/
  | commentNotOpened
  /-- tokenizer/mod.rs:370-373 -/
  | undefinedChar (c : Char)
  /-- tokenizer/mod.rs:389-392 -/
  | terminalBadChar (c : Char)
  /-- tokenizer/mod.rs:402 -/
  | terminalNotClosed (quote : Char)
  /-- tokenizer/mod.rs:410 -/
  | terminalEmpty
  /-- tokenizer/mod.rs:429-432 -/
  | specialBadChar (c : Char)
  /-- tokenizer/mod.rs:442 -/
  | specialNotClosed
  /-- tokenizer/mod.rs:469 -/
  | commentNotClosed
  /-- tokenizer/mod.rs:486-489 -/
  | commentBadChar (c : Char)
  /-- lex/mod.rs:344 -/
  | metaIdentifierExpected (appeared : TokenName)
  /-- lex/mod.rs:350-353 -/
  | definingExpected (appeared : TokenName)
  /-- lex/mod.rs:401 -/
  | separatorExpected (appeared : TokenName)
  /-- lex/mod.rs:436-439 -/
  | badRepetition (digits : Str)
  /-- lex/mod.rs:447 -/
  | repetitionSymbolExpected (appeared : TokenName)
  /-- lex/mod.rs:480 -/
  | ambiguousOption
  /-- lex/mod.rs:499 -/
  | ambiguousRepeat
  /-- lex/mod.rs:570-574 -/
  | bracketNotClosed (opened : TokenName) (spelling : Str)
  /-- validity/mod.rs:20-23 -/
  | duplicate (name : Str) (lines columns : Nat)
  /-- validity/mod.rs:50 -/
  | notDefined (name : Str)
  /-- io/mod.rs:300: a mark that is not in the stack -/
  | invalidMark (mark : Nat)
  /-- lex/mod.rs:65: an error of the underlying `Read` (opaque), as `lex::parse` reports it -/
  | ioError (code : Nat)
  /-- io/mod.rs:445: an error of the underlying `Read` (opaque), as `CharDecodeReader` reports it -/
  | streamError (code : Nat)
  /-- io/mod.rs:349: error of the inner reader, re-wrapped with the outer location -/
  | wrapped (location : Location) (inner : Nat)
  /-- io/mod.rs:598: garbled bytes -/
  | garbled (fromLine fromColumn toLine toColumn : Nat)
  /-- parser/machine.rs:73 -/
  | livelock
  /-- parser/machine.rs:152 -/
  | expected (symbol : Str) (actual : Actual)
  /-- parser/machine.rs:243-246 -/
  | forwardUndefined (name symbol : Str) (definition : Location)
  /-- parser/mod.rs:236-239 -/
  | regexTooLong (max : Nat)
  /-- io/mod.rs:512-515 -/
  | unknownEncoding (label : Str)
  /-- lex/mod.rs:46: the error of `File::open` (opaque) -/
  | notOpened (code : Nat)
  /-- parser/mod.rs:217: the error of `Regex::new` (opaque) -/
  | malformedRegex (code : Nat)
  /-- an error raised by an application supplied special-sequence scanner (opaque) -/
  | custom (code : Nat)
deriving DecidableEq, Repr

/-- `struct Error` — src/lib.rs:149-164. -/
structure Error where
  location : Location
  msg : Msg
deriving DecidableEq, Repr

/-- The places where the code can panic. -/
inductive Panic
  /-- `assert!(self.buffer.is_empty())` in `Tokenizer::flush` — tokenizer/mod.rs:72-76 -/
  | flushNotEmpty
  /-- slice index out of bounds in the token parser — lex/mod.rs:444, 339, 347 -/
  | indexOutOfBounds
  /-- `assert!(!meta_identifier.is_empty())` — lex/mod.rs:356 -/
  | emptyMetaIdentifier
  /-- `assert_eq!(canonical_name, ..)` — validity/mod.rs:15 -/
  | notNormalized
  /-- `debug_assert!` of the unread buffer — io/mod.rs:247, 251, 252, 259 -/
  | debugAssert
  /-- subtraction underflow (debug) — io/mod.rs:266-267 -/
  | underflow
  /-- `Option::unwrap`/`expect` on `None`: graph tables — machine.rs:23, 52, 114, 118; validity/mod.rs:17 -/
  | missing
  /-- `assert_ne!(0, def.syntactic_terms.len())` — graph.rs:146 -/
  | emptyDefinition
  /-- `steps.last().unwrap()` on no steps — graph.rs:132 -/
  | emptyDefinitionList
  /-- the call stack is exhausted: nested calls of `parse_to_subroutine_end` — machine.rs:44-137 (only in `Model/Stack.lean`, where the
  stack is bounded) -/
  | stackOverflow
  /-- `encoding_rs`: "Must not use a decoder that has finished" — called at io/mod.rs:565-567 -/
  | decoderFinished
  /-- "attempt to add with overflow" (only in `Model/Words.lean`, where integers are bounded) -/
  | overflow
  /-- "capacity overflow": room asked for that no vector can have (only in `Model/Capacity.lean`) — tokenizer/mod.rs:35, io/mod.rs:143 -/
  | capacityOverflow
deriving DecidableEq, Repr

/-- Outcome of a Rust function returning `Result<α>`: a value, an `Err`, a panic, or (model only) fuel
exhaustion, which stands for non-termination. -/
inductive Res (α : Type) where
  | ok (a : α)
  | err (e : Error)
  | panic (p : Panic)
  | diverge
deriving DecidableEq, Repr

namespace Res

variable {α β : Type}

/-- The `?` operator. -/
def bind (x : Res α) (f : α → Res β) : Res β :=
  match x with
  | ok a => f a
  | err e => err e
  | panic p => panic p
  | diverge => diverge

instance : Monad Res where
  pure := ok
  bind := bind

/-- Build an error at a location: `Err(Error::new(loc, msg))` — src/lib.rs:158-163. -/
def fail (loc : Location) (m : Msg) : Res α := err ⟨loc, m⟩

@[simp] theorem pure_def (a : α) : (pure a : Res α) = ok a := rfl
@[simp] theorem bind_ok (a : α) (f : α → Res β) : (ok a >>= f) = f a := rfl
@[simp] theorem bind_err (e : Error) (f : α → Res β) : ((err e : Res α) >>= f) = err e := rfl
@[simp] theorem bind_panic (p : Panic) (f : α → Res β) : ((panic p : Res α) >>= f) = panic p := rfl
@[simp] theorem bind_diverge (f : α → Res β) : ((diverge : Res α) >>= f) = diverge := rfl

theorem bind_eq_ok {x : Res α} {f : α → Res β} {b : β} :
    (x >>= f) = ok b ↔ ∃ a, x = ok a ∧ f a = ok b := by
  cases x <;> simp

end Res

/-- Methods with `&mut self`: state in, outcome and state out.  The state is kept on every path. -/
def RM (σ α : Type) : Type := σ → Res α × σ

namespace RM

variable {σ α β : Type}

def pure (a : α) : RM σ α := fun s => (.ok a, s)

/-- Sequencing with `?`: stop at the first error, keeping the state reached. -/
def bind (x : RM σ α) (f : α → RM σ β) : RM σ β := fun s =>
  match x s with
  | (.ok a, s') => f a s'
  | (.err e, s') => (.err e, s')
  | (.panic p, s') => (.panic p, s')
  | (.diverge, s') => (.diverge, s')

instance : Monad (RM σ) where
  pure := pure
  bind := bind

/-- Read the state. -/
def get : RM σ σ := fun s => (.ok s, s)
/-- Replace the state. -/
def set (s : σ) : RM σ Unit := fun _ => (.ok (), s)
/-- Lift an outcome that does not touch the state. -/
def lift (x : Res α) : RM σ α := fun s => (x, s)

@[simp] theorem pure_run (a : α) (s : σ) : (Pure.pure a : RM σ α) s = (.ok a, s) := rfl
theorem bind_run (x : RM σ α) (f : α → RM σ β) (s : σ) :
    (x >>= f) s = match x s with
      | (.ok a, s') => f a s'
      | (.err e, s') => (.err e, s')
      | (.panic p, s') => (.panic p, s')
      | (.diverge, s') => (.diverge, s') := rfl
@[simp] theorem get_run (s : σ) : (get : RM σ σ) s = (.ok s, s) := rfl
@[simp] theorem set_run (s s' : σ) : (set s' : RM σ Unit) s = (.ok (), s') := rfl
@[simp] theorem lift_run (x : Res α) (s : σ) : (lift x : RM σ α) s = (x, s) := rfl

end RM

end Ebnf
