# Formal model of torao/ebnf: design

`/verif/lean` contains a Lean 4 model of the Rust crate in `/repo` and machine-checked theorems about it.
`properties.jsonl` is the list of English properties, `MANIFEST.json` maps each to theorem names.

## Layout

| directory | contents |
|---|---|
| `Verif/Model/*` | the model, function by function, each definition citing file and lines |
| `Verif/Spec/*`  | small specifications that do not mention the model's algorithms |
| `Verif/Proofs/*`| helper lemmas |
| `Verif/Props/*` | one theorem group per property, each with a non-vacuity `example` |

## Modelling conventions

* Text is `List Char`; `u64`/`usize` counters are `Nat` (`Model/Words.lean` has them with 64 bits and `Model/WordsLexer.lean` those of the lexer, 32 and 64 bits; C101 and C102 show when that makes no difference); `u32` repetition counts are `Nat`
  with the parse bound `2^32` kept explicit.
* `Result<T>` plus panics plus non-termination: `Res α = ok | err | panic | diverge`. Loops that are not
  structurally decreasing take fuel; running out gives `diverge`. Theorems show that the fuel supplied suffices or
  are stated for "some fuel".
* `&mut self` becomes state passing that keeps the state also on the error path.
* Error messages are structured values (`Msg`) with the data of the formatted text; `Model/ErrorText.lean` has the text itself, and C85
  shows that equal texts mean equal values (for the messages the library composes itself), so that comparing values in the other theorems is what `==` on errors does.
* `HashMap` is an association list with insert = cons and lookup = first match.
* A slice plus position `tokens[position..]` / `buffer[position..]` is the list suffix; where the code looks at the
  last element of the slice that element is passed along.
* `debug_assert!` is modelled under a flag `dbg` carried by the reader where it can fire: `io/mod.rs:251` (appending to the
  unread buffer without a mark), `parser/machine.rs:347` (an end event that does not close its begin event). Theorems about
  parsing are stated for both builds (`∀ dbg`); C57 compares the two. So is `parser/machine.rs:313` (the captured text of an
  exception ends where the factor ended). The lexer is modelled without its assertions; `Model/Asserts` is the lexer of a debug build, and
  C79 compares the two.
* `dyn MarkableCharReader` is modelled by its only implementation in the crate (`MarkableReader`); implementations of other
  makes, and parsing on them, are in `Model/Methods.lean` and `Model/Dyn.lean` (C98, C99).
  `dyn CharReader` is modelled by a source that delivers characters in an arbitrary sequence of rounds, which covers
  `BufferedCharReader` (no rounds) and `CharDecodeReader` (one round per byte read + decode).
* `encoding_rs` is a parameter: a byte-fed transducer plus an arbitrary "output full" schedule (contract in the trusted base).
  `regex::Regex::find` is a parameter function. User special-sequence scanners are parameters constrained by a contract;
  the built-in scanners are modelled and proved to satisfy it.

## Plan per property

| id | model | proof |
|---|---|---|
| C01 | Tokenizer + Lexer states | resumability lemma of `read_next` (more input does not change a decided token), induction over pieces |
| C02 | same | at most one terminator per completed token; push = push_str of one char |
| C03 | same | negation by a witness; partial: failure itself, and every purely lexical error, is chunk independent; exactly which error is reported for any chunking (`c03_first_failing_prefix`) |
| C04 | Tokenizer | invariant: an accepted buffer is one undecided token |
| C05 | token parser | negation by witness `a=(1);`; partial: no panic unless an integer stands directly before a closing bracket; exactly: panics iff the text before some point is complete rules and one rule of `Spec/Hanging.lean` (a grammar-shaped specification), met before a lexical error (`c05_panics_iff`) |
| C06 | token parser, tokenizer loops with fuel | the fuel supplied always suffices |
| C07 | `read_next` | declarative lexical spec (spelling + adjacency); soundness, completeness, uniqueness |
| C08 | `move_location` | location = line/column of the consumed prefix |
| C09, C10 | `build_syntax_rule` and callees | inductive grammar on token lists; soundness by induction on fuel, completeness by induction on derivations |
| C11 | same | corollary of C09: derivations are properly bracketed |
| C12 | same | structural induction over the produced tree |
| C13 | `Display` | print / lex / parse round trip; negation witness; partial |
| C14 | `ensure_capacity` | invariant over histories |
| C15 | `reset` | state equality |
| C16 | token parser | induction, comment/gap-erased token lists |
| C17 | flush | comparison of the flush token stream with the stream of text ++ ";" |
| C18, C19 | identifier functions | list induction against word-splitting spec |
| C20-C23 | `new_syntax` | induction over the rule list; witness for C21 |
| C24-C28 | `UnreadBuffer`, `MarkableReader` | refinement to (text, position, stack of positions); witnesses for C27, C28. C28 exactly (`Spec/Memory.lean`, `Jams`): a debug build mirrors a release build until an assertion fails, and the assertion of `append` fails exactly at the end of a non-empty buffer with no mark |
| C29-C31 | `Decoder`, `CharDecodeReader`, `lex::parse` | transducer homomorphism; schedule induction; witness for C30; streams that fail: induction on the chunks with what is still to be said (`toSay`) |
| C32 | `Location` | case analysis, list induction |
| C33-C47 | graph compiler + machine | (1) reader elimination, (2) compiled code = big-step semantics of the syntax tree, (3) properties by induction on the big-step relation; witnesses for C36, C37, C39 |
| C48, C49 | scanners | loop induction over the reader contract |
| C50, C51 | `LexGraph::compile`, `Parser::new` | invariant over registration |
| C52 | forward reaction | witness + partial |
| C53 | tokenizer and token parser errors | every error location is the line/column of a prefix of the text |
| C36 (all grammars) | `cutLanguage` in `Spec/Cut.lean`: a grammar without what follows bare groups | a simulation between the readings of two grammars with the same cut; the cut grammar compiles as well |
| C54 | machine | the locations of events are those of the cursor; witness as for C37; partial; that failed rounds only add events (C35, C37, C54, C69: `Props/Partials.lean`) by a simulation between the readings with and without the deviation; that a failed last round has no tokens where the next character tells that the part is over (`Props/Clear.lean`) by induction over the meaning, following the characters that may come next; that it has no events at all where moreover its body does not begin with something empty (C35, C69, C70: `Props/Steady.lean`) in the same way |
| C55 | `AST` (lib.rs:370-440) | induction over trees against a spec of nodes |
| C56 | `Display for Location`/`Error` | injectivity of the printed form, by the decimal digits lemma |
| C57 | machine + reader with both values of `dbg` | simulation of the debug run by the release run; witnesses for what differs |
| C58-C60 | `Source` rounds that are I/O errors | refinement of reader histories to a cursor with failing steps; simulation between the run over a failing source and the run over the same source without failures; witnesses |
| C61 | UTF-8 decoder (WHATWG state machine with byte order mark sniffing) as an instance of the codec parameter | state machine vs the encoder of Lean's core library (`String.utf8EncodeChar`): decode after encode, and garbled iff not an encoding |
| C62 | `Syntax::read_from_str`, `read_from_utf8` | C31 + C61; witness for a text that starts with a byte order mark |
| C63 | `Decoder` that stops at garbled input | place of the error for all fragmentations; witnesses (genuine U+FFFD, bytes decoded again); exactly which place in every case (`c63_place`) and what the message states (`c63_message`) |
| C64 | `Lexer`, `lex::parse`, `read_from_str` with a limit | simulation between a lexer with and without limit |
| C65 | the same, and `std::io::Cursor` | what is pending is part of the next token; a piece has no more characters than bytes; witness; exactly when the limit strikes (`c65_too_long_iff`) |
| C66 | error construction of `LexMachine::parse` | induction on the meaning: every error names a part that fails at its place |
| C67 | the same | induction on the meaning: what was consumed before a failure can be completed, if all parts are productive |
| C68 | `Parser::parse` on LL(1) grammars | termination (C43), then induction on the meaning with FIRST and FOLLOW sets; a table checker proved sound |
| C69 | events of `Parser::parse` | the intended meaning (C35), then induction on the meaning |
| C70 | the same on LL(1) grammars | C68, and a second induction showing that any derivation has the events of the run |
| C71 | readers with a cursor (text, position, marks) and histories of operations and parses on one reader | induction over the history: an operation from C24, a parse from the simulation of the machine, which keeps the marks below its own also when it fails or stops |
| C72 | rules reachable from the start rule | the meaning of a task is the same in two languages that agree on what can be reached: induction over the derivation, in both directions |
| C73 | the convenience functions (`Model/Api`) on top of the stages | composition: C62 (reading), C51 and C50 (compiling, parser lookup), the decoder's delivery, the meaning theorem of C35 |
| C74 | a function from labels to decoders; the result of opening a file | computation for unknown labels; C31 for files |
| C75 | the constructors of `CharsScanner` and `RegExScanner` | C48 with the greedy run computed by `takeWhile` and `take` |
| C76 | origin of the events: places of the input and of the grammar text | induction on the meaning relation; C08 for the places in the grammar text |
| C77 | `parse` with a bounded number of nested calls (`Model/Stack`) | simulation by a pure run, then induction over room, rules not yet visited and remaining text; witness of deep nesting |
| C78 | the life cycle of the underlying decoder in `Decoder` | induction over histories of calls with the decoder state and the life cycle as invariant |
| C79 | the lexer with its debug assertions (`Model/Asserts`) | invariant over histories: no terminator among the tokens; converse invariant after an error |
| C80 | reading, printing and compiling with a bounded stack (`Model/Nested`, one unit of room for each open bracket) | simulation of each recursive function against its unbounded version; the depth is read off the tree (`Spec/Nested`) |
| C81 | as C13 | converse of C13: structural induction showing where the tokenizer meets `*)` in the printed form |
| C82 | `Machine.steps` counts the instructions executed, call by call beside the machine (Model/Steps). | The count on a reader is the count of the pure machine; it does not change with more fuel or an unexhausted stack; with `d` nested calls (C77) it is at most `((I+1)(F+n+3))^d`, since `next` only leads back and unlimited rounds consume text. Exponential witness by induction on the depth. |
| C83 | `Spec/Hopeless.lean`: `Completable` (some continuation lexes), `StrayLast` (tokens and one character that starts none), both over `Lexes` of `Spec/Lexical.lean` | whatever is pending is the beginning of a token or a single stray character (`pending_completes`; an open comment is closed by supplying `*)`), so `tokLoop` succeeds iff completable or stray last; per push via `tokLoop_append` |
| C84 | two grammars related by a correspondence of names, special sequences and places (Spec/Alike.lean) | induction over the big-step meaning (`ev_alike`), transferred to the machine by `returns_iff`; instances for renaming and for moved grammars; text level via C16 and C81 |
| C85 | The texts `format!` writes, with `{:?}` of characters and strings (`Model/Escape`, `Model/ErrorText`); the table of characters written as `\u{…}` is a parameter | `{:?}` is a prefix code; the literal beginnings (and where needed ends) of messages tell the kinds apart; within a kind the data is cut out; which messages the lexer, the validation and the parser give; the wording is compared with the format strings of the sources (`Spec/Wording`) |
| C86 | `relocated`/`behind`/`calledBy` move the places of an outcome; the theorem is an equation between outcomes, errors and panics included | every function of the tokenizer and lexer commutes with a map of places that commutes with advancing over a character; a text ending with a terminator leaves the lexer between two rules |
| C87 | `Fault`, `FaultAtEnd` (characters) and `Malformed` (tokens) in `Spec/Complaint.lean`: inductive descriptions of what is wrong, built on the lexical and grammatical specifications of what is right | every reader's error is traced to the fault it stands for and back; a term ends where no further token of that kind could go on with it |
| C88 | the UTF-16 state machine of the WHATWG standard (`Model/Utf8.lean`); the encoding is specified from the Unicode standard in `Spec/Utf16.lean` (`utf16Units`, `unitBytes`), the replacement by `unitsText` | induction on the text in one direction and on the bytes, two at a time, in the other; marks by the sniffing lemmas of C61 |
| C89 | the UTF-8 state machine of the WHATWG standard (`Model/Utf8.lean`); the replacement is specified by `Replaced` in `Spec/Replaced.lean`, in terms of the encodings of characters only | both directions by induction: the state of the decoder is the start of a character, and a byte it does not take continues no character |
| C90 | the stack of marks of the reader, the machine, and the count of instructions of C82; `KeepsMarks` in `Spec/Leftover.lean` is the full property, in terms of what reset_to_mark answers | the bound by induction over the execution, with a number of marks for each operation; the counterexample by induction on the rounds of the repetition; straight grammars by induction over compiling and over the execution |
| C91 | the count of instructions of C82; `Costs` in `Spec/Cost.lean` says over the syntax tree what each part costs, with the meaning `Ev` for how parts end | induction over the fuel of the machine and the compiled code, alongside the refinement proof of C35; uniqueness of costs by induction over the cost |
| C92 | the costs of C91; `OneAhead` (a part of `Predictive`, C68), `Productive` and `LeafExceptions` in `Spec/Linear.lean` | induction over the cost: a run costs no more than a constant and consumes nothing, or what it costs is paid by the characters it has looked at; if it consumes fewer than those, nothing that follows can begin with the character at hand, so that no character pays twice |
| C93 | the reading `Ev` of C35, stripped of events and errors (`Rec`, with the height of the derivation); the laws are the constructors of `Refactors` in `Spec/Refactor.lean`, a relation between parts of two grammars | a simulation: induction over the height of the derivation and, inside, over the rewriting; every law has its converse, so that one direction gives both |
| C94 | `heldBy` is the buffer of the modelled reader; `Window` in `Spec/Held.lean` follows the cursor of C24 and remembers the furthest place looked at and the last place with nothing to come back to | the refinement of C24 extended by an invariant (the buffer is the text of the window), operation by operation; the two witnesses are families for every length. `Memory` in `Spec/Memory.lean` does the same for all histories: it also remembers what `unmark` of the last mark has left behind |
| C95 | the state of the modelled lexer between successful pushes; `MostCertain` of C65 (the longest beginning made of tokens that no continuation can change), `Lexes` of C07 and `RulesG` of C09 | the tokens found so far are the certain ones (C65), the rules built from them are those of C09; for the bound, the token that the buffer begins is shown to be at least as long as the buffer and no terminator |
| C96 | The provided methods `read` and `read_all` over the `read_chars` of an arbitrary state machine; `TellsBy` says what such an implementation has to tell (`Spec/Growing.lean`). | Induction on the number of calls and on the rounds of the loop; `BufferedCharReader` is shown to be an instance. |
| C97 | `CharDecodeReader` with its byte stream, decoder and remaining characters as they are in the code, the stream being any list of chunks, errors and empty reads; no assumption that the end is final. | Invariant between calls (the decoder is between two pushes, what is pending plus what the rest of the stream decodes to is what is left to tell), then C96; the simpler model of the reader is shown to agree. |
| C98 | The methods of the two traits for any type of states, with the provided methods written over the required ones; `MarkableReader` over any `CharReader`. | `LikeCursorFor` says that methods act like the cursor of C25; the provided methods are derived by induction on their loops; `MarkableReader` by replacing, at each call, the source by a library source that is about to deliver the same characters. |
| C99 | The machine and the scanners of the library over the methods of any implementation of `MarkableCharReader`. | Simulation by the reader-free machine, instruction by instruction, as for C34; `c99_same` by induction on the fuel. |
| C100 | `MarkableReader` over a source that delivers a text in any pieces, as for C25. | `Taken`: the source has delivered the text up to the furthest place looked at, and `AsNeeded`; kept by every operation, by induction on the loops and on the history. |
| C101 | The reader and the machine once more, with `u64` additions and subtractions that panic (debug) or wrap around (release): Model/Words.lean. | An invariant (`Small`): from every location that can still be returned to, the characters ahead lead to numbers below 2⁶⁴; marks are sorted and below the position. With it each operation does what it does with unbounded integers; a Hoare logic for pairs of programs (`Tri`) lifts this to the loops, the scanners and the machine. |
| C102 | The lexer once more, with `i32` nesting counters and `u64` locations that panic (checks on) or wrap around (off): Model/WordsLexer.lean. | Each counter is at most the number of characters or tokens passed, so that below the bound each loop equals its unbounded twin (induction on text and tokens), up to whole histories; beyond it, induction on the number of opening symbols. |
| C103 | The lexer once more, each function returning beside its result the characters and tokens it looks at, copies or moves: Model/Effort.lean; the cost of a history of calls: Spec/Effort.lean. | Forgetting the counts gives the lexer (induction on texts, tokens and fuel). Upper bounds: each token used pays for a fixed number of steps and, inside brackets, for those of the inner list, so that a rule of t tokens takes 24 t (t + 1) + 28; summed over rules and calls by convexity. Lower bounds: induction on the same recursion. |
| C104 | The reader once more, each function returning beside its result the characters it moves in the source, those it copies in its own buffer, and the marks it looks at: Model/Meter.lean; the machine runs on it as on a reader of any make (C99); the cost of reading a source one by one: Spec/Meter.lean. | A simulation between the metered reader and the plain one, whose relation carries the invariant that steps taken plus steps left are constant (or do not grow); it is kept by reads of one character, so by all methods the machine calls — `skip` is only called on characters that have just been looked at and are in the buffer. |
| C105 | The steps of the reader (Model/Meter.lean, C104) against the instructions executed (Model/Steps.lean, C82): Spec/Work.lean says what an instruction looks at. The steps of all readers that exceptions make: Model/MeterInner.lean. | Potential method: marks looked at plus marks set grow by a bounded amount per operation that succeeds, since a mark that is passed over is gone; induction over the machine along the functions that count instructions (with two units of reserve per call, which pay for the mark that a round or an alternative sets). With C92 and C104 the linear bounds follow; induction over the compiler shows that what instructions look at occurs in the grammar. For exceptions the instructions executed on one reader are counted apart; these pay for the steps of that reader, and each exception for what its reader starts with: by induction over the machine, the steps of the readers of exceptions plus K times the instructions on the outer reader are at most W times all instructions. |
| C106 | printing, compiling (as before) | induction over the syntax tree: each registering function adds as many instructions as there are constructs, with symbols of at most 9 times the printed length plus 5; induction over the grammar's derivations: printed length ≤ widths of the tokens; a family of nested braces for the lower bound |
| C107 | parsing (as before) | induction over the meaning of the machine (C35), with the texts that may follow each part (GoesOn) in place of the characters that may follow |
| C108 | `MarkableReader`, machine, decoder and `lex::parse` as before; `withFuture` replaces what a source has still to deliver. | `Causal` is closed under composition; the loops whose rounds the model counts by what is left are compared with different counts (`Foresee`), the number of rounds needed being bounded by what can still be delivered; induction on the machine as for C57. |
| C109 | parsing as before; `SamePlace` in `Spec/Shifted.lean` says which places correspond | induction over the meaning of the machine (C35) for all starting places at once; places behind prefixes of a text are ordered like the lengths of the prefixes |
| C110 | parsing as before, scanners with any behaviour; `ByCalls`, `follow` and `MadeFrom` in `Spec/Unruly.lean` say what a scanner may do | induction over the model of the machine: each of its steps is a list of calls of the reader's methods (`CallsAt`), closed under sequence, with the scanners' own; then the theorems on histories of calls (C24, C60) apply |
| C111 | `Model/Capacity.lean`: the functions that ask for room in advance, with the panic of `Vec::with_capacity` | case distinction on the size, equality with the functions without allocation below 2^61 |
| C112 | the meaning `Ev asBuilt` of terms with an exception on a group, which is what the parser does (C35) | C40 and C42 put together; the longest candidate is refuted by the test that is switched off in the repository |

## Known deviations of the code from the properties

Collected while reading; each is turned into a witness theorem.

1. `graph.rs:239`: a bare group is compiled with `next = None`: what follows it in the definition is skipped (C36, C35).
2. `machine.rs:78`: events of a failed iteration are kept (C37).
3. `validity/mod.rs:57`: references nested in brackets are not checked, parsing panics at `machine.rs:114` (C21, C45).
4. `lex/mod.rs:444`: `a=(1);` indexes out of bounds (C05).
5. `lex/mod.rs:257`: `a=(2*);` prints as `a=(2*);`, whose `*)` does not tokenize when printed without gap (C13).
6. `io/mod.rs:367`: `unmark` does not truncate the buffer; debug assertion at `io/mod.rs:251` (C28).
7. `machine.rs:342`: nested empty pairs survive (C39).
8. `machine.rs:237`: outcome of a forwarded rule ignored (C52).
9. The error reported for a malformed grammar depends on chunking (C03).
10. `io/mod.rs:428`: the decoder is not flushed at end of stream (C30).
11. Mark numbers can be reused (C27).
12. Left recursion does not terminate (C43, documented by a divergence theorem).
13. `machine.rs:70`, `graph.rs:233`: the count 4294967295 means "unbounded": `4294967295*X` is stopped with the livelock error
    when `X` matches the empty text (C46), and `{X}` stops after 4294967295 rounds (C44).
14. Alternatives are tried in order and never revisited: texts of the language can be rejected (C41, `c41_converse_fails`).
15. A scanner that reports badly nested events panics in a debug build only (C57).
16. `machine.rs:139-149`: an I/O error met while an error message is composed replaces the syntax error, and in the other
    direction `parse` swallows it when an alternative is tried next (C60, `c60_failure_lost`).
17. `io/mod.rs:97-183`: a failed `is_eof`, `prefix_matches`, `peek` or `skip` leaves the reader moved and a mark behind (C59).
18. With a forwarding scanner an I/O failure can make `parse` accept a text it rejects otherwise (C60, `c60_forward_accepts`).
19. `Syntax::read_from_str` drops a leading U+FEFF that `lex::parse_str` rejects (C62, `c62_mark_dropped`).
20. `io/mod.rs:588`: the place of garbled input is that of the first U+FFFD of the output, which may be a genuine one (C63, `c63_genuine_replacement`).
21. `io/mod.rs:572`: after the garbled error the bytes stay in the buffer and are decoded again by the next call (C63, `c63_decoded_again`).
22. `tokenizer/mod.rs` `ensure_capacity`: the limit is applied to the pending text plus the whole piece, so that a syntax
    of short tokens is rejected when a piece (up to 4096 bytes in `lex::parse`) exceeds the limit (C65, `c65_chunk_too_long`).
23. Recursion of the parser is not limited: with a recursive grammar, for every stack there is an accepted text that exhausts
    it (C77, `c77_deep_text`), which aborts the process.
24. `io/mod.rs:565`: a `Decoder` that was flushed panics at the next `push` or `flush` (C78, `c78_after_flush`).
25. `lex/mod.rs:169-183`: tokens are kept after an error; without `reset` a debug build panics at the next terminator and a release build
    returns rules made of old and new tokens (C79, `c79_after_error`; the documentation asks for `reset`).
26. The nesting of brackets in a grammar is not limited: for every stack there is a valid grammar that exhausts it when it is read, printed or
    compiled (C80, `c80_deep_grammar`), which aborts the process.
27. Alternatives are tried again from the start and nothing is remembered, so that a small recursive grammar takes exponential time on short texts
    (C82, `c82_exponential`).
28. `tokenizer/mod.rs:289`: a last character that starts no token is reported only with the next character or at flush (C83).
29. `parser/machine.rs`: repetitions, options, choices that match and exceptions leave their marks on the reader's stack, so that a long text
    fills it (C90, `c90_grows`).
30. `io/mod.rs` (`UnreadBuffer`): the unread buffer is cleared only when it has been read to its end with no mark, so that a reader that looks ahead keeps the
    whole text (C94, `c94_grows`).
31. `io/mod.rs`: `read_all` that fails loses the text it has read (C96, C97).
32. Lines and columns are 64-bit: a reader told to start near the end of that range panics or wraps around (C101, `c101_overflow`, `c101_wraps`).
33. `tokenizer/mod.rs:464`, `lex/mod.rs:554`: nesting is counted in 32-bit integers (C102, `c102_comment_wraps`, `c102_comment_panics`, `c102_brackets_panic`).
34. `lex/mod.rs:172` (`new_tokens.remove(0)`), `lex/mod.rs:554-567` (the closing bracket is searched for at each level of nesting) and `tokenizer/mod.rs:81-102` (a
    pending token is read again at each call): reading a grammar takes quadratic time (C103, `c103_rules_slow`, `c103_brackets_slow`, `c103_pieces_slow`).
35. `io/mod.rs:69-75` (`BufferedCharReader::read_chars`): each character is taken with `drain(0..1)`, which moves all those after it, so that a text of `n` characters
    held in memory costs `n (n + 1) / 2` moves (C104, `c104_string`).
36. `parser/graph.rs`: every pair of brackets or braces keeps the printed text of what it contains as its symbol, so compiling nested brackets takes quadratic memory
    (C106, `c106_quadratic`).
37. `lex/tokenizer/mod.rs:28-35`: the buffer is allocated for `max(init_buffer_size, max_buffer_size)` characters (probably `min` was meant): a limit of `n` takes `4n` bytes at
    once, and one of 2^61 or more, such as `usize::MAX`, makes reading any grammar panic with "capacity overflow"; likewise `peek` (`io/mod.rs:143`) allocates for as many characters as
    it is asked for (C111, `c111_parse_panics`, `c111_peek_panics`).
38. `parser/test/mod.rs:213-219` specifies that a list of definitions does not match when its best candidate is excluded by an exception. The code
    has no best candidate, only a first one: `A = ('/' | '/*') - '/*', '*'` accepts `/*` (C112, `c112_best_excluded_yet_accepted`).

## What is modelled

Line numbers refer to `/repo/src`. 

| file | modelled | not modelled |
|---|---|---|
| `lib.rs` | `Error` (158-180), `Syntax` (182-282), `Location` (287-372), `AST` (374-440), identifier functions (455-491) | `Debug` derives |
| `lex/mod.rs` | `parse_str`, `parse`, `parse_file`, `Lexer`, all `Display` instances, `build_syntax_rule` and everything it calls, token predicates, `Token::name`, `Token::debug` | |
| `lex/tokenizer/mod.rs` | everything (the initial capacity of the buffer in `Model/Capacity.lean` only) | |
| `io/mod.rs` | `CharReader`, `BufferedCharReader`, `MarkableCharReader`, `UnreadBuffer`, `MarkableReader`, `CharDecodeReader`, `Decoder`, `for_bytes`, `with_encoding`, `From<&str>`, `From<Chars>` | `UnreadBuffer::unmark` (never called) |
| `parser/graph.rs` | everything | |
| `parser/machine.rs` | everything | |
| `parser/mod.rs` | `Event`, `Parser`, `GraphConfig`, `DefaultScanner`, `CharsScanner`, `RegExScanner` with all constructors, `parallel_notation` | |
| `validity/mod.rs` | everything | |
| `main.rs` | | prints a greeting |

Limits of a buffer and lengths given to `peek` are below 2^61 in all properties but C111, where it is proved that the functions of the model are then those of the code with its
allocations.

Also not modelled: time and memory (other than as counts: instructions of the machine, C82, C91 and C92; marks and characters kept, C90, C94 and C95; steps of the lexer, C103; steps of the reader, C104 and C105; allocation failure; the depth of the call stack is modelled for `parse`, C77, counted in calls of `parse_to_subroutine_end`,
and for reading, printing and compiling a grammar, C80, counted in open brackets; not for `Drop`), threads (every API takes `&mut self` or an immutable graph), and the texts of errors of the operating system and of
the regular expression library.

## Trusted base

* Lean's kernel. Every theorem depends on no axioms other than `propext`, `Classical.choice`, `Quot.sound`; no `sorry`,
  no `native_decide`, no `bv_decide`. Only the core library is imported.
* The faithfulness of `Verif/Model` to the Rust text: read side by side, by the cited lines.
  As a check of this reading, `Verif/Conform` repeats most assertions of the repository's own tests about the model (192 examples, two of which are not in the repository or differ from it, as said there,
  evaluated by the kernel): tokens, rules, errors with their places and texts, marks, scanners, and events. They are tests, not proofs,
  and no property rests on them. The model agrees with every assertion that is repeated. Not repeated: the test with random numbers
  (`syntactic_primary_repeated_sequence_nested`), the reading of a file (`syntax_restored_from_file`), the round trips through encodings
  (`char_decode_reader_decoding`, but for the unknown label), and the strings of `Token::debug`. Changed: texts in Shift_JIS and US-ASCII
  are given in UTF-8, so of the garbled text only the line and the kind of error are compared; chunks have 1, 2, 3 or all characters and
  not every size; some loops are shorter; five lines of the sample program are left out. One test is switched off in the repository
  (`src/parser/test/mod.rs:221`). Its comment says that there is no match when the best candidate is excluded, but by the text of the code
  the first candidate counts, and the input matches; the model does as the code does (end of `Conform/Parser.lean`).
* The reading of the specifications in `Verif/Spec`.
* Contracts of what lies outside the crate:
  * `encoding_rs`: `Codec` is a transducer fed byte by byte. A call of `decode_to_string` with an empty output buffer either
    consumes all its input or stops after at least one byte; which one is an arbitrary schedule, quantified over. A decoder
    that was given a byte is finished by a call with `last = true` that consumes everything, and panics when it is used again; without
    a byte such a call does nothing (C78). C61, C62, C88 and
    C89 take the UTF-8 and UTF-16 decoders (and what a byte order mark does) to be those of the WHATWG encoding standard; all other
    theorems hold for every codec.
  * `Encoding::for_label` is an arbitrary partial function from labels to codecs; `Regex::new` an arbitrary function that may fail.
  * `regex::Regex::find` is an arbitrary function from a text to the offset and length of a match.
  * `std::io::Read` delivers arbitrary chunks or errors; the end of the stream is permanent in the model behind the parsing theorems; C97 models the stream without this assumption and shows that both models agree until the first pause.
  * `HashMap` behaves as a finite map.
* User-supplied scanners are arbitrary state transformers of the reader. Theorems about parsing assume `Behaves` (`Spec/Scanner`):
  the reaction is a function of place and remaining text, marks found on entry stay, a match leaves the reader behind it.
  The scanners of the library are proved to satisfy it (C48, C49, C57). Theorems about failing sources assume in addition
  `ReportsFaults` (`Spec/Faults`), also proved for the scanners of the library (`c60_library_reports`).
* `ParserFor dbg G start m` (`Spec/Parsing`) says that `m` was made by `Syntax::new`, `LexGraph::compile`, `Parser::new` from the
  rules of `G`; `InputAt dbg r here text` (`Spec/Running`) that `r` is a `MarkableReader` after any history of calls, standing at
  `here` with `text` ahead. Beside the theorems concrete parsers and readers meeting them are exhibited.
