{"id": "C01", "title": "Chunk independence of the streaming lexer", "statement": "Feeding an EBNF text to an unlimited Lexer with push_str in any number of pieces, cut at any character positions, and then calling flush, succeeds exactly when feeding it in one piece succeeds, and then returns the same rules in the same order with the same locations.", "quantifier": "every text, every way of cutting it into (possibly empty) pieces", "why_tests_cant": "the number of (text, split) pairs is infinite; the existing tests only try equal-size chunks of a few dozen literals", "anchors": ["src/lex/mod.rs: Lexer::push_str, Lexer::flush, Lexer::append", "src/lex/tokenizer/mod.rs: Tokenizer::push_str, tokenize, read_next"]}
{"id": "C02", "title": "Character-wise push loses no rule", "statement": "Lexer::push and Lexer::flush return at most one rule; pushing a text one character at a time and collecting every returned rule gives exactly the rules push_str of the whole text plus flush gives, i.e. a single push or flush never completes two rules of which one would be dropped.", "quantifier": "every text", "why_tests_cant": "push discards all but the first completed rule (r.remove(0)); only a proof shows a second one can never exist", "anchors": ["src/lex/mod.rs: Lexer::push, Lexer::flush, Lexer::append", "src/lex/tokenizer/mod.rs: Tokenizer::push"]}
{"id": "C03", "title": "The reported error does not depend on chunking", "statement": "When a text is malformed, the Error (location and kind of message) returned by the sequence of push_str/flush calls is the same for every way of cutting the text. (Expected to fail: push_str tokenizes the whole piece before it parses any rule.)", "quantifier": "every malformed text, every way of cutting it", "why_tests_cant": "needs every split of every malformed text", "anchors": ["src/lex/mod.rs: Lexer::push_str", "src/lex/tokenizer/mod.rs: Tokenizer::tokenize"]}
{"id": "C04", "title": "flush never panics after successful pushes", "statement": "After any sequence of successful push/push_str calls, flush never hits the 'there is still data in the buffer' assertion: it returns Ok or Err (or stops at the index panic of C05), and in the Ok case it completes with the internal buffer empty and exactly one end-of-input marker consumed.", "quantifier": "every sequence of pieces that was accepted", "why_tests_cant": "the assertion depends on the shape of the unread buffer in every reachable state", "anchors": ["src/lex/tokenizer/mod.rs: Tokenizer::flush, read_next"]}
{"id": "C05", "title": "EBNF parsing never panics", "statement": "lex::parse_str returns Ok or Err for every text; no text makes it panic. (Expected to fail: an integer directly before a closing bracket indexes out of bounds.)", "quantifier": "every text", "why_tests_cant": "a panic needs one specific shape among infinitely many texts", "anchors": ["src/lex/mod.rs: parse_str, read_syntactic_factor, read_enclosed_definition_list, build_syntax_rule"]}
{"id": "C06", "title": "EBNF parsing terminates", "statement": "lex::parse_str terminates on every text: none of the tokenizer loops and none of the mutually recursive reader loops runs forever.", "quantifier": "every text", "why_tests_cant": "non-termination cannot be observed by a finite test", "anchors": ["src/lex/tokenizer/mod.rs: Tokenizer::tokenize, comment, read_while", "src/lex/mod.rs: read_definition_list, read_single_definition, read_enclosed_definition_list"]}
{"id": "C07", "title": "Lexical analysis is exact", "statement": "An unlimited lexer splits a text into a token sequence iff the text is the concatenation of the source spellings of valid tokens with maximal munch at each boundary (an identifier, integer or gap is not followed by a character that would extend it, '(' not by '*', '/' or ':', '/' and '*' not by ')'); the token sequence is then exactly that decomposition, nothing of the text is lost or duplicated, and the decomposition is unique.", "quantifier": "every text and every token sequence", "why_tests_cant": "equivalence over all texts", "anchors": ["src/lex/tokenizer/mod.rs: read_next, terminal_string, special_sequence, comment, read_while"]}
{"id": "C08", "title": "Token locations are exact", "statement": "Every token, and therefore the location of every rule and every meta-identifier, terminal string, special sequence and bracketed sequence built from it, carries the 1-based line and column of its first character in the text: 1 + number of newlines before it, and 1 + number of characters since the last newline.", "quantifier": "every text, every token in it, every way of cutting it", "why_tests_cant": "locations are accumulated through every code path of the tokenizer", "anchors": ["src/lib.rs: Location::push", "src/lex/tokenizer/mod.rs: Tokenizer::move_location, read_next_token"]}
{"id": "C09", "title": "Rule parsing is sound", "statement": "Whenever the lexer returns a rule for a token sequence, that token sequence is derivable from the ISO 14977 grammar (name, '=', definitions separated by '|', terms separated by ',', optional '-' exception, optional integer '*' repetition, bracketed sequences, gaps and comments skippable between them, and finally a terminator) with exactly that rule as its parse tree.", "quantifier": "every token sequence ending in a terminator", "why_tests_cant": "unbounded nesting and length", "anchors": ["src/lex/mod.rs: build_syntax_rule, read_definition_list, read_single_definition, read_syntactic_term, read_syntactic_factor, read_syntactic_primary, read_enclosed_definition_list, read_meta_identifier"]}
{"id": "C10", "title": "Rule parsing is complete and unambiguous", "statement": "Every token sequence derivable from the ISO 14977 grammar is accepted, and the rule returned is its parse tree (up to the location attached to empty sequences); hence a token sequence has at most one parse tree.", "quantifier": "every derivable token sequence", "why_tests_cant": "unbounded nesting and length", "anchors": ["src/lex/mod.rs: build_syntax_rule, read_definition_list, read_enclosed_definition_list"]}
{"id": "C11", "title": "Brackets are properly nested in accepted rules", "statement": "If a rule is accepted then its '(' ')', '[' ']' and '{' '}' symbols (and their alternative spellings) are balanced and properly nested with respect to each other, although each closing symbol is searched by counting only its own kind.", "quantifier": "every token sequence", "why_tests_cant": "depth and interleaving of the bracket kinds is unbounded", "anchors": ["src/lex/mod.rs: read_enclosed_definition_list, read_syntactic_primary"]}
{"id": "C12", "title": "Shape of produced rules", "statement": "Every rule produced by the lexer has a non-empty name that equals its own normal form and consists of ASCII letters, digits and single spaces; at every depth every definition-list has at least one definition and every definition at least one term; repetition counts are below 2^32; every terminal string is non-empty printable ASCII and does not contain both quote characters; every special sequence contains no '?'.", "quantifier": "every text, every rule produced from it, every depth of nesting", "why_tests_cant": "the later stages assert these facts (assert_eq!, assert_ne!, unwrap); they hold only if no input violates them", "anchors": ["src/lex/mod.rs: read_meta_identifier, read_definition_list", "src/validity/mod.rs: new_syntax", "src/parser/graph.rs: register_single_definition"]}
{"id": "C13", "title": "Display round-trip of a rule", "statement": "Formatting a rule obtained from the lexer and parsing the result gives back the same rule up to locations. (Expected to fail for a repetition of the empty sequence directly before ')': it prints '*)'.)", "quantifier": "every rule the lexer can produce", "why_tests_cant": "infinitely many syntax trees; escaping and adjacency problems only show for particular trees", "anchors": ["src/lex/mod.rs: Display for SyntaxRule, DefinitionList, SingleDefinition, SyntacticTerm, SyntacticFactor, SyntacticPrimary", "src/lib.rs: Display for Syntax"]}
{"id": "C14", "title": "Buffer limit is enforced", "statement": "A Lexer created with a non-zero max_buffer_size never holds more than that many characters, in every reachable state; a push is rejected with the too-long error exactly when the pending characters plus the pushed ones exceed the limit; with limit zero nothing is ever rejected for its length.", "quantifier": "every limit, every sequence of operations including failing ones (limits below 2^61, see C111)", "why_tests_cant": "an invariant over all histories", "anchors": ["src/lex/tokenizer/mod.rs: Tokenizer::ensure_capacity, push, push_str, with_capacity"]}
{"id": "C15", "title": "reset restores a fresh lexer", "statement": "After any history of push, push_str and flush calls, including ones that returned an error, reset() makes the Lexer behave from then on exactly like a newly constructed one with the same name and limit.", "quantifier": "every history of operations, every continuation", "why_tests_cant": "all histories, including error states documented as undefined", "anchors": ["src/lex/mod.rs: Lexer::reset", "src/lex/tokenizer/mod.rs: Tokenizer::reset"]}
{"id": "C16", "title": "Comments and gaps between tokens are irrelevant", "statement": "Inserting or removing comments and gap separators between the tokens of a rule (not inside a meta-identifier) does not change whether it is accepted nor the resulting rule, up to locations.", "quantifier": "every rule text and every set of insertion points", "why_tests_cant": "infinitely many insertion points; the skip calls are scattered over seven functions", "anchors": ["src/lex/mod.rs: skip_comment_or_gap_separator and its callers"]}
{"id": "C17", "title": "End of input terminates the last rule", "statement": "A text whose last rule lacks its terminator symbol is accepted exactly when the text with ';' appended is accepted, with the same rules; a text that already ends in a terminator yields no extra rule at flush.", "quantifier": "every text", "why_tests_cant": "all texts", "anchors": ["src/lex/mod.rs: Lexer::flush, build_syntax_rule", "src/lex/tokenizer/mod.rs: Tokenizer::flush"]}
{"id": "C18", "title": "Normal form of meta-identifiers", "statement": "normalized_meta_identifier yields the maximal non-gap words of its argument in order, joined by single spaces: no leading, trailing or doubled gap, and applying it twice equals applying it once.", "quantifier": "every string", "why_tests_cant": "all strings", "anchors": ["src/lib.rs: normalized_meta_identifier", "src/lex/mod.rs: is_gap_separator_char"]}
{"id": "C19", "title": "Search keys of meta-identifiers", "statement": "keyed_meta_identifier deletes exactly the six gap characters; two identifiers have the same key iff they differ only in gap characters; an identifier and its normal form have the same key; normalising before keying changes nothing.", "quantifier": "every string", "why_tests_cant": "all strings", "anchors": ["src/lib.rs: keyed_meta_identifier, normalized_meta_identifier"]}
{"id": "C20", "title": "Duplicate rules are rejected, distinct rules are kept", "statement": "For rules with normalised names Syntax::new fails with a duplicate error iff two rules have names that agree after deleting gaps, and then points at the first rule that repeats an earlier name and cites that earlier rule's position.", "quantifier": "every list of rules", "why_tests_cant": "all rule lists", "anchors": ["src/validity/mod.rs: new_syntax"]}
{"id": "C21", "title": "Every referenced meta-identifier is defined", "statement": "If Syntax::new succeeds then every meta-identifier occurring anywhere in its rules, at any nesting depth and inside exceptions, names a rule of the syntax. (Expected to fail: references inside brackets are not checked.)", "quantifier": "every list of rules accepted by Syntax::new", "why_tests_cant": "all syntax trees of all depths", "anchors": ["src/validity/mod.rs: make_sure_all_meta_identifiers_are_defined"]}
{"id": "C22", "title": "Lookup ignores gaps and returns the right rule", "statement": "For a constructed Syntax, get_syntax_rule(q) returns a rule iff some rule's name agrees with q after deleting gaps, and it returns that rule; canonical_name(q) is that rule's name; rules() and rule(i) list the rules in the order they were given.", "quantifier": "every constructed syntax and every query string", "why_tests_cant": "all syntaxes and queries", "anchors": ["src/lib.rs: Syntax::get_syntax_rule, canonical_name, rules, rule", "src/validity/mod.rs: new_syntax"]}
{"id": "C23", "title": "Syntax construction never panics on lexer output", "statement": "For every text for which parse_str returns Ok(rules), Syntax::new(rules) returns Ok or Err; the normal-form assertion and the index lookup inside it cannot fail.", "quantifier": "every text", "why_tests_cant": "all texts", "anchors": ["src/validity/mod.rs: new_syntax", "src/lex/mod.rs: read_meta_identifier"]}
{"id": "C24", "title": "MarkableReader behaves like a cursor over the text", "statement": "For every sequence of read, read_chars, read_all, peek, prefix_matches, is_eof, skip, mark, reset_to_mark and unmark calls, and for every way the underlying source delivers its characters, the release build returns exactly what a plain cursor over the whole text with a stack of saved positions returns, and location() is the line/column of that cursor.", "quantifier": "every text, every delivery schedule of the source, every sequence of operations (looks ahead of less than 2^61 characters, see C111)", "why_tests_cant": "all histories of a stateful buffer with five mutable fields", "anchors": ["src/io/mod.rs: UnreadBuffer, MarkableReader, MarkableCharReader"]}
{"id": "C25", "title": "reset_to_mark undoes everything since the mark", "statement": "After m = mark() and any sequence of operations that leaves m valid, reset_to_mark(m) succeeds, returns the number of characters consumed since the mark, restores the location, and the characters read afterwards are the same as those read after the mark.", "quantifier": "every text, schedule and sequence of operations between mark and reset", "why_tests_cant": "all histories", "anchors": ["src/io/mod.rs: UnreadBuffer::mark, revert, remove_mark, read, append"]}
{"id": "C26", "title": "Looking ahead has no observable effect", "statement": "peek(n) returns the next min(n, remaining) characters, prefix_matches(p) tells whether the remaining text starts with p, is_eof tells whether nothing remains; none of them changes the position, the location or the validity of any mark.", "quantifier": "every reader state, every n and p (looks ahead of less than 2^61 characters, see C111)", "why_tests_cant": "all states and all arguments; each call internally reads, buffers and rewinds", "anchors": ["src/io/mod.rs: MarkableCharReader::peek, prefix_matches, is_eof"]}
{"id": "C27", "title": "A consumed mark is never accepted again", "statement": "Once a mark has been consumed by reset_to_mark or unmark (or dropped with an older one), using it again is an error that changes nothing. (Expected to fail: marks are positions, a later mark can have the same number.)", "quantifier": "every history", "why_tests_cant": "all histories", "anchors": ["src/io/mod.rs: UnreadBuffer::remove_mark, revert"]}
{"id": "C28", "title": "The reader never panics in a debug build", "statement": "No sequence of MarkableReader operations trips a debug assertion or an arithmetic underflow. (Expected to fail: unmark of the last mark leaves a non-empty buffer.)", "quantifier": "every history, debug build (looks ahead of less than 2^61 characters, see C111)", "why_tests_cant": "all histories", "anchors": ["src/io/mod.rs: UnreadBuffer::append, MarkableReader::unmark"]}
{"id": "C29", "title": "Streaming decoding is independent of fragmentation", "statement": "For any encoding, pushing a byte sequence to Decoder in any fragments and flushing yields the same string as pushing it at once and flushing; no byte is decoded twice or skipped, whatever amount of output the underlying decoder produces per call.", "quantifier": "every codec, every byte sequence, every fragmentation, every output-full schedule", "why_tests_cant": "all fragmentations", "anchors": ["src/io/mod.rs: Decoder::push, flush, convert"]}
{"id": "C30", "title": "CharDecodeReader delivers the decoded text", "statement": "Reading from CharDecodeReader until 0, with any buffer sizes and any byte-chunk schedule, delivers the decoding of all bytes in order. (Expected to fail at the end of the stream: the decoder is never flushed, an incomplete last character is silently dropped.)", "quantifier": "every codec, every chunk schedule, every sequence of buffer sizes", "why_tests_cant": "all schedules", "anchors": ["src/io/mod.rs: CharDecodeReader::read_chars, CharReader::read, read_all"]}
{"id": "C31", "title": "Reading a syntax from a stream equals parsing the decoded text", "statement": "lex::parse over a byte stream delivered in any non-empty chunks, without buffer limit, succeeds exactly when parse_str of the decoded text does, with the same rules; Syntax::read_from likewise.", "quantifier": "every codec, every byte sequence, every chunk schedule", "why_tests_cant": "all schedules; multi-byte characters and tokens may straddle any chunk boundary", "anchors": ["src/lex/mod.rs: parse", "src/lib.rs: Syntax::read_from", "src/io/mod.rs: Decoder::convert"]}
{"id": "C32", "title": "Locations are totally ordered and track the text", "statement": "Location's Ord is a total order, the derived PartialOrd agrees with it and with equality, and for two positions of the same text the later one is strictly greater.", "quantifier": "every pair and triple of locations, every text", "why_tests_cant": "all values", "anchors": ["src/lib.rs: Location, Ord for Location, Location::push"]}
{"id": "C33", "title": "A successful parse consumed the whole input", "statement": "Parser::parse returns Ok only if the start rule matched from the current position to the end of the input; input left over is always an error located at the first unconsumed character.", "quantifier": "every grammar, start rule and input", "why_tests_cant": "all grammars and inputs", "anchors": ["src/parser/machine.rs: LexMachine::parse"]}
{"id": "C34", "title": "Parsing does not depend on how the input is delivered", "statement": "The result of Parser::parse (events or error) is a function of the grammar, start rule, start location and remaining text only: the chunk sizes in which the source delivers characters and the buffered state of the reader are irrelevant.", "quantifier": "every grammar, text and delivery schedule", "why_tests_cant": "all schedules; backtracking re-reads from a buffer whose content depends on the schedule", "anchors": ["src/parser/machine.rs: LexMachine::parse_to_subroutine_end", "src/io/mod.rs: MarkableReader"]}
{"id": "C35", "title": "The compiled machine implements the grammar", "statement": "Compiling a syntax and running the machine accepts, rejects and emits events exactly as the direct reading of the syntax tree does: terms in sequence, alternatives in order with backtracking, greedy optional and repeated sequences, exact counts, exceptions by re-parsing the matched text, rule references wrapped in begin/end events. (Expected to fail for sequences continuing after a bare group.)", "quantifier": "every grammar (any nesting), every input", "why_tests_cant": "all grammars and inputs", "anchors": ["src/parser/graph.rs: LexGraph::compile and register_*", "src/parser/machine.rs: parse_to_subroutine_end, TerminalStringScanner, SpecialSequenceScanner, EmptyScanner, TermWithExceptionScanner"]}
{"id": "C36", "title": "Concatenation after a group is honoured", "statement": "In a definition 'X, Y' where X is a grouped sequence, Y must match after X. (Expected to fail: the compiler drops the continuation of a group.)", "quantifier": "every grammar with a group that is not last in its definition, every input", "why_tests_cant": "all grammars and inputs", "anchors": ["src/parser/graph.rs: register_syntactic_primary (GroupedSequence)"]}
{"id": "C37", "title": "Token events spell the input", "statement": "On success the texts of the token events, concatenated in order, are exactly the input text (with scanners that report what they consume). (Expected to fail: a repetition keeps the events of its failed last iteration.)", "quantifier": "every grammar and accepted input", "why_tests_cant": "all grammars and inputs", "anchors": ["src/parser/machine.rs: parse_to_subroutine_end (Repetition)"]}
{"id": "C38", "title": "Events are well nested", "statement": "On success the events form a balanced bracket sequence with matching labels and definitions, whose outermost pair is the begin and end of the start rule, under its canonical name.", "quantifier": "every grammar and accepted input", "why_tests_cant": "all grammars and inputs", "anchors": ["src/parser/machine.rs: parse_to_subroutine_end (Alias), remove_empty_begin_end_pair"]}
{"id": "C39", "title": "Empty begin/end pairs are removed", "statement": "The result contains no begin immediately followed by its end, other than the outermost pair; nothing else is removed. (Expected to fail for nested empty rules: the filter does not step back.)", "quantifier": "every event sequence the machine produces", "why_tests_cant": "all event sequences", "anchors": ["src/parser/machine.rs: remove_empty_begin_end_pair"]}
{"id": "C40", "title": "Earlier alternatives take precedence", "statement": "In a definition-list, if an alternative matches at the current position, no later alternative influences the result, and every alternative is tried from the position at which the list was entered, leaving no events of the failed ones.", "quantifier": "every grammar and input", "why_tests_cant": "all grammars and inputs", "anchors": ["src/parser/machine.rs: parse_to_subroutine_end (Or)", "src/lib.rs: Definition Priority"]}
{"id": "C41", "title": "Accepted inputs belong to the grammar's language", "statement": "For a grammar with groups only at the end of definitions and scanners that do not forward to rules, every accepted input is derivable from the start rule in the ordinary context-free reading of EBNF, in which `F - X` derives what `F` does.", "quantifier": "every such grammar, every accepted input", "why_tests_cant": "all grammars and inputs", "anchors": ["src/parser/machine.rs", "src/parser/graph.rs"]}
{"id": "C42", "title": "Exceptions exclude", "statement": "A term 'F - E' matches only text that F matches and that E, run on exactly that text, does not match in full; the position, the events and the result after it are those of F.", "quantifier": "every grammar, every input (also multi-line matches)", "why_tests_cant": "the matched text is recovered by comparing line/column numbers", "anchors": ["src/parser/machine.rs: TermWithExceptionScanner::scan"]}
{"id": "C43", "title": "Parsing terminates without left recursion", "statement": "For a grammar in which no rule can reach itself without consuming input, Parser::parse terminates on every input, whatever the repetitions and empty alternatives; rules that start themselves as the first thing they do make it recurse forever on every input.", "quantifier": "every non-left-recursive grammar, every input; witness for left recursion", "why_tests_cant": "non-termination is unobservable by tests; all grammars", "anchors": ["src/parser/machine.rs: parse_to_subroutine_end"]}
{"id": "C44", "title": "Unbounded repetition cannot spin", "statement": "{...} either consumes input in every iteration or stops: an iteration that matches without consuming is reported as a Livelock error located at that position, and this is the only situation in which that error is produced for {...}.", "quantifier": "every body, every input", "why_tests_cant": "all inputs", "anchors": ["src/parser/machine.rs: parse_to_subroutine_end (Repetition)"]}
{"id": "C45", "title": "Parsing never panics when all references are defined", "statement": "If every meta-identifier at every depth is defined, Parser::parse does not panic: every jump target is a valid instruction, every referenced label exists, every mark used for backtracking is valid.", "quantifier": "every such grammar, every input", "why_tests_cant": "all grammars and inputs; unwrap/expect on table lookups", "anchors": ["src/parser/graph.rs: instruction, index_of_label", "src/parser/machine.rs: parse_to_subroutine_end"]}
{"id": "C46", "title": "Exact repetition counts", "statement": "'n * X' matches iff X can be matched n times in a row, and consumes exactly those n matches; 0 * X matches the empty text.", "quantifier": "every n below 2^32, every X, every input", "why_tests_cant": "all n and inputs", "anchors": ["src/parser/graph.rs: register_syntactic_factor", "src/parser/machine.rs: Repetition"]}
{"id": "C47", "title": "Parse errors point into the input", "statement": "Every error returned by Parser::parse carries a location that is the line/column of some position of the input between its start and its end.", "quantifier": "every grammar and rejected input", "why_tests_cant": "all grammars and inputs", "anchors": ["src/parser/machine.rs: err_expected_but_stream_not, Or error selection"]}
{"id": "C48", "title": "CharsScanner matches the greedy run", "statement": "CharsScanner matches iff the longest prefix of the remaining text whose characters satisfy the predicate, cut at max, has at least min characters; on a match exactly that prefix is consumed and reported as one token, otherwise nothing is consumed.", "quantifier": "every predicate, min, max, text, delivery schedule", "why_tests_cant": "all inputs", "anchors": ["src/parser/mod.rs: CharsScanner::scan"]}
{"id": "C49", "title": "RegExScanner is anchored and bounded", "statement": "RegExScanner matches only at the current position and consumes exactly the matched characters, reported as one token; a match of more than 256 characters is an error; a non-match consumes nothing.", "quantifier": "every regex engine result, every text, every delivery schedule", "why_tests_cant": "all inputs", "anchors": ["src/parser/mod.rs: RegExScanner::scan"]}
{"id": "C50", "title": "Parser construction", "statement": "Parser::new(graph, q) is Some iff q names a rule of the compiled syntax up to gaps, and then name() is that rule's canonical name.", "quantifier": "every syntax produced by the lexer and every query string", "why_tests_cant": "all syntaxes and queries; label tables mix plain and '$'-prefixed keys", "anchors": ["src/parser/machine.rs: LexMachine::new", "src/parser/graph.rs: LexGraph::compile"]}
{"id": "C51", "title": "Compilation is total and closed", "statement": "LexGraph::compile does not panic on any syntax built from lexer output, and every next/subroutine index in the result refers to an existing instruction.", "quantifier": "every syntax built from lexer output, every scanner configuration", "why_tests_cant": "all syntaxes", "anchors": ["src/parser/graph.rs: register_definition_list, register_single_definition"]}
{"id": "C52", "title": "Forwarded special sequences must match", "statement": "A special sequence whose scanner forwards to a meta-identifier matches only if that rule matches. (Expected to fail: the outcome of the forwarded rule is ignored.)", "quantifier": "every grammar with a forwarding scanner, every input", "why_tests_cant": "all grammars and inputs", "anchors": ["src/parser/machine.rs: SpecialSequenceScanner::scan (Reaction::Forward)"]}
{"id": "C53", "title": "Lexer errors point into the text", "statement": "Every error returned while feeding an EBNF text to a Lexer (any pieces, any buffer limit) carries the line/column of a position of that text, between its first character and its end.", "quantifier": "every text, every way of cutting it, every limit (limits below 2^61, see C111)", "why_tests_cant": "every error path of the tokenizer and of the token parser, on every text", "anchors": ["src/lex/tokenizer/mod.rs: read_next, comment, ensure_capacity", "src/lex/mod.rs: build_syntax_rule and the read_* functions"]}
{"id": "C54", "title": "Events carry the place where they happen", "statement": "On success, every begin, token and end event carries the line/column of the input position at which it happens: a token that of its first character, a begin that of the first character of the rule's text, an end that of the character after it; tokens follow each other without gaps. (Expected to fail where C37 fails.)", "quantifier": "every grammar and accepted input, including multi-line input", "why_tests_cant": "all grammars and inputs", "anchors": ["src/parser/machine.rs: parse_to_subroutine_end", "src/parser/mod.rs: Event"]}
{"id": "C55", "title": "Syntax tree nodes", "statement": "For a syntax tree built with the public constructors: its token is the left-to-right concatenation of the tokens its leaves were built with; it is either a leaf or an inner node, never both; a leaf answers with the location, name and token it was built with; an inner node has no name; every tree answers with the location it was built with.", "quantifier": "every tree built with the constructors, of any shape and depth", "why_tests_cant": "trees of every shape and depth", "anchors": ["src/lib.rs: AST::is_leaf, is_node, location, name, token, with_token, with_name, with_children, Node"]}
{"id": "C56", "title": "Displayed places and errors are unambiguous", "statement": "Two locations that are displayed alike are equal (same name, line and column), whatever characters their names contain. Two errors in sources of the same name that are displayed alike have the same location and the same message.", "quantifier": "every pair of locations and every pair of errors", "why_tests_cant": "all names (which may themselves contain the separators used in the text), all line and column numbers, all messages", "anchors": ["src/lib.rs: impl Display for Location, impl Display for Error"]}
{"id": "C57", "title": "Debug builds and release builds agree", "statement": "A reader of a debug build never returns anything else than a reader of a release build: the operations panic or return the same. For every grammar and input, a parser whose special sequences use the scanners of the library (or scanners that keep the documented contract in both builds) returns in a debug build what it returns in a release build, and no debug assertion fails.", "quantifier": "every source, every history of reader operations; every grammar, configuration, input and reader state", "why_tests_cant": "tests run in one build and on few inputs; the debug assertions depend on the whole history of marks", "anchors": ["src/io/mod.rs: UnreadBuffer::append, mark (debug_assert!)", "src/parser/machine.rs: TermWithExceptionScanner::scan, remove_empty_begin_end_pair (debug_assert_eq!)"]}
{"id": "C58", "title": "I/O errors lose no text", "statement": "When the source fails with I/O errors between its pieces, every reader operation does what it does on the whole text, or fails with the next I/O error of the source, reporting the place reached. Each I/O error is reported at most once and in order, and after it reading continues in the same text: no character is lost from or inserted into the text.", "quantifier": "every text, every way it is cut into pieces, every position and number of I/O errors, every history of reader operations", "why_tests_cant": "all interleavings of pieces, errors and operations", "anchors": ["src/io/mod.rs: MarkableReader::read, read_chars, read_all, peek, prefix_matches, is_eof, skip, mark, reset_to_mark, unmark"]}
{"id": "C59", "title": "An operation that failed with an I/O error can be repeated", "statement": "An operation that fails with an I/O error leaves the reader as it was: position and marks are unchanged, so that the operation can be repeated.", "quantifier": "every text, every way it is cut into pieces, every position and number of I/O errors, every history of reader operations, every operation", "why_tests_cant": "the error may come at any point of any operation, after any history", "anchors": ["src/io/mod.rs: MarkableReader::read, read_chars, read_all, peek, prefix_matches, is_eof, skip"]}
{"id": "C60", "title": "Parsing over a source that fails", "statement": "When the source fails with an I/O error while parse runs, parse returns that error. What parse returns otherwise is what it returns when the source supplies the same text without failing; in particular it never accepts, or reports events for, anything that it would not accept without the failure.", "quantifier": "every grammar, every configuration of scanners, every text, every way it is cut into pieces, every position and number of I/O errors, every reader state (looks ahead of less than 2^61 characters, see C111)", "why_tests_cant": "the error may come at any point of any parse of any grammar", "anchors": ["src/parser/machine.rs: LexMachine::parse, err_expected_but_stream_not, SpecialSequenceScanner::scan", "src/io/mod.rs: MarkableReader"]}
{"id": "C61", "title": "UTF-8 text passes the decoder unchanged", "statement": "The UTF-8 bytes of a text, delivered in any fragments, are decoded to exactly that text (a byte order mark at its start is dropped), by a Decoder with the label utf-8 and by a CharDecodeReader over it. A decoder that stops at malformed input accepts no other bytes. A byte order mark at the start decides the encoding whatever the label says; without one the label decides.", "quantifier": "every text over all Unicode characters, every byte sequence, every fragmentation (also inside characters and marks), every amount of work per call of the underlying decoder", "why_tests_cant": "all texts and all ways to cut their bytes", "anchors": ["src/io/mod.rs: Decoder::new, push, flush, CharDecodeReader"]}
{"id": "C62", "title": "read_from_str and read_from_utf8 read the text", "statement": "Syntax::read_from_str(name, text, 0) succeeds exactly when building a syntax from the rules of the text does, with the same syntax, for texts of every length; Syntax::read_from_utf8 does the same for the UTF-8 bytes of the text in any chunks. (Found: a byte order mark at the start is dropped, which parse_str rejects.)", "quantifier": "every text, every way its bytes are cut into chunks", "why_tests_cant": "texts longer than the buffer of 4096 bytes are cut inside characters and tokens", "anchors": ["src/lib.rs: Syntax::read_from_str, read_from_utf8", "src/lex/mod.rs: parse"]}
{"id": "C63", "title": "Malformed bytes are reported where they are", "statement": "A decoder that stops at malformed input reports the place of the first malformed sequence, whatever the fragments in which the bytes arrive.", "quantifier": "every byte sequence, encoding and fragmentation", "why_tests_cant": "all positions of malformed sequences relative to fragment boundaries", "anchors": ["src/io/mod.rs: Decoder::convert, garbled_detected"]}
{"id": "C64", "title": "A limit adds nothing but rejections", "statement": "For every history of calls of a lexer with a buffer limit, each call is rejected as too long, without effect, or returns what it returns in the history without the rejected calls from a lexer without limit. So reading with a limit fails as too long or does what reading without limit does.", "quantifier": "every limit, every history of push, push_str, flush and reset; every byte stream (limits below 2^61, see C111)", "why_tests_cant": "all histories and limits", "anchors": ["src/lex/tokenizer/mod.rs: Tokenizer::push_str, ensure_capacity", "src/lex/mod.rs: Lexer, parse", "src/lib.rs: Syntax::read_from_str"]}
{"id": "C65", "title": "A limit that every token fits into is enough", "statement": "A syntax none of whose tokens is longer than the limit can be read with that limit.", "quantifier": "every text without lexical errors, every limit, every way the text is cut (limits below 2^61, see C111)", "why_tests_cant": "all texts and cuts", "anchors": ["src/lex/tokenizer/mod.rs: ensure_capacity", "src/lex/mod.rs: parse"]}
{"id": "C66", "title": "Parse errors tell the truth", "statement": "An error 'X expected, but Y appeared.' of a parse is about its place: Y quotes what the text goes on with there (its end, or its first eight characters), and X is the end of the text or a part of the grammar that does not match there.", "quantifier": "every grammar, every text, every error returned; scanners of the library, or any scanner whose own error it is not", "why_tests_cant": "all grammars and texts; a wrong quotation or a stale name shows only in particular combinations of alternatives", "anchors": ["src/parser/machine.rs: LexMachine::parse, parse_to_subroutine_end, err_expected_but_stream_not, err_expected_but_not", "src/parser/mod.rs: Parser::parse"]}
{"id": "C67", "title": "Errors are not reported too late", "statement": "What lies before the place of a parse error is the beginning of a text that the grammar derives (exceptions aside): the error is at or before the first character that cannot be continued.", "quantifier": "every grammar in which nothing follows a bare group, scanners do not forward and every part derives something; every rejected text", "why_tests_cant": "all grammars and texts", "anchors": ["src/parser/machine.rs: LexMachine::parse, parse_to_subroutine_end", "src/parser/mod.rs: Parser::parse"]}
{"id": "C68", "title": "LL(1) grammars are parsed completely", "statement": "If one character of look-ahead decides everywhere and no rule is left-recursive, a text is accepted exactly if the start rule derives it (F - X deriving what F derives and X does not); otherwise a truthful error is returned.", "quantifier": "every such grammar without terms after a bare group, with counts below the limit and scanners that just match or not; every text shorter than 2^32-1 characters", "why_tests_cant": "completeness ranges over all texts of an infinite language", "anchors": ["src/parser/machine.rs: LexMachine::parse", "src/parser/graph.rs: LexGraph::compile", "src/parser/mod.rs: Parser::parse"]}
{"id": "C69", "title": "The events describe a derivation", "statement": "The events returned for an accepted text are, in order, those of a derivation of the text from the start rule: a token for every terminal string, the scanner's events for every special sequence, begin and end around every rule; empty pairs may be left out.", "quantifier": "every tidy grammar (nothing after a bare group, optional and repeated bodies choices or single terms, no forwarding, counts below the limit), every accepted text", "why_tests_cant": "all grammars, texts and derivations", "anchors": ["src/parser/machine.rs: LexMachine::parse, parse_to_subroutine_end, remove_empty_begin_end_pair", "src/parser/mod.rs: Parser::parse"]}
{"id": "C70", "title": "Unambiguous grammars: the events are the derivation", "statement": "For LL(1) grammars the events of a derivation are determined by the text, and a text is accepted with some events exactly if these are the events of its derivation without the empty pairs.", "quantifier": "every tidy LL(1) grammar, not left-recursive, every text shorter than 2^32-1 characters, every list of events", "why_tests_cant": "all grammars, texts and derivations", "anchors": ["src/parser/machine.rs: LexMachine::parse, parse_to_subroutine_end, remove_empty_begin_end_pair", "src/parser/mod.rs: Parser::parse"]}
{"id": "C71", "title": "Parsers may share a reader", "statement": "Operations of a reader and parses with any parsers can follow each other on one reader: each returns what it should at the place where the previous ones left the reader, and a parse leaves all marks of its caller valid, whether it accepts or not. In particular: mark, parse, go back to the mark, and any other parser returns what it would have returned in the first place.", "quantifier": "every sequence of reader operations and parses, with any parsers, over every source that delivers a text, debug and release builds, as long as nothing panics or runs out of stack", "why_tests_cant": "all histories of operations and parses, all grammars and texts", "anchors": ["src/parser/mod.rs: Parser::parse", "src/parser/machine.rs: LexMachine::parse", "src/io/mod.rs: MarkableReader::mark, reset_to_mark, unmark, read, peek, skip"]}
{"id": "C72", "title": "Order of rules and unused rules do not matter", "statement": "What a parser returns (events, errors, panics) depends only on the rules that can be reached from its start rule by references or forwarding: not on the order of the rules, nor on further rules.", "quantifier": "every two grammars with parsers for the same start rule that agree on the reachable rules and leave the same names undefined, every scanner configuration, every input", "why_tests_cant": "all grammars, permutations, additions and inputs", "anchors": ["src/parser/graph.rs: LexGraph::compile", "src/parser/machine.rs: LexMachine::parse", "src/lib.rs: Syntax"]}
{"id": "C73", "title": "From the text of a grammar and the bytes of an input to the events", "statement": "If a syntax can be read from a text, it compiles, there are parsers for exactly the rules in the text (names compared without spaces), a parser reports the name of its rule as written, and what it returns for an input given as bytes with an encoding label is what the grammar in the text says about the decoded input; for UTF-8 this is the text itself, however the bytes are delivered, and the same as for a reader over the string (a leading byte order mark apart).", "quantifier": "every grammar text, every encoding, every byte sequence and delivery, every scanner configuration", "why_tests_cant": "all grammars, inputs, encodings and ways of delivery; the composition of all stages", "anchors": ["src/lib.rs: Syntax::read_from_str, Syntax::rules", "src/parser/mod.rs: Parser::new, Parser::name, Parser::parse", "src/parser/graph.rs: LexGraph::compile", "src/io/mod.rs: MarkableReader::for_bytes, MarkableReader::with_encoding, From<&str>"]}
{"id": "C74", "title": "Encoding labels and files", "statement": "With an unknown encoding label every function that takes one returns the same error, at the start of the named input, whatever the stream contains; a file that cannot be opened is an error at its start; otherwise the rules of a file are those of its decoded text, however it is read.", "quantifier": "every label table, label, stream, limit and file content (limits below 2^61, see C111)", "why_tests_cant": "all labels, streams and deliveries", "anchors": ["src/io/mod.rs: Decoder::new, CharDecodeReader::new, CharDecodeReader::for_bytes, MarkableReader::with_encoding, MarkableReader::for_bytes", "src/lex/mod.rs: parse_file, parse", "src/lib.rs: Syntax::read_from"]}
{"id": "C75", "title": "Constructors of the scanners", "statement": "with_one_of takes the next character exactly if it is allowed; with_zero_or_more, with_one_or_more, with_min, with_max and with_range take the allowed characters ahead, up to the maximum, exactly if there are at least the minimum, and never match if the maximum is below the minimum; refusing leaves the reader in place; from_str gives the scanner for the compiled expression or an error at the definition.", "quantifier": "every predicate, bounds, text and place of a reader with any history", "why_tests_cant": "all predicates, texts, bounds and reader histories", "anchors": ["src/parser/mod.rs: CharsScanner::with_one_of, with_one_or_more, with_zero_or_more, with_min, with_max, with_range, RegExScanner::from_str"]}
{"id": "C76", "title": "Where events come from", "statement": "Every event of an accepted text tells of a place of the input and of a part of the grammar: the token of a terminal string is found in the input at its place and its definition is where the grammar text has that string in quotes; begin and end events name a rule of the grammar, carry a place of the input, and their definition is where the grammar text names the rule; all other events were reported by the scanner of a special sequence for such a place.", "quantifier": "every grammar, special-sequence scanner, input text, delivery and event of the result", "why_tests_cant": "all grammars, texts and reader histories; events of nested and repeated parts at any depth", "anchors": ["src/parser/machine.rs: LexMachine::parse, parse_to_subroutine_end, TerminalStringScanner, SpecialSequenceScanner, EmptyScanner, TermWithExceptionScanner", "src/parser/mod.rs: Event, CharsScanner, RegExScanner", "src/lib.rs: Location"]}
{"id": "C77", "title": "The call stack a parse needs", "statement": "With a bounded call stack `parse` always ends: either the stack is exhausted, or the result is the one it has with an unbounded stack. Every parse that returns has a threshold: with less stack it exhausts the stack, with more nothing changes. A parse that would run forever (left recursion) exhausts every stack. For a grammar without left recursion the stack needed is at most linear in the length of the text; for a grammar without recursion it is a constant of the grammar. A recursive grammar may need more stack the deeper the text is nested: for every stack there is a text that is accepted by `A='(',A,')'|'x';` and exhausts it.", "quantifier": "every grammar, special-sequence scanner, input text, reader history and stack size", "why_tests_cant": "whether a stack suffices depends on the grammar and on the text; tests use shallow texts on one stack size", "anchors": ["src/parser/machine.rs: LexMachine::parse, parse_to_subroutine_end, SpecialSequenceScanner::scan, TermWithExceptionScanner::scan"]}
{"id": "C78", "title": "The life of a decoder", "statement": "Until it is flushed, a Decoder never panics and never loops, whatever is pushed to it, in any fragments, also after errors. A flush of a decoder to which no byte was given changes nothing. Once a decoder that was given any byte has been flushed with success it is used up: every later push or flush panics. For a decoder that replaces malformed sequences the result of every call in every history of pushes and flushes is determined. lex::parse never uses its decoder after the flush.", "quantifier": "every codec, every history of push and flush calls, every output-full schedule", "why_tests_cant": "all histories of calls; tests flush once at the end", "anchors": ["src/io/mod.rs: Decoder::push, flush, convert", "src/lex/mod.rs: parse"]}
{"id": "C79", "title": "The lexer in debug and release builds, and after errors", "statement": "If reset is called after every error of the token parser (errors at the level of characters and of the buffer limit do not require it for this), no debug assertion of the lexer fires: every call in every history returns the same in a debug build and in a release build. After an error of the token parser and until reset no call of a debug build returns a rule, whatever is pushed. A release build goes on with the old tokens and can return a rule that is in none of the texts pushed. In every history, also after errors, each call of a release build returns, or panics in one of two ways: the assertion of flush that its buffer is empty (only after an error), or the index out of bounds of C05.", "quantifier": "every history of push, push_str, flush and reset calls, every limit (limits below 2^61, see C111)", "why_tests_cant": "all histories; tests are run in one build and stop at the first error", "anchors": ["src/lex/mod.rs: Lexer::push, push_str, flush, reset, append, build_syntax_rule", "src/lex/tokenizer/mod.rs: Tokenizer::tokenize, read_next_token"]}
{"id": "C80", "title": "The call stack a grammar needs", "statement": "With a bounded call stack, reading a grammar, printing it and compiling it need exactly the depth to which its brackets are nested: with less room the stack is exhausted, with that or more the result is the one of an unbounded stack. A text that cannot be read has such a threshold too, at most one more than its length. For every stack there is a valid grammar, a=((...'x'...)); with enough parentheses, that exhausts it when it is read and, if it was read with a larger stack, when it is printed or compiled.", "quantifier": "every grammar text, every syntax, every configuration and every stack size", "why_tests_cant": "the stack needed depends on the nesting of the grammar, which is unbounded; tests use shallow grammars on one stack size", "anchors": ["src/lex/mod.rs: build_syntax_rule, read_definition_list, read_single_definition, read_syntactic_term, read_syntactic_factor, read_syntactic_primary, read_enclosed_definition_list, Display for SyntaxRule, DefinitionList, SingleDefinition, SyntacticTerm, SyntacticFactor, SyntacticPrimary", "src/lib.rs: Display for Syntax", "src/parser/graph.rs: LexGraph::compile, register_definition_list, register_single_definition, register_syntactic_term, register_syntactic_factor, register_syntactic_primary"]}
{"id": "C81", "title": "Exactly which rules can be read back after printing", "statement": "The printed form of rules that were read can be read back as the same rules (up to locations) if and only if no group in them, at any depth, ends in a repetition of the empty sequence. Otherwise reading stops with the error for a '*)' that ends no comment, located at a '*)' of the printed form. The printed form is never read as other rules than those printed.", "quantifier": "every text that can be read, and every well-shaped rule tree", "why_tests_cant": "all rules at all nesting depths; tests print a few", "anchors": ["src/lex/mod.rs: Display for SyntaxRule, DefinitionList, SingleDefinition, SyntacticTerm, SyntacticFactor, SyntacticPrimary, parse_str", "src/lib.rs: Display for Syntax"]}
{"id": "C82", "title": "How many instructions a parse executes", "statement": "A call of parse that returns executes a certain number of instructions of the compiled grammar, and one that never returns executes ever more of them. For a grammar without left recursion that number is bounded, for a text of n characters, by (B(n+1))^(B(n+1)), and for a grammar without recursion by (B(n+1))^B, where B depends on the grammar alone. With recursion no polynomial bound holds: with A='a',A,'b'|'a',A,'c'|'d'; there is for every n an accepted text of 2n+1 characters for which at least 2^n instructions are executed, because alternatives are tried again from the start.", "quantifier": "every grammar, every parser for it (all scanner configurations that behave like a function of the text), every text, every way the text is delivered, every state of the reader", "why_tests_cant": "A bound on the running time ranges over all texts of all lengths and all grammars; a test measures a few.", "anchors": ["src/parser/machine.rs: LexMachine::parse, parse_to_subroutine_end, TermWithExceptionScanner::scan, SpecialSequenceScanner::scan", "src/parser/graph.rs: LexGraph::compile"]}
{"id": "C83", "title": "Text is rejected for its characters exactly when it is hopeless", "statement": "After pieces that were accepted, push_str returns an error of the character level exactly when no continuation whatsoever could make the text pushed so far a sequence of tokens - with one exception: a last character with which no token starts is only looked at with the next character or at flush. So a lexical error is never premature (an unclosed comment, quote or special sequence, a lone ':' are waited for), and it is at most one character late: once the text is hopeless, pushing anything non-empty is rejected. flush returns such an error exactly when the text is not a sequence of tokens.", "quantifier": "every text, every way of cutting it into pieces, every continuation", "why_tests_cant": "\"no continuation\" ranges over infinitely many texts, and a premature or late rejection shows only for particular cuts", "anchors": ["src/lex/mod.rs: Lexer::push_str, Lexer::flush", "src/lex/tokenizer/mod.rs: Tokenizer"]}
{"id": "C84", "title": "Rule names and layout of a grammar matter only for the labels and places that are reported", "statement": "Renaming the rules of a grammar (so that two names mean the same rule afterwards exactly if they did before) changes nothing about the parser except the labels: it accepts the same inputs, reports the same events with renamed labels, rejects with an error at the same place of the input, panics on the same inputs, and terminates on the same inputs. Rewriting the grammar text with other gaps and comments between its symbols, or printing it and reading it back when that is possible, keeps the grammar valid and changes nothing about the parser except the places in the grammar that events and errors mention; in particular all error messages stay the same.", "quantifier": "all grammars (valid rule lists of any size and nesting), all renamings, all layouts, all start rules, all inputs and deliveries of the input, all special-sequence scanners that do not depend on their place", "why_tests_cant": "Relates two parsers over all grammars, renamings, layouts and inputs at once; includes inputs on which the parser does not terminate.", "anchors": ["src/parser/graph.rs: LexGraph::compile", "src/parser/machine.rs: LexMachine::parse", "src/lib.rs: Syntax", "src/parser/mod.rs: Event"]}
{"id": "C85", "title": "The text of an error says everything about it", "statement": "Two errors that the library reports about sources of the same name and that are displayed alike (or compare equal) are the same error: same line and column, same kind of problem, same offending character, token, name, number or quotation of the input. In particular the quotation of the input in \"X expected, but Y appeared.\" can be read back exactly, whatever characters X and Y contain.", "quantifier": "all pairs of errors of lexers (any texts, deliveries and limits), of reading and validating a grammar, and of parsers with the scanners of the library (any grammars, start rules and inputs); all tables of unprintable characters", "why_tests_cant": "A statement about all pairs of messages, with arbitrary names and quotations in them that may themselves look like parts of a message.", "anchors": ["src/lib.rs: Error, impl Display for Error", "src/lex/mod.rs: Token::name, Token::debug, error messages", "src/lex/tokenizer/mod.rs: error messages", "src/validity/mod.rs: new_syntax", "src/parser/machine.rs: err_expected_but_not, stream_prefix_to_string"]}
{"id": "C86", "title": "Grammar texts compose; a text's name and place only move the reported places", "statement": "Parsing a text under another name gives the same rules or the same error with the other name in every reported place. If a text is accepted and ends with a terminator (; or .), then any text appended to it is read exactly as if it stood alone: the result is the first text's rules followed by the second text's rules, or the second text's error or panic, with the second text's lines and columns counted on from the end of the first. The same holds for a lexer fed in pieces, and for any number of texts.", "quantifier": "all names (other than the reserved name <unknown>), all accepted first texts ending with a terminator, all second texts, accepted or not, all ways of cutting them into pieces", "why_tests_cant": "Relates the complete outcomes (including every error and panic) of two parses of arbitrary texts; state leaking from one rule to the next, or a place computed from the wrong origin, shows only for particular pairs.", "anchors": ["src/lex/mod.rs: parse_str, Lexer::push_str, Lexer::flush, append, build_syntax_rule", "src/lex/tokenizer/mod.rs: Tokenizer::tokenize, read_next, comment", "src/lib.rs: Location::push"]}
{"id": "C87", "title": "Exactly which error a malformed grammar is answered with", "statement": "parse_str answers a text with an error exactly when the text has a fault, and the message and the place are those of that fault. Faults are found in this order: (1) tokens, then text that is no token however it goes on: (*), : before something other than ), *) outside of comments, a character no token begins with, an empty string, a character that cannot stand in a string, special sequence or comment; (2) complete rules, then a rule, up to its terminator, that cannot be completed: no name, no =, a number that is too large or not followed by *, (/) or (:), a bracket that is not closed, or, after a term, a token that neither goes on with it nor may stand after it; (3) at the end of the text: a string, special sequence or comment that is not closed, a stray last character; (4) a rule of kind (2) that the end of the text ends. For a lexer fed in pieces the error is that of the shortest sequence of pieces that has a fault of kind (1) or (2), and otherwise that of the whole text.", "quantifier": "all names, all texts, all errors (message with every parameter, and place), all ways of cutting a text into pieces", "why_tests_cant": "An equivalence between an outcome and a declarative description of malformed text, in both directions: it says for every text which of the twenty messages is given, with which parameters and for which place; tests check single texts.", "anchors": ["src/lex/mod.rs: parse_str, Lexer::push_str, Lexer::flush, append, build_syntax_rule, read_single_definition, read_syntactic_term, read_syntactic_factor, read_syntactic_primary", "src/lex/tokenizer/mod.rs: read_next, terminal_string, special_sequence, comment, Tokenizer::flush", "src/lib.rs: Location::push"]}
{"id": "C88", "title": "UTF-16 text is decoded faithfully", "statement": "The UTF-16 bytes (either byte order) of a text after the matching byte order mark, cut into any fragments, are decoded to exactly that text under any encoding label, and under the labels utf-16be and utf-16le also without a mark; a decoder that stops at malformed sequences accepts no other bytes; a decoder that does not stop replaces each surrogate without a partner and half a code unit at the end by U+FFFD and keeps everything else; no two texts have the same bytes; a CharDecodeReader delivers the text, and a grammar read from such bytes is the one read from the text.", "quantifier": "all texts, both byte orders, all labels, all fragments or chunks, all amounts of work per call of the underlying decoder, all byte sequences (for what is accepted or replaced)", "why_tests_cant": "Two directions over all texts and all byte sequences and every way of cutting them, in particular in the middle of code units and between surrogates.", "anchors": ["src/io/mod.rs: Decoder::new, Decoder::push, Decoder::flush, Decoder::convert, CharDecodeReader", "src/lib.rs: Syntax::read_from"]}
{"id": "C89", "title": "Malformed UTF-8 is replaced as the Unicode standard recommends", "statement": "A UTF-8 decoder that does not stop at malformed sequences makes of any bytes, cut into any fragments, exactly the characters they encode and one U+FFFD for each maximal subpart that encodes nothing, so that a byte that ends a truncated sequence is never lost and no character arises from malformed bytes; there is exactly one such text. A decoder that stops fails exactly when there is something to replace. Reading rules from any bytes gives the rules of the text with the replacements.", "quantifier": "all byte sequences (those that start with a byte order mark of UTF-16 apart), all fragments or chunks, all amounts of work per call of the underlying decoder", "why_tests_cant": "All byte sequences, valid or not, and every way of cutting them, in particular inside truncated sequences.", "anchors": ["src/io/mod.rs: Decoder::new, Decoder::push, Decoder::flush, Decoder::convert", "src/lex/mod.rs: parse"]}
{"id": "C90", "title": "A parse gives back the reader without marks of its own", "statement": "After Parser::parse has returned, one can go back (reset_to_mark) with exactly the numbers with which one could before it was called: the marks of the caller are still valid, and no others are left. Apart from that, the number of marks left behind, and with it the memory they keep, is bounded by the number of instructions executed.", "quantifier": "all grammars and configurations of special sequences, all start rules, all texts and ways of delivering them, all readers at any place with any marks; for the bound also sources that fail", "why_tests_cant": "All grammars, texts and histories of the reader; a test looks at the result of the parse, not at every number one might go back with afterwards.", "anchors": ["src/parser/mod.rs: Parser::parse", "src/parser/machine.rs: LexMachine::parse, parse_to_subroutine_end, SpecialSequenceScanner::scan, TermWithExceptionScanner::scan", "src/io/mod.rs: MarkableReader::mark, reset_to_mark, unmark"]}
{"id": "C91", "title": "What a parse costs can be read off the grammar", "statement": "The number of instructions that Parser::parse executes is exactly the cost of the start rule on the text: one for every terminal, empty primary, special sequence, reference, exception, choice between several definitions, pair of brackets or braces and count that is carried out, none for sequences and groups. It depends on the grammar, the start rule, the place and the text only, not on how the text is delivered or how the parser was made; and it is finite iff parse returns.", "quantifier": "all grammars and configurations of special sequences, all start rules, all places, texts and ways of delivering them", "why_tests_cant": "All grammars and texts; a benchmark measures the time of single runs.", "anchors": ["src/parser/machine.rs: LexMachine::parse, parse_to_subroutine_end", "src/parser/graph.rs: LexGraph::compile"]}
{"id": "C92", "title": "Grammars that need one character of look-ahead are parsed in linearly many steps", "statement": "If one character of look-ahead tells which alternative to take and whether to go on with an optional or repeated part, every definition derives some text, exceptions are terminals or special sequences, no rule is left-recursive, nothing follows a bare group, counts are below the limit and scanners just match or not, then there is a number B, which depends on the grammar alone, such that Parser::parse executes at most B (n + 1) instructions on every text of n characters, whether it is accepted or not.", "quantifier": "all such grammars, all configurations of special sequences, all start rules, all texts and ways of delivering them", "why_tests_cant": "A bound for all texts of all lengths; a benchmark samples some texts, and the worst case of a backtracking parser is easily missed.", "anchors": ["src/parser/machine.rs: LexMachine::parse, parse_to_subroutine_end", "src/parser/mod.rs: Parser::parse"]}
{"id": "C93", "title": "Grammars can be refactored without changing what they accept", "statement": "A grammar obtained from another by these laws, each usable in both directions, anywhere and any number of times, accepts exactly the same texts, and runs forever on exactly the same texts: a choice may be nested or flattened; the last group of a sequence may be inlined; what begins adjacent alternatives may be factored out to the left; a repeated alternative may be dropped, and so may everything after an empty alternative; [a] may be written (a | ); k * a may be written out; a terminal string may be split; an empty term may be dropped; a reference may be replaced by the definitions of its rule and a rule may be introduced for a part. Alternatives may not be reordered, and what ends alternatives may not be factored out.", "quantifier": "all pairs of grammars related by the laws, all configurations whose special sequences match alike and do not forward, all start rules of the same name, all places, texts and ways of delivering them", "why_tests_cant": "All grammars, all rewritings and all texts: equality of the accepted languages is not even decidable by running the parsers.", "anchors": ["src/parser/mod.rs: Parser::parse", "src/parser/machine.rs: LexMachine::parse", "src/parser/graph.rs: LexGraph::compile", "src/lib.rs: Syntax"]}
{"id": "C94", "title": "What a reader keeps in memory", "statement": "A MarkableReader keeps a character it has delivered only as long as a live mark lies before it: memory is bounded by what can still be read again. In particular a reader with no live mark that has delivered everything it looked at keeps nothing, and a program that never looks more than one character ahead never makes it keep more than one character.", "quantifier": "every text, every way of delivering it, every sequence of reader operations, both builds", "why_tests_cant": "A bound on memory over all histories of reads, look-aheads, marks, resets and unmarks and all lengths of the text.", "anchors": ["src/io/mod.rs: MarkableReader, UnreadBuffer::read, UnreadBuffer::append, UnreadBuffer::mark, UnreadBuffer::revert, UnreadBuffer::remove_mark, UnreadBuffer::truncate_buffer_if_stack_empty"]}
{"id": "C95", "title": "The streaming lexer returns rules at once and keeps only the unfinished rule", "statement": "A rule is returned by the push that delivers its terminator symbol: when the pushed text ends in a terminator, the pushes alone have returned all the rules of the text and the lexer keeps nothing. At any time the lexer keeps exactly the text behind the last terminator that is certain, and so never more than the longest stretch of the text without a terminator symbol, however long the text.", "quantifier": "every text, every way of cutting it into pieces, every limit, every moment between two pushes (limits below 2^61, see C111)", "why_tests_cant": "All texts, all cuts and all moments; a bound on memory for texts without end.", "anchors": ["src/lex/mod.rs: Lexer::push_str, Lexer::push, Lexer::append", "src/lex/tokenizer/mod.rs: Tokenizer::push_str"]}
{"id": "C96", "title": "Readers without marks: read and read_all", "statement": "For every implementation of CharReader, whatever number of characters its read_chars chooses to return and wherever it fails or has nothing to read: repeated calls of read return its characters, its errors and None, in their order and each once; read_all returns all the text up to the point where there is nothing to read, or the first error before that point, and goes on from there when it is called again. BufferedCharReader and CharDecodeReader are such implementations.", "quantifier": "every implementation of CharReader (any state, any sizes of the pieces, errors and pauses anywhere), every number of calls", "why_tests_cant": "the implementation of the trait is the user's, and the pieces it returns can be cut anywhere", "anchors": ["src/io/mod.rs: CharReader::read, CharReader::read_all", "src/io/mod.rs: BufferedCharReader::read_chars, CharDecodeReader::read_chars"]}
{"id": "C97", "title": "A stream that grows can be read on", "statement": "A CharDecodeReader over a byte stream that reports its end, or an I/O error, and has more bytes later goes on where it stopped: over all calls together, with any buffer sizes, it yields the characters of all the bytes, the errors and the pauses in the order of the stream, also when the stream stopped in the middle of a character; nothing is lost, repeated or invented, and read_all returns what has come since the last call.", "quantifier": "every codec, every sequence of chunks, I/O errors and empty reads, every sequence of buffer sizes, every number of calls of read and read_all", "why_tests_cant": "the end can be reported at any byte, any number of times, and be followed by any bytes", "anchors": ["src/io/mod.rs: CharDecodeReader::new, CharDecodeReader::read_chars", "src/io/mod.rs: Decoder::push", "src/io/mod.rs: CharReader::read_all"]}
{"id": "C98", "title": "Readers of your own work like the library's", "statement": "Someone who implements MarkableCharReader for a type of their own and gets the five required methods right (they act like a cursor in a text) gets read, read_all, is_eof, prefix_matches, peek and skip right as well; someone who implements only CharReader, delivering as many characters per call as it likes, gets correct marks, resets and look-ahead by wrapping it in a MarkableReader.", "quantifier": "every implementation of the required methods that acts like a cursor, every implementation of CharReader that tells a text, every text, start location and history of calls (read_chars with a non-empty buffer)", "why_tests_cant": "the implementations are not part of the crate; any number of characters may come per call, and histories are unbounded", "anchors": ["src/io/mod.rs: trait CharReader", "src/io/mod.rs: trait MarkableCharReader", "src/io/mod.rs: MarkableReader"]}
{"id": "C99", "title": "Parsing does not depend on the make of the reader", "statement": "Parser::parse on any implementation of MarkableCharReader whose methods act like a cursor in a text returns what it returns on a MarkableReader at the same place with the same text ahead: the same events, the same error, or it runs forever on both. What it returns is what the grammar says; afterwards the reader stands in the same text, at its end after a success, and the marks set before the call are still there.", "quantifier": "every grammar and start rule, every implementation of MarkableCharReader that acts like a cursor, every position in every text, all scanners that do the same on both readers (the library's scanners do)", "why_tests_cant": "the reader is any type that implements the trait, and every path through every grammar calls its methods in a different order", "anchors": ["src/parser/machine.rs: LexMachine::parse, parse_to_subroutine_end", "src/parser/mod.rs: Parser::parse, CharsScanner, RegExScanner", "src/io/mod.rs: trait MarkableCharReader"]}
{"id": "C100", "title": "A reader asks its source only for what it needs", "statement": "A MarkableReader fetches characters from its source only when a call needs them: after any history of calls, the source still has to deliver everything beyond the furthest place that a call has looked at; a read of the underlying byte stream happens only after everything that came before has been looked at; and a call that stays within what has been looked at (for instance reading again after reset_to_mark or peek) does not touch the source, so it cannot block on an interactive stream.", "quantifier": "every text, every division of it into reads of the byte stream (empty ones included), every start location and every history of calls in which nothing panics (in a release build nothing does, in a debug build see C28)", "why_tests_cant": "histories and divisions are unbounded, and reading ahead does not change any answer, so a test that compares answers does not see it", "anchors": ["src/io/mod.rs: MarkableReader", "src/io/mod.rs: CharDecodeReader::read_chars", "src/io/mod.rs: UnreadBuffer"]}
{"id": "C101", "title": "64-bit counters do not matter below 2^64", "statement": "Lines, columns, stream positions and mark numbers are u64. As long as the line and column numbers that the reader (and its source) begins with leave room for all the characters there are, no call on a reader and no parse overflows or underflows one of them, in debug and release builds: every history of calls, and every parse with the scanners of the library, gives exactly what it gives with unbounded integers. Beyond that bound, a debug build panics and a release build goes on with columns modulo 2^64.", "quantifier": "every start location, every source (texts in any pieces, with or without read errors), every history of calls, both builds; every parser and every text for parse", "why_tests_cant": "the counters depend on histories and texts of any length, and a subtraction such as `mark - head` underflows only for particular histories of marks", "anchors": ["src/lib.rs: Location::push", "src/io/mod.rs: UnreadBuffer", "src/io/mod.rs: CharDecodeReader::read_chars", "src/parser/machine.rs: TermWithExceptionScanner::scan"]}
{"id": "C102", "title": "The lexer's 32-bit nesting counters do not matter below 2^31", "statement": "The lexer counts nested comments and nested brackets in 32-bit signed integers and lines and columns in 64-bit ones. parse_str of a text of fewer than 2^31 - 1 characters, in one piece or many, gives in debug and release builds what it gives with unbounded counters; so does every history of calls on a streaming lexer, however long the text, if at each call the unfinished rule and the characters not yet read as tokens are that few. Beyond the bound a build with overflow checks panics on comments or brackets nested more than 2^31 deep, and one without checks takes one closing symbol as the end of 2^32 + 1 nested comments, accepting a text whose comment is not closed.", "quantifier": "every text and name, every way to cut the text into pieces, every limit on the length of a token, every history of push, push_str, flush and reset, both builds (limits below 2^61, see C111)", "why_tests_cant": "a text of 2^31 nested symbols needs gigabytes, and below the bound the claim is about all texts", "anchors": ["src/lex/tokenizer/mod.rs: comment", "src/lex/tokenizer/mod.rs: Tokenizer::move_location", "src/lex/mod.rs: read_enclosed_definition_list", "src/lex/mod.rs: parse_str"]}
{"id": "C103", "title": "Reading a grammar takes at most quadratic work, and sometimes that much", "statement": "parse_str of a text of n characters looks at, copies or moves characters at most 8 n + 2 times, moves tokens at most (n + 1)^2 / 2 times and looks at tokens at most 38 (n + 1) (n + 2) + n + 1 times, whether the text can be read or not. A history of calls on a streaming lexer, up to the first that fails, takes steps over characters at most in proportion to the number of calls times the length of the text, and, however the text is cut, quadratically many moves and steps over tokens. The quadratic terms are real: every grammar of r rules read by parse_str takes at least (r - 1) (r - 2) / 2 moves; every grammar whose brackets are nested d deep at least d^2 steps over tokens; a terminal string of n characters that arrives character by character at least n^2 / 2 steps over characters.", "quantifier": "every text and name; every history of push, push_str, flush and reset with every limit on the length of a token; every state of a lexer for a single call (limits below 2^61, see C111)", "why_tests_cant": "a benchmark measures some texts of some length; the bound is about the worst text of every length, and the lower bounds about every grammar", "anchors": ["src/lex/mod.rs: parse_str", "src/lex/mod.rs: Lexer::append", "src/lex/mod.rs: read_enclosed_definition_list", "src/lex/tokenizer/mod.rs: Tokenizer::tokenize", "src/lex/tokenizer/mod.rs: read_next"]}
{"id": "C104", "title": "Nothing is read twice from the source; a text in memory costs quadratically many moves, a stream linearly many", "statement": "Whatever is called on a reader, and even if calls fail, the steps it has taken in its source plus those it takes to read the rest character by character never exceed those it takes to read the whole source character by character; they are equal if only operations are called that look at one character after the other, and parse is such an operation, whatever the grammar, the input and the outcome. So going back to a mark never makes anything be read again. For a text of n characters held in memory, parse moves characters at most n (n + 1) / 2 times, and exactly so often if it accepts; for a byte stream that brings at most K characters with each read it takes at most ((K + 5) n + 2 reads) / 2 steps. One call copies at most twice as many characters as it asks for, however many the reader keeps, and looks at at most 2 m + 3 marks if m are set; if no call fails, at most two per call over the whole history.", "quantifier": "every source (text in memory or byte stream, with read errors anywhere), every history of calls (with room for at least one character), every parser that uses the scanners of the library, every input, both builds", "why_tests_cant": "a benchmark measures some grammars on some inputs; that going back is free in the source is a statement about all grammars, inputs and histories", "anchors": ["src/io/mod.rs: BufferedCharReader::read_chars", "src/io/mod.rs: CharDecodeReader::read_chars", "src/io/mod.rs: UnreadBuffer", "src/io/mod.rs: MarkableReader", "src/parser/machine.rs: LexMachine::parse"]}
{"id": "C105", "title": "What a parse costs in all: a bounded amount per instruction; linear time on byte streams", "statement": "If no part of a grammar without exceptions looks at more than D characters at once (terminal strings, scanners with a maximum, regular expressions), then parse copies at most 4 D + 20 characters in the reader for each instruction it executes (plus 22), however much the reader keeps, and makes or looks at at most three times the marks that are set and were counted before plus 2 D + 12 for each instruction (plus 21), however many marks it leaves on the way; all whatever the reader was used for before, the input, and the outcome. So for a grammar that one character of look-ahead suffices for (C92), the copies and marks are at most B (n + 1) for a text of n characters, accepted or not, where B depends on the grammar alone; and on a byte stream that brings at most K characters with each read, all steps of the reader together are at most B (n + 1) + the number of reads, where B depends on the grammar and K alone. On a text in memory all but the n (n + 1) / 2 moves of C104 is linear. With exceptions, each of which reads its factor's text again on a reader of its own: the copies and marks, together with all steps of those readers, exceptions in exceptions included, are at most 10 D + 2 N + 67 + N (N + 1) / 2 for each instruction if N characters are left or kept (plus 43, what had been copied before and three times the marks); so at most B (n + 1)^3 for a grammar that one character of look-ahead suffices for and whose exceptions are terminals or special sequences.", "quantifier": "every grammar whose special sequences are scanned by scanners of the library, every history of calls on the reader before, every input however it arrives, both builds; for the linear bounds, every grammar without exceptions that one character of look-ahead suffices for; for the cubic bound, every grammar that it suffices for and whose exceptions are terminals or special sequences", "why_tests_cant": "a benchmark measures some grammars and some inputs; a bound with a constant that depends on the grammar alone is about all inputs", "anchors": ["src/parser/machine.rs: LexMachine::parse", "src/parser/mod.rs: CharsScanner::scan", "src/parser/mod.rs: RegExScanner::scan", "src/io/mod.rs: MarkableReader", "src/io/mod.rs: UnreadBuffer::remove_mark"]}
{"id": "C106", "title": "Printing and compiling do not blow a grammar up", "statement": "A syntax read from a text of n characters prints as at most n + 1 characters. LexGraph::compile makes exactly one instruction for each construct of the grammar (terminal string, name, special sequence, empty primary, pair of brackets or braces, count, exception, choice, rule; parentheses cost nothing), at most 2n in all. The symbols that error messages show have at most 9n characters each if the symbols of the configured scanners are no longer than the special sequences are written, so compiling takes at most quadratic memory; nested braces reach that.", "quantifier": "every grammar text that can be read, every scanner configuration, every depth of nesting", "why_tests_cant": "The bounds range over all grammars of all sizes; tests only show the sizes of the samples.", "anchors": ["src/parser/graph.rs: LexGraph::compile, register_definition_list, register_single_definition, register_syntactic_term, register_syntactic_factor, register_syntactic_primary", "src/parser/mod.rs: parallel_notation", "src/lex/mod.rs: Display for SyntaxRule, DefinitionList, SingleDefinition, SyntacticTerm, SyntacticFactor, SyntacticPrimary"]}
{"id": "C107", "title": "Grammars whose first matching alternative is never wrong are parsed completely", "statement": "Suppose that wherever a choice is made in a text of the grammar, an alternative listed before the right one never derives a different beginning of what is left, and that what follows an optional or repeated part never begins with a text of that part - however far one has to look ahead to see it. If no rule is left-recursive, Parser::parse accepts a text exactly if the start rule derives it (F - X deriving what F derives and X does not), and otherwise returns a truthful error. If alternatives moreover have no texts in common, the events are exactly those of the one derivation of the text. Grammars that need one character of look-ahead are a special case.", "quantifier": "every such grammar without terms after a bare group, with counts below the limit and scanners that just match or not; every start rule; every text shorter than 2^32-1 characters", "why_tests_cant": "Completeness is a claim about every text that can be derived; a test tries a few texts of a few grammars.", "anchors": ["src/parser/mod.rs: Parser::parse", "src/parser/machine.rs: parse_to_subroutine_end", "src/parser/graph.rs: LexGraph::compile"]}
{"id": "C108", "title": "What a reader or parser has not asked the byte stream for does not matter", "statement": "Calls on a MarkableReader and Parser::parse take a beginning of what the byte stream delivers. Unless they take all of it, they return the same values and errors and leave the reader in the same state for every other stream that begins with the same deliveries - whatever comes later: other text, I/O errors or the end. This holds for every reader method, everything composed of them, the scanners of the library and hence every parser with such scanners; for bytes in every encoding. In reading a grammar, after any number of deliveries either the outcome is decided whatever comes later, or the stream is asked again and an I/O error at that moment is the outcome.", "quantifier": "every byte stream (deliveries of any size with I/O errors anywhere), encoding, history of reader calls, grammar, start rule, scanners that use the reader's methods, number of steps, build", "why_tests_cant": "The claim compares a run with the runs on all other continuations of the stream.", "anchors": ["src/io/mod.rs: CharDecodeReader::read_chars, MarkableReader", "src/parser/mod.rs: Parser::parse", "src/parser/machine.rs: LexMachine", "src/lex/mod.rs: parse"]}
{"id": "C109", "title": "Where an input begins, and what it is called, only moves the reported places", "statement": "Parser::parse does the same for two readers with the same text ahead, wherever in their texts the readers stand, whatever the texts are called and whatever place MarkableReader::with_location was given: both accept, both are rejected, both panic or both run forever; the events are the same one by one (kind, place in the grammar, label or token), the messages of errors are the same, and every reported place of the input is the place behind the same characters of the text: the name is that of the reader, lines are moved by the distance of the lines where the texts begin, columns by the distance of the columns in the first line and not at all in the others.", "quantifier": "every grammar and start rule, every text, every two places to begin at, every delivery and history of either reader, scanners that do not look at the place they are called at (all of the library are such), debug and release builds", "why_tests_cant": "The claim relates runs from all pairs of starting places; the machine compares places in choosing errors, in exceptions and in the check for livelocks, and these comparisons have to come out the same for all places and texts.", "anchors": ["src/parser/mod.rs: Parser::parse", "src/parser/machine.rs: LexMachine::parse_to_subroutine_end, TermWithExceptionScanner::scan", "src/io/mod.rs: MarkableReader::with_location", "src/lib.rs: Location"]}
{"id": "C110", "title": "Scanners may do with the reader whatever they like", "statement": "A scanner for special sequences installed through GraphConfig gets the parser's own reader and may call any of its methods, in any order, with any arguments, among them marks that the parser has set for itself. Whatever the scanners do, as long as they do it by such calls and do not panic themselves: all that Parser::parse does to the reader amounts to a series of calls of its methods; in a release build it does not panic; afterwards the reader stands somewhere in the same text and reports the line and column of that place; and a parse that succeeds has read the text to its end.", "quantifier": "every grammar without undefined references and every start rule, every assignment of scanners that act on the reader by calling its methods (with what they return left open), every source with any text, deliveries and I/O errors, every history of the reader; release builds for the absence of panics (looks ahead of less than 2^61 characters, see C111)", "why_tests_cant": "It quantifies over all scanners a user might write, including those that rob the parser of its marks or use numbers that were never marks; a test has a few well-behaved scanners.", "anchors": ["src/parser/graph.rs: GraphConfig", "src/parser/mod.rs: SpecialSequenceParser, SpecialSequenceScanner", "src/parser/mod.rs: Parser::parse", "src/parser/machine.rs: LexMachine::parse_to_subroutine_end, TermWithExceptionScanner::scan", "src/io/mod.rs: MarkableReader"]}
{"id": "C111", "title": "Limits and lengths are bounds, not demands", "statement": "The buffer limit given to Lexer::with_capacity, Syntax::read_from, read_from_utf8, read_from_str, lex::parse or parse_file, and the length given to peek, may be any number: they bound what is kept or looked at, a large one is as good as none, and no memory is taken for characters that are not there.", "quantifier": "every limit, initial size and length, every text and way of delivering it, every label table, every history of reader calls", "why_tests_cant": "The numbers range over all of usize and what happens must not depend on the text; a test tries a few small limits.", "anchors": ["src/lex/tokenizer/mod.rs: Tokenizer::with_capacity", "src/lex/mod.rs: Lexer::with_capacity, parse, parse_file, parse_str", "src/lib.rs: Syntax::read_from, read_from_utf8, read_from_str", "src/io/mod.rs: MarkableCharReader::peek"]}
{"id": "C112", "title": "A candidate that is excluded has no successor", "statement": "As the comment of a test specifies: in a syntax that matches more than one of the definitions in a list, when the best matching candidate is excluded by a syntactic exception, there is no match; the second candidate is not selected instead. (Expected to fail if the best is the longest.)", "quantifier": "every grammar, every definition list with an exception, every place and input", "why_tests_cant": "It speaks of all lists of alternatives and all texts, and of alternatives that must not be tried; the one test of it in the repository is switched off.", "anchors": ["src/parser/test/mod.rs: syntactic_term_with_exception_when_there_is_a_other_item_to_select", "src/parser/machine.rs: TermWithExceptionScanner::scan, LexMachine::parse_to_subroutine_end", "src/parser/graph.rs: register_syntactic_term"]}
