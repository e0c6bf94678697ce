import json,re,glob,sys
# builds MANIFEST from notes.json-ish table below
T={
'C18':('proved',''),
'C19':('proved',''),
'C24':('proved',''),
 'C25':('proved',''),
 'C26':('proved',''),
 'C27':('partial','The property fails (c27_reused: numbers are given out again). Proved: a rejected mark changes nothing; consumed marks stay rejected until the number is given out again, when live marks have distinct numbers.'),
 'C28':('partial','The property fails in debug builds (c28_debug_panic). Proved: release builds never panic; a debug build panics exactly when an operation takes a character that has not been looked at before while no mark is live and something is still kept in memory (c28_panics_iff, c28_panics_next), which cannot happen unless the only live mark is unmarked (c28_debug_no_panic_partial).'),
 'C29':('proved',''),
 'C30':('partial','The property fails at the end of the stream (c30_last_bytes_dropped). Proved: everything but what the end of the stream adds is delivered, for all chunkings, schedules and buffer sizes, and over streams with I/O errors (c30_failing_stream).'),
 'C31':('proved',''),
 'C32':('proved',''),
'C01':('proved',''),
'C02':('proved',''),
'C03':('partial','False in general (c03_depends_on_cut). Proved for texts without lexical errors, and for lexical errors up to an earlier parser error. Exactly what is reported: c03_first_failing_prefix (the error is that of the first prefix of the pieces whose text already fails).'),
'C04':('proved','flush may still stop at the index panic of C05; it never hits the buffer assertion.'),
'C05':('partial','False in general (c05_panics). Proved for texts without an integer directly before a closing bracket, and the texts that panic are characterised exactly (c05_panics_iff).'),
'C06':('proved',''),
'C07':('proved',''),
'C08':('proved',''),
'C14':('proved',''),
'C15':('proved',''),
'C33':('proved',''),
'C34':('proved','For sources without I/O errors (see C60).'),
'C35':('partial','False in general (c36_continuation_dropped, c37_stale_events, c52_forward_ignored). Proved: the machine computes exactly the reading of the syntax tree with four named deviations (c35_as_built), and the intended reading for grammars where these do not show (c35_intended_partial). If only the events kept from failed rounds can show, acceptance, errors and endless runs are the intended ones and the intended events are among those returned (c35_but_for_events); for all grammars without forwarding scanners the same holds with the grammar without what follows bare groups (c35_groups_and_events). Where the next character tells that an optional or repeated part is over, the tokens are the intended ones, empty ones aside (c35_same_tokens); if moreover bodies that are sequences do not begin with a term that may be empty, all results and events are the intended ones (c35_steady_ends; c35_empty_beginning shows that this condition is needed).'),
'C36':('partial','False in general (c36_continuation_dropped). Proved for terms other than bare groups; c36_bare_group says exactly what happens with a bare group, and c36_as_if_not_written, for every grammar and at any depth: the parser does what that of the grammar without all that follows bare groups does.'),
'C48':('proved',''),
'C49':('proved','The regular expression engine is a parameter.'),
'C50':('proved',''),
'C51':('proved',''),
'C37':('partial','False in general (c37_stale_events): a repetition keeps the events of its failed last round. Proved for grammars whose optional and repeated bodies are choices or single terms, without forwarding scanners. For every grammar: these events are the only difference they make (c37_only_adds), and, without forwarding scanners, nothing of the input is missing (c37_none_missing). In full, with bodies of any form, for grammars in which the next character tells that an optional or repeated part is over (c37_clear_ends), LL(1) grammars among them.'),
'C38':('proved',''),
'C39':('partial','False for nested empty rules (c39_nested_pair_remains). Proved: only adjacent begin/end pairs are removed, and an empty pair stays exactly where a pair enclosed nothing but empty pairs.'),
'C40':('proved',''),
'C42':('proved',''),
'C44':('proved','Up to 2^32-1 rounds, where {...} stops.'),
'C46':('partial','False for the count 2^32-1 (c46_huge_count). Proved for all other counts; c46_count_as_built says exactly what happens with that one.'),
'C52':('partial','False (c52_forward_ignored). Proved: exactly what a forwarding special sequence does in each case; the one that fails is a rule that does not match.'),
'C54':('partial','False in general for the reason of C37 (c54_stale_events). Proved for the same grammars. For every grammar without forwarding scanners, some of the events are the input piece by piece with the right places (c54_none_missing). In full for grammars in which the next character tells that an optional or repeated part is over (c54_clear_ends).'),
'C41':('proved','In the converse direction the grammar is read as ordered choice: c41_converse_fails.'),
'C43':('proved','Running forever stands for unbounded recursion, that is, a stack overflow.'),
'C45':('proved','The property fails for references inside brackets that are not validated (c45_undefined_panics); proved for grammars whose meta-identifiers are all defined, which is what the property asks.'),
'C47':('proved',''),
'C55':('proved',''),
'C56':('proved',''),
'C57':('proved','c57_crossed_events and c28_debug_panic show where the two builds differ outside the property: scanners that report badly nested events, and reading after the only mark was dropped.'),
'C58':('proved','For release builds; by C57 a debug build panics or returns the same.'),
'C59':('partial','False in full: c59_look_ahead_moves and c59_mark_left. Proved: read and read_chars can be repeated; every other operation after reset_to_mark to a mark taken before it.'),
'C60':('partial','False in full: c60_failure_lost (the error is swallowed while an error message is composed) and c60_forward_accepts (with a scanner that forwards, a failure makes parse accept what it rejects otherwise). Proved: for scanners that report failures (all of the library do) and do not forward, parse returns a failure, or the result without failures, or an error where that is an error too; accepted inputs have the same events.'),
'C61':('proved','The decoder is the state machine of the WHATWG standard, which encoding_rs implements (trusted base); the encoder is that of the core library of Lean (c61_encoding).'),
'C62':('proved','A byte order mark at the start of the text is dropped (c62_mark_dropped); the theorems are stated with withoutMark.'),
'C63':('partial','False in full: c63_genuine_replacement (a U+FFFD of the text before the malformed sequence is reported, depending on the fragments) and c63_decoded_again (after the error). Proved: the place of the first error when no U+FFFD precedes it, for every encoding that replaces malformed sequences by U+FFFD (c63_decoders: UTF-8 and UTF-16 do). Exactly which place: c63_place (for every fragmentation, with or without genuine U+FFFD); what the message states: c63_message.'),
'C64':('proved',''),
'C65':('partial','False in full: c65_chunk_too_long (the limit is compared with the pending text and the whole piece). Proved: a limit of the longest token plus the longest piece is enough; for read_from_str the longest token plus 4096. Exactly when the limit strikes: c65_too_long_iff.'),
'C66':('proved',''),
'C67':('proved',''),
'C68':('proved',''),
'C69':('proved','c69_events_among: without the condition on optional and repeated bodies, the events of a derivation are among those returned. c69_steady_ends: they are the events returned where bodies that are sequences do not begin with a term that may be empty and the next character tells that the part is over.'),
'C70':('proved','c70_steady_ends and c70_steady_checked allow bodies of optional and repeated parts that are sequences, if they do not begin with a term that may be empty.'),
'C71':('proved',''),
'C72':('proved',''),
'C73':('proved','The decoders are a parameter; labels is the function that finds one for a label.'),
'C74':('proved',''),
'C75':('proved','Regular expressions are a parameter.'),
'C76':('proved','Regular expressions are a parameter.'),
'C77':('proved','A frame stands for one call of parse_to_subroutine_end and the helper between it and the next; the size in bytes of a frame is not modelled. Regular expressions are a parameter.'),
'C78':('proved','The life cycle of the underlying decoder (a finished one panics) is part of the contract of encoding_rs.'),
'C79':('proved',''),
'C80':('proved',''),
'C81':('proved',''),
'C82':('proved','Counts executed instructions (rounds of the while loop of parse_to_subroutine_end); the time within one instruction is not modelled.'),
'C83':('proved','The panic of C05 is characterised exactly with the same notions (c05_panics_iff, c05_parse_str_panics_iff).'),
'C84':('proved','Renaming is stated for scanners that report pieces of the input and do not forward to rules by name; c84_alike is the general statement, with corresponding scanners.'),
'C85':('proved','Messages that pass on a text of the operating system, the regular expression library or the application are excluded (nothing is known about those texts).'),
'C86':('proved',''),
'C87':('proved',''),
'C88':('proved',''),
'C89':('proved',''),
'C90':('partial',"The code violates the full property: a repetition, an option, a choice that matches and an exception leave their marks on the stack. c90_grows shows it for `a={'x'};` and every number of characters, c90_not_kept that the full statement (KeepsMarks) fails. Proved for all parsers: the caller's marks stay valid (c90_kept), and the marks left are bounded by k+3 for each instruction executed (c90_bound, with c90_scanners for k). Proved in full for grammars without choice, repetition, exception and special sequence (c90_straight_partial)."),
'C91':('proved','c91_cost: the count of instructions of the machine (C82) equals the cost given by `Costs`, a definition over the syntax tree in which nothing of the compiled machine appears. c91_same: independence of the delivery. c91_returns: a cost exists iff parse returns. The time within one instruction is not modelled.'),
'C92':('proved','c92_linear; c92_checked for grammars without special sequences whose look-ahead is checked with a table. Without the condition on the look-ahead it fails: c82_exponential. The time within one instruction is not modelled.'),
'C93':('proved','c93_accepts and c93_loops for the laws of `Refactors`. The events change with the grammar and are not compared. Laws that move a group in front of other terms are restricted to terms that are no bare groups, because the code drops what follows a bare group (C36). c93_not_commutative and c93_not_right_distributive show that two usual laws of context-free grammars fail here.'),
'C94':('partial','False in full: c94_grows (looking two characters ahead and reading one, over and over, keeps everything since the beginning, because the buffer is only cleared when it has been read to its very end with no mark) and c94_unmark_keeps (after unmark of the last mark a release build keeps what was read under it for ever). Proved: c94_held says exactly what is kept in all histories of either build (in a debug build, up to a panic), and that it is part of the text looked at; c94_held_partial is the simpler form for histories that do not unmark the only mark; c94_nothing_left and c94_one_ahead are the two special cases of the statement.'),
'C95':('proved','c95_kept says exactly what has been returned and what is kept, c95_prompt is the case of a text that ends in a terminator, c95_memory the bound.'),
'C96':('proved','The provided methods of the trait are modelled over the read_chars of any implementation. The text that read_all has read in front of an error is in neither of the answers (c96_read_all, c97_read_all).'),
'C97':('proved','c97_same shows that this model of CharDecodeReader and the simpler one, in which the end of the stream is final and on which the other theorems rest, return the same call by call when the stream does not pause. What a read_all that fails has read before the error is lost.'),
'C98':('proved','For MarkableReader over a CharReader of any make, release builds only: in debug builds unmark can make a later read panic (C28). An implementation may number its marks as it likes, as long as live marks with the same number are at the same position.'),
'C99':('proved','c99_same shows that this model of the machine, on the methods of a MarkableReader, is the model that the other theorems are about. The text that the first part of an exception matched is always put into a MarkableReader, as in the code.'),
'C100':('proved','How far a call looks is given by `reach` in Spec/Held.lean (C94): for instance peek(n) looks at n characters or at the rest of the text, prefix_matches at the characters up to the first that differs. Within one read of the byte stream CharDecodeReader decodes everything it got.'),
'C101':('proved','Model/Words.lean has the arithmetic with 64 bits, all other theorems are about the model with unbounded integers, and C101 carries them over. usize values are lengths of vectors in memory. Scanners written by users are not covered: one that removes marks of others could let the text of an exception begin elsewhere.'),
'C102':('proved','Model/WordsLexer.lean has the lexer with the integers of the code; c102_parse_str, c102_pieces and c102_calls carry the other theorems about the lexer over. c102_comment_wraps, c102_comment_panics and c102_brackets_panic are the findings beyond the bound.'),
'C103':('proved','Model/Effort.lean has the lexer with its steps counted; c103_same says that it is the lexer. c103_rules_slow, c103_brackets_slow and c103_pieces_slow are a finding: new_tokens.remove(0), a search for the closing bracket at every level of nesting, and a pending token that is read again from its beginning at every call make reading quadratic.'),
'C104':('proved','Model/Meter.lean has the reader with its steps counted; c104_same and c104_same_parse say that it is the reader. c104_string is a finding: BufferedCharReader takes each character with drain(0..1), which moves all those after it, so that parsing a text in memory is quadratic however simple the grammar. Not counted here: the reader over the text of a factor that an exception is tried on (its source is a text in memory too; see c105_exceptions), and the decoding of bytes.'),
'C105':('proved','c105_parse counts per instruction (Model/Steps.lean); c105_grammar derives its hypothesis from the grammar. c105_checked has hypotheses that can be checked for a given grammar. c105_exceptions counts the readers that exceptions make too (Model/MeterInner.lean; c105_test says that what is counted is what the machine does), c105_library shows that its hypothesis holds with D a constant plus N, and c105_cubic and c105_checked_cubic draw the conclusion; the power is not claimed to be the least. For a scanner of characters without a maximum, D is the number of characters that are left or kept.'),
'C106':('proved','c106_instructions is the exact count, for every syntax that compiles; c106_printed, c106_size and c106_symbols are the bounds; c106_default says that the default configuration has short symbols; c106_quadratic is the family that reaches quadratic memory, because every pair of brackets carries the printed text of what it contains.'),
'C107':('proved',"c107_accepts_iff, c107_rejects and c107_events_iff generalise C68 and C70 from one character of look-ahead to any amount; c107_one_ahead shows that the condition of C68 is a special case. The example S='ab','c'|'ab',S|'a' is not LL(1). Without the condition on choices it fails: c41_converse_fails."),
'C108':('proved','c108_calls for any history of calls, c108_methods for each method and their composition, c108_library for the scanners of the library, c108_parse for a parse after any history, c108_bytes for deliveries of bytes, c108_grammar for reading a grammar. Together with C100 (how much is asked for). An example shows a method that is not of this kind.'),
'C109':('proved','c109_elsewhere and c109_results for results, c109_accepts for acceptance, c109_places says which places correspond, c109_order that their order is the same, c109_library that the scanners of the library meet the condition; an example shows a scanner that does not.'),
'C110':('proved',"c110_only_calls is the invariant, c110_no_panic, c110_still_a_reader and c110_accepts_at_end follow from it; c110_programs says that scanners written as programs over the reader's methods meet the condition, c110_library that those of the library do. What is not promised: a scanner that takes away the parser's mark makes the parse fail with an error (c110_robbed), and one that reissues the numbers of the marks makes characters vanish, so that a text is accepted of which only the last character is in the tokens (c110_vanished)."),
'C111':('partial','The property fails: the room is asked for in advance. A lexer with limit n takes 4n bytes before it has been given anything (c111_lexer_partial), and with a limit of 2^61 or more, usize::MAX for instance, reading any grammar panics (c111_lexer_panics_iff, c111_parse_panics, c111_no_limit); so does a look 2^61 characters ahead or more, and nothing else does (c111_peek_panics, c111_panics_iff). Proved: below 2^61 the functions are those of the other properties (c111_parse_partial, c111_calls_partial), and parse_str, which has no limit, always is (c111_new, c111_parse_str).'),
'C112':('partial',"With the longest match for the best candidate the property fails: A = ('/' | '/*') - '/*', '*' accepts /* by way of the shorter candidate, although the longest one is excluded (c112_best_excluded_yet_accepted). Proved, with the first candidate that matches in its place: if it is excluded there is no match, whatever comes after it (c112_excluded_is_final_partial, c112_parse), and exactly what such a term matches (c112_matches_iff)."),
'C53':('proved',''),
'C09':('proved',''),
'C10':('proved',''),
'C11':('proved',''),
'C12':('proved',''),
'C16':('proved',''),
'C17':('proved',''),
'C13':('partial','False in general (c13_not_reparsable): a repetition of the empty sequence directly before a closing parenthesis prints as a star and a parenthesis. Proved for all other rules.'),
'C20':('proved',''),
'C21':('partial','False in general (c21_undefined_accepted): references inside brackets are not checked. Proved for references outside brackets.'),
'C22':('proved',''),
'C23':('proved',''),
}
try:
    T.update(json.load(open('/verif/.manifest_notes.json')))
except FileNotFoundError: pass
names={}
for f in glob.glob('/verif/lean/Verif/Props/*.lean'):
    s=open(f).read()
    ns=re.findall(r'^namespace (\S+)',s,re.M)[0]
    for m in re.finditer(r'^theorem (c(\d\d+)_\S+)',s,re.M):
        names.setdefault('C'+m.group(2),[]).append(ns+'.'+m.group(1))
claims=[]
ids=[json.loads(l)['id'] for l in open('/verif/properties.jsonl')]
for i in ids:
    if i in T and i in names:
        c={'property':i,'status':T[i][0],'theorems':names[i],'note':T[i][1]}
        claims.append(c)
missing=[i for i in names if i not in T or i not in ids]
print('unlisted',missing,'uncovered',[i for i in ids if i not in names])
json.dump({'claims':claims},open('/verif/MANIFEST.json','w'),indent=1,ensure_ascii=False)
