{
 "claims": [
  {
   "property": "C01",
   "status": "proved",
   "theorems": [
    "Ebnf.Props.c01_chunk_independence",
    "Ebnf.Props.c01_push_append"
   ],
   "note": ""
  },
  {
   "property": "C02",
   "status": "proved",
   "theorems": [
    "Ebnf.Props.c02_push_at_most_one",
    "Ebnf.Props.c02_flush_at_most_one",
    "Ebnf.Props.c02_pushing_characters"
   ],
   "note": ""
  },
  {
   "property": "C03",
   "status": "partial",
   "theorems": [
    "Ebnf.Props.c03_first_failing_prefix",
    "Ebnf.Props.c03_depends_on_cut",
    "Ebnf.Props.c03_error_independence_partial",
    "Ebnf.Props.c03_lexical_error"
   ],
   "note": "False in general (c03_depends_on_cut). Proved for texts without lexical errors, and for lexical errors up to an earlier parser error. Exactly what is reported: c03_first_failing_prefix (the error is that of the first prefix of the pieces whose text already fails)."
  },
  {
   "property": "C04",
   "status": "proved",
   "theorems": [
    "Ebnf.Props.c04_flush"
   ],
   "note": "flush may still stop at the index panic of C05; it never hits the buffer assertion."
  },
  {
   "property": "C05",
   "status": "partial",
   "theorems": [
    "Ebnf.Props.c05_panics_iff",
    "Ebnf.Props.c05_parse_str_panics_iff",
    "Ebnf.Props.c05_panics",
    "Ebnf.Props.c05_no_panic_partial",
    "Ebnf.Props.c05_only_index_panic"
   ],
   "note": "False in general (c05_panics). Proved for texts without an integer directly before a closing bracket, and the texts that panic are characterised exactly (c05_panics_iff)."
  },
  {
   "property": "C06",
   "status": "proved",
   "theorems": [
    "Ebnf.Props.c06_terminates",
    "Ebnf.Props.c06_parse_str_terminates"
   ],
   "note": ""
  },
  {
   "property": "C07",
   "status": "proved",
   "theorems": [
    "Ebnf.Props.c07_lexical_analysis_exact",
    "Ebnf.Props.c07_unique",
    "Ebnf.Props.c07_nothing_lost"
   ],
   "note": ""
  },
  {
   "property": "C08",
   "status": "proved",
   "theorems": [
    "Ebnf.Props.c08_rule_positions",
    "Ebnf.Props.c08_token_positions"
   ],
   "note": ""
  },
  {
   "property": "C09",
   "status": "proved",
   "theorems": [
    "Ebnf.Props.c09_sound",
    "Ebnf.Props.c09_rule_sound"
   ],
   "note": ""
  },
  {
   "property": "C10",
   "status": "proved",
   "theorems": [
    "Ebnf.Props.c10_complete",
    "Ebnf.Props.c10_unambiguous"
   ],
   "note": ""
  },
  {
   "property": "C11",
   "status": "proved",
   "theorems": [
    "Ebnf.Props.c11_brackets_nested"
   ],
   "note": ""
  },
  {
   "property": "C12",
   "status": "proved",
   "theorems": [
    "Ebnf.Props.c12_shape"
   ],
   "note": ""
  },
  {
   "property": "C13",
   "status": "partial",
   "theorems": [
    "Ebnf.Props.c13_not_reparsable",
    "Ebnf.Props.c13_round_trip_partial",
    "Ebnf.Props.c13_round_trip_tree_partial",
    "Ebnf.Props.c13_print_ignores_locations",
    "Ebnf.Props.c13_display_syntax_partial"
   ],
   "note": "False in general (c13_not_reparsable): a repetition of the empty sequence directly before a closing parenthesis prints as a star and a parenthesis. Proved for all other rules."
  },
  {
   "property": "C14",
   "status": "proved",
   "theorems": [
    "Ebnf.Props.c14_buffer_bounded",
    "Ebnf.Props.c14_rejected_iff",
    "Ebnf.Props.c14_push_rejected_iff",
    "Ebnf.Props.c14_rejected_unchanged"
   ],
   "note": ""
  },
  {
   "property": "C15",
   "status": "proved",
   "theorems": [
    "Ebnf.Props.c15_reset_is_new",
    "Ebnf.Props.c15_continuation"
   ],
   "note": ""
  },
  {
   "property": "C16",
   "status": "proved",
   "theorems": [
    "Ebnf.Props.c16_blanks_irrelevant",
    "Ebnf.Props.c16_insert_comment",
    "Ebnf.Props.c16_insert_gap",
    "Ebnf.Props.c16_change_gap"
   ],
   "note": ""
  },
  {
   "property": "C17",
   "status": "proved",
   "theorems": [
    "Ebnf.Props.c17_semicolon",
    "Ebnf.Props.c17_no_extra_rule"
   ],
   "note": ""
  },
  {
   "property": "C18",
   "status": "proved",
   "theorems": [
    "Ebnf.c18_normal_form",
    "Ebnf.c18_normal_form_total",
    "Ebnf.c18_words_unique",
    "Ebnf.c18_idempotent",
    "Ebnf.c18_no_extra_gaps"
   ],
   "note": ""
  },
  {
   "property": "C19",
   "status": "proved",
   "theorems": [
    "Ebnf.c19_key_deletes_gaps",
    "Ebnf.c19_same_key_iff",
    "Ebnf.c19_key_of_normal_form",
    "Ebnf.c19_key_idempotent"
   ],
   "note": ""
  },
  {
   "property": "C20",
   "status": "proved",
   "theorems": [
    "Ebnf.Props.c20_first_duplicate",
    "Ebnf.Props.c20_duplicate_iff"
   ],
   "note": ""
  },
  {
   "property": "C21",
   "status": "partial",
   "theorems": [
    "Ebnf.Props.c21_undefined_accepted",
    "Ebnf.Props.c21_top_level_defined_partial",
    "Ebnf.Props.c21_all_defined_partial",
    "Ebnf.Props.c21_error_is_justified_partial",
    "Ebnf.Props.c21_accepts_iff_partial"
   ],
   "note": "False in general (c21_undefined_accepted): references inside brackets are not checked. Proved for references outside brackets."
  },
  {
   "property": "C22",
   "status": "proved",
   "theorems": [
    "Ebnf.Props.c22_lookup_some",
    "Ebnf.Props.c22_lookup_none",
    "Ebnf.Props.c22_canonical_name",
    "Ebnf.Props.c22_rules_in_order"
   ],
   "note": ""
  },
  {
   "property": "C23",
   "status": "proved",
   "theorems": [
    "Ebnf.Props.c23_no_panic"
   ],
   "note": ""
  },
  {
   "property": "C24",
   "status": "proved",
   "theorems": [
    "Ebnf.Props.c24_refines_cursor"
   ],
   "note": ""
  },
  {
   "property": "C25",
   "status": "proved",
   "theorems": [
    "Ebnf.Props.c25_reset_restores"
   ],
   "note": ""
  },
  {
   "property": "C26",
   "status": "proved",
   "theorems": [
    "Ebnf.Props.c26_lookahead_answers",
    "Ebnf.Props.c26_lookahead_no_effect"
   ],
   "note": ""
  },
  {
   "property": "C27",
   "status": "partial",
   "theorems": [
    "Ebnf.Props.c27_reused",
    "Ebnf.Props.c27_reused_elsewhere",
    "Ebnf.Props.c27_rejection_no_effect_partial",
    "Ebnf.Props.c27_consumed_rejected_partial"
   ],
   "note": "The property fails (c27_reused: numbers are given out again). Proved: a rejected mark changes nothing; consumed marks stay rejected until the number is given out again, when live marks have distinct numbers."
  },
  {
   "property": "C28",
   "status": "partial",
   "theorems": [
    "Ebnf.Props.c28_panics_iff",
    "Ebnf.Props.c28_panics_next",
    "Ebnf.Props.c28_debug_panic",
    "Ebnf.Props.c28_debug_no_panic_partial",
    "Ebnf.Props.c28_release_no_panic_partial",
    "Ebnf.Props.c28_without_unmark"
   ],
   "note": "The property fails in debug builds (c28_debug_panic). Proved: release builds never panic; a debug build panics exactly when an operation takes a character that has not been looked at before while no mark is live and something is still kept in memory (c28_panics_iff, c28_panics_next), which cannot happen unless the only live mark is unmarked (c28_debug_no_panic_partial)."
  },
  {
   "property": "C29",
   "status": "proved",
   "theorems": [
    "Ebnf.Props.c29_fragmentation",
    "Ebnf.Props.c29_stop_with_garbled"
   ],
   "note": ""
  },
  {
   "property": "C30",
   "status": "partial",
   "theorems": [
    "Ebnf.Props.c30_failing_stream",
    "Ebnf.Props.c30_end",
    "Ebnf.Props.c30_last_bytes_dropped",
    "Ebnf.Props.c30_delivers_partial",
    "Ebnf.Props.c30_complete_partial",
    "Ebnf.Props.c30_markable_partial"
   ],
   "note": "The property fails at the end of the stream (c30_last_bytes_dropped). Proved: everything but what the end of the stream adds is delivered, for all chunkings, schedules and buffer sizes, and over streams with I/O errors (c30_failing_stream)."
  },
  {
   "property": "C31",
   "status": "proved",
   "theorems": [
    "Ebnf.Props.c31_io_error_place",
    "Ebnf.Props.c31_end",
    "Ebnf.Props.c31_parse_stream",
    "Ebnf.Props.c31_parse_stream_outcome",
    "Ebnf.Props.c31_io_error",
    "Ebnf.Props.c31_read_syntax"
   ],
   "note": ""
  },
  {
   "property": "C32",
   "status": "proved",
   "theorems": [
    "Ebnf.c32_total_order",
    "Ebnf.c32_partial_ord_agrees",
    "Ebnf.c32_tracks_text",
    "Ebnf.c32_later_is_greater"
   ],
   "note": ""
  },
  {
   "property": "C33",
   "status": "proved",
   "theorems": [
    "Ebnf.Props.c33_ok_iff",
    "Ebnf.Props.c33_at_end",
    "Ebnf.Props.c33_leftover"
   ],
   "note": ""
  },
  {
   "property": "C34",
   "status": "proved",
   "theorems": [
    "Ebnf.Props.c34_delivery_irrelevant",
    "Ebnf.Props.c34_pieces_irrelevant"
   ],
   "note": "For sources without I/O errors (see C60)."
  },
  {
   "property": "C35",
   "status": "partial",
   "theorems": [
    "Ebnf.Props.c35_groups_and_events",
    "Ebnf.Props.c35_steady_ends",
    "Ebnf.Props.c35_steady_ends_ahead",
    "Ebnf.Props.c35_empty_beginning",
    "Ebnf.Props.c35_as_built",
    "Ebnf.Props.c35_intended_partial",
    "Ebnf.Props.c35_same_tokens",
    "Ebnf.Props.c35_but_for_events"
   ],
   "note": "False in general (c36_continuation_dropped, c37_stale_events, c52_forward_ignored). Proved: the machine computes exactly the reading of the syntax tree with four named deviations (c35_as_built), and the intended reading for grammars where these do not show (c35_intended_partial). If only the events kept from failed rounds can show, acceptance, errors and endless runs are the intended ones and the intended events are among those returned (c35_but_for_events); for all grammars without forwarding scanners the same holds with the grammar without what follows bare groups (c35_groups_and_events). Where the next character tells that an optional or repeated part is over, the tokens are the intended ones, empty ones aside (c35_same_tokens); if moreover bodies that are sequences do not begin with a term that may be empty, all results and events are the intended ones (c35_steady_ends; c35_empty_beginning shows that this condition is needed)."
  },
  {
   "property": "C36",
   "status": "partial",
   "theorems": [
    "Ebnf.Props.c36_as_if_not_written",
    "Ebnf.Props.c36_cut",
    "Ebnf.Props.c36_continuation_dropped",
    "Ebnf.Props.c36_sequence_honoured_partial",
    "Ebnf.Props.c36_bare_group"
   ],
   "note": "False in general (c36_continuation_dropped). Proved for terms other than bare groups; c36_bare_group says exactly what happens with a bare group, and c36_as_if_not_written, for every grammar and at any depth: the parser does what that of the grammar without all that follows bare groups does."
  },
  {
   "property": "C37",
   "status": "partial",
   "theorems": [
    "Ebnf.Props.c37_stale_events",
    "Ebnf.Props.c37_tokens_spell_partial",
    "Ebnf.Props.c37_built_in_scanners",
    "Ebnf.Props.c37_clear_ends",
    "Ebnf.Props.c37_clear_ends_ahead",
    "Ebnf.Props.c37_only_adds",
    "Ebnf.Props.c37_none_missing"
   ],
   "note": "False in general (c37_stale_events): a repetition keeps the events of its failed last round. Proved for grammars whose optional and repeated bodies are choices or single terms, without forwarding scanners. For every grammar: these events are the only difference they make (c37_only_adds), and, without forwarding scanners, nothing of the input is missing (c37_none_missing). In full, with bodies of any form, for grammars in which the next character tells that an optional or repeated part is over (c37_clear_ends), LL(1) grammars among them."
  },
  {
   "property": "C38",
   "status": "proved",
   "theorems": [
    "Ebnf.Props.c38_balanced"
   ],
   "note": ""
  },
  {
   "property": "C39",
   "status": "partial",
   "theorems": [
    "Ebnf.Props.c39_nested_pair_remains",
    "Ebnf.Props.c39_pairs_removed_partial"
   ],
   "note": "False for nested empty rules (c39_nested_pair_remains). Proved: only adjacent begin/end pairs are removed, and an empty pair stays exactly where a pair enclosed nothing but empty pairs."
  },
  {
   "property": "C40",
   "status": "proved",
   "theorems": [
    "Ebnf.Props.c40_ordered_choice",
    "Ebnf.Props.c40_choice_fails",
    "Ebnf.Props.c40_parse",
    "Ebnf.Props.c40_first_match_decides"
   ],
   "note": ""
  },
  {
   "property": "C41",
   "status": "proved",
   "theorems": [
    "Ebnf.Props.c41_accepted_derived",
    "Ebnf.Props.c41_converse_fails"
   ],
   "note": "In the converse direction the grammar is read as ordered choice: c41_converse_fails."
  },
  {
   "property": "C42",
   "status": "proved",
   "theorems": [
    "Ebnf.Props.c42_exception",
    "Ebnf.Props.c42_excluded",
    "Ebnf.Props.c42_rules"
   ],
   "note": ""
  },
  {
   "property": "C43",
   "status": "proved",
   "theorems": [
    "Ebnf.Props.c43_returns",
    "Ebnf.Props.c43_left_recursion_loops",
    "Ebnf.Props.c43_self_start_recursive",
    "Ebnf.Props.c43_left_recursion_example"
   ],
   "note": "Running forever stands for unbounded recursion, that is, a stack overflow."
  },
  {
   "property": "C44",
   "status": "proved",
   "theorems": [
    "Ebnf.Props.c44_repetition",
    "Ebnf.Props.c44_livelock",
    "Ebnf.Props.c44_never_fails",
    "Ebnf.Props.c44_parse_livelock"
   ],
   "note": "Up to 2^32-1 rounds, where {...} stops."
  },
  {
   "property": "C45",
   "status": "proved",
   "theorems": [
    "Ebnf.Props.c45_no_panic",
    "Ebnf.Props.c45_only_missing",
    "Ebnf.Props.c45_error_reasons",
    "Ebnf.Props.c45_undefined_panics"
   ],
   "note": "The property fails for references inside brackets that are not validated (c45_undefined_panics); proved for grammars whose meta-identifiers are all defined, which is what the property asks."
  },
  {
   "property": "C46",
   "status": "partial",
   "theorems": [
    "Ebnf.Props.c46_count_as_built",
    "Ebnf.Props.c46_exact_count_partial",
    "Ebnf.Props.c46_zero",
    "Ebnf.Props.c46_parse_partial",
    "Ebnf.Props.c46_huge_count"
   ],
   "note": "False for the count 2^32-1 (c46_huge_count). Proved for all other counts; c46_count_as_built says exactly what happens with that one."
  },
  {
   "property": "C47",
   "status": "proved",
   "theorems": [
    "Ebnf.Props.c47_errors_point",
    "Ebnf.Props.c47_built_in_scanners"
   ],
   "note": ""
  },
  {
   "property": "C48",
   "status": "proved",
   "theorems": [
    "Ebnf.Props.c48_match",
    "Ebnf.Props.c48_unmatch",
    "Ebnf.Props.c48_run_unique"
   ],
   "note": ""
  },
  {
   "property": "C49",
   "status": "proved",
   "theorems": [
    "Ebnf.Props.c49_match",
    "Ebnf.Props.c49_too_long",
    "Ebnf.Props.c49_unmatch"
   ],
   "note": "The regular expression engine is a parameter."
  },
  {
   "property": "C50",
   "status": "proved",
   "theorems": [
    "Ebnf.Props.c50_parser_new"
   ],
   "note": ""
  },
  {
   "property": "C51",
   "status": "proved",
   "theorems": [
    "Ebnf.Props.c51_compiles_closed",
    "Ebnf.Props.c51_lexed_compiles"
   ],
   "note": ""
  },
  {
   "property": "C52",
   "status": "partial",
   "theorems": [
    "Ebnf.Props.c52_forward_ignored",
    "Ebnf.Props.c52_forward_partial"
   ],
   "note": "False (c52_forward_ignored). Proved: exactly what a forwarding special sequence does in each case; the one that fails is a rule that does not match."
  },
  {
   "property": "C53",
   "status": "proved",
   "theorems": [
    "Ebnf.Props.c53_errors_point_into_text"
   ],
   "note": ""
  },
  {
   "property": "C54",
   "status": "partial",
   "theorems": [
    "Ebnf.Props.c54_events_located_partial",
    "Ebnf.Props.c54_clear_ends",
    "Ebnf.Props.c54_stale_events",
    "Ebnf.Props.c54_none_missing"
   ],
   "note": "False in general for the reason of C37 (c54_stale_events). Proved for the same grammars. For every grammar without forwarding scanners, some of the events are the input piece by piece with the right places (c54_none_missing). In full for grammars in which the next character tells that an optional or repeated part is over (c54_clear_ends)."
  },
  {
   "property": "C55",
   "status": "proved",
   "theorems": [
    "Ebnf.Spec.c55_token",
    "Ebnf.Spec.c55_leaf_or_node",
    "Ebnf.Spec.c55_location"
   ],
   "note": ""
  },
  {
   "property": "C56",
   "status": "proved",
   "theorems": [
    "Ebnf.Spec.c56_locations_distinct",
    "Ebnf.Spec.c56_errors_distinct"
   ],
   "note": ""
  },
  {
   "property": "C57",
   "status": "proved",
   "theorems": [
    "Ebnf.Props.c57_reader",
    "Ebnf.Props.c57_either",
    "Ebnf.Props.c57_same_result",
    "Ebnf.Props.c57_library",
    "Ebnf.Props.c57_crossed_events"
   ],
   "note": "c57_crossed_events and c28_debug_panic show where the two builds differ outside the property: scanners that report badly nested events, and reading after the only mark was dropped."
  },
  {
   "property": "C58",
   "status": "proved",
   "theorems": [
    "Ebnf.Props.c58_errors_in_order",
    "Ebnf.Props.c58_no_errors",
    "Ebnf.Props.c58_each_error_once"
   ],
   "note": "For release builds; by C57 a debug build panics or returns the same."
  },
  {
   "property": "C59",
   "status": "partial",
   "theorems": [
    "Ebnf.Props.c59_look_ahead_moves",
    "Ebnf.Props.c59_mark_left",
    "Ebnf.Props.c59_read_repeatable_partial",
    "Ebnf.Props.c59_reset_undoes_partial"
   ],
   "note": "False in full: c59_look_ahead_moves and c59_mark_left. Proved: read and read_chars can be repeated; every other operation after reset_to_mark to a mark taken before it."
  },
  {
   "property": "C60",
   "status": "partial",
   "theorems": [
    "Ebnf.Props.c60_parse_over_failures_partial",
    "Ebnf.Props.c60_accepted_partial",
    "Ebnf.Props.c60_library_reports",
    "Ebnf.Props.c60_failure_lost",
    "Ebnf.Props.c60_forward_accepts",
    "Ebnf.Props.c60_byte_stream"
   ],
   "note": "False in full: c60_failure_lost (the error is swallowed while an error message is composed) and c60_forward_accepts (with a scanner that forwards, a failure makes parse accept what it rejects otherwise). Proved: for scanners that report failures (all of the library do) and do not forward, parse returns a failure, or the result without failures, or an error where that is an error too; accepted inputs have the same events."
  },
  {
   "property": "C61",
   "status": "proved",
   "theorems": [
    "Ebnf.Props.c61_encoding",
    "Ebnf.Props.c61_text",
    "Ebnf.Props.c61_only_text",
    "Ebnf.Props.c61_faithful",
    "Ebnf.Props.c61_mark_decides",
    "Ebnf.Props.c61_reader"
   ],
   "note": "The decoder is the state machine of the WHATWG standard, which encoding_rs implements (trusted base); the encoder is that of the core library of Lean (c61_encoding)."
  },
  {
   "property": "C62",
   "status": "proved",
   "theorems": [
    "Ebnf.Props.c62_mark_dropped",
    "Ebnf.Props.c62_read_from_str",
    "Ebnf.Props.c62_outcome",
    "Ebnf.Props.c62_read_from_utf8"
   ],
   "note": "A byte order mark at the start of the text is dropped (c62_mark_dropped); the theorems are stated with withoutMark."
  },
  {
   "property": "C63",
   "status": "partial",
   "theorems": [
    "Ebnf.Props.c63_place",
    "Ebnf.Props.c63_genuine_replacement",
    "Ebnf.Props.c63_decoded_again",
    "Ebnf.Props.c63_place_partial",
    "Ebnf.Props.c63_message",
    "Ebnf.Props.c63_decoders"
   ],
   "note": "False in full: c63_genuine_replacement (a U+FFFD of the text before the malformed sequence is reported, depending on the fragments) and c63_decoded_again (after the error). Proved: the place of the first error when no U+FFFD precedes it, for every encoding that replaces malformed sequences by U+FFFD (c63_decoders: UTF-8 and UTF-16 do). Exactly which place: c63_place (for every fragmentation, with or without genuine U+FFFD); what the message states: c63_message."
  },
  {
   "property": "C64",
   "status": "proved",
   "theorems": [
    "Ebnf.Props.c64_only_rejections",
    "Ebnf.Props.c64_parse",
    "Ebnf.Props.c64_read_from_str"
   ],
   "note": ""
  },
  {
   "property": "C65",
   "status": "partial",
   "theorems": [
    "Ebnf.Props.c65_too_long_iff",
    "Ebnf.Props.c65_chunk_too_long",
    "Ebnf.Props.c65_roomy_partial",
    "Ebnf.Props.c65_read_from_str_partial"
   ],
   "note": "False in full: c65_chunk_too_long (the limit is compared with the pending text and the whole piece). Proved: a limit of the longest token plus the longest piece is enough; for read_from_str the longest token plus 4096. Exactly when the limit strikes: c65_too_long_iff."
  },
  {
   "property": "C66",
   "status": "proved",
   "theorems": [
    "Ebnf.Props.c66_truthful",
    "Ebnf.Props.c66_library",
    "Ebnf.Props.c66_quotation"
   ],
   "note": ""
  },
  {
   "property": "C67",
   "status": "proved",
   "theorems": [
    "Ebnf.Props.c67_prefix_viable"
   ],
   "note": ""
  },
  {
   "property": "C68",
   "status": "proved",
   "theorems": [
    "Ebnf.Props.c68_accepts_iff",
    "Ebnf.Props.c68_rejects",
    "Ebnf.Props.c68_checked"
   ],
   "note": ""
  },
  {
   "property": "C69",
   "status": "proved",
   "theorems": [
    "Ebnf.Props.c69_steady_ends",
    "Ebnf.Props.c69_events_derived",
    "Ebnf.Props.c69_events_among"
   ],
   "note": "c69_events_among: without the condition on optional and repeated bodies, the events of a derivation are among those returned. c69_steady_ends: they are the events returned where bodies that are sequences do not begin with a term that may be empty and the next character tells that the part is over."
  },
  {
   "property": "C70",
   "status": "proved",
   "theorems": [
    "Ebnf.Props.c70_steady_ends",
    "Ebnf.Props.c70_steady_checked",
    "Ebnf.Props.c70_events_iff",
    "Ebnf.Props.c70_checked"
   ],
   "note": "c70_steady_ends and c70_steady_checked allow bodies of optional and repeated parts that are sequences, if they do not begin with a term that may be empty."
  },
  {
   "property": "C71",
   "status": "proved",
   "theorems": [
    "Ebnf.Props.c71_session",
    "Ebnf.Props.c71_retry"
   ],
   "note": ""
  },
  {
   "property": "C72",
   "status": "proved",
   "theorems": [
    "Ebnf.Props.c72_unused",
    "Ebnf.Props.c72_order",
    "Ebnf.Props.c72_added"
   ],
   "note": ""
  },
  {
   "property": "C73",
   "status": "proved",
   "theorems": [
    "Ebnf.Props.c73_end_to_end",
    "Ebnf.Props.c73_text"
   ],
   "note": "The decoders are a parameter; labels is the function that finds one for a label."
  },
  {
   "property": "C74",
   "status": "proved",
   "theorems": [
    "Ebnf.Props.c74_unknown",
    "Ebnf.Props.c74_file"
   ],
   "note": ""
  },
  {
   "property": "C75",
   "status": "proved",
   "theorems": [
    "Ebnf.Props.c75_one_of",
    "Ebnf.Props.c75_zero_or_more",
    "Ebnf.Props.c75_min",
    "Ebnf.Props.c75_one_or_more",
    "Ebnf.Props.c75_max",
    "Ebnf.Props.c75_range",
    "Ebnf.Props.c75_regex"
   ],
   "note": "Regular expressions are a parameter."
  },
  {
   "property": "C76",
   "status": "proved",
   "theorems": [
    "Ebnf.Props.c76_origin",
    "Ebnf.Props.c76_texts"
   ],
   "note": "Regular expressions are a parameter."
  },
  {
   "property": "C77",
   "status": "proved",
   "theorems": [
    "Ebnf.Props.c77_either",
    "Ebnf.Props.c77_threshold",
    "Ebnf.Props.c77_left_recursion",
    "Ebnf.Props.c77_linear",
    "Ebnf.Props.c77_not_recursive",
    "Ebnf.Props.c77_deep_text"
   ],
   "note": "A frame stands for one call of parse_to_subroutine_end and the helper between it and the next; the size in bytes of a frame is not modelled. Regular expressions are a parameter."
  },
  {
   "property": "C78",
   "status": "proved",
   "theorems": [
    "Ebnf.Props.c78_history",
    "Ebnf.Props.c78_before_flush",
    "Ebnf.Props.c78_after_flush",
    "Ebnf.Props.c78_library"
   ],
   "note": "The life cycle of the underlying decoder (a finished one panics) is part of the contract of encoding_rs."
  },
  {
   "property": "C79",
   "status": "proved",
   "theorems": [
    "Ebnf.Props.c79_same_in_both_builds",
    "Ebnf.Props.c79_no_rule_after_error",
    "Ebnf.Props.c79_after_error",
    "Ebnf.Props.c79_any_history",
    "Ebnf.Props.c79_flush_panics"
   ],
   "note": ""
  },
  {
   "property": "C80",
   "status": "proved",
   "theorems": [
    "Ebnf.Props.c80_read",
    "Ebnf.Props.c80_threshold",
    "Ebnf.Props.c80_print",
    "Ebnf.Props.c80_compile",
    "Ebnf.Props.c80_deep_grammar"
   ],
   "note": ""
  },
  {
   "property": "C81",
   "status": "proved",
   "theorems": [
    "Ebnf.Props.c81_reads_back_iff",
    "Ebnf.Props.c81_otherwise",
    "Ebnf.Props.c81_tree_iff",
    "Ebnf.Props.c81_never_other"
   ],
   "note": ""
  },
  {
   "property": "C82",
   "status": "proved",
   "theorems": [
    "Ebnf.Props.c82_executes",
    "Ebnf.Props.c82_forever",
    "Ebnf.Props.c82_bound",
    "Ebnf.Props.c82_polynomial",
    "Ebnf.Props.c82_exponential"
   ],
   "note": "Counts executed instructions (rounds of the while loop of parse_to_subroutine_end); the time within one instruction is not modelled."
  },
  {
   "property": "C83",
   "status": "proved",
   "theorems": [
    "Ebnf.Props.c83_push_rejects_iff",
    "Ebnf.Props.c83_flush_rejects_iff",
    "Ebnf.Props.c83_one_character_late",
    "Ebnf.Props.c83_stray_is_hopeless"
   ],
   "note": "The panic of C05 is characterised exactly with the same notions (c05_panics_iff, c05_parse_str_panics_iff)."
  },
  {
   "property": "C84",
   "status": "proved",
   "theorems": [
    "Ebnf.Props.c84_alike",
    "Ebnf.Props.c84_renamed",
    "Ebnf.Props.c84_moved_valid",
    "Ebnf.Props.c84_moved",
    "Ebnf.Props.c84_reformatted",
    "Ebnf.Props.c84_printed"
   ],
   "note": "Renaming is stated for scanners that report pieces of the input and do not forward to rules by name; c84_alike is the general statement, with corresponding scanners."
  },
  {
   "property": "C85",
   "status": "proved",
   "theorems": [
    "Ebnf.Props.c85_wording",
    "Ebnf.Props.c85_display",
    "Ebnf.Props.c85_same",
    "Ebnf.Props.c85_token_shown",
    "Ebnf.Props.c85_token_place",
    "Ebnf.Props.c85_scanner_names",
    "Ebnf.Props.c85_choice",
    "Ebnf.Props.c85_texts_distinct",
    "Ebnf.Props.c85_quoted",
    "Ebnf.Props.c85_terminal_name",
    "Ebnf.Props.c85_lexer",
    "Ebnf.Props.c85_parse_str",
    "Ebnf.Props.c85_syntax",
    "Ebnf.Props.c85_parser"
   ],
   "note": "Messages that pass on a text of the operating system, the regular expression library or the application are excluded (nothing is known about those texts)."
  },
  {
   "property": "C86",
   "status": "proved",
   "theorems": [
    "Ebnf.Props.c86_name",
    "Ebnf.Props.c86_behind",
    "Ebnf.Props.c86_pieces",
    "Ebnf.Props.c86_many"
   ],
   "note": ""
  },
  {
   "property": "C87",
   "status": "proved",
   "theorems": [
    "Ebnf.Props.c87_parse",
    "Ebnf.Props.c87_push",
    "Ebnf.Props.c87_pieces"
   ],
   "note": ""
  },
  {
   "property": "C88",
   "status": "proved",
   "theorems": [
    "Ebnf.Props.c88_marked_text",
    "Ebnf.Props.c88_marked_only",
    "Ebnf.Props.c88_label_text",
    "Ebnf.Props.c88_label_only",
    "Ebnf.Props.c88_foreign_mark",
    "Ebnf.Props.c88_replaced",
    "Ebnf.Props.c88_all_bytes",
    "Ebnf.Props.c88_faithful",
    "Ebnf.Props.c88_reader",
    "Ebnf.Props.c88_read_syntax"
   ],
   "note": ""
  },
  {
   "property": "C89",
   "status": "proved",
   "theorems": [
    "Ebnf.Props.c89_any_bytes",
    "Ebnf.Props.c89_one_text",
    "Ebnf.Props.c89_stops",
    "Ebnf.Props.c89_parse"
   ],
   "note": ""
  },
  {
   "property": "C90",
   "status": "partial",
   "theorems": [
    "Ebnf.Props.c90_bound",
    "Ebnf.Props.c90_scanners",
    "Ebnf.Props.c90_kept",
    "Ebnf.Props.c90_straight_partial",
    "Ebnf.Props.c90_grows",
    "Ebnf.Props.c90_not_kept"
   ],
   "note": "The code violates the full property: a repetition, an option, a choice that matches and an exception leave their marks on the stack. c90_grows shows it for `a={'x'};` and every number of characters, c90_not_kept that the full statement (KeepsMarks) fails. Proved for all parsers: the caller's marks stay valid (c90_kept), and the marks left are bounded by k+3 for each instruction executed (c90_bound, with c90_scanners for k). Proved in full for grammars without choice, repetition, exception and special sequence (c90_straight_partial)."
  },
  {
   "property": "C91",
   "status": "proved",
   "theorems": [
    "Ebnf.Props.c91_cost",
    "Ebnf.Props.c91_same",
    "Ebnf.Props.c91_returns"
   ],
   "note": "c91_cost: the count of instructions of the machine (C82) equals the cost given by `Costs`, a definition over the syntax tree in which nothing of the compiled machine appears. c91_same: independence of the delivery. c91_returns: a cost exists iff parse returns. The time within one instruction is not modelled."
  },
  {
   "property": "C92",
   "status": "proved",
   "theorems": [
    "Ebnf.Props.c92_linear",
    "Ebnf.Props.c92_checked"
   ],
   "note": "c92_linear; c92_checked for grammars without special sequences whose look-ahead is checked with a table. Without the condition on the look-ahead it fails: c82_exponential. The time within one instruction is not modelled."
  },
  {
   "property": "C93",
   "status": "proved",
   "theorems": [
    "Ebnf.Props.c93_accepts",
    "Ebnf.Props.c93_loops",
    "Ebnf.Props.c93_not_commutative",
    "Ebnf.Props.c93_not_right_distributive"
   ],
   "note": "c93_accepts and c93_loops for the laws of `Refactors`. The events change with the grammar and are not compared. Laws that move a group in front of other terms are restricted to terms that are no bare groups, because the code drops what follows a bare group (C36). c93_not_commutative and c93_not_right_distributive show that two usual laws of context-free grammars fail here."
  },
  {
   "property": "C94",
   "status": "partial",
   "theorems": [
    "Ebnf.Props.c94_held",
    "Ebnf.Props.c94_held_partial",
    "Ebnf.Props.c94_nothing_left",
    "Ebnf.Props.c94_one_ahead",
    "Ebnf.Props.c94_grows",
    "Ebnf.Props.c94_unmark_keeps"
   ],
   "note": "False in full: c94_grows (looking two characters ahead and reading one, over and over, keeps everything since the beginning, because the buffer is only cleared when it has been read to its very end with no mark) and c94_unmark_keeps (after unmark of the last mark a release build keeps what was read under it for ever). Proved: c94_held says exactly what is kept in all histories of either build (in a debug build, up to a panic), and that it is part of the text looked at; c94_held_partial is the simpler form for histories that do not unmark the only mark; c94_nothing_left and c94_one_ahead are the two special cases of the statement."
  },
  {
   "property": "C95",
   "status": "proved",
   "theorems": [
    "Ebnf.Props.c95_kept",
    "Ebnf.Props.c95_prompt",
    "Ebnf.Props.c95_memory"
   ],
   "note": "c95_kept says exactly what has been returned and what is kept, c95_prompt is the case of a text that ends in a terminator, c95_memory the bound."
  },
  {
   "property": "C96",
   "status": "proved",
   "theorems": [
    "Ebnf.Props.c96_read",
    "Ebnf.Props.c96_read_all",
    "Ebnf.Props.c96_buffered",
    "Ebnf.Props.c96_buffered_read_all"
   ],
   "note": "The provided methods of the trait are modelled over the read_chars of any implementation. The text that read_all has read in front of an error is in neither of the answers (c96_read_all, c97_read_all)."
  },
  {
   "property": "C97",
   "status": "proved",
   "theorems": [
    "Ebnf.Props.c97_tells",
    "Ebnf.Props.c97_reads",
    "Ebnf.Props.c97_read",
    "Ebnf.Props.c97_read_all",
    "Ebnf.Props.c97_same"
   ],
   "note": "c97_same shows that this model of CharDecodeReader and the simpler one, in which the end of the stream is final and on which the other theorems rest, return the same call by call when the stream does not pause. What a read_all that fails has read before the error is lost."
  },
  {
   "property": "C98",
   "status": "proved",
   "theorems": [
    "Ebnf.Props.c98_provided",
    "Ebnf.Props.c98_history",
    "Ebnf.Props.c98_markable",
    "Ebnf.Props.c98_same"
   ],
   "note": "For MarkableReader over a CharReader of any make, release builds only: in debug builds unmark can make a later read panic (C28). An implementation may number its marks as it likes, as long as live marks with the same number are at the same position."
  },
  {
   "property": "C99",
   "status": "proved",
   "theorems": [
    "Ebnf.Props.c99_same_result",
    "Ebnf.Props.c99_as_built",
    "Ebnf.Props.c99_library",
    "Ebnf.Props.c99_where",
    "Ebnf.Props.c99_same",
    "Ebnf.Props.c99_scanners",
    "Ebnf.Props.c99_markable"
   ],
   "note": "c99_same shows that this model of the machine, on the methods of a MarkableReader, is the model that the other theorems are about. The text that the first part of an exception matched is always put into a MarkableReader, as in the code."
  },
  {
   "property": "C100",
   "status": "proved",
   "theorems": [
    "Ebnf.Props.c100_rest",
    "Ebnf.Props.c100_pieces",
    "Ebnf.Props.c100_no_call"
   ],
   "note": "How far a call looks is given by `reach` in Spec/Held.lean (C94): for instance peek(n) looks at n characters or at the rest of the text, prefix_matches at the characters up to the first that differs. Within one read of the byte stream CharDecodeReader decodes everything it got."
  },
  {
   "property": "C101",
   "status": "proved",
   "theorems": [
    "Ebnf.Props.c101_calls",
    "Ebnf.Props.c101_parse",
    "Ebnf.Props.c101_default",
    "Ebnf.Props.c101_enough",
    "Ebnf.Props.c101_overflow",
    "Ebnf.Props.c101_wraps"
   ],
   "note": "Model/Words.lean has the arithmetic with 64 bits, all other theorems are about the model with unbounded integers, and C101 carries them over. usize values are lengths of vectors in memory. Scanners written by users are not covered: one that removes marks of others could let the text of an exception begin elsewhere."
  },
  {
   "property": "C102",
   "status": "proved",
   "theorems": [
    "Ebnf.Props.c102_parse_str",
    "Ebnf.Props.c102_pieces",
    "Ebnf.Props.c102_calls",
    "Ebnf.Props.c102_comment_wraps",
    "Ebnf.Props.c102_comment_open",
    "Ebnf.Props.c102_comment_panics",
    "Ebnf.Props.c102_brackets_panic",
    "Ebnf.Props.c102_inner_brackets_panic"
   ],
   "note": "Model/WordsLexer.lean has the lexer with the integers of the code; c102_parse_str, c102_pieces and c102_calls carry the other theorems about the lexer over. c102_comment_wraps, c102_comment_panics and c102_brackets_panic are the findings beyond the bound."
  },
  {
   "property": "C103",
   "status": "proved",
   "theorems": [
    "Ebnf.Props.c103_same",
    "Ebnf.Props.c103_parse_str",
    "Ebnf.Props.c103_call",
    "Ebnf.Props.c103_calls",
    "Ebnf.Props.c103_rules_slow",
    "Ebnf.Props.c103_brackets_slow",
    "Ebnf.Props.c103_deep_grammar_slow",
    "Ebnf.Props.c103_pieces_slow"
   ],
   "note": "Model/Effort.lean has the lexer with its steps counted; c103_same says that it is the lexer. c103_rules_slow, c103_brackets_slow and c103_pieces_slow are a finding: new_tokens.remove(0), a search for the closing bracket at every level of nesting, and a pending token that is read again from its beginning at every call make reading quadratic."
  },
  {
   "property": "C104",
   "status": "proved",
   "theorems": [
    "Ebnf.Props.c104_same",
    "Ebnf.Props.c104_same_parse",
    "Ebnf.Props.c104_calls",
    "Ebnf.Props.c104_one_by_one",
    "Ebnf.Props.c104_call",
    "Ebnf.Props.c104_marks",
    "Ebnf.Props.c104_parse",
    "Ebnf.Props.c104_library",
    "Ebnf.Props.c104_string",
    "Ebnf.Props.c104_stream_calls",
    "Ebnf.Props.c104_stream"
   ],
   "note": "Model/Meter.lean has the reader with its steps counted; c104_same and c104_same_parse say that it is the reader. c104_string is a finding: BufferedCharReader takes each character with drain(0..1), which moves all those after it, so that parsing a text in memory is quadratic however simple the grammar. Not counted here: the reader over the text of a factor that an exception is tried on (its source is a text in memory too; see c105_exceptions), and the decoding of bytes."
  },
  {
   "property": "C105",
   "status": "proved",
   "theorems": [
    "Ebnf.Props.c105_parse",
    "Ebnf.Props.c105_parse_ok",
    "Ebnf.Props.c105_grammar",
    "Ebnf.Props.c105_linear",
    "Ebnf.Props.c105_stream",
    "Ebnf.Props.c105_string",
    "Ebnf.Props.c105_plain",
    "Ebnf.Props.c105_checked",
    "Ebnf.Props.c105_exceptions",
    "Ebnf.Props.c105_test",
    "Ebnf.Props.c105_library",
    "Ebnf.Props.c105_cubic",
    "Ebnf.Props.c105_checked_cubic"
   ],
   "note": "c105_parse counts per instruction (Model/Steps.lean); c105_grammar derives its hypothesis from the grammar. c105_checked has hypotheses that can be checked for a given grammar. c105_exceptions counts the readers that exceptions make too (Model/MeterInner.lean; c105_test says that what is counted is what the machine does), c105_library shows that its hypothesis holds with D a constant plus N, and c105_cubic and c105_checked_cubic draw the conclusion; the power is not claimed to be the least. For a scanner of characters without a maximum, D is the number of characters that are left or kept."
  },
  {
   "property": "C106",
   "status": "proved",
   "theorems": [
    "Ebnf.Props.c106_instructions",
    "Ebnf.Props.c106_printed",
    "Ebnf.Props.c106_size",
    "Ebnf.Props.c106_symbols",
    "Ebnf.Props.c106_default",
    "Ebnf.Props.c106_quadratic"
   ],
   "note": "c106_instructions is the exact count, for every syntax that compiles; c106_printed, c106_size and c106_symbols are the bounds; c106_default says that the default configuration has short symbols; c106_quadratic is the family that reaches quadratic memory, because every pair of brackets carries the printed text of what it contains."
  },
  {
   "property": "C107",
   "status": "proved",
   "theorems": [
    "Ebnf.Props.c107_accepts_iff",
    "Ebnf.Props.c107_rejects",
    "Ebnf.Props.c107_events_iff",
    "Ebnf.Props.c107_one_ahead"
   ],
   "note": "c107_accepts_iff, c107_rejects and c107_events_iff generalise C68 and C70 from one character of look-ahead to any amount; c107_one_ahead shows that the condition of C68 is a special case. The example S='ab','c'|'ab',S|'a' is not LL(1). Without the condition on choices it fails: c41_converse_fails."
  },
  {
   "property": "C108",
   "status": "proved",
   "theorems": [
    "Ebnf.Props.c108_calls",
    "Ebnf.Props.c108_methods",
    "Ebnf.Props.c108_library",
    "Ebnf.Props.c108_parse",
    "Ebnf.Props.c108_bytes",
    "Ebnf.Props.c108_grammar"
   ],
   "note": "c108_calls for any history of calls, c108_methods for each method and their composition, c108_library for the scanners of the library, c108_parse for a parse after any history, c108_bytes for deliveries of bytes, c108_grammar for reading a grammar. Together with C100 (how much is asked for). An example shows a method that is not of this kind."
  },
  {
   "property": "C109",
   "status": "proved",
   "theorems": [
    "Ebnf.Props.c109_elsewhere",
    "Ebnf.Props.c109_results",
    "Ebnf.Props.c109_accepts",
    "Ebnf.Props.c109_places",
    "Ebnf.Props.c109_order",
    "Ebnf.Props.c109_library"
   ],
   "note": "c109_elsewhere and c109_results for results, c109_accepts for acceptance, c109_places says which places correspond, c109_order that their order is the same, c109_library that the scanners of the library meet the condition; an example shows a scanner that does not."
  },
  {
   "property": "C110",
   "status": "proved",
   "theorems": [
    "Ebnf.Props.c110_only_calls",
    "Ebnf.Props.c110_no_panic",
    "Ebnf.Props.c110_still_a_reader",
    "Ebnf.Props.c110_accepts_at_end",
    "Ebnf.Props.c110_programs",
    "Ebnf.Props.c110_library",
    "Ebnf.Props.c110_robbed",
    "Ebnf.Props.c110_vanished"
   ],
   "note": "c110_only_calls is the invariant, c110_no_panic, c110_still_a_reader and c110_accepts_at_end follow from it; c110_programs says that scanners written as programs over the reader's methods meet the condition, c110_library that those of the library do. What is not promised: a scanner that takes away the parser's mark makes the parse fail with an error (c110_robbed), and one that reissues the numbers of the marks makes characters vanish, so that a text is accepted of which only the last character is in the tokens (c110_vanished)."
  },
  {
   "property": "C111",
   "status": "partial",
   "theorems": [
    "Ebnf.Props.c111_lexer_panics_iff",
    "Ebnf.Props.c111_lexer_partial",
    "Ebnf.Props.c111_new",
    "Ebnf.Props.c111_parse_str",
    "Ebnf.Props.c111_parse_panics",
    "Ebnf.Props.c111_parse_partial",
    "Ebnf.Props.c111_no_limit",
    "Ebnf.Props.c111_peek_panics",
    "Ebnf.Props.c111_calls_partial",
    "Ebnf.Props.c111_panics_iff"
   ],
   "note": "The property fails: the room is asked for in advance. A lexer with limit n takes 4n bytes before it has been given anything (c111_lexer_partial), and with a limit of 2^61 or more, usize::MAX for instance, reading any grammar panics (c111_lexer_panics_iff, c111_parse_panics, c111_no_limit); so does a look 2^61 characters ahead or more, and nothing else does (c111_peek_panics, c111_panics_iff). Proved: below 2^61 the functions are those of the other properties (c111_parse_partial, c111_calls_partial), and parse_str, which has no limit, always is (c111_new, c111_parse_str)."
  },
  {
   "property": "C112",
   "status": "partial",
   "theorems": [
    "Ebnf.Props.c112_excluded_is_final_partial",
    "Ebnf.Props.c112_matches_iff",
    "Ebnf.Props.c112_parse",
    "Ebnf.Props.c112_best_excluded_yet_accepted"
   ],
   "note": "With the longest match for the best candidate the property fails: A = ('/' | '/*') - '/*', '*' accepts /* by way of the shorter candidate, although the longest one is excluded (c112_best_excluded_yet_accepted). Proved, with the first candidate that matches in its place: if it is excluded there is no match, whatever comes after it (c112_excluded_is_final_partial, c112_parse), and exactly what such a term matches (c112_matches_iff)."
  }
 ]
}