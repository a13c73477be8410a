{
 "claims": [
  {
   "property": "C01",
   "status": "partial",
   "theorems": [
    "LogSurgeon.C01_lossless_partial",
    "LogSurgeon.C01_refuted"
   ],
   "note": "Proved for every schema with a variable, every input and every usage history, when the allocation has at least one byte behind the input (events concatenate to the input, loop ends regularly). Refuted without that byte: the parser reads content[size] (get_char(0) of the end token)."
  },
  {
   "property": "C02",
   "status": "partial",
   "theorems": [
    "LogSurgeon.C02_terminates_partial"
   ],
   "note": "Same condition as C01 (one addressable byte behind the input): at most size+1 calls, each of which returns; never BufferOutOfBounds."
  },
  {
   "property": "C03",
   "status": "proved",
   "theorems": [
    "LogSurgeon.C03_prefix",
    "LogSurgeon.C03_events",
    "LogSurgeon.C03_tokens_prefix"
   ],
   "note": "Texts of the returned events are a prefix of the buffer; events and tokens returned for an unfinished input are the first events and tokens of every continuation of the input."
  },
  {
   "property": "C04",
   "status": "proved",
   "theorems": [
    "LogSurgeon.C04_tiles",
    "LogSurgeon.C04_texts"
   ],
   "note": "Tokens tile the input, are non-empty, two uncaught strings are never adjacent; texts concatenate to the input."
  },
  {
   "property": "C05",
   "status": "proved",
   "theorems": [
    "LogSurgeon.C05_recognised",
    "LogSurgeon.C05_types_exact"
   ],
   "note": "C05_recognised: shape, delimiter and full type list of every token; C05_types_exact: the types reported for a text are those of exactly the schema rules whose own automaton accepts it (what that automaton accepts: C07, C08)."
  },
  {
   "property": "C06",
   "status": "partial",
   "theorems": [
    "LogSurgeon.C06_spec_partial",
    "LogSurgeon.C06_exact",
    "LogSurgeon.C06_no_timestamp_partial",
    "LogSurgeon.C06_refuted",
    "LogSurgeon.C06_fd_refuted"
   ],
   "note": "Token sequence equals the unique one of a declarative specification (leftmost, then longest). For texts whose beginning partially matches a timestamp the statement is false (C06_refuted); what the lexer does instead is C06_exact: for every text without the byte 0xFD, the unique tokens of a specification that also says which prefix hides tokens and when the token at the start of the file is missed. For texts containing the byte 0xFD it is false (C06_fd_refuted). What the tokens of every text are is C55."
  },
  {
   "property": "C07",
   "status": "proved",
   "theorems": [
    "LogSurgeon.C07_reading",
    "LogSurgeon.C07_regex_complete",
    "LogSurgeon.C07_pattern_complete",
    "LogSurgeon.C07_build_total",
    "LogSurgeon.C07_schema_types"
   ],
   "note": "Every string matched under the standard meaning is accepted, for every regex without empty alternatives and every schema pattern without zero-repetition constructs, whatever the other rules; the build never fails; C07_schema_types: same statement for whole schemas and the lexer's DFA. C07_reading: whatever the textbook meaning (with at least one repetition) matches is in the exact reading (C54)."
  },
  {
   "property": "C08",
   "status": "partial",
   "theorems": [
    "LogSurgeon.C08_pattern_to_dfa_partial",
    "LogSurgeon.C08_reading_partial",
    "LogSurgeon.C08_sound_partial",
    "LogSurgeon.C08_matches_partial",
    "LogSurgeon.C08_pattern_partial",
    "LogSurgeon.C08_sound_refuted",
    "LogSurgeon.C08_schema_types_partial"
   ],
   "note": "The property is false (a+|b accepts \"ba\": C08_sound_refuted). What is accepted exactly is C54. C08_reading_partial: for sensible patterns in which no alternative ends in an open repetition the reading is the textbook meaning (with r* read as r+). C08_pattern_to_dfa_partial and C08_schema_types_partial carry soundness to the DFA and to whole schemas."
  },
  {
   "property": "C09",
   "status": "partial",
   "theorems": [
    "LogSurgeon.C09_star_refuted",
    "LogSurgeon.C09_star_partial",
    "LogSurgeon.C09_range_partial",
    "LogSurgeon.C09_inner_refuted"
   ],
   "note": "The code violates this: r* never matches the empty string (refuted for every r that does not itself match it); what it does match is characterised."
  },
  {
   "property": "C10",
   "status": "proved",
   "theorems": [
    "LogSurgeon.C10_dfa_equiv_nfa",
    "LogSurgeon.C10_ids_complete",
    "LogSurgeon.C10_dead_iff"
   ],
   "note": "For all rule lists and all addresses of NFA states."
  },
  {
   "property": "C11",
   "status": "partial",
   "theorems": [
    "LogSurgeon.C11_priority_partial",
    "LogSurgeon.C11_first_partial",
    "LogSurgeon.C11_priority_refuted"
   ],
   "note": "The order of ids in a DFA state follows the addresses of NFA states (std::set of pointers): proved when addresses grow in allocation order, refuted otherwise."
  },
  {
   "property": "C12",
   "status": "proved",
   "theorems": [
    "LogSurgeon.C12_intersect_exact"
   ],
   "note": "For all pairs of DFAs."
  },
  {
   "property": "C13",
   "status": "proved",
   "theorems": [
    "LogSurgeon.C13_wildcard",
    "LogSurgeon.C13_pattern"
   ],
   "note": "For all delimiter lists, code points and whole patterns."
  },
  {
   "property": "C14",
   "status": "partial",
   "theorems": [
    "LogSurgeon.C14_merge_exact",
    "LogSurgeon.C14_merge_disjoint",
    "LogSurgeon.C14_class_exact_partial",
    "LogSurgeon.C14_bracket_partial",
    "LogSurgeon.C14_empty_negation_refuted"
   ],
   "note": "merge and complement exact; the partial ones restrict to classes the schema can express; [^] (empty negation) refuted."
  },
  {
   "property": "C15",
   "status": "proved",
   "theorems": [
    "LogSurgeon.C15_no_delimiter",
    "LogSurgeon.C15_rejected"
   ],
   "note": "Recognised variables are one delimiter followed by non-delimiters; schemas that could match a delimiter inside a variable are rejected."
  },
  {
   "property": "C16",
   "status": "proved",
   "theorems": [
    "LogSurgeon.C16_bijection",
    "LogSurgeon.C16_every_rule_has_its_id"
   ],
   "note": "All schemas, including repeated and reserved names."
  },
  {
   "property": "C17",
   "status": "proved",
   "theorems": [
    "LogSurgeon.C17_insert",
    "LogSurgeon.C17_defined",
    "LogSurgeon.C17_rule_order",
    "LogSurgeon.C17_text_partial"
   ],
   "note": "Also: the call is defined exactly for -1..size (outside it is undefined behaviour). C17_text_partial: add_variable from the text name:pattern (short texts, see C43)."
  },
  {
   "property": "C18",
   "status": "proved",
   "theorems": [
    "LogSurgeon.C18_delimiters",
    "LogSurgeon.C18_none_rejected",
    "LogSurgeon.C18_no_residue"
   ],
   "note": "All schemas; earlier delimiter lines leave no residue at all (the same parser is built)."
  },
  {
   "property": "C19",
   "status": "proved",
   "theorems": [
    "LogSurgeon.C19_events",
    "LogSurgeon.C19_shape"
   ],
   "note": "C19_events: the events shown are the segmentation of the token sequence; C19_shape: declarative shape of each event and of the transition between successive events."
  },
  {
   "property": "C20",
   "status": "proved",
   "theorems": [
    "LogSurgeon.C20_multiline"
   ],
   "note": "All inputs and events."
  },
  {
   "property": "C21",
   "status": "partial",
   "theorems": [
    "LogSurgeon.C21_history_partial",
    "LogSurgeon.C21_refuted"
   ],
   "note": "Holds whatever was parsed before if that parse ran until done or out of bytes. Refuted for an abandoned parse (reset() keeps the pending start-of-log token)."
  },
  {
   "property": "C22",
   "status": "partial",
   "theorems": [
    "LogSurgeon.C22_offset_partial",
    "LogSurgeon.C22_refuted",
    "LogSurgeon.C22_success_refuted",
    "LogSurgeon.C22_offset_exact",
    "LogSurgeon.C22_new_parser_zero",
    "LogSurgeon.C22_success_offset",
    "LogSurgeon.C22_stale_example"
   ],
   "note": "Offset is right on BufferOutOfBounds when no event or an event with a timestamp is in progress; refuted otherwise, and refuted for Success. Exact behaviour for all texts and histories: C22_offset_exact (an event without timestamp in progress: the offset is the stale position in the first slot of the output buffer, 0 for a new parser: C22_new_parser_zero), C22_success_offset (after Success: the start of the next event, or a place behind its first token)."
  },
  {
   "property": "C23",
   "status": "partial",
   "theorems": [
    "LogSurgeon.C23_copy_partial",
    "LogSurgeon.C23_parsed_partial",
    "LogSurgeon.C23_refuted",
    "LogSurgeon.C23_empty_refuted"
   ],
   "note": "Proved for all events with a timestamp (valid tokens); refuted for events without one and for the empty event."
  },
  {
   "property": "C24",
   "status": "partial",
   "theorems": [
    "LogSurgeon.C24_logtype",
    "LogSurgeon.C24_delimiter_partial",
    "LogSurgeon.C24_no_leak",
    "LogSurgeon.C24_leak_refuted"
   ],
   "note": "Logtype characterised exactly for all events; no information about variables but type and first character (C24_no_leak); the first character is a delimiter except for a variable at the start of an event without a timestamp (refuted there)."
  },
  {
   "property": "C25",
   "status": "partial",
   "theorems": [
    "LogSurgeon.C25_accessors_partial",
    "LogSurgeon.C25_getChar_refuted",
    "LogSurgeon.C25_getChar"
   ],
   "note": "All tokens, wrapped or not, cached or not; get_char only for i<256 (refuted beyond: uint8_t argument). What get_char returns for any index is C25_getChar."
  },
  {
   "property": "C26",
   "status": "proved",
   "theorems": [
    "LogSurgeon.C26_append",
    "LogSurgeon.C26_reset"
   ],
   "note": "Any number of tokens."
  },
  {
   "property": "C27",
   "status": "proved",
   "theorems": [
    "LogSurgeon.C27_next_is_next_byte",
    "LogSurgeon.C27_out_of_bounds",
    "LogSurgeon.C27_end_of_input",
    "LogSurgeon.C27_kept_bytes",
    "LogSurgeon.C27_places_distinct",
    "LogSurgeon.C27_delivered_in_order"
   ],
   "note": "For every history of read/next/consume/seek/grow of a client that keeps to read_if_safe, as a refinement to the unbounded byte stream."
  },
  {
   "property": "C28",
   "status": "partial",
   "theorems": [
    "LogSurgeon.C28_any_reader_partial",
    "LogSurgeon.C28_any_reader_lines_partial",
    "LogSurgeon.C28_given_unique",
    "LogSurgeon.C28_full_gives",
    "LogSurgeon.C28_chunks_given",
    "LogSurgeon.C28_refuted_aligned",
    "LogSurgeon.C28_events_are_those_of_the_buffer_parser_partial",
    "LogSurgeon.C28_independent_of_reader_and_buffer_size_partial",
    "LogSurgeon.C28_ready_for_the_next_reader_partial",
    "LogSurgeon.C28_refuted_short_reads",
    "LogSurgeon.C28_refuted_at_the_middle",
    "LogSurgeon.C28_refuted_within_a_word",
    "LogSurgeon.C28_short_lines_partial"
   ],
   "note": "C28_any_reader_partial: for every reader, also one that gives less than asked for: the events are those of the text it gives up to its first short answer (Reader.Gives; unique, C28_given_unique; all of it for a reader that fills every request, C28_full_gives). Proved (same events as BufferParser, for any buffer size >= 4) for readers that fill every request and texts whose events fit half the buffer and do not end, without timestamp, at a multiple of it; C28_short_lines_partial: an event fits if, with the first line of the next one, it is shorter than half of the buffer (a condition on the lengths of lines only). Missing: short reads, larger events, aligned events; each refuted by a concrete run. C28_refuted_aligned: the length must not be a multiple of the buffer (the last word of such a log can be reported as a variable)."
  },
  {
   "property": "C29",
   "status": "partial",
   "theorems": [
    "LogSurgeon.C29_terminates_within_its_buffer_partial",
    "LogSurgeon.C29_refuted",
    "LogSurgeon.C29_short_lines_partial"
   ],
   "note": "Proved under the conditions of C28 (at most size+1 calls, one round each, buffer not grown). Refuted in general: a reachable state from which parse_next_event doubles its buffer for ever (proved for every number of rounds)."
  },
  {
   "property": "C30",
   "status": "proved",
   "theorems": [
    "LogSurgeon.C30_tree_refines",
    "LogSurgeon.C30_insert_paths",
    "LogSurgeon.C30_query_total"
   ],
   "note": "Refinement to an abstract tree for every history, including errors."
  },
  {
   "property": "C31",
   "status": "partial",
   "theorems": [
    "LogSurgeon.C31_registers_partial",
    "LogSurgeon.C31_noSet_partial",
    "LogSurgeon.C31_registers_refuted"
   ],
   "note": "Holds for all histories in which set_register is only used on a register owning its newest position; refuted in general (set after copy changes both registers). New registers are rooted at the root node. The exact behaviour of every history is C61."
  },
  {
   "property": "C32",
   "status": "partial",
   "theorems": [
    "LogSurgeon.C32_runs_partial",
    "LogSurgeon.C32_once_partial",
    "LogSurgeon.C32_pattern_partial",
    "LogSurgeon.C32_pattern_runs_partial",
    "LogSurgeon.C32_refuted"
   ],
   "note": "Exactly one run per capture for regexes without captures in repetitions; at least one run, well nested, for all; refuted for captures in repetitions at the end of an alternative."
  },
  {
   "property": "C33",
   "status": "partial",
   "theorems": [
    "LogSurgeon.C33_bfs",
    "LogSurgeon.C33_built",
    "LogSurgeon.C33_serialize",
    "LogSurgeon.C33_text_partial",
    "LogSurgeon.C33_text_refuted"
   ],
   "note": "Traversal and serialised items exact for every NFA; number of text lines only without newline transitions (refuted: newline is written raw). That the text can nevertheless be read in one way only is C62."
  },
  {
   "property": "C34",
   "status": "proved",
   "theorems": [
    "LogSurgeon.C34_accepted_is_derivable",
    "LogSurgeon.C34_schema_grammar"
   ],
   "note": "For every grammar, every traversal order of the unordered containers, every token sequence; the tree returned is a derivation. C34_schema_grammar instantiates it with the schema grammar."
  },
  {
   "property": "C35",
   "status": "partial",
   "theorems": [
    "LogSurgeon.C35_short_partial",
    "LogSurgeon.C35_refuted",
    "LogSurgeon.C35_file"
   ],
   "note": "Strings shorter than half of the input buffer; refuted for longer ones (position reset at every read). Files: complete for every request pattern."
  },
  {
   "property": "C36",
   "status": "partial",
   "theorems": [
    "LogSurgeon.C36_count_value",
    "LogSurgeon.C36_exact_partial",
    "LogSurgeon.C36_range_partial",
    "LogSurgeon.C36_zero_refuted",
    "LogSurgeon.C36_zero_range_refuted",
    "LogSurgeon.C36_reversed_refuted"
   ],
   "note": "n\u22651 exact; {0} and {0,0} and reversed bounds refuted."
  },
  {
   "property": "C37",
   "status": "partial",
   "theorems": [
    "LogSurgeon.C37_safe_partial",
    "LogSurgeon.C37_refuted"
   ],
   "note": "No undefined behaviour or exception for schemas with a variable (and a byte behind the input); refuted for schemas without variables."
  },
  {
   "property": "C38",
   "status": "proved",
   "theorems": [
    "LogSurgeon.C38_lines"
   ],
   "note": "All tokens of all inputs."
  },
  {
   "property": "C39",
   "status": "partial",
   "theorems": [
    "LogSurgeon.C39_star",
    "LogSurgeon.C39_assert_refuted",
    "LogSurgeon.C39_question_partial",
    "LogSurgeon.C39_plain",
    "LogSurgeon.C39_question_refuted",
    "LogSurgeon.C39_types_refuted"
   ],
   "note": "'*': exact. '?': complete behaviour characterised; refuted (null dereference; delimiters included; types of completions not reported; assertion)."
  },
  {
   "property": "C40",
   "status": "proved",
   "theorems": [
    "LogSurgeon.C40_history",
    "LogSurgeon.C40_lines",
    "LogSurgeon.C40_append",
    "LogSurgeon.C40_not_open"
   ],
   "note": "All histories of block and line reads."
  },
  {
   "property": "C41",
   "status": "proved",
   "theorems": [
    "LogSurgeon.C41_occurrences"
   ],
   "note": "All events and types."
  },
  {
   "property": "C42",
   "status": "proved",
   "theorems": [
    "LogSurgeon.C42_accepted_fits",
    "LogSurgeon.C42_derivable_is_accepted",
    "LogSurgeon.C42_accepted_unclean",
    "LogSurgeon.C42_one_type_clear",
    "LogSurgeon.C42_small_fits",
    "LogSurgeon.C42_unambiguous",
    "LogSurgeon.C42_schema_files",
    "LogSurgeon.C42_unproductive_refuted",
    "LogSurgeon.C42_unclean_refuted",
    "LogSurgeon.C42_repeated_use_refuted",
    "LogSurgeon.C42_unclear_refuted"
   ],
   "note": "All grammars, orders and derivation trees under the stated conditions; the schema grammar meets the conditions on grammars for every order of its special characters (C42_schema_files). Each *_refuted theorem shows that one of the conditions is needed: an unproductive symbol makes two LALR(1) item sets collapse (null state), an unclean grammar loses its accepting entry without a conflict being reported, the static children counter overflows after enough parses, an unclear token is misread. C42_accepted_fits is the converse about the array. That generation succeeds for the schema grammar and that its tokens are clear is C43."
  },
  {
   "property": "C43",
   "status": "partial",
   "theorems": [
    "LogSurgeon.C43_example_file",
    "LogSurgeon.C43_file_any_length_partial",
    "LogSurgeon.C43_aligned_refuted",
    "LogSurgeon.C43_rejected_string_partial",
    "LogSurgeon.C43_rejected_file_partial",
    "LogSurgeon.C43_syntax_error_partial",
    "LogSurgeon.C43_no_mark_partial",
    "LogSurgeon.C43_syntax_partial",
    "LogSurgeon.C43_paren_delimiters_refuted",
    "LogSurgeon.C43_reversed_range_refuted",
    "LogSurgeon.C43_schema_string_partial",
    "LogSurgeon.C43_schema_file_partial",
    "LogSurgeon.C43_no_file",
    "LogSurgeon.C43_sound",
    "LogSurgeon.C43_table",
    "LogSurgeon.C43_unambiguous",
    "LogSurgeon.C43_long_line_refuted",
    "LogSurgeon.C43_repeated_use_refuted"
   ],
   "note": "From the bytes of the text through schema lexer, input buffer, LALR(1) tables, parser and semantic rules to the AST, for all orders and addresses; texts of less than 24000 bytes (half the buffer; beyond, for strings, C35 is false) for which there is room in the children array (`Fit`: about 2000 units in the first line and, from one line with a variable to the next, about 1000). examples/schema.txt itself is an instance (Props/ExampleSchema.lean, C43_example_file). C43_long_line_refuted and C43_repeated_use_refuted: without the second bound the statement is false. C43_sound, C43_table and C43_unambiguous need no bound on the array, C43_unambiguous none on the length. The meaning of a pattern is the regex Pat.elab builds; what that matches is C07, C08, C14, C36. Rejection: a text that is no schema file throws, or contains one of three listed constructs (`Faulty`) for which the parser has undefined behaviour (C43_rejected_*); that it really has is C43_paren_delimiters_refuted and C43_reversed_range_refuted; texts outside the grammar throw, or have undefined behaviour because of such a construct before the error (C43_syntax_error_partial: on a syntax error the trees on the stack are evaluated before the message is made). Texts inside the grammar are parsed unless they contain such a construct or one of the listed ones that throw (C43_syntax_partial). Files of any length: C43_file_any_length_partial, for the parser as a machine on its ring buffer of 48000 bytes (Model/SchemaMachine): it stops, and has an AST exactly if the text describes one; provided that the lines fit and the length is no positive multiple of 48000. C43_aligned_refuted: for such a length no AST is ever returned."
  },
  {
   "property": "C44",
   "status": "proved",
   "theorems": [
    "LogSurgeon.C44_generation_terminates"
   ],
   "note": "All grammars, no conditions."
  },
  {
   "property": "C45",
   "status": "proved",
   "theorems": [
    "LogSurgeon.C45_no_undefined_behaviour",
    "LogSurgeon.C45_terminates",
    "LogSurgeon.C45_ends_always",
    "LogSurgeon.C45_decides_always",
    "LogSurgeon.C45_decides",
    "LogSurgeon.C45_schema_files",
    "LogSurgeon.C45_unclean_refuted"
   ],
   "note": "Every grammar of C42 for which generation reports no conflict (C45_ends_always, C45_decides_always): there is a constant c with at most c(n+1) steps for n tokens and no undefined behaviour where c(n+1) children fit; tokens of several types included for termination. C45_no_undefined_behaviour, C45_terminates and C45_decides give the constants explicitly where the symbols have weights; the grammar of schema files has them (C45_schema_files: 6n+2 steps). C45_unclean_refuted shows that a grammar that does not end cleanly (S -> a | S) is generated without conflict and the parser never ends on its sentence."
  },
  {
   "property": "C46",
   "status": "partial",
   "theorems": [
    "LogSurgeon.C46_histories_partial",
    "LogSurgeon.C46_no_hang",
    "LogSurgeon.C46_second_interval_refuted",
    "LogSurgeon.C46_find_empty_refuted",
    "LogSurgeon.C46_pop_refuted",
    "LogSurgeon.C46_pop_min_refuted"
   ],
   "note": "Proved for every history that runs into no undefined behaviour, whatever balance_factor computes (C46_histories_partial), and no history hangs. Undefined behaviour is reachable, so the full claim is false: the second insertion (a difference of pointers instead of heights, C46_second_interval_refuted), find on an empty tree, pop of an interval right of the root, pop of an interval with two neighbours. The tree is used by the UTF-8 states only, which the library does not instantiate."
  },
  {
   "property": "C47",
   "status": "partial",
   "theorems": [
    "LogSurgeon.C47_first_offending_token",
    "LogSurgeon.C47_message_string_partial",
    "LogSurgeon.C47_message_file_partial",
    "LogSurgeon.C47_complaint_throws",
    "LogSurgeon.C47_message_exists_partial",
    "LogSurgeon.C47_first_unit_partial",
    "LogSurgeon.C47_leading_newline_refuted",
    "LogSurgeon.C47_end_message_refuted",
    "LogSurgeon.C47_empty_file_refuted"
   ],
   "note": "For any grammar of C42: the parser stops at the first token that does not fit (C47_first_offending_token). For schema texts below the bounds of C43, the whole message from the bytes of the text: MessageFor. Every name listed as expected is that of a symbol that may come next (whatever is derived from it fits there), unless a phrase ends at this place; in that case it is a terminal that follows such a phrase somewhere in some schema file (SchemaExpected, SchemaFollows): because lookaheads are merged, it need not fit at this place. The names are those of m_id_symbol: the lookup of the character in report_error finds nothing, because generate() has moved the rules away. The claim is false in three ways: a newline is reported one line too low (C47_leading_newline_refuted); of the message about a text that ends too early what() shows only the part before the NUL character (C47_end_message_refuted); a schema followed by a carriage return is reported as an empty file (C47_empty_file_refuted). Where the stack contains something a semantic rule fails on, that failure comes instead of the message (StopsBefore)."
  },
  {
   "property": "C48",
   "status": "partial",
   "theorems": [
    "LogSurgeon.C48_constructor_partial",
    "LogSurgeon.C48_ast_events_partial",
    "LogSurgeon.C48_events_partial",
    "LogSurgeon.C48_file_any_length_partial",
    "LogSurgeon.C48_textbook_partial",
    "LogSurgeon.C48_division_unique",
    "LogSurgeon.C48_simple",
    "LogSurgeon.C48_reader_partial",
    "LogSurgeon.C48_example_file"
   ],
   "note": "Composition of C43, C17, C16, C18, C13, C15, C10, C08, C06, C19 and C01 into one statement about the text of the schema file and the log. Patterns are read as in Spec/Reading.lean, which is what is exactly accepted (C54_exact); C48_textbook_partial: when no alternative ends in an open repetition this is the usual meaning. C48_file_any_length_partial: schema files of any length, with try_schema_file as the machine of C43. Missing: schema files whose length is a multiple of 48000 or whose lines do not fit (C43), inputs with the byte 0xFD, the byte behind the input (C01_refuted). `r*` is read as `r+` (C09_star_refuted). The beginning of the log is described exactly (Division: the longest newline-free prefix that could be continued to a timestamp or variable hides the tokens beginning in it; every state of the automaton is shown to lead to acceptance, Proofs/Coacc); C48_simple: without such a prefix it is the expected division. C48_example_file: the file examples/schema.txt of the repository, all logs. Which of several types of a token is the first one (and thereby the kind by which events are divided) depends on the addresses of the NFA states (C05, finding on std::set order). C48_reader_partial: the same for ReaderParser (constructor from a path, log delivered by a reader that fills every request), under the additional conditions of C28 (EventsFit, which every log shorter than half of the buffer meets; total length not a multiple of the buffer size)."
  },
  {
   "property": "C49",
   "status": "partial",
   "theorems": [
    "LogSurgeon.C49_whole",
    "LogSurgeon.C49_chunks_partial",
    "LogSurgeon.C49_sizes_partial",
    "LogSurgeon.C49_repeats_refuted",
    "LogSurgeon.C49_twoLine_refuted"
   ],
   "note": "The whole program loop is modelled (Model/BufferClient): reads, eof flag, refill, printing. C49_chunks_partial needs that the log begins with a timestamp (C49_repeats_refuted: otherwise an event can be printed twice), that timestamps contain no newline (C49_twoLine_refuted), newline is a delimiter, no variable has a reserved name, NFA addresses in order of creation (the order of several types of a token depends on them), no byte 0xFD. C49_whole has none of these: a file that fits in the buffer. Key step: lexing again from a timestamp after a newline gives the same tokens (Proofs/Restart)."
  },
  {
   "property": "C50",
   "status": "partial",
   "theorems": [
    "LogSurgeon.C50_answers_partial",
    "LogSurgeon.C50_sound_partial",
    "LogSurgeon.C50_literal_partial",
    "LogSurgeon.C50_example",
    "LogSurgeon.C50_missed_refuted",
    "LogSurgeon.C50_open_refuted",
    "LogSurgeon.C50_many_refuted"
   ],
   "note": "The whole program is modelled from the texts on (Model/IntersectClient): add_variable calls, numbering, both DFAs, the static counter of the schema parser, ordered answer. C50_answers_partial: exact, with * read as one or more in patterns and search strings (C50_missed_refuted: v1:1 is not found by *1*); patterns read as in Spec/Reading.lean, texts without the keyword, total length at most 2000 characters (C50_many_refuted: no run gets through more than 1428 search strings). C50_sound_partial: nothing wrong is printed for the usual reading of * if no alternative of a pattern ends in * or + (otherwise it may be: C50_open_refuted). C50_literal_partial: no wildcard, exact in the usual reading. C50_example: the complete output of the program for its second schema."
  },
  {
   "property": "C51",
   "status": "partial",
   "theorems": [
    "LogSurgeon.C51_whole_partial",
    "LogSurgeon.C51_same_partial",
    "LogSurgeon.C51_short_lines_partial",
    "LogSurgeon.C51_refuted"
   ],
   "note": "Both programs are modelled with their reads and everything they print. C51_whole_partial, C51_same_partial under the conditions of C28 (events fit half of the buffer) resp. C28 and C49; C51_short_lines_partial with the condition on the lengths of lines. C51_refuted: an event longer than half of the buffer is printed with different variables by the two programs."
  },
  {
   "property": "C52",
   "status": "partial",
   "theorems": [
    "LogSurgeon.C52_text_identifies_partial",
    "LogSurgeon.C52_refuted"
   ],
   "note": "Proved for patterns whose literals are none of ( ) [ <, whose bracket expressions have no bound ] (serialize does not escape, C52_refuted: a{1} and the eight literals \\(a\\)\\{1,1\\}), and whose capture names do not contain > (the grammar only allows letters and digits)."
  },
  {
   "property": "C53",
   "status": "partial",
   "theorems": [
    "LogSurgeon.C53_file_any_length_partial",
    "LogSurgeon.C53_independent",
    "LogSurgeon.C53_room",
    "LogSurgeon.C53_call_partial",
    "LogSurgeon.C53_schedule_partial",
    "LogSurgeon.C53_strings_partial"
   ],
   "note": "C53_independent and C53_room hold for all parsers and schedules. C53_call_partial, C53_schedule_partial and C53_strings_partial are about texts of less than 24000 bytes that the reader delivers at once and whose lines are not too long (Fit 0). C53_file_any_length_partial: files of any length that is no positive multiple of 48000 (lines not too long), under every schedule. A step is one iteration of the loop of parse: steps of two threads at the same time are a data race (undefined behaviour) and are not described. The message of a rejected text (report_error reads the array again) is described for a parser that is alone only (C47)."
  },
  {
   "property": "C54",
   "status": "proved",
   "theorems": [
    "LogSurgeon.C54_exact",
    "LogSurgeon.C54_dfa",
    "LogSurgeon.C54_types"
   ],
   "note": "For every schema regex, without any condition, the strings the NFA (C54_exact), the DFA (C54_dfa) and the lexer of a whole schema (C54_types) accept are exactly those of its reading (Spec/Reading.lean, defined on the syntax: an expression is what leads to its end plus what may follow there again). Relation to the textbook meaning: C07_reading, C08_reading_partial."
  },
  {
   "property": "C55",
   "status": "proved",
   "theorems": [
    "LogSurgeon.C55_exact"
   ],
   "note": "Every text, no condition (C55_exact, Spec/Search.lean); the specification determines the tokens. Which types a piece of text has: C54_types."
  },
  {
   "property": "C56",
   "status": "proved",
   "theorems": [
    "LogSurgeon.C56_first_char",
    "LogSurgeon.C56_never_inside"
   ],
   "note": "Exact for every schema. The comment in Lexer.hpp:119 (first character of any variable) describes something else: the rules begin with the delimiter."
  },
  {
   "property": "C57",
   "status": "proved",
   "theorems": [
    "LogSurgeon.C57_get_rule",
    "LogSurgeon.C57_automaton",
    "LogSurgeon.C57_twice"
   ],
   "note": "All histories of add_rule and generate; whether generate can be built at all is an outcome of the run (run = some)."
  },
  {
   "property": "C58",
   "status": "proved",
   "theorems": [
    "LogSurgeon.C58_order",
    "LogSurgeon.C58_consistent",
    "LogSurgeon.C58_tokens"
   ],
   "note": "C58_order: exact, for any addresses. C58_consistent and C58_tokens when the rules have different ids (one rule per variable name)."
  },
  {
   "property": "C59",
   "status": "proved",
   "theorems": [
    "LogSurgeon.C59_copy"
   ],
   "note": "Exact for every event parsed from a buffer (CopyShows, Spec/Copy.lean); what the loss of the first token contradicts is C23_refuted."
  },
  {
   "property": "C60",
   "status": "proved",
   "theorems": [
    "LogSurgeon.C60_message",
    "LogSurgeon.C60_same_tables",
    "LogSurgeon.C60_no_conflict",
    "LogSurgeon.C60_tables_or_message"
   ],
   "note": "Specification in Spec/Conflict.lean: FIRST, FOLLOW and productions under way, by name. The number of the item set in the message is not specified. A reduction that the accepting entry overwrites is not reported (finding 18), so the converse (no message, no conflict) is not claimed."
  },
  {
   "property": "C61",
   "status": "proved",
   "theorems": [
    "LogSurgeon.C61_registers",
    "LogSurgeon.C61_query_total",
    "LogSurgeon.C61_copies_share",
    "LogSurgeon.C61_append_private"
   ],
   "note": "The exact behaviour behind C31 (independent lists): no condition on the history. Spec/SharedRegs has cells and lists, no tree. The handler is not yet used by the lexer in this commit of the library."
  },
  {
   "property": "C62",
   "status": "proved",
   "theorems": [
    "LogSurgeon.C62_text_identifies",
    "LogSurgeon.C62_same_language",
    "LogSurgeon.C62_rules"
   ],
   "note": "Byte states only (the UTF-8 instantiation does not type-check). Tags are identified by their names, as in the text; empty names or names with , or ] do not occur in schemas (names consist of letters and digits). For regular expressions (ASTs) see C52."
  },
  {
   "property": "C63",
   "status": "partial",
   "theorems": [
    "LogSurgeon.C63_modulo",
    "LogSurgeon.C63_small_partial",
    "LogSurgeon.C63_half",
    "LogSurgeon.C63_refuted",
    "LogSurgeon.C63_refuted_case"
   ],
   "note": "Sizes and positions of the input buffer in 32 bits (Model/Wide). Proved below 2 GiB (then the parser is the one all other theorems are about). Refuted from 2 GiB on: set_storage doubles the size in 32 bits, a finished buffer of exactly 2 GiB gives no event but BufferOutOfBounds, for every schema and content. Exact behaviour for every size: C63_modulo (size mod 2^32 below 2 GiB: only that many bytes are parsed) and C63_half (otherwise: size mod 2^32 minus 2 GiB bytes, as an unfinished buffer)."
  },
  {
   "property": "C64",
   "status": "partial",
   "theorems": [
    "LogSurgeon.C64_same",
    "LogSurgeon.C64_no_delimiters",
    "LogSurgeon.C64_message",
    "LogSurgeon.C64_marked",
    "LogSurgeon.C64_no_file_name",
    "LogSurgeon.C64_lines",
    "LogSurgeon.C64_text_partial"
   ],
   "note": "add_rules with its messages and the line numbers of the variables (Model/RuleError, Model/RuleLines). C64_same: it throws exactly when the model without messages does; C64_message: first offence, line, name, least delimiter, for every AST; C64_lines: the line numbers computed by the schema parser are those of the declaring lines; C64_text_partial: from the text to the message (under the conditions of C43: less than 24000 bytes, room for the tree). C64_no_file_name: finding 33, m_file_path is never assigned, so the message has no file name and the detailed part (C64_marked) is unreachable unless the user sets the member. The message is of bytes; lines of 2^32 and more are excluded."
  },
  {
   "property": "C65",
   "status": "partial",
   "theorems": [
    "LogSurgeon.C65_rebuild_partial",
    "LogSurgeon.C65_determined_partial",
    "LogSurgeon.C65_refuted",
    "LogSurgeon.C65_names"
   ],
   "note": "C65_rebuild_partial gives an explicit decoder (Spec/Rebuild: rebuild) that needs no table of names; condition: the static text of the event contains no '<'. C65_refuted: without the condition it is false (finding 35: 'T <x> b' and 'T b <x>' have the same timestamp, logtype and variables). C65_names: names written in a schema file satisfy the condition on names."
  },
  {
   "property": "C66",
   "status": "partial",
   "theorems": [
    "LogSurgeon.C66_parts_partial",
    "LogSurgeon.C66_many_partial",
    "LogSurgeon.C66_logtype_refuted"
   ],
   "note": "C66_parts_partial for two parts (with the exact difference of the logtype of the last event before the division), C66_many_partial for any number of parts. Conditions: newline is a delimiter, no reserved variable names, timestamps without newline (needed, see C49_twoLine_refuted), addresses of NFA states in order of creation, no byte 0xFD, the log begins with a timestamp. C66_logtype_refuted: the logtype of the last event of a part does change (finding 36)."
  },
  {
   "property": "C67",
   "status": "partial",
   "theorems": [
    "LogSurgeon.C67_lines_partial",
    "LogSurgeon.C67_timestamp_partial",
    "LogSurgeon.C67_grouped_partial",
    "LogSurgeon.C67_plain_partial",
    "LogSurgeon.C67_empty_line_refuted",
    "LogSurgeon.C67_reader_partial"
   ],
   "note": "C67_lines_partial: the events of any log are those of `lineEvents` (Spec/LineEvents.lean). C67_timestamp_partial: which lines begin with a timestamp, in terms of the regexes of the schema (needs timestamps declared before the other variables, as otherwise a variable declared earlier takes precedence for the same text, and addresses of NFA states in order of creation). C67_grouped_partial: logs that begin with a timestamp. C67_plain_partial: schemas without timestamps, logs without empty lines. C67_empty_line_refuted: an empty line is no event of its own but becomes the beginning of the next one (finding 37). Conditions: newline is a delimiter, no reserved variable names, timestamps without newline, no byte 0xFD. C67_reader_partial: the same for ReaderParser with a buffer of any size, under a condition on the lines alone."
  },
  {
   "property": "C68",
   "status": "partial",
   "theorems": [
    "LogSurgeon.C68_context_partial"
   ],
   "note": "C68_context_partial. Conditions as in C66. That the logtypes of the last event and of another one with the same text do differ: C66_logtype_refuted (finding 36)."
  },
  {
   "property": "C69",
   "status": "partial",
   "theorems": [
    "LogSurgeon.C69_reader_partial",
    "LogSurgeon.C69_append_partial",
    "LogSurgeon.C69_pieces_partial",
    "LogSurgeon.C69_divided",
    "LogSurgeon.C69_newline_refuted"
   ],
   "note": "C69_append_partial (a log divided in front of one newline), C69_pieces_partial (in front of all of them), C69_divided (the pieces are the log, and each has a newline at most at its beginning). Conditions: newline is a delimiter, no variable has a reserved name, timestamps contain no newline, no byte 0xFD. C69_newline_refuted: a newline in front of a variable is reported with it or not, depending on the event (finding 11). C69_reader_partial: the same for the example program that reads the log through a buffer."
  },
  {
   "property": "C70",
   "status": "partial",
   "theorems": [
    "LogSurgeon.C70_join_partial",
    "LogSurgeon.C70_many_partial",
    "LogSurgeon.C70_first_or_later_partial",
    "LogSurgeon.C70_no_timestamp_refuted"
   ],
   "note": "C70_join_partial (two logs), C70_many_partial (any number), C70_first_or_later_partial (a line begins with a timestamp behind a newline iff it does at the start of a log). Conditions as in C66. C70_no_timestamp_refuted: without timestamps an empty event appears at the end of each log."
  },
  {
   "property": "C71",
   "status": "partial",
   "theorems": [
    "LogSurgeon.C71_division",
    "LogSurgeon.C71_order_partial",
    "LogSurgeon.C71_files_partial",
    "LogSurgeon.C71_order_refuted",
    "LogSurgeon.C71_reader_partial"
   ],
   "note": "C71_division: the division into pieces (static text, tokens, end) is the same, without conditions. C71_order_partial: the events (Spec/SchemaChange: EventOut.Alike, SameEvents) when newlines and timestamps are nothing else in the text (ClearLines: otherwise the first type decides, and which type is the first depends on the order, C11), with a byte behind the input and no byte 0xFD in it (as C48). C71_order_refuted: without that condition the order does matter: with a variable that also matches the timestamp, `T\u23ceb` is one event or two, depending on which is declared first. C71_files_partial: the same from the texts of the two schema files (the constructor that reads a file). C71_reader_partial: the same for two `ReaderParser`s made from the two schema files, for a text two readers deliver, if its events fit the buffers (as in C28, C48)."
  },
  {
   "property": "C72",
   "status": "partial",
   "theorems": [
    "LogSurgeon.C72_division",
    "LogSurgeon.C72_unused_partial",
    "LogSurgeon.C72_files_partial",
    "LogSurgeon.C72_beginning_refuted",
    "LogSurgeon.C72_reader_partial"
   ],
   "note": "C72_division, C72_unused_partial: the same for a further variable (anywhere in the schema) with no instance in the text and such that no beginning of the text can be continued to one (Spec/SchemaChange: Unused). Conditions as C71. C72_files_partial: from the texts of the schema files. C72_reader_partial: the same for two `ReaderParser`s made from the two schema files, for a text two readers deliver, if its events fit the buffers (as in C28, C48). C72_beginning_refuted: the condition on the beginning of the text is needed: with a further `timestamp:a 1b`, of which there is no instance in the text `a 1`, the variable `x:1` is not found any more."
  },
  {
   "property": "C73",
   "status": "partial",
   "theorems": [
    "LogSurgeon.C73_division",
    "LogSurgeon.C73_equivalent_partial",
    "LogSurgeon.C73_files_partial",
    "LogSurgeon.C73_reader_partial"
   ],
   "note": "C73_division: the division is the same, without conditions. C73_equivalent_partial: the events, conditions as C71; both schemas have to be accepted (a pattern that only mentions a delimiter without being able to read it is rejected, C15). Two ways of writing a pattern are compared by what they read (Spec/Reading: Pat.ReadAs, Spec/SchemaChange: ReadsAlike). C73_reader_partial: the same for two `ReaderParser`s made from the two schema files, for a text two readers deliver, if its events fit the buffers (as in C28, C48). C73_files_partial: for `BufferParser`, from the texts of the schema files."
  },
  {
   "property": "C74",
   "status": "partial",
   "theorems": [
    "LogSurgeon.C74_division",
    "LogSurgeon.C74_rename_partial",
    "LogSurgeon.C74_files_partial",
    "LogSurgeon.C74_reader_partial"
   ],
   "note": "C74_division: the division is the same, without conditions. C74_rename_partial: the events (Spec/SchemaChange: rename, Renames), conditions as C71; the logtypes are the same if in those of the first the new names stand (when every name's instances are instances of nothing else). C74_files_partial: from the texts of the schema files. C74_reader_partial: for two `ReaderParser`s made from the two schema files, logtypes included."
  },
  {
   "property": "C75",
   "status": "partial",
   "theorems": [
    "LogSurgeon.C75_division",
    "LogSurgeon.C75_delimiter_partial",
    "LogSurgeon.C75_files_partial",
    "LogSurgeon.C75_reader_partial"
   ],
   "note": "C75_division: the division is the same. C75_delimiter_partial: the events (Spec/SchemaChange: MoreDelims), conditions as C71; some byte other than 0xFD is not a delimiter. C75_files_partial: for `BufferParser`, from the texts of the schema files. C75_reader_partial: for two `ReaderParser`s made from the two schema files (as C48_reader_partial)."
  },
  {
   "property": "C76",
   "status": "partial",
   "theorems": [
    "LogSurgeon.C76_division",
    "LogSurgeon.C76_agree_partial",
    "LogSurgeon.C76_files_partial",
    "LogSurgeon.C76_reader_partial"
   ],
   "note": "C76_division: the division is the same. C76_agree_partial: the events (Spec/SchemaChange: Agree), conditions as C71, of which C71\u2013C73 and C75 are special cases. C76_files_partial: from the texts of the schema files. C76_reader_partial: for two `ReaderParser`s made from the two schema files (as C48_reader_partial), logtypes included (Spec/SchemaChangeReader: SameSeen). The condition on the beginnings of the text is needed: C72_beginning_refuted."
  }
 ]
}