{
 "C07": {
  "note": "Every string matched under the standard meaning is accepted, for every regex without empty alternatives and every schema pattern without zero-repetition constructs, whatever the other rules; the build never fails; C07_schema_types: same statement for whole schemas and the lexer's DFA. C07_reading: whatever the textbook meaning (with at least one repetition) matches is in the exact reading (C54)."
 },
 "C08": {
  "note": "The property is false (a+|b accepts \"ba\": C08_sound_refuted). What is accepted exactly is C54. C08_reading_partial: for sensible patterns in which no alternative ends in an open repetition the reading is the textbook meaning (with r* read as r+). C08_pattern_to_dfa_partial and C08_schema_types_partial carry soundness to the DFA and to whole schemas."
 },
 "C09": {
  "note": "The code violates this: r* never matches the empty string (refuted for every r that does not itself match it); what it does match is characterised."
 },
 "C10": {
  "note": "For all rule lists and all addresses of NFA states."
 },
 "C11": {
  "note": "The order of ids in a DFA state follows the addresses of NFA states (std::set of pointers): proved when addresses grow in allocation order, refuted otherwise."
 },
 "C12": {
  "note": "For all pairs of DFAs."
 },
 "C14": {
  "note": "merge and complement exact; the partial ones restrict to classes the schema can express; [^] (empty negation) refuted."
 },
 "C36": {
  "note": "n≥1 exact; {0} and {0,0} and reversed bounds refuted."
 },
 "C30": {
  "note": "Refinement to an abstract tree for every history, including errors."
 },
 "C31": {
  "note": "Holds for all histories in which set_register is only used on a register owning its newest position; refuted in general (set after copy changes both registers). New registers are rooted at the root node. The exact behaviour of every history is C61."
 },
 "C01": {
  "note": "Proved for every schema with a variable, every input and every usage history, when the allocation has at least one byte behind the input (events concatenate to the input, loop ends regularly). Refuted without that byte: the parser reads content[size] (get_char(0) of the end token)."
 },
 "C02": {
  "note": "Same condition as C01 (one addressable byte behind the input): at most size+1 calls, each of which returns; never BufferOutOfBounds."
 },
 "C03": {
  "note": "Texts of the returned events are a prefix of the buffer; events and tokens returned for an unfinished input are the first events and tokens of every continuation of the input."
 },
 "C04": {
  "note": "Tokens tile the input, are non-empty, two uncaught strings are never adjacent; texts concatenate to the input."
 },
 "C05": {
  "note": "C05_recognised: shape, delimiter and full type list of every token; C05_types_exact: the types reported for a text are those of exactly the schema rules whose own automaton accepts it (what that automaton accepts: C07, C08)."
 },
 "C06": {
  "note": "Token sequence equals the unique one of a declarative specification (leftmost, then longest). For texts whose beginning partially matches a timestamp the statement is false (C06_refuted); what the lexer does instead is C06_exact: for every text without the byte 0xFD, the unique tokens of a specification that also says which prefix hides tokens and when the token at the start of the file is missed. For texts containing the byte 0xFD it is false (C06_fd_refuted). What the tokens of every text are is C55."
 },
 "C13": {
  "note": "For all delimiter lists, code points and whole patterns."
 },
 "C15": {
  "note": "Recognised variables are one delimiter followed by non-delimiters; schemas that could match a delimiter inside a variable are rejected."
 },
 "C16": {
  "note": "All schemas, including repeated and reserved names."
 },
 "C17": {
  "note": "Also: the call is defined exactly for -1..size (outside it is undefined behaviour). C17_text_partial: add_variable from the text name:pattern (short texts, see C43).",
  "status": "proved"
 },
 "C18": {
  "note": "All schemas; earlier delimiter lines leave no residue at all (the same parser is built)."
 },
 "C19": {
  "note": "C19_events: the events shown are the segmentation of the token sequence; C19_shape: declarative shape of each event and of the transition between successive events."
 },
 "C20": {
  "note": "All inputs and events."
 },
 "C21": {
  "note": "Holds whatever was parsed before if that parse ran until done or out of bytes. Refuted for an abandoned parse (reset() keeps the pending start-of-log token)."
 },
 "C22": {
  "note": "Offset is right on BufferOutOfBounds when no event or an event with a timestamp is in progress; refuted otherwise, and refuted for Success. Exact behaviour for all texts and histories: C22_offset_exact (an event without timestamp in progress: the offset is the stale position in the first slot of the output buffer, 0 for a new parser: C22_new_parser_zero), C22_success_offset (after Success: the start of the next event, or a place behind its first token)."
 },
 "C23": {
  "note": "Proved for all events with a timestamp (valid tokens); refuted for events without one and for the empty event."
 },
 "C24": {
  "note": "Logtype characterised exactly for all events; no information about variables but type and first character (C24_no_leak); the first character is a delimiter except for a variable at the start of an event without a timestamp (refuted there)."
 },
 "C25": {
  "note": "All tokens, wrapped or not, cached or not; get_char only for i<256 (refuted beyond: uint8_t argument). What get_char returns for any index is C25_getChar."
 },
 "C26": {
  "note": "Any number of tokens."
 },
 "C27": {
  "note": "For every history of read/next/consume/seek/grow of a client that keeps to read_if_safe, as a refinement to the unbounded byte stream."
 },
 "C28": {
  "note": "C28_any_reader_partial: for every reader, also one that gives less than asked for: the events are those of the text it gives up to its first short answer (Reader.Gives; unique, C28_given_unique; all of it for a reader that fills every request, C28_full_gives). Proved (same events as BufferParser, for any buffer size >= 4) for readers that fill every request and texts whose events fit half the buffer and do not end, without timestamp, at a multiple of it; C28_short_lines_partial: an event fits if, with the first line of the next one, it is shorter than half of the buffer (a condition on the lengths of lines only). Missing: short reads, larger events, aligned events; each refuted by a concrete run. C28_refuted_aligned: the length must not be a multiple of the buffer (the last word of such a log can be reported as a variable)."
 },
 "C29": {
  "note": "Proved under the conditions of C28 (at most size+1 calls, one round each, buffer not grown). Refuted in general: a reachable state from which parse_next_event doubles its buffer for ever (proved for every number of rounds)."
 },
 "C32": {
  "note": "Exactly one run per capture for regexes without captures in repetitions; at least one run, well nested, for all; refuted for captures in repetitions at the end of an alternative."
 },
 "C33": {
  "note": "Traversal and serialised items exact for every NFA; number of text lines only without newline transitions (refuted: newline is written raw). That the text can nevertheless be read in one way only is C62."
 },
 "C34": {
  "note": "For every grammar, every traversal order of the unordered containers, every token sequence; the tree returned is a derivation. C34_schema_grammar instantiates it with the schema grammar."
 },
 "C35": {
  "note": "Strings shorter than half of the input buffer; refuted for longer ones (position reset at every read). Files: complete for every request pattern."
 },
 "C37": {
  "note": "No undefined behaviour or exception for schemas with a variable (and a byte behind the input); refuted for schemas without variables."
 },
 "C38": {
  "note": "All tokens of all inputs."
 },
 "C39": {
  "note": "'*': exact. '?': complete behaviour characterised; refuted (null dereference; delimiters included; types of completions not reported; assertion)."
 },
 "C40": {
  "note": "All histories of block and line reads."
 },
 "C41": {
  "note": "All events and types."
 },
 "C42": {
  "status": "proved",
  "note": "All grammars, orders and derivation trees under the stated conditions; the schema grammar meets the conditions on grammars for every order of its special characters (C42_schema_files). Each *_refuted theorem shows that one of the conditions is needed: an unproductive symbol makes two LALR(1) item sets collapse (null state), an unclean grammar loses its accepting entry without a conflict being reported, the static children counter overflows after enough parses, an unclear token is misread. C42_accepted_fits is the converse about the array. That generation succeeds for the schema grammar and that its tokens are clear is C43."
 },
 "C43": {
  "note": "From the bytes of the text through schema lexer, input buffer, LALR(1) tables, parser and semantic rules to the AST, for all orders and addresses; texts of less than 24000 bytes (half the buffer; beyond, for strings, C35 is false) for which there is room in the children array (`Fit`: about 2000 units in the first line and, from one line with a variable to the next, about 1000). examples/schema.txt itself is an instance (Props/ExampleSchema.lean, C43_example_file). C43_long_line_refuted and C43_repeated_use_refuted: without the second bound the statement is false. C43_sound, C43_table and C43_unambiguous need no bound on the array, C43_unambiguous none on the length. The meaning of a pattern is the regex Pat.elab builds; what that matches is C07, C08, C14, C36. Rejection: a text that is no schema file throws, or contains one of three listed constructs (`Faulty`) for which the parser has undefined behaviour (C43_rejected_*); that it really has is C43_paren_delimiters_refuted and C43_reversed_range_refuted; texts outside the grammar throw, or have undefined behaviour because of such a construct before the error (C43_syntax_error_partial: on a syntax error the trees on the stack are evaluated before the message is made). Texts inside the grammar are parsed unless they contain such a construct or one of the listed ones that throw (C43_syntax_partial). Files of any length: C43_file_any_length_partial, for the parser as a machine on its ring buffer of 48000 bytes (Model/SchemaMachine): it stops, and has an AST exactly if the text describes one; provided that the lines fit and the length is no positive multiple of 48000. C43_aligned_refuted: for such a length no AST is ever returned."
 },
 "C44": {
  "note": "All grammars, no conditions."
 },
 "C45": {
  "status": "proved",
  "note": "Every grammar of C42 for which generation reports no conflict (C45_ends_always, C45_decides_always): there is a constant c with at most c(n+1) steps for n tokens and no undefined behaviour where c(n+1) children fit; tokens of several types included for termination. C45_no_undefined_behaviour, C45_terminates and C45_decides give the constants explicitly where the symbols have weights; the grammar of schema files has them (C45_schema_files: 6n+2 steps). C45_unclean_refuted shows that a grammar that does not end cleanly (S -> a | S) is generated without conflict and the parser never ends on its sentence."
 },
 "C46": {
  "note": "Proved for every history that runs into no undefined behaviour, whatever balance_factor computes (C46_histories_partial), and no history hangs. Undefined behaviour is reachable, so the full claim is false: the second insertion (a difference of pointers instead of heights, C46_second_interval_refuted), find on an empty tree, pop of an interval right of the root, pop of an interval with two neighbours. The tree is used by the UTF-8 states only, which the library does not instantiate."
 },
 "C47": {
  "note": "For any grammar of C42: the parser stops at the first token that does not fit (C47_first_offending_token). For schema texts below the bounds of C43, the whole message from the bytes of the text: MessageFor. Every name listed as expected is that of a symbol that may come next (whatever is derived from it fits there), unless a phrase ends at this place; in that case it is a terminal that follows such a phrase somewhere in some schema file (SchemaExpected, SchemaFollows): because lookaheads are merged, it need not fit at this place. The names are those of m_id_symbol: the lookup of the character in report_error finds nothing, because generate() has moved the rules away. The claim is false in three ways: a newline is reported one line too low (C47_leading_newline_refuted); of the message about a text that ends too early what() shows only the part before the NUL character (C47_end_message_refuted); a schema followed by a carriage return is reported as an empty file (C47_empty_file_refuted). Where the stack contains something a semantic rule fails on, that failure comes instead of the message (StopsBefore)."
 },
 "C48": {
  "note": "Composition of C43, C17, C16, C18, C13, C15, C10, C08, C06, C19 and C01 into one statement about the text of the schema file and the log. Patterns are read as in Spec/Reading.lean, which is what is exactly accepted (C54_exact); C48_textbook_partial: when no alternative ends in an open repetition this is the usual meaning. C48_file_any_length_partial: schema files of any length, with try_schema_file as the machine of C43. Missing: schema files whose length is a multiple of 48000 or whose lines do not fit (C43), inputs with the byte 0xFD, the byte behind the input (C01_refuted). `r*` is read as `r+` (C09_star_refuted). The beginning of the log is described exactly (Division: the longest newline-free prefix that could be continued to a timestamp or variable hides the tokens beginning in it; every state of the automaton is shown to lead to acceptance, Proofs/Coacc); C48_simple: without such a prefix it is the expected division. C48_example_file: the file examples/schema.txt of the repository, all logs. Which of several types of a token is the first one (and thereby the kind by which events are divided) depends on the addresses of the NFA states (C05, finding on std::set order). C48_reader_partial: the same for ReaderParser (constructor from a path, log delivered by a reader that fills every request), under the additional conditions of C28 (EventsFit, which every log shorter than half of the buffer meets; total length not a multiple of the buffer size)."
 },
 "C49": {
  "note": "The whole program loop is modelled (Model/BufferClient): reads, eof flag, refill, printing. C49_chunks_partial needs that the log begins with a timestamp (C49_repeats_refuted: otherwise an event can be printed twice), that timestamps contain no newline (C49_twoLine_refuted), newline is a delimiter, no variable has a reserved name, NFA addresses in order of creation (the order of several types of a token depends on them), no byte 0xFD. C49_whole has none of these: a file that fits in the buffer. Key step: lexing again from a timestamp after a newline gives the same tokens (Proofs/Restart)."
 },
 "C50": {
  "note": "The whole program is modelled from the texts on (Model/IntersectClient): add_variable calls, numbering, both DFAs, the static counter of the schema parser, ordered answer. C50_answers_partial: exact, with * read as one or more in patterns and search strings (C50_missed_refuted: v1:1 is not found by *1*); patterns read as in Spec/Reading.lean, texts without the keyword, total length at most 2000 characters (C50_many_refuted: no run gets through more than 1428 search strings). C50_sound_partial: nothing wrong is printed for the usual reading of * if no alternative of a pattern ends in * or + (otherwise it may be: C50_open_refuted). C50_literal_partial: no wildcard, exact in the usual reading. C50_example: the complete output of the program for its second schema."
 },
 "C51": {
  "note": "Both programs are modelled with their reads and everything they print. C51_whole_partial, C51_same_partial under the conditions of C28 (events fit half of the buffer) resp. C28 and C49; C51_short_lines_partial with the condition on the lengths of lines. C51_refuted: an event longer than half of the buffer is printed with different variables by the two programs."
 },
 "C52": {
  "note": "Proved for patterns whose literals are none of ( ) [ <, whose bracket expressions have no bound ] (serialize does not escape, C52_refuted: a{1} and the eight literals \\(a\\)\\{1,1\\}), and whose capture names do not contain > (the grammar only allows letters and digits)."
 },
 "C53": {
  "note": "C53_independent and C53_room hold for all parsers and schedules. C53_call_partial, C53_schedule_partial and C53_strings_partial are about texts of less than 24000 bytes that the reader delivers at once and whose lines are not too long (Fit 0). C53_file_any_length_partial: files of any length that is no positive multiple of 48000 (lines not too long), under every schedule. A step is one iteration of the loop of parse: steps of two threads at the same time are a data race (undefined behaviour) and are not described. The message of a rejected text (report_error reads the array again) is described for a parser that is alone only (C47)."
 },
 "C54": {
  "note": "For every schema regex, without any condition, the strings the NFA (C54_exact), the DFA (C54_dfa) and the lexer of a whole schema (C54_types) accept are exactly those of its reading (Spec/Reading.lean, defined on the syntax: an expression is what leads to its end plus what may follow there again). Relation to the textbook meaning: C07_reading, C08_reading_partial."
 },
 "C55": {
  "note": "Every text, no condition (C55_exact, Spec/Search.lean); the specification determines the tokens. Which types a piece of text has: C54_types."
 },
 "C56": {
  "note": "Exact for every schema. The comment in Lexer.hpp:119 (first character of any variable) describes something else: the rules begin with the delimiter."
 },
 "C57": {
  "note": "All histories of add_rule and generate; whether generate can be built at all is an outcome of the run (run = some)."
 },
 "C58": {
  "note": "C58_order: exact, for any addresses. C58_consistent and C58_tokens when the rules have different ids (one rule per variable name)."
 },
 "C59": {
  "note": "Exact for every event parsed from a buffer (CopyShows, Spec/Copy.lean); what the loss of the first token contradicts is C23_refuted."
 },
 "C60": {
  "note": "Specification in Spec/Conflict.lean: FIRST, FOLLOW and productions under way, by name. The number of the item set in the message is not specified. A reduction that the accepting entry overwrites is not reported (finding 18), so the converse (no message, no conflict) is not claimed."
 },
 "C61": {
  "note": "The exact behaviour behind C31 (independent lists): no condition on the history. Spec/SharedRegs has cells and lists, no tree. The handler is not yet used by the lexer in this commit of the library."
 },
 "C62": {
  "note": "Byte states only (the UTF-8 instantiation does not type-check). Tags are identified by their names, as in the text; empty names or names with , or ] do not occur in schemas (names consist of letters and digits). For regular expressions (ASTs) see C52."
 },
 "C63": {
  "note": "Sizes and positions of the input buffer in 32 bits (Model/Wide). Proved below 2 GiB (then the parser is the one all other theorems are about). Refuted from 2 GiB on: set_storage doubles the size in 32 bits, a finished buffer of exactly 2 GiB gives no event but BufferOutOfBounds, for every schema and content. Exact behaviour for every size: C63_modulo (size mod 2^32 below 2 GiB: only that many bytes are parsed) and C63_half (otherwise: size mod 2^32 minus 2 GiB bytes, as an unfinished buffer)."
 },
 "C64": {
  "note": "add_rules with its messages and the line numbers of the variables (Model/RuleError, Model/RuleLines). C64_same: it throws exactly when the model without messages does; C64_message: first offence, line, name, least delimiter, for every AST; C64_lines: the line numbers computed by the schema parser are those of the declaring lines; C64_text_partial: from the text to the message (under the conditions of C43: less than 24000 bytes, room for the tree). C64_no_file_name: finding 33, m_file_path is never assigned, so the message has no file name and the detailed part (C64_marked) is unreachable unless the user sets the member. The message is of bytes; lines of 2^32 and more are excluded."
 },
 "C65": {
  "note": "C65_rebuild_partial gives an explicit decoder (Spec/Rebuild: rebuild) that needs no table of names; condition: the static text of the event contains no '<'. C65_refuted: without the condition it is false (finding 35: 'T <x> b' and 'T b <x>' have the same timestamp, logtype and variables). C65_names: names written in a schema file satisfy the condition on names."
 },
 "C66": {
  "note": "C66_parts_partial for two parts (with the exact difference of the logtype of the last event before the division), C66_many_partial for any number of parts. Conditions: newline is a delimiter, no reserved variable names, timestamps without newline (needed, see C49_twoLine_refuted), addresses of NFA states in order of creation, no byte 0xFD, the log begins with a timestamp. C66_logtype_refuted: the logtype of the last event of a part does change (finding 36)."
 },
 "C67": {
  "note": "C67_lines_partial: the events of any log are those of `lineEvents` (Spec/LineEvents.lean). C67_timestamp_partial: which lines begin with a timestamp, in terms of the regexes of the schema (needs timestamps declared before the other variables, as otherwise a variable declared earlier takes precedence for the same text, and addresses of NFA states in order of creation). C67_grouped_partial: logs that begin with a timestamp. C67_plain_partial: schemas without timestamps, logs without empty lines. C67_empty_line_refuted: an empty line is no event of its own but becomes the beginning of the next one (finding 37). Conditions: newline is a delimiter, no reserved variable names, timestamps without newline, no byte 0xFD. C67_reader_partial: the same for ReaderParser with a buffer of any size, under a condition on the lines alone."
 },
 "C68": {
  "note": "C68_context_partial. Conditions as in C66. That the logtypes of the last event and of another one with the same text do differ: C66_logtype_refuted (finding 36)."
 },
 "C69": {
  "note": "C69_append_partial (a log divided in front of one newline), C69_pieces_partial (in front of all of them), C69_divided (the pieces are the log, and each has a newline at most at its beginning). Conditions: newline is a delimiter, no variable has a reserved name, timestamps contain no newline, no byte 0xFD. C69_newline_refuted: a newline in front of a variable is reported with it or not, depending on the event (finding 11). C69_reader_partial: the same for the example program that reads the log through a buffer."
 },
 "C70": {
  "note": "C70_join_partial (two logs), C70_many_partial (any number), C70_first_or_later_partial (a line begins with a timestamp behind a newline iff it does at the start of a log). Conditions as in C66. C70_no_timestamp_refuted: without timestamps an empty event appears at the end of each log."
 },
 "C71": {
  "note": "C71_division: the division into pieces (static text, tokens, end) is the same, without conditions. C71_order_partial: the events (Spec/SchemaChange: EventOut.Alike, SameEvents) when newlines and timestamps are nothing else in the text (ClearLines: otherwise the first type decides, and which type is the first depends on the order, C11), with a byte behind the input and no byte 0xFD in it (as C48). C71_order_refuted: without that condition the order does matter: with a variable that also matches the timestamp, `T⏎b` is one event or two, depending on which is declared first. C71_files_partial: the same from the texts of the two schema files (the constructor that reads a file). C71_reader_partial: the same for two `ReaderParser`s made from the two schema files, for a text two readers deliver, if its events fit the buffers (as in C28, C48)."
 },
 "C72": {
  "note": "C72_division, C72_unused_partial: the same for a further variable (anywhere in the schema) with no instance in the text and such that no beginning of the text can be continued to one (Spec/SchemaChange: Unused). Conditions as C71. C72_files_partial: from the texts of the schema files. C72_reader_partial: the same for two `ReaderParser`s made from the two schema files, for a text two readers deliver, if its events fit the buffers (as in C28, C48). C72_beginning_refuted: the condition on the beginning of the text is needed: with a further `timestamp:a 1b`, of which there is no instance in the text `a 1`, the variable `x:1` is not found any more."
 },
 "C73": {
  "note": "C73_division: the division is the same, without conditions. C73_equivalent_partial: the events, conditions as C71; both schemas have to be accepted (a pattern that only mentions a delimiter without being able to read it is rejected, C15). Two ways of writing a pattern are compared by what they read (Spec/Reading: Pat.ReadAs, Spec/SchemaChange: ReadsAlike). C73_reader_partial: the same for two `ReaderParser`s made from the two schema files, for a text two readers deliver, if its events fit the buffers (as in C28, C48). C73_files_partial: for `BufferParser`, from the texts of the schema files."
 },
 "C74": {
  "note": "C74_division: the division is the same, without conditions. C74_rename_partial: the events (Spec/SchemaChange: rename, Renames), conditions as C71; the logtypes are the same if in those of the first the new names stand (when every name's instances are instances of nothing else). C74_files_partial: from the texts of the schema files. C74_reader_partial: for two `ReaderParser`s made from the two schema files, logtypes included."
 },
 "C75": {
  "note": "C75_division: the division is the same. C75_delimiter_partial: the events (Spec/SchemaChange: MoreDelims), conditions as C71; some byte other than 0xFD is not a delimiter. C75_files_partial: for `BufferParser`, from the texts of the schema files. C75_reader_partial: for two `ReaderParser`s made from the two schema files (as C48_reader_partial)."
 },
 "C76": {
  "note": "C76_division: the division is the same. C76_agree_partial: the events (Spec/SchemaChange: Agree), conditions as C71, of which C71–C73 and C75 are special cases. C76_files_partial: from the texts of the schema files. C76_reader_partial: for two `ReaderParser`s made from the two schema files (as C48_reader_partial), logtypes included (Spec/SchemaChangeReader: SameSeen). The condition on the beginnings of the text is needed: C72_beginning_refuted."
 }
}