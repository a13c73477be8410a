{"id": "C01", "title": "BufferParser losslessness", "statement": "Starting from a fresh/reset BufferParser at offset 0, calling parse_next_event repeatedly with the same buffer and finished_reading_input=true returns Success every time until done(), and the concatenation of the raw text (to_string) of the returned log events equals the input buffer byte for byte: no byte is dropped, duplicated or reordered.", "quantifier": "every schema-derived lexer (any set of rules and delimiters), every input byte string of any length", "why_tests_cant": "Needs to hold for all inputs and all schemas; tests only compare a handful of log lines.", "anchors": ["src/log_surgeon/BufferParser.cpp:parse_next_event", "src/log_surgeon/LogParser.cpp:parse", "src/log_surgeon/Lexer.tpp:scan", "src/log_surgeon/LogEvent.cpp:LogEventView::to_string"]}
{"id": "C02", "title": "BufferParser terminates and reports done", "statement": "With finished_reading_input=true, the loop `while(!parser.done()) parser.parse_next_event(...)` terminates after finitely many calls on every input, every single call terminates, and never returns BufferOutOfBounds.", "quantifier": "every lexer and every finite input", "why_tests_cant": "Termination over all inputs cannot be observed by finite tests.", "anchors": ["src/log_surgeon/BufferParser.cpp:parse_next_event", "src/log_surgeon/BufferParser.hpp:done", "src/log_surgeon/Lexer.tpp:scan"]}
{"id": "C03", "title": "Unfinished input: parsed events are a prefix", "statement": "With finished_reading_input=false, the events returned with Success before the first BufferOutOfBounds concatenate to a prefix of the supplied buffer, and no returned event depends on bytes past the buffer.", "quantifier": "every accepted schema with at least one variable or timestamp (for the others see C37), every input and every cut point", "why_tests_cant": "Quantifies over all inputs and all cut points.", "anchors": ["src/log_surgeon/BufferParser.cpp:parse_next_event", "src/log_surgeon/ParserInputBuffer.cpp:get_next_character"]}
{"id": "C04", "title": "Tokens tile the input", "statement": "Successive tokens returned by the lexer are contiguous, non-overlapping, non-empty (except the end token) and in order; together they cover exactly the consumed input. Two consecutive uncaught-string tokens are never split around nothing: every byte belongs to exactly one token.", "quantifier": "every accepted schema with at least one variable or timestamp (for the others see C37), every input, every lexer state before the reset", "why_tests_cant": "Invariant over every reachable lexer state.", "anchors": ["src/log_surgeon/Lexer.tpp:scan", "src/log_surgeon/Token.hpp:Token"]}
{"id": "C05", "title": "Token type soundness", "statement": "If a token is given variable types T (other than uncaught string / end), then its exact text (with the virtual start-of-file character prepended when it is at the beginning of the input) is accepted by the rules T, T is the complete list of rules accepting it, and the token is followed by a delimiter or the end of the input (or is a one-byte newline).", "quantifier": "every accepted schema with at least one variable or timestamp (for the others see C37), every input, every emitted token", "why_tests_cant": "Needs all inputs; a wrong type on one rare token is invisible to sampled tests.", "anchors": ["src/log_surgeon/Lexer.tpp:scan", "src/log_surgeon/finite_automata/RegexDFA.tpp:next"]}
{"id": "C06", "title": "Variable recognition completeness (declarative lexing spec)", "statement": "The token sequence equals the one given by the declarative specification: starting at each candidate position (a delimiter character that can start a rule), the longest prefix accepted by some rule and followed by a delimiter or end of input becomes a variable token; a newline otherwise becomes a newline token; everything between becomes one uncaught-string token.", "quantifier": "every accepted schema with at least one variable in which newline is a delimiter, every input", "why_tests_cant": "A refinement statement over all inputs.", "anchors": ["src/log_surgeon/Lexer.tpp:scan"]}
{"id": "C07", "title": "Regex to NFA: completeness of matching", "statement": "Every string matched by the rule's regular expression under the standard meaning of concatenation, alternation, character classes, bounded and unbounded repetition and captures is accepted by the NFA built for it and tagged with that rule's variable id (for expressions without an empty alternative).", "quantifier": "every regex AST without empty alternatives, every string, every rule position in the schema", "why_tests_cant": "All regexes and all strings: unbounded.", "anchors": ["src/log_surgeon/finite_automata/RegexAST.hpp:add_to_nfa", "src/log_surgeon/finite_automata/RegexNFA.hpp:RegexNFA", "src/log_surgeon/LexicalRule.hpp:add_to_nfa"]}
{"id": "C08", "title": "Regex to NFA: soundness of matching", "statement": "Every string accepted for a rule's variable id is matched by the rule's regular expression under its standard meaning.", "quantifier": "every regex AST, every string", "why_tests_cant": "All regexes and strings; false in the code for alternatives that end in an unbounded repetition (e.g. `(a+)|b` also accepts `ba`), so the property is refuted and a partial version is proved.", "anchors": ["src/log_surgeon/finite_automata/RegexAST.hpp:RegexASTOr::add_to_nfa", "src/log_surgeon/finite_automata/RegexAST.hpp:RegexASTMultiplication::add_to_nfa"]}
{"id": "C09", "title": "Star and zero-minimum repetition match the empty string", "statement": "`r*` and `r{0,n}` match the empty string as well as one or more repetitions.", "quantifier": "every regex r and every n", "why_tests_cant": "All regexes; false in the code because an empty alternative adds no transition.", "anchors": ["src/log_surgeon/finite_automata/RegexAST.hpp:RegexASTEmpty", "src/log_surgeon/SchemaParser.cpp:regex_match_zero_or_more_rule", "src/log_surgeon/SchemaParser.cpp:regex_match_range_rule"]}
{"id": "C10", "title": "DFA equivalent to NFA with complete variable ids", "statement": "The DFA built by generate() accepts exactly the strings the NFA accepts, and the list of matching variable ids reported by the DFA state reached on a string is exactly the set of ids of the accepting NFA states reachable on that string.", "quantifier": "every NFA (any size), every byte string", "why_tests_cant": "Subset construction correctness over all automata.", "anchors": ["src/log_surgeon/Lexer.tpp:nfa_to_dfa", "src/log_surgeon/Lexer.tpp:epsilon_closure", "src/log_surgeon/finite_automata/RegexDFA.tpp:new_state"]}
{"id": "C11", "title": "Priority order of variable types follows the schema", "statement": "When a string matches several rules, the reported type list is ordered by the order of the rules in the schema, so the first type is the earliest rule.", "quantifier": "every schema, every string matching several rules, every heap layout", "why_tests_cant": "Depends on allocation addresses (ordering of std::set of pointers): no finite test settles it; holds only when NFA states are allocated at increasing addresses.", "anchors": ["src/log_surgeon/finite_automata/RegexDFA.tpp:new_state", "src/log_surgeon/Lexer.tpp:nfa_to_dfa", "src/log_surgeon/LogParser.cpp:parse"]}
{"id": "C12", "title": "DFA intersection query is exact", "statement": "get_intersect(other) returns exactly the ids i for which some byte string is accepted with id i by this DFA and accepted (with any id) by the other DFA.", "quantifier": "every pair of DFAs of any size", "why_tests_cant": "All automata and all strings.", "anchors": ["src/log_surgeon/finite_automata/RegexDFA.tpp:get_intersect", "src/log_surgeon/finite_automata/RegexDFAStatePair.hpp"]}
{"id": "C13", "title": "Wildcard matches exactly the non-delimiters", "statement": "After schema processing, `.` in a variable rule matches a code point if and only if it is not one of the schema's delimiters.", "quantifier": "every delimiter list (any order, duplicates), every code point up to the Unicode maximum", "why_tests_cant": "All delimiter lists.", "anchors": ["src/log_surgeon/finite_automata/RegexAST.hpp:remove_delimiters_from_wildcard"]}
{"id": "C14", "title": "Character class merge and complement are exact", "statement": "Merging a class's ranges yields sorted, disjoint ranges covering the same code points, and a negated class matches exactly the code points of [0, Unicode max] that are not listed.", "quantifier": "every list of ranges, every code point", "why_tests_cant": "All range lists; refuted for the empty class.", "anchors": ["src/log_surgeon/finite_automata/RegexAST.hpp:RegexASTGroup::merge", "src/log_surgeon/finite_automata/RegexAST.hpp:RegexASTGroup::complement"]}
{"id": "C15", "title": "Variables never contain delimiters", "statement": "A schema is accepted only if no non-timestamp variable rule can match a string containing a delimiter; therefore the text of a variable token, apart from its first character, contains no delimiter character.", "quantifier": "every schema AST and every string", "why_tests_cant": "All schemas and strings.", "anchors": ["src/log_surgeon/LogParser.cpp:add_rules", "src/log_surgeon/finite_automata/RegexAST.hpp:set_possible_inputs_to_true"]}
{"id": "C16", "title": "Schema symbol ids are a bijection", "statement": "After loading a schema, symbol name -> id and id -> name are inverse functions, ids are 0..n-1 without gaps, the eight reserved names have their fixed ids, repeated names reuse their id, and get_symbol_id returns a value iff the name was declared.", "quantifier": "every sequence of rule names", "why_tests_cant": "All name sequences, including repetitions and reserved names.", "anchors": ["src/log_surgeon/Parser.tpp:add_rule", "src/log_surgeon/Parser.tpp:Parser", "src/log_surgeon/LogParser.cpp:get_symbol_id"]}
{"id": "C17", "title": "Schema variable insertion order", "statement": "Schema::add_variable(text, p) inserts the variable before the p-th existing one (p=-1 appends), leaving the relative order of the others unchanged; later generation gives rules in exactly that order.", "quantifier": "every sequence of add_variable calls", "why_tests_cant": "All call histories.", "anchors": ["src/log_surgeon/Schema.cpp:add_variable", "src/log_surgeon/SchemaParser.hpp:add_schema_var"]}
{"id": "C18", "title": "Delimiters: last delimiters rule wins", "statement": "The set of delimiter characters used by the lexer is exactly the characters of the last `delimiters:` line plus the virtual start-of-file character; a schema without delimiters is rejected; earlier delimiter lines leave no residue.", "quantifier": "every schema", "why_tests_cant": "All schemas.", "anchors": ["src/log_surgeon/LogParser.cpp:add_rules", "src/log_surgeon/Lexer.tpp:add_delimiters"]}
{"id": "C19", "title": "Event segmentation by timestamp", "statement": "When a log event has a timestamp, the next event begins exactly at the next newline followed by a timestamp match (the newline belongs to the earlier event); no event with a timestamp contains a further newline+timestamp token, and events without a timestamp end at the first newline after their first token or just before a newline+timestamp.", "quantifier": "every accepted schema with at least one variable or timestamp and no user rule named like the newline types, every input with at least one addressable byte behind it (for its absence see C01), finished or not", "why_tests_cant": "All inputs, all histories of parse calls.", "anchors": ["src/log_surgeon/LogParser.cpp:parse"]}
{"id": "C20", "title": "Event metadata: multiline flag", "statement": "is_multiline is true iff the event has a timestamp and some newline occurs among its tokens before the last position.", "quantifier": "every accepted schema with at least one variable or timestamp, every input with at least one addressable byte behind it (see C01), every event", "why_tests_cant": "All events.", "anchors": ["src/log_surgeon/LogParser.cpp:generate_log_event_view_metadata"]}
{"id": "C21", "title": "Resetting the parser forgets the previous input", "statement": "After reset()/reset_and_set_reader, parsing an input yields the same events as with a newly constructed (and reset) parser, whatever was parsed before.", "quantifier": "every parse history interrupted at any point, every subsequent input", "why_tests_cant": "All histories; false in the code (a pending start-of-log token survives reset).", "anchors": ["src/log_surgeon/LogParser.cpp:reset", "src/log_surgeon/BufferParser.cpp:reset", "src/log_surgeon/ReaderParser.cpp:reset_and_set_reader"]}
{"id": "C22", "title": "BufferParser offset contract", "statement": "On Success, offset is updated to the start of the next log event; on BufferOutOfBounds, offset is the start of the unparsed event so the caller can refill from there and no byte is lost or duplicated.", "quantifier": "every input split into buffers at every cut point", "why_tests_cant": "All cut points; false in the code.", "anchors": ["src/log_surgeon/BufferParser.hpp:parse_next_event", "src/log_surgeon/BufferParser.cpp:parse_next_event"]}
{"id": "C23", "title": "Deep copy preserves a log event", "statement": "LogEventView::deep_copy yields a LogEvent with the same text, same tokens (types and texts), same timestamp and multiline flag.", "quantifier": "every log event view", "why_tests_cant": "All events; false for events without a timestamp (the first token is dropped from to_string) and it throws for the empty event.", "anchors": ["src/log_surgeon/LogEvent.cpp:LogEvent", "src/log_surgeon/LogEvent.cpp:to_string"]}
{"id": "C24", "title": "Logtype faithfully abstracts the text", "statement": "get_logtype keeps all static text and delimiters and replaces each variable's characters (excluding its delimiter) by <type>, so that no variable text is leaked.", "quantifier": "every log event view", "why_tests_cant": "All events; false for the first token of a line/file that has no preceding delimiter.", "anchors": ["src/log_surgeon/LogEvent.cpp:get_logtype"]}
{"id": "C25", "title": "Token accessors agree", "statement": "For every token (including those wrapping around the end of the circular buffer): to_string().size()==get_length(), get_char(i) is the i-th character of to_string for i in range, get_delimiter is its first character, and to_string_view shows the same text.", "quantifier": "every buffer, every start/end position, every index", "why_tests_cant": "All positions incl. wrap-around; get_char takes an 8-bit index so it is only right for i<256 (mod buffer size).", "anchors": ["src/log_surgeon/Token.cpp"]}
{"id": "C26", "title": "Output buffer growth preserves tokens", "statement": "Appending any number of tokens to the parser's output buffer keeps every earlier token at its index; growth never loses or reorders a token and reset restores the static buffer.", "quantifier": "every sequence of append/advance operations of any length", "why_tests_cant": "All lengths beyond the initial capacity.", "anchors": ["src/log_surgeon/LogParserOutputBuffer.cpp:increment_pos", "src/log_surgeon/Buffer.hpp"]}
{"id": "C27", "title": "Input buffer delivers the reader's bytes in order", "statement": "get_next_character returns the bytes produced by the Reader in order, each exactly once, and reading into the circular buffer never overwrites a byte at or after the last consumed position; growth preserves unread data.", "quantifier": "every reader chunking, every interleaving of read / get_next_character / grow", "why_tests_cant": "All chunkings and histories.", "anchors": ["src/log_surgeon/ParserInputBuffer.cpp:read_if_safe", "src/log_surgeon/ParserInputBuffer.cpp:increase_capacity", "src/log_surgeon/ParserInputBuffer.cpp:get_next_character"]}
{"id": "C28", "title": "ReaderParser result independent of chunking", "statement": "ReaderParser produces the same sequence of events as BufferParser on the whole input, independent of how the Reader splits its output and of the internal buffer size.", "quantifier": "every input, every chunking, every buffer size", "why_tests_cant": "All chunkings and all alignments of events with the buffer; false in the code for short reads, for events ending in the middle of the buffer and for words crossing its end.", "anchors": ["src/log_surgeon/ReaderParser.cpp:parse_next_event", "src/log_surgeon/Lexer.tpp:scan"]}
{"id": "C29", "title": "ReaderParser terminates", "statement": "For any finite input the loop over ReaderParser::parse_next_event terminates with bounded memory.", "quantifier": "every finite input", "why_tests_cant": "Non-termination cannot be tested; false in the code: an event without a timestamp that ends at the end of the circular buffer leaves the consumed position 0, which is taken for 'nothing consumed', and the buffer is doubled for ever.", "anchors": ["src/log_surgeon/ParserInputBuffer.cpp:read_is_safe", "src/log_surgeon/Lexer.tpp:increase_buffer_capacity"]}
{"id": "C30", "title": "Prefix tree stores independent persistent paths", "statement": "insert(parent,x) returns a fresh node whose reversed path is x followed by the parent's path; existing nodes' paths are unaffected by insertions; out-of-range node ids raise out_of_range; set changes exactly the paths through that node.", "quantifier": "every sequence of operations", "why_tests_cant": "All histories.", "anchors": ["src/log_surgeon/finite_automata/PrefixTree.cpp", "src/log_surgeon/finite_automata/PrefixTree.hpp"]}
{"id": "C31", "title": "Register operations behave like independent position lists", "statement": "The register handler behaves like a map from register id to a list of positions: append pushes, copy duplicates, set replaces the newest position, and an operation on one register leaves all the others unchanged.", "quantifier": "every sequence of register operations", "why_tests_cant": "All histories; false for set after copy (registers share a node).", "anchors": ["src/log_surgeon/finite_automata/RegisterHandler.hpp"]}
{"id": "C32", "title": "Capture tags are set or negated exactly once on each path", "statement": "On every NFA path from the root to an accepting state of a rule, each capture of that rule is either opened and closed in order (positive) or explicitly negated.", "quantifier": "every regex AST, every accepted string and path", "why_tests_cant": "All regexes and NFA paths.", "anchors": ["src/log_surgeon/finite_automata/RegexAST.hpp:RegexASTCapture::add_to_nfa", "src/log_surgeon/finite_automata/RegexAST.hpp:add_to_nfa_with_negative_tags", "src/log_surgeon/finite_automata/RegexAST.hpp:RegexASTOr"]}
{"id": "C33", "title": "NFA traversal and serialization cover each reachable state once", "statement": "get_bfs_traversal_order lists every state reachable from the root exactly once, root first, in breadth-first order; serialize emits one line for each.", "quantifier": "every NFA", "why_tests_cant": "All automata.", "anchors": ["src/log_surgeon/finite_automata/RegexNFA.hpp:get_bfs_traversal_order", "src/log_surgeon/finite_automata/RegexNFA.hpp:serialize"]}
{"id": "C34", "title": "LALR(1) schema parser accepts only derivable input", "statement": "If the LALR(1) parser accepts a token sequence, then that sequence is derivable from the start symbol of the grammar by the productions supplied with add_production.", "quantifier": "every grammar, every token sequence", "why_tests_cant": "All grammars and inputs.", "anchors": ["src/log_surgeon/LALR1Parser.tpp:parse", "src/log_surgeon/LALR1Parser.tpp:parse_symbol", "src/log_surgeon/LALR1Parser.tpp:generate"]}
{"id": "C35", "title": "Schema strings are read completely", "statement": "Parsing a schema from an in-memory string supplies exactly the string's bytes to the schema lexer, whatever its length.", "quantifier": "every schema string", "why_tests_cant": "All lengths; false in the code for strings at least half the static buffer long (the read position is reset at each read).", "anchors": ["src/log_surgeon/SchemaParser.cpp:try_schema_string"]}
{"id": "C36", "title": "Repetition bounds are parsed and applied exactly", "statement": "`r{n}` and `r{n,m}` in a schema match exactly n (resp. between n and m) repetitions where n, m are the decimal values written.", "quantifier": "every digit string, every regex", "why_tests_cant": "All bounds; false for zero bounds and m<n.", "anchors": ["src/log_surgeon/SchemaParser.cpp:regex_match_exactly_rule", "src/log_surgeon/SchemaParser.cpp:regex_match_range_rule", "src/log_surgeon/finite_automata/RegexAST.hpp:RegexASTMultiplication::add_to_nfa"]}
{"id": "C37", "title": "Delimiters-only schema is safe", "statement": "For every accepted schema, parsing any input never dereferences a null DFA state or otherwise runs into undefined behaviour.", "quantifier": "every accepted schema, every input", "why_tests_cant": "All schemas; false for schemas in which no rule can start with the start-of-file character.", "anchors": ["src/log_surgeon/Lexer.tpp:prepend_start_of_file_char", "src/log_surgeon/Lexer.tpp:scan"]}
{"id": "C38", "title": "Token line numbers", "statement": "The line number recorded in a token equals the number of newlines in the input that precede the lexer's position at the time the token ended.", "quantifier": "every accepted schema with at least one variable in which newline is a delimiter, every input, every token", "why_tests_cant": "All inputs.", "anchors": ["src/log_surgeon/Lexer.tpp:scan"]}
{"id": "C39", "title": "Search strings ending in a wildcard are classified by all their completions", "statement": "After reset(), scan_with_wildcard on a search text (without newline) followed by `*` terminates and returns one token: a variable token over the whole text if and only if every completion of the text by non-delimiter characters is recognised by some rule, and otherwise an uncaught-string token; likewise with `?` for one-character completions.", "quantifier": "every set of rules, every delimiter set, every text, every (unboundedly long) completion", "why_tests_cant": "The completions are infinitely many, and so are the automata.", "anchors": ["src/log_surgeon/Lexer.tpp:scan_with_wildcard"]}
{"id": "C40", "title": "File reader splits at delimiters losslessly", "statement": "try_read_to_delimiter returns successive lines whose concatenation (with delimiters) is the file content; EndOfFile is reported only when nothing remains.", "quantifier": "every file content and delimiter", "why_tests_cant": "All contents.", "anchors": ["src/log_surgeon/FileReader.cpp:try_read_to_delimiter", "src/log_surgeon/FileReader.cpp:read"]}
{"id": "C41", "title": "Variable occurrences of an event are complete", "statement": "For every log event and every type id, get_variables(id) lists exactly the tokens of the event whose (first) type is id, in order.", "quantifier": "every accepted schema with at least one variable or timestamp, every input with at least one addressable byte behind it (see C01), every event, every type id", "why_tests_cant": "holds for every token sequence of any length and every type; tests only check a few events", "anchors": ["src/log_surgeon/LogParser.cpp: generate_log_event_view_metadata", "src/log_surgeon/LogEvent.hpp: get_variables, add_token"]}
{"id": "C42", "title": "Every derivable token sequence is parsed, with its derivation tree", "statement": "If the LALR(1) parser generator reports no conflict for a grammar (in which no terminal has productions, every symbol derives something and nothing can be reduced behind the complete start symbol), then parse() accepts every token sequence that is derivable from the start symbol and followed by the end token, returns its derivation tree and leaves the tokens behind the end token unread — provided that no table row offers two actions for the types of one token and that the children of the tree fit into the static array of 10000 children, including what earlier parses have used. In particular such a grammar is unambiguous.", "quantifier": "every grammar, every order in which the containers are traversed, every derivation tree of any size, every state of the children counter, every rest of the input; the grammar of schema files is an instance", "why_tests_cant": "The language of a grammar is infinite and so is the set of grammars; a missing lookahead or goto shows only on particular sentences.", "anchors": ["src/log_surgeon/LALR1Parser.tpp:generate_lr0_kernels", "src/log_surgeon/LALR1Parser.tpp:generate_first_sets", "src/log_surgeon/LALR1Parser.tpp:generate_lr1_item_sets", "src/log_surgeon/LALR1Parser.tpp:generate_lr1_closure", "src/log_surgeon/LALR1Parser.tpp:generate_lalr1_action", "src/log_surgeon/LALR1Parser.tpp:parse", "src/log_surgeon/LALR1Parser.tpp:parse_symbol", "src/log_surgeon/SchemaParser.cpp:add_productions"]}
{"id": "C43", "title": "Schema texts mean what the schema syntax says", "statement": "SchemaParser::try_schema_string and try_schema_file return an AST exactly for the texts that follow the schema syntax (comments, name:regex lines, delimiters: lines, empty lines), and the AST contains the variables in order with the regex written for each, and the delimiters; every other text gives an exception; a text has only one meaning; the parse table needed for that is always generated. This holds again for every call in a process.", "quantifier": "every text, every order in which the unordered containers of the parser are traversed, every placement of automaton states in memory, every number of earlier calls", "why_tests_cant": "All texts and all traversal orders; the effect of the process-wide children counter shows after many calls only.", "anchors": ["src/log_surgeon/SchemaParser.cpp:try_schema_string", "src/log_surgeon/SchemaParser.cpp:try_schema_file", "src/log_surgeon/SchemaParser.cpp:add_productions", "src/log_surgeon/SchemaParser.cpp:add_lexical_rules", "src/log_surgeon/LALR1Parser.tpp:parse"]}
{"id": "C44", "title": "Parse table generation terminates", "statement": "Generating the LALR(1) parse table ends for every grammar, with a table or with a reported conflict, whatever the order in which the containers are traversed.", "quantifier": "every list of productions (also left-recursive, ambiguous, unproductive or empty ones), every traversal order", "why_tests_cant": "All grammars; the worklists have no syntactic bound.", "anchors": ["src/log_surgeon/LALR1Parser.tpp:generate", "src/log_surgeon/LALR1Parser.tpp:generate_lr0_kernels", "src/log_surgeon/LALR1Parser.tpp:generate_lr1_item_sets"]}
{"id": "C45", "title": "The parser ends on every token sequence, with a tree or an exception", "statement": "If the LALR(1) parser generator reports no conflict for a grammar as in C42 (no terminal has productions, every symbol derives something, nothing can be reduced behind the complete start symbol), then on every sequence of tokens the parser ends, after a number of steps linear in the number of tokens, without undefined behaviour: it returns the derivation tree if the tokens up to the end token are derivable from the start symbol and throws otherwise, provided that the children fit into the static array.", "quantifier": "every token sequence (also ones no grammar accepts), every grammar whose table was generated without conflict, every traversal order, every state of the children counter that leaves room", "why_tests_cant": "The token sequences that are not sentences are infinitely many; a missing goto entry, an empty state stack or a loop of reductions shows only on particular ones.", "anchors": ["src/log_surgeon/LALR1Parser.tpp:parse", "src/log_surgeon/LALR1Parser.tpp:parse_advance", "src/log_surgeon/LALR1Parser.tpp:parse_symbol", "src/log_surgeon/SchemaParser.cpp:add_productions"]}
{"id": "C46", "title": "The interval tree is a map from intervals to values", "statement": "UnicodeIntervalTree behaves as a map from intervals to values for every history of insert, all, find, pop and reset: all() lists the entries in order with the value inserted last, find(i) returns exactly the entries that overlap i, pop(i) removes exactly those and returns them; no call hangs or has undefined behaviour.", "quantifier": "every history of calls with intervals that are not reversed, every placement of the nodes in memory", "why_tests_cant": "All histories and all memory layouts; the rebalancing depends on addresses.", "anchors": ["src/log_surgeon/finite_automata/UnicodeIntervalTree.tpp:insert", "src/log_surgeon/finite_automata/UnicodeIntervalTree.tpp:find", "src/log_surgeon/finite_automata/UnicodeIntervalTree.tpp:pop", "src/log_surgeon/finite_automata/UnicodeIntervalTree.tpp:balance", "src/log_surgeon/finite_automata/UnicodeIntervalTree.hpp:UnicodeIntervalTree"]}
{"id": "C47", "title": "A syntax error in a schema is reported where it is", "statement": "If a schema text does not follow the grammar, the exception of try_schema_file / try_schema_string names the line and the column of the first unit (character or keyword) with which the text can no longer be completed to a schema, shows that line of the text and has a caret below that unit; if the text ends too early, the message says so. If the text follows the grammar there is no such message.", "quantifier": "every text (every position of the first offending unit, every line structure), every traversal order of the containers, every memory content", "why_tests_cant": "All texts: that the reported unit is the first that does not fit is a statement about all continuations of the text; the position depends on what is left on the parser stack.", "anchors": ["src/log_surgeon/LALR1Parser.tpp:report_error", "src/log_surgeon/LALR1Parser.tpp:get_input_after_last_newline", "src/log_surgeon/LALR1Parser.tpp:get_input_until_next_newline", "src/log_surgeon/LALR1Parser.tpp:parse", "src/log_surgeon/SchemaParser.cpp:try_schema_string"]}
{"id": "C48", "title": "From the schema file to the log events", "statement": "A parser constructed from the path of a schema file exists exactly if delimiters are declared and no variable except the timestamp mentions a delimiter; parsing a buffer with it reads the buffer to its end, the texts of the events make up the input, and the tokens of the events are exactly the pieces into which the text of the schema file divides the input: repeatedly the leftmost, then longest instance of a declared variable, timestamp or newline that is followed by a delimiter or the end, with exactly the types whose patterns match, and static text in between.", "quantifier": "every schema file (within the size the schema parser handles), every input buffer, every previous use of the parser, every traversal order and address layout", "why_tests_cant": "Quantifies over all schema files and all inputs at once, and through every stage (schema lexer, LALR parser, semantic rules, automata, scanner, event assembly); a mistake at any interface between stages shows only for particular pairs of schema and log.", "anchors": ["src/log_surgeon/BufferParser.cpp:BufferParser", "src/log_surgeon/BufferParser.cpp:parse_next_event", "src/log_surgeon/LogParser.cpp:LogParser", "src/log_surgeon/LogParser.cpp:add_rules", "src/log_surgeon/SchemaParser.cpp:try_schema_file", "src/log_surgeon/Lexer.tpp:scan", "src/log_surgeon/LogParser.cpp:parse"]}
{"id": "C49", "title": "The documented buffer loop gives the same events whatever the buffer size", "statement": "The loop of examples/buffer-parser.cpp (read into a buffer, parse events, on BufferOutOfBounds move the unread bytes to the front or double the buffer, read more) ends, and prints for a log file that begins with a timestamp exactly the events (text, timestamp, variables, logtype, multiline flag) of one parse of the whole file in one buffer, whatever the initial size of the buffer and wherever the vector is allocated; nothing is lost, repeated or cut at the boundaries of the pieces.", "quantifier": "every log file, every initial buffer size, every address the vector gets when it grows, every previous use of the parser", "why_tests_cant": "The result depends on where the piece boundaries fall relative to tokens and events; there are unboundedly many combinations of file and buffer size, and a wrong restart shows only when a boundary cuts a particular token.", "anchors": ["examples/buffer-parser.cpp:process_logs", "examples/common.cpp:print_timestamp_loglevel", "src/log_surgeon/BufferParser.cpp:parse_next_event", "src/log_surgeon/BufferParser.cpp:reset", "src/log_surgeon/Lexer.tpp:prepend_start_of_file_char"]}
{"id": "C50", "title": "The search example answers exactly the variables that can match a search string", "statement": "The program of examples/intersect-test.cpp (a schema built by add_variable calls, a DFA of its patterns, and for each search string the DFA of the pattern obtained by replacing * with .*, intersected with get_intersect) prints for each search string the names, in schema order, of exactly the variables that have an instance matching the search string; every name printed is right when * stands for any text.", "quantifier": "every schema of patterns, every sequence of search strings, every iteration order of the sets and every address of the NFA states", "why_tests_cant": "The answer depends on the existence of a common text of two infinite languages and on the history of all earlier schema texts parsed in the process (a static counter); tests look at a few pairs.", "anchors": ["examples/intersect-test.cpp:get_intersect_for_query", "examples/intersect-test.cpp:main", "src/log_surgeon/Schema.cpp:add_variable", "src/log_surgeon/finite_automata/RegexDFA.tpp:get_intersect", "src/log_surgeon/Lexer.tpp:nfa_to_dfa"]}
{"id": "C51", "title": "The two example programs print the same for the same log", "statement": "For the same schema and the same log file, the program of examples/reader-parser.cpp (reset_and_set_reader, then parse_next_event until done, printing each event, its timestamp, its variables of a type, its logtype, and a kept deep copy of multiline events) prints what is printed for a parse of the whole file in one buffer, and the same as examples/buffer-parser.cpp with a buffer of any size: the choice between the two interfaces and the sizes of their buffers cannot be observed.", "quantifier": "every schema, every log file, every size of both buffers, every number of rounds allowed", "why_tests_cant": "Where the text is cut depends on the sizes of the buffers and on the length of every event before; a difference shows only for particular alignments of tokens and buffer halves.", "anchors": ["examples/reader-parser.cpp:process_logs", "examples/buffer-parser.cpp:process_logs", "src/log_surgeon/ReaderParser.cpp:parse_next_event", "src/log_surgeon/BufferParser.cpp:parse_next_event", "src/log_surgeon/LogEvent.cpp:LogEvent"]}
{"id": "C52", "title": "The text serialize writes for a pattern identifies the pattern", "statement": "If serialize() writes the same text for the regex ASTs of two schema patterns, then the two patterns match exactly the same strings and have the same captures in the same order: two patterns that behave differently can be told apart by their text (which is what the tests and the logs of the library compare).", "quantifier": "all pairs of schema patterns, of any size and nesting, and all strings", "why_tests_cant": "An ambiguity of the text only shows for a particular pair of patterns out of infinitely many, for instance when one contains the characters that the text uses for the structure of the other.", "anchors": ["src/log_surgeon/finite_automata/RegexAST.hpp:serialize", "src/log_surgeon/finite_automata/RegexAST.hpp:serialize_negative_tags"]}
{"id": "C53", "title": "Schema parses of one process do not influence each other, whatever the interleaving", "statement": "All schema parsers of a process keep the children of their syntax trees in one static array with one counter. If several calls of try_schema_string, try_schema_file or generate_schema_ast are in progress in one process (for instance because a Reader parses another schema while it is asked for bytes) and make their steps in any order, each call that has made its steps returns the AST that its own text describes, the same as if it were the only one; the only thing that can happen instead is that the array is full, and it is not if there is a free place for each of the steps.", "quantifier": "all schedules of the steps of any number of parsers, all texts, all contents of the array and values of the counter at the beginning", "why_tests_cant": "The interleavings of several parses are unboundedly many; a value overwritten by another parser would only show in some of them.", "anchors": ["src/log_surgeon/LALR1Parser.cpp:NonTerminal::m_all_children", "src/log_surgeon/LALR1Parser.cpp:NonTerminal::m_next_children_start", "src/log_surgeon/LALR1Parser.tpp:parse_symbol", "src/log_surgeon/LALR1Parser.tpp:parse", "src/log_surgeon/SchemaParser.cpp:existing_schema_rule"]}
{"id": "C54", "title": "What is accepted for a schema regex, exactly", "statement": "For every regex that can be written in a schema, the strings accepted for it by the NFA, by the DFA, and by the lexer of a whole schema (after the delimiter in front of a variable, the newline in front of a timestamp, or at the start of the input) are exactly those of its compositional reading: literals, classes and `.` (any character, in variables any but the delimiters) read one character; r* is r+; r{n} and r{n,m} repeat (r{0,m} as r{1,m}, an upper bound of 0 meaning no bound, a smaller upper than lower bound being ignored, numbers modulo 2^32); and what may follow one alternative of a `|` again, because it ends in an unbounded repetition, may follow the other alternatives too unless there is a capture on the other side.", "quantifier": "every schema regex, every set of other rules, every byte string, every allocation of the NFA states", "why_tests_cant": "All nestings of alternatives, repetitions and captures and all strings; the deviations from the textbook meaning interact (an open repetition inside a bounded one inside an alternative), so samples do not show that the description is complete.", "anchors": ["src/log_surgeon/finite_automata/RegexAST.hpp:add_to_nfa", "src/log_surgeon/finite_automata/RegexNFA.hpp:RegexNFA", "src/log_surgeon/SchemaParser.cpp:regex_or_rule", "src/log_surgeon/SchemaParser.cpp:regex_match_range_rule", "src/log_surgeon/LogParser.cpp:add_rules", "src/log_surgeon/Lexer.tpp:generate"]}
{"id": "C55", "title": "The tokens of every text, exactly", "statement": "For every schema and every text, without exception (also with the byte 0xFD, with a newline that is no delimiter, or with a partial timestamp at the beginning), the tokens are the unique ones of a search: from the end of the previous token on, at each position where a rule could begin (its first character is there, and it is a delimiter, or the search has just arrived there), the longest candidate is the token if some candidate ends before the next newline; if none does, everything that could have been the beginning of a match is skipped, up to the next newline, and the search goes on behind it. At the start of the text the same holds with the virtual start-of-file character in front. Whatever is skipped is one uncaught string in front of the next token.", "quantifier": "every schema with a variable, every byte string, every earlier state of the lexer and its buffer, every size of the buffer", "why_tests_cant": "All texts and schemas; which token is found depends on how far an arbitrary automaton gets without a match.", "anchors": ["src/log_surgeon/Lexer.tpp:scan", "src/log_surgeon/Lexer.tpp:prepend_start_of_file_char", "src/log_surgeon/Lexer.tpp:reset", "src/log_surgeon/LogParser.cpp:add_rules"]}
{"id": "C56", "title": "The first-character table of the lexer", "statement": "After a parser is built from a schema, Lexer::is_first_char(c) is true exactly for: newline; the start-of-file character 0xFD if the schema declares a variable; every delimiter if it declares a variable other than the timestamp. So it marks the characters at which a match begins (the delimiter in front of a variable), and no other byte.", "quantifier": "every schema, every byte, every placement of the automaton states in memory", "why_tests_cant": "The table is read off an automaton built from arbitrary regular expressions; a test sees single schemas.", "anchors": ["src/log_surgeon/Lexer.tpp:generate", "src/log_surgeon/Lexer.hpp:is_first_char", "src/log_surgeon/LogParser.cpp:add_rules"]}
{"id": "C57", "title": "Which rules a lexer knows and uses", "statement": "Over any history of add_rule and generate calls on a lexer: get_rule(id) gives the first rule with this id that was added since the last generate, and null if there is none; the automaton (and the first-character table) is that of exactly the rules added between the last generate and the one before it, so a second generate without new rules gives a lexer that recognises nothing.", "quantifier": "every history of calls, every rule, every id", "why_tests_cant": "Ranges over all histories of calls and all rules.", "anchors": ["src/log_surgeon/Lexer.tpp:add_rule", "src/log_surgeon/Lexer.tpp:get_rule", "src/log_surgeon/Lexer.tpp:generate", "src/log_surgeon/finite_automata/RegexNFA.hpp:RegexNFA"]}
{"id": "C58", "title": "One order of types for all tokens", "statement": "A text that several rules match gets the types of all of them; the order in which they are listed (the first is used as the token's type) is given by one ranking of the rules, fixed when the lexer is generated: by the addresses of the rules' accepting automaton states. Hence, whatever the memory allocator does, if one token lists type u before type v, then every token of every text scanned with this lexer that has both types lists u before v.", "quantifier": "every list of rules, every placement of automaton states in memory, every byte string, every pair of tokens of any two texts", "why_tests_cant": "Ranges over all texts and over all placements of heap objects, which a test cannot control.", "anchors": ["src/log_surgeon/Lexer.tpp:nfa_to_dfa", "src/log_surgeon/Lexer.tpp:epsilon_closure", "src/log_surgeon/finite_automata/RegexDFA.hpp:add_matching_variable_id"]}
{"id": "C59", "title": "What a deep copy of an event shows, exactly", "statement": "deep_copy of an event throws exactly if the event has no text. Otherwise the copy owns a buffer with the text of the event and does not depend on the parser's buffer any more; with a timestamp it shows the same text, tokens, timestamp, multiline flag, tokens per type and logtype; without one, its text, tokens and logtype lack the first token of the event, while the tokens per type are complete.", "quantifier": "every schema, input and event, every later content of all other memory", "why_tests_cant": "Ranges over all events of all inputs and over what happens to the parser's buffer afterwards.", "anchors": ["src/log_surgeon/LogEvent.cpp:LogEvent", "src/log_surgeon/LogEvent.cpp:deep_copy", "src/log_surgeon/LogEvent.cpp:to_string", "src/log_surgeon/LogEvent.cpp:get_logtype"]}
{"id": "C60", "title": "Conflict messages of the parser generator", "statement": "When parse table generation fails with a message about a conflict, the message is true: there is a sequence of grammar symbols after which, with the named symbol next, the named production may be complete (its head may be followed by that symbol) while the symbol may also be shifted, or the other named production may be complete as well; shift-shift conflicts do not occur; a grammar that is SLR(1) is never rejected for a conflict. For a grammar whose nonterminals all derive something, generation always ends with tables or with such a message.", "quantifier": "every grammar, every order of the unordered containers and of the item sets", "why_tests_cant": "Ranges over all grammars.", "anchors": ["src/log_surgeon/LALR1Parser.tpp:generate_lalr1_action", "src/log_surgeon/LALR1Parser.tpp:generate", "src/log_surgeon/LALR1Parser.tpp:generate_first_sets", "src/log_surgeon/LALR1Parser.tpp:generate_lr1_item_sets"]}
{"id": "C61", "title": "Registers in every history, shared positions included", "statement": "Every call of a register handler returns or throws out_of_range, and the results are those of registers that are lists of shared cells: add_register and append_position make a new cell, copy_register makes the target register the same list of cells as the source, set_register writes into the newest cell of its register and so changes what every register reads that has this cell; append_position changes what its own register reads and no other.", "quantifier": "every sequence of add_register (behind any node), set_register, copy_register, append_position and get_reversed_positions with any indices", "why_tests_cant": "All histories of any length; which registers a write reaches depends on the whole history of copies.", "anchors": ["src/log_surgeon/finite_automata/RegisterHandler.hpp:RegisterHandler", "src/log_surgeon/finite_automata/PrefixTree.hpp:PrefixTree", "src/log_surgeon/finite_automata/PrefixTree.cpp:get_reversed_positions"]}
{"id": "C62", "title": "The text of an NFA identifies the NFA", "statement": "If RegexNFA::serialize returns the same text for two NFAs, they are the same up to the order in which their states are stored and to unreachable states: same accepting states, same transitions with the same bytes and the same tag names; so they accept the same strings for the same variables. This also holds if there are transitions on newline, comma, braces or any other byte, which are written unescaped.", "quantifier": "every pair of NFAs (of any size) with transitions to existing states on bytes, in particular those built from any two lists of rules; all tag names that are not empty and contain neither , nor ]", "why_tests_cant": "All pairs of automata; the unit tests of the library compare such texts and rely on it.", "anchors": ["src/log_surgeon/finite_automata/RegexNFA.hpp:serialize", "src/log_surgeon/finite_automata/RegexNFAState.hpp:serialize", "src/log_surgeon/finite_automata/TaggedTransition.hpp:serialize"]}
{"id": "C63", "title": "Buffers of any size", "statement": "BufferParser::parse_next_event takes the size and the offset as size_t; a buffer of any size is parsed like a small one: with finished_reading_input the loop ends regularly and the events returned are those of all its bytes.", "quantifier": "every schema, every usage history of the parser, every buffer content and every size (also 2 GiB, 4 GiB and more)", "why_tests_cant": "Tests use small buffers; the behaviour depends on the size modulo 2^32 and buffers of 2 GiB and more are not tried.", "anchors": ["src/log_surgeon/BufferParser.cpp:parse_next_event", "src/log_surgeon/ParserInputBuffer.cpp:set_storage", "src/log_surgeon/LogParser.hpp:set_input_buffer"]}
{"id": "C64", "title": "The message about a variable that contains a delimiter", "statement": "Constructing a parser from a schema throws exactly when the schema has no delimiters line or a variable other than timestamp mentions a delimiter in its pattern. In the second case the what() of the exception names the first such variable, the line of the schema text that declares it (counted from one) and the least delimiter it mentions; if the AST has the path of the schema file, the message starts with it and shows the line with arrows below the pattern.", "quantifier": "every schema text (shorter than 24000 bytes, with room for its parse tree), given as string or file; every AST with any line numbers; every file system and path", "why_tests_cant": "All schema texts and all positions of the offending variable; the existing tests only check that the constructor throws, not what the message says.", "anchors": ["src/log_surgeon/LogParser.cpp:add_rules", "src/log_surgeon/SchemaParser.cpp:schema_var_rule", "src/log_surgeon/SchemaParser.hpp:SchemaVarAST", "src/log_surgeon/SchemaParser.hpp:SchemaAST::m_file_path"]}
{"id": "C65", "title": "An event can be rebuilt from its logtype and its variables", "statement": "The logtype of an event (get_logtype), its timestamp and the texts of its other tokens that are not static text determine the text of the event: putting the variables back, in order, in place of the <name> (with the character before it) and <newLine> marks of the logtype gives the text behind the timestamp.", "quantifier": "every schema with a variable, every history of the parser, every log, every event; every pair of events of any two logs", "why_tests_cant": "All events; what can go wrong depends on static text that looks like a mark.", "anchors": ["src/log_surgeon/LogEvent.cpp:get_logtype", "src/log_surgeon/LogEvent.hpp:LogEventView", "src/log_surgeon/Token.cpp:get_delimiter"]}
{"id": "C66", "title": "A log can be divided between events and its parts parsed separately", "statement": "If a log that begins with a timestamp is divided at the beginning of some of its events, and every part is parsed by itself as a complete log, the parts have together exactly the events of the whole log, in order, with the same texts, timestamps, variables, multiline flags and copies; only the logtype of the last event of a part differs, and only in how the newline at its end is written.", "quantifier": "every schema whose delimiters include newline and whose timestamps contain no newline, every log beginning with a timestamp, every choice of the events at which it is divided, every history of the parsers used for the parts", "why_tests_cant": "All logs and all ways of dividing them.", "anchors": ["src/log_surgeon/BufferParser.cpp:parse_next_event", "src/log_surgeon/LogParser.cpp:parse", "src/log_surgeon/Lexer.tpp:scan", "src/log_surgeon/LogEvent.cpp:get_logtype"]}
{"id": "C67", "title": "How a log is divided into events, in terms of its lines", "statement": "Which events a log has, and which of them have a timestamp, depends only on its lines and on which lines begin with a timestamp; and whether a line begins with a timestamp depends on this line alone: the longest text at its beginning that the schema takes for anything, up to a delimiter, is taken for a timestamp. In a log that begins with a timestamp, every event is a line that begins with a timestamp together with the following lines that do not. Without timestamps in the schema every line is an event.", "quantifier": "every schema whose delimiters include newline and whose timestamps contain no newline, every log, every history of the parser", "why_tests_cant": "All schemas and all logs: the division must not depend on anything in the lines but the timestamps at their beginning.", "anchors": ["src/log_surgeon/LogParser.cpp:parse", "src/log_surgeon/BufferParser.cpp:parse_next_event", "src/log_surgeon/Lexer.tpp:scan", "src/log_surgeon/LogParser.cpp:add_rules"]}
{"id": "C68", "title": "An event means the same wherever it stands", "statement": "If an event of one log and an event of another log have the same text, then their timestamps, variables, multiline flags and copies are the same, whatever events stand before and after them in the two logs and whatever the parsers did before; their logtypes are the same too, unless exactly one of the two is the last event of its log.", "quantifier": "every schema whose delimiters include newline and whose timestamps contain no newline, every pair of logs that begin with a timestamp, every event of each, every history of the parsers", "why_tests_cant": "All contexts an event can stand in: the bytes before it, after it, and the state left by earlier events.", "anchors": ["src/log_surgeon/BufferParser.cpp:parse_next_event", "src/log_surgeon/LogParser.cpp:parse", "src/log_surgeon/Lexer.tpp:scan", "src/log_surgeon/LogEvent.cpp:get_logtype"]}
{"id": "C69", "title": "The variables of a log are found line by line", "statement": "The variables reported for all the events of a log are, in order, those reported for its pieces parsed one by one, if the log is divided in front of each of its newlines: a line cannot change which variables are found in another line. (A newline in front of a variable is not counted as part of it.)", "quantifier": "every schema whose delimiters include newline and whose timestamps contain no newline, every log with any number of lines of any length and any events, every variable kind, every history of the parsers", "why_tests_cant": "All combinations of lines: what stands in a line is arbitrary, and the state of the lexer at the end of a line depends on all that was read before.", "anchors": ["src/log_surgeon/Lexer.tpp:scan", "src/log_surgeon/LogParser.cpp:parse", "src/log_surgeon/BufferParser.cpp:parse_next_event"]}
{"id": "C70", "title": "Logs can be put together", "statement": "If logs begin with timestamps and end with newlines, then parsing them put together in one buffer gives the events of the first, then those of the second, and so on: their texts, timestamps, variables, multiline flags and copies are the same, and so are their logtypes except for the last newline of each log.", "quantifier": "every schema whose delimiters include newline and whose timestamps contain no newline, every list of logs, every history of the parsers, every place in memory", "why_tests_cant": "All pairs of logs: whether the beginning of the second log is recognised as the beginning of an event depends on the end of the first, and on rules for newlines and timestamps that differ from those at the beginning of a log.", "anchors": ["src/log_surgeon/LogParser.cpp:add_rules", "src/log_surgeon/LogParser.cpp:parse", "src/log_surgeon/Lexer.tpp:scan", "src/log_surgeon/BufferParser.cpp:parse_next_event"]}
{"id": "C71", "title": "The order in which a schema declares its variables does not change how logs are read", "statement": "Two schemas that declare the same variables and the same delimiters, in whatever order and however often, divide every text into the same tokens. Unless a newline or timestamp is at the same time something else, the parsers made from them give the same events for every text: the same texts, timestamps, multiline flags and tokens, with types of the same names; the variables of a name are the same if its instances are instances of nothing else; if no token has two types, the logtypes are the same. (Order matters only for which of several types of a token comes first.)", "quantifier": "every two schemas with the same variables and delimiters, every text, every history of the two parsers, every order of addresses", "why_tests_cant": "All schemas, all reorderings and all texts: ids, NFA states, DFA states and their addresses are all different for the two parsers.", "anchors": ["src/log_surgeon/LogParser.cpp:add_rules", "src/log_surgeon/Lexer.tpp:generate", "src/log_surgeon/Lexer.tpp:scan", "src/log_surgeon/SchemaParser.hpp:add_schema_var"]}
{"id": "C72", "title": "A variable that does not occur changes nothing", "statement": "If a variable is added to a schema, at whatever place, then for every text in which nothing is an instance of it (and whose beginning is not the beginning of one) the text is divided into the same tokens as before, and (under the condition of C71) the events are the same, with the same logtypes if no token has two types.", "quantifier": "every schema, every further variable, every text without instances of it, every history of the two parsers, every order of addresses", "why_tests_cant": "All schemas and all texts: a further rule changes the ids, the NFA and every state of the DFA, and how far the lexer looks ahead.", "anchors": ["src/log_surgeon/LogParser.cpp:add_rules", "src/log_surgeon/Schema.cpp:add_variable", "src/log_surgeon/Lexer.tpp:scan"]}
{"id": "C73", "title": "Patterns that read the same strings are interchangeable", "statement": "Two schemas with the same delimiters whose variables of each name read the same strings, however the patterns are written (a digit as \\d or [0-9], an alternative split into two variables of one name, a repetition unrolled), divide every text into the same tokens, and (under the condition of C71) give the same events, with the same logtypes if no token has two types.", "quantifier": "every two schemas that read the same strings for each name, every text, every history of the two parsers, every order of addresses", "why_tests_cant": "All pairs of equivalent patterns and all texts: the NFAs and DFAs of equivalent patterns differ in every state.", "anchors": ["src/log_surgeon/finite_automata/RegexAST.hpp:add", "src/log_surgeon/Lexer.tpp:nfa_to_dfa", "src/log_surgeon/Lexer.tpp:scan", "src/log_surgeon/LogParser.cpp:add_rules"]}
{"id": "C74", "title": "The names of variables are only names", "statement": "If the variables of a schema are given other names (different ones, and not `timestamp` or a name the library uses itself), every text is divided into the same tokens, and (under the condition of C71) the events are the same: texts, timestamps, multiline flags, tokens and the variables of each type, with the new names in place of the old ones, and so are the logtypes with the new names in them.", "quantifier": "every schema, every injective renaming that keeps the reserved names, every text, every history of the two parsers, every order of addresses", "why_tests_cant": "All renamings and all texts; the symbol tables are hash maps keyed by the names, and special names are compared as strings all over the code.", "anchors": ["src/log_surgeon/LogParser.cpp:add_rules", "src/log_surgeon/LALR1Parser.hpp:m_symbol_id", "src/log_surgeon/Lexer.hpp:m_symbol_id", "src/log_surgeon/LogEvent.cpp:get_variables"]}
{"id": "C75", "title": "A delimiter that does not occur changes nothing", "statement": "If a further character is declared as a delimiter, and the schema is still accepted, then for every text without this character the tokens are the same as before, and (under the condition of C71) so are the events and logtypes, although `.` no longer stands for the character.", "quantifier": "every schema, every further delimiter, every text without it, every history of the two parsers, every order of addresses", "why_tests_cant": "All schemas and all texts: each delimiter is added to the first state of every rule and removed from every wildcard, and decides how far the lexer looks at the beginning of the text.", "anchors": ["src/log_surgeon/LogParser.cpp:add_delimiters", "src/log_surgeon/LogParser.cpp:add_rules", "src/log_surgeon/Lexer.tpp:scan", "src/log_surgeon/finite_automata/RegexAST.hpp:remove_delimiters_from_wildcard"]}
{"id": "C76", "title": "How a log is read depends only on what can be found in it", "statement": "If the same parts of a text are instances of the same names for two schemas, the same beginnings of the text can be continued to an instance of something, and the schemas have the same delimiters as far as they occur in the text, then the text is divided into the same tokens, and (under the condition of C71) the events and logtypes are the same, whatever else the schemas say.", "quantifier": "every two schemas, every text for which they find the same, every history of the two parsers, every order of addresses", "why_tests_cant": "All pairs of schemas and all texts: nothing but the strings read may matter, not the order, number, names, ids, automata or addresses of what is behind them.", "anchors": ["src/log_surgeon/LogParser.cpp:parse", "src/log_surgeon/Lexer.tpp:scan", "src/log_surgeon/Lexer.tpp:generate"]}
