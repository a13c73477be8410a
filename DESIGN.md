# Formal model of y-scope/log-surgeon — design

## 1. Shape of the development

* `lean/Verif/Model/*` — executable model, one definition per C++ function, each citing `/repo` file:lines and saying
  what is simplified.
* `lean/Verif/Spec/*` — small declarative specifications. They use the model only for the functions a client can call and the
  values a client can see.
* `lean/Verif/Proofs/*` — lemmas (no property is stated here).
* `lean/Verif/Props/*` — the property theorems (`Cnn_…`), beside each a concrete non-trivial case that meets its hypotheses.

Naming: `Cnn_name` is proved in full; `Cnn_name_partial` is proved under a restriction (what is missing is said in the comment and in the
manifest); `Cnn_…refuted…` proves that the full statement is false of the model, by a concrete run of the program. A property that
has a `_partial` or `refuted` theorem is reported as `partial`.
`tools/manifest.py` regenerates `MANIFEST.json` and `lean/Verif.lean` from the theorem names and `tools/notes.json`.

## 2. Trusted base

* Lean 4.33.0's kernel. Axioms used by the theorems: at most `propext`, `Classical.choice`, `Quot.sound`. No axioms of our own, no
  unfinished proofs, no compiled evaluation. Concrete runs (examples, refutations) use `decide +kernel`, i.e. kernel reduction.
* The reading of the C++ into Lean. Nothing ties the model to the code but the citations; the code was not run.
* Memory allocation never fails. Pointers are numbers (NFA/DFA states in the order of creation, buffers by allocation number). The
  *address order* of NFA states is an explicit parameter `addr`, because the code's behaviour depends on it (`std::set<State*>`);
  the order of iteration over unordered containers in the LALR generator is a parameter (`Orders`), and so is the choice of the next
  pair in `get_intersect`.
* `uint32_t`/`size_t` are unbounded numbers, except where truncation matters (`Token::get_char(uint8_t)`, repetition counts).
* Undefined behaviour (null dereference, access outside an allocation, violated assertion), exceptions and divergence are explicit
  outcomes (`.ub`, `.throws`, `.diverge`, `none`), never assumed away. Loops that have no structural bound take a number of allowed iterations;
  theorems say that some bound suffices (termination) or hold for every bound.

## 3. What is modelled, and what is not

| source | model | not modelled |
|---|---|---|
| `Constants.hpp` | constants where used | — |
| `Buffer.hpp`, `ParserInputBuffer.{hpp,cpp}` | `Model/InputBuffer`, `Model/SchemaReader` (`read_if_safe`), `Model/Wide` (`set_storage` in 32 bits) | 32-bit overflow in `increase_capacity` (readers); `increase_capacity` failing |
| `LogParserOutputBuffer.*`, `LogEvent.*` | `Model/LogParser` (buffer, view, metadata), `Model/LogEvent` (accessors, deep copy, logtype) | `get_log_parser` and other trivial getters |
| `Token.{hpp,cpp}` | `Model/Token` | — |
| `Lexer.{hpp,tpp}` | `Model/Lexer` (scan, growth, reset, delimiters), `Model/LexerWildcard` (`scan_with_wildcard`), `Model/LexerRules` (the vector of rules, `generate`, `is_first_char`), `Model/Dfa` (`epsilon_closure`, `nfa_to_dfa`) | the UTF-8 instantiation (never used by the library) |
| `finite_automata/RegexAST.hpp` | `Model/Regex` (all node types, `add_to_nfa`, `remove_delimiters_from_wildcard`, `set_possible_inputs_to_true`, tags), `Model/RegexText` (`serialize`) | UTF-8 instantiation (it does not compile: `add_interval` in RegexNFAState.hpp assigns the value of a `UnicodeIntervalTree<RegexNFAState*>` entry to a `std::vector`) |
| `finite_automata/RegexNFA*.hpp`, `Tag.hpp`, `TaggedTransition.hpp` | `Model/Regex` (states, transitions), `Model/NfaText` (BFS order, `serialize`) | UTF-8 states |
| `finite_automata/RegexDFA.{hpp,tpp}` | `Model/Dfa` (subset construction, `get_intersect`) | UTF-8 states |
| `finite_automata/PrefixTree.*`, `RegisterHandler.hpp` | `Model/PrefixTree` | — |
| `LogParser.{hpp,cpp}` | `Model/LogParser` (parse, metadata, reset), `Model/Schema` (`add_rules`, constructor), `Model/RuleError` (messages of `add_rules`), `Model/ReaderParser` (input operations) | messages of the other exceptions |
| `BufferParser.*` | `Model/LogParser`, `Model/ParserFile` (constructor from a path; also that of `ReaderParser`, ReaderParser.cpp:13) | — |
| `examples/buffer-parser.cpp` `process_logs`, `examples/common.cpp` `print_timestamp_loglevel` | `Model/BufferClient` | argument checks, the output stream |
| `examples/reader-parser.cpp` `process_logs` | `Model/ReaderClient` | argument checks, the output stream |
| `examples/intersect-test.cpp` | `Model/IntersectClient` | the two literal schemas are parameters; commas and line ends of the output |
| `ReaderParser.*`, `Reader.hpp` | `Model/ReaderParser` | a `Reader` with an empty `std::function` |
| `FileReader.*` | `Model/FileReader` (over a model of `fopen/fread/getdelim`) | I/O errors other than a missing file |
| `Schema.*`, `SchemaParser.hpp` (AST, `add_schema_var`) | `Model/Schema` | — |
| `SchemaParser.cpp` | `Model/SchemaRegex` (semantic rules of regexes), `Model/SchemaLex` (lexical rules), `Model/SchemaGrammar` (productions), `Model/SchemaEval` (semantic rules on trees), `Model/SchemaReader` (the two readers), `Model/SchemaParse` (`generate_schema_ast`, `try_schema_string`, `try_schema_file`), `Model/SchemaMachine` (the same step by step, with the semantic rules at each reduction and the static array of children) | in `Model/SchemaParse` semantic rules run after the parse instead of at each reduction (justified by C53_call); `report_error` reads the trees, not the array |
| `LALR1Parser.*`, `Parser.*` | `Model/Lalr` (generator and parser), `Model/Conflict` (the messages about conflicts), `Model/ErrorReport` (the loop with lexer and buffer, `report_error` and its helpers) | nothing |
| `finite_automata/UnicodeIntervalTree.*` | `Model/IntervalTree` | 32-bit wrap-around of the bounds (they are copied, never computed with) |

## 4. Properties: what is modelled and how each is proved

| id | method |
|---|---|
| C01 C02 C19 C20 C41 | The lexer is related to a pure tokeniser over the text (`Proofs/Scan`, `Cfg`, `Tokens`); the parser loop is related to a pure division of the token list into events (`segment`, `Proofs/Parse`, `Buffer`), by induction over the rest of the text. Losslessness follows from the tiling of tokens. |
| C03 | Monotonicity of the pure tokeniser in the text (`nextTok_extend`) and of `segment`. |
| C04 C05 C06 C38 C55 | Invariant of the scan loop (`MRel`): the best candidate so far, the DFA state after the text read; C06 by uniqueness of the declarative specification; C06_exact by an invariant for the run after the virtual start-of-file character (`find_sof`: alive prefix, candidates before the first newline).  C55_exact by one invariant of the scan loop for any text (`Going`, `find_going`, Proofs/Search): what the run so far leaves possible, and what follows if it ends in a token or dies. |
| C07 C08 C09 C14 C36 C54 | Induction over the regex: the NFA fragment added by `add_to_nfa` has exactly the paths of an explicit language (`Proofs/NfaLang`), which is then compared with the textbook meaning.  C54_exact: by induction over the schema syntax the same language is `Pat.reading` (`Spec/Reading.lean`, `Proofs/Reading.lean`), for every pattern. |
| C10 C11 | Subset construction: invariant of the worklist (`Proofs/Subset`, `DfaIds`). |
| C12 | Reachable pairs of the product automaton: worklist invariant, for any order of taking pairs. |
| C13 C15 C16 C17 C18 | Induction over the schema's lines (`Proofs/SchemaTables`, `SchemaLexer`); C15 by an over-approximation of the inputs of a regex. |
| C21 C22 C37 | Corollaries of the relation between parser and segmentation, from any idle state; refutations by runs. The exact offset (C22_offset_exact): the first slot of the output buffer as a separate invariant of the parser loop (Proofs/Stale). |
| C23 C24 C25 C26 | Direct, from the representation invariant of tokens (`Token.Valid`) and of the output buffer. |
| C27 | Refinement of the circular buffer to an unbounded stream (`BufInv`), for all histories (`Uses`). |
| C28 C29 | The circular buffer run of the parser is related step by step to the run over the whole text (`Proofs/ReaderSim`, `ReaderParse`, `ReaderAll`); short lines suffice (`Proofs/ReaderLines`); any reader: a lockstep simulation with a reader of the text given up to the first short answer (`Proofs/AnyReader`); refutations by runs, non-termination by an invariant (`Proofs/Stuck`). |
| C30 C31 | Refinement to an abstract tree / to lists of positions, for all histories. |
| C32 | The language proof of C07/C08 with tags kept in the labels. |
| C33 | Worklist invariant of the BFS; text layout by computation with strings. |
| C34 | Invariant of the LR stacks: every state on the stack is one whose items are valid for the symbols below (`Proofs/Lalr*`). |
| C35 C40 | Model of the C file functions; induction over the requests. |
| C39 | Worklist invariant of the search over completions. |
| C42 | The FIRST sets and lookahead maps are fixed points (`Proofs/LalrFirst`); hence the generated rows contain the actions every LR(1) item asks for (`LalrTables`); the parser then follows any derivation tree, by induction over the tree (`LalrComplete`), stated with symbol names in `LalrFull`. `LalrCheck` checks the conditions for the schema grammar. |
| C43 | Chain: units of the text = tokens of the schema lexer (`Munch`, `SchemaLexemes`, from C07/C10 applied to the lexical rules); tokens = input of the parser (`SchemaParse`, `SchemaText`); acceptance = derivability (C34, C42); derivation trees with values = the inductive syntax `Written…` (`SchemaSem`, `SchemaDer`, `SchemaTree`, both directions by induction). That the table exists for all orders: a certificate (`LalrCertData`, produced by `tools/gen_cert.lean.txt`, checked in the kernel) is a homomorphic image of every run of the generator (`LalrCert`, `SchemaTablesOk`). Room in the children array line by line (`Fit`): the parser starts at the front again after a line with a variable when more than 5000 entries are used (`Proofs/SchemaRoom`, `ParseRoom`, `SchemaStack`). |
| C43, rejection | Semantic rules fail only with exception or undefined behaviour (`Proofs/SchemaReject`), the latter only in the three situations of `Faulty` (`Proofs/SchemaFault`, by kinds of the children for each production). |
| C44 | Each worklist of the generator is bounded by a finite universe (`Proofs/LalrTerm`). |
| C45 | Invariant of the parser: the states on the stack spell a prefix of a right-sentential form (`Proofs/LalrSound`), so every goto exists. Termination in general (`Proofs/LalrMoves`, `LalrLinear`, `LalrBound`): a derivation is the sequence of its moves in bottom-up order; the table follows every derivation, so at each point the next move is a function of the moves so far and the next terminal (`Fixed`); hence derivations are unique and no symbol contains itself without a terminal or behind something empty (`Fixed.acyclic`, `Fixed.no_hidden`); ranks by the symbols inside then bound the moves of every beginning of a derivation linearly in its terminals (`Fixed.prefix_size`); what is on the stack is such a beginning (`stack_begins`). With explicit constants: a weight of the stack that grows with each reduction and is bounded by the tokens read (`Proofs/LalrTotal`); weights for the schema grammar checked in the kernel (`Proofs/SchemaTotal`). |
| C46 | Invariant: entries in order, bounds of each node enclose what is below; rotations keep both whatever the factor (`Proofs/IntervalTree`); refinement of a sorted list (`Spec/IntervalMap`). |
| C47 | The rejecting state of the table is valid for the stack (`Proofs/Viable`: every item on top can be completed), hence the first rejected token is the first offending one; a shift entry stands for an item with its symbol behind the dot, hence the listed names (`Proofs/Expected`); positions and lines from the units (`Proofs/LexLine`, `Proofs/ErrorReport`); the grammar of schema files (`Proofs/ErrorSchema`). Spec: `Spec/ErrorMessage`. |
| C48 | `BufferParser.ofFile` = `trySchemaFile` then `buildLexer`; `Spec/EndToEnd.lean` says from the schema text alone how a log is divided; patterns, mentioned characters and open repetitions are related to the regexes of the AST (`Proofs/EndToEnd`), candidates of the lexer to instances by C08, the rest by C06, C19, C01.  The prefix hidden at the start of the file: every state added by `add_to_nfa` leads to the end state (`Ends`, induction over the regex), so what the DFA can still read is what can be continued to an instance (`Setting.opens`).  `C48_reader_partial`: `ReaderParser.ofFile` in the same way, with C28 for the events shown through the reader. |
| C49 | `processLogs` models the loop of examples/buffer-parser.cpp with its buffer, reads, end-of-file flag, refill and printing.  One buffer: `run_buffer`, parallel to the specification of `parse_next_event`.  Boundaries: the tokens of a piece are a prefix of those of the whole (C03); lexing again from the timestamp after a newline gives the same tokens, with the types of the first one renamed (`lexExact_restart`: the rules of `firstTimestamp` and `newLineTimestamp` have the same tails, `LexExact` determines the tokens); what is printed for an event with timestamp depends only on the texts of its tokens (`EvSame.printed`).  Induction over the unread bytes. |
| C50 | `intersectProgram` models examples/intersect-test.cpp from the texts on.  The processed search string is written in the schema syntax (`written_query`), its pattern matches what `Glob 1` says; composition of C17 (text), C08, C10 and C12; the counter of children is bounded call by call (`schema_complete_room`). |
| C51 | `processLogsReader` models the loop of examples/reader-parser.cpp over a file stream (`gcount`, `eofbit`).  It prints what `parseReader` shows (`runClient_of`), C28 gives the events of the whole text, C49 those of the other program.  `LinesFit → Fits` (`Proofs/ReaderLines`): a scan of a beginning of the text can only be left unfinished after its last newline but one, since a token contains at most one newline, at its beginning or alone (`newline_dies`). |
| C52 | The text is read back as a sequence of items (`Seq`): the text of a sequence without structure characters determines the sequence (induction, `seq_inj`), the text of a regex is the text of its sequence (`toSeq_text`), and the sequence determines what the regex matches (`toSeq_lang`) and its captures; `elab_spec` carries this to patterns. |
| C53 | A reduction reads from the array what it has just written (`store_read`), so a step does not depend on the array (`step_erase`), hence neither does a schedule (`schedule_erase`). The stack of the machine carries the values of the trees of the parser that evaluates at the end (`Vals`, `alone_sim`); a tree that cannot be evaluated keeps the parser from an AST (`stopFrom_bad`). Room: children in the array + symbols on the stacks grow by at most one per step (`schedule_room`). |
| C43, C53, files of any length | Two machines side by side (`ring_alone`): one reads piece by piece into the ring of 48000 bytes, the other has the whole text in a buffer large enough. Invariant `Ring`: the same stack up to positions modulo the buffer (`TwinStack`), the window of the ring from the lowest position still in use to the lexer agrees with the text (`BufInv`, `Sim`); `LinAt` bounds what is still in use: at most the units since the last line with a variable, which by `Fit` are less than half a buffer (`gap_step`, `span_bytes`), so what is overwritten is not needed and the read is always safe in time. Multiples of 48000: the invariant `Aligned` (end of input never seen) excludes `$end`, hence acceptance. |
| C56 | From the schema lexer (`Proofs/SchemaLexer`): what can be read from the root of the automaton (`LexerOf.alive`), and that every rule's first character leads somewhere (`buildNfa_regions`). |
| C57 | `Model/LexerRules`: the vector of rules and what `generate` makes of it; induction over the history of calls. Spec: `Spec/LexerRules`. |
| C58 | Extends the subset construction proof of C10: the states of a DFA state are sorted by address, and each rule has one accepting NFA state (`RulesInv`). Spec: `Spec/Order`. |
| C59 | The copying loop puts the tokens into slots 0, 1, ... of the copy (`deepCopy_full`); the views read them from slot 0 or 1 on. Spec: `Spec/Copy`. |
| C60 | The generator with messages (`Model/Conflict`) agrees with `Model/Lalr` where there is no message; its FIRST sets, lookaheads and item sets are sound for FIRST, FOLLOW and the productions under way (`Proofs/Follow`), and two entries for one symbol come from two items of one closure. With the conditions of C45 no pointer in a message is null (`Proofs/ConflictTotal`). Spec: `Spec/Conflict`. |
| C61 | Refinement: `RegisterHandler` (Model/PrefixTree) simulates registers that are lists of shared numbered cells (`Spec/SharedRegs`), for every history; built on the tree refinement of C30. |
| C62 | The format is a deterministic grammar: numbers end at a non-digit, lists at `}` followed by `,` or a newline, a byte is followed by `-->`. Proofs/NfaTextInj reads the text back line by line (with an arbitrary rest behind it); the positions in the two traversals (C33) are the isomorphism. |
| C63 | `Model/Wide`: `set_storage` with 32-bit arithmetic. Below 2 GiB the two models are equal (induction over the calls, offsets stay within the buffer). From 2 GiB on: the input buffer shows an unfinished text 2 GiB shorter (`prepared32`), and the specification of a call (`callOn_spec`) only needs what the input buffer shows. |
| C64 | `Model/RuleError` (`add_rules` with messages), `Model/RuleLines` (the line numbers through the semantic actions). The result agrees with `Model/Schema`; the variable at which the loop stops is the first that mentions a delimiter (`SchemaText.FirstOffence`, in terms of patterns), the delimiter found first is the least one because the delimiters are visited in ascending order. Line numbers: induction over the parse tree (`schema_lines`), with the line of every token from the lexer (`Proofs/LexLine`), against the lines of the text (`unitLines`, `declaredLines`). |
| C65 | On top of `C24_logtype`: an explicit decoder (`rebuild`, Spec/Rebuild), proved to invert the concatenation of the contributions of the tokens by induction over the tokens (a `<` of a mark is followed by a letter of a name, never by another `<`; the names are those of C16, so a mark is `<newLine>` exactly for newlines). |
| C66 | From the exact description of the tokens of a text (`LexExact`, C06): the tokens of the part before a newline with timestamp are those of the whole text and the newline (`lexExact_take`: no rule can read a newline after its first character), those of the part after it are the shifted ones (`lexExact_restart`, C49); then by the division into events (`segment`), and by induction over the parts. |
| C67 | From the exact description of the tokens of a text (`LexedAll`, C55): a token has no newline except as its first character, and a newline begins a token (`all_lines`); whether the token at a newline is a timestamp depends on the next line only (`tsAt_line`); then by induction over the tokens, following the division into events (`segment`), against a recursion over the characters of the log (`lineEvents`). Which lines begin with a timestamp: from the reading of the regexes (C54) and the order of the types (C11). |
| C68 | From C66: the log is divided in front of the event and behind it, so that the event is a log of its own with the same text; what is printed for it is thus a function of its text (`event_anywhere`), and the logtype of a last event determines that of the same event elsewhere (`lastOf_inj`). |
| C69 | A newline is always at the beginning of a token and what is recognised never extends over one, so `LexExact` of a text with a newline at `b` divides into `LexExact` of `take b` and of `drop b` (`toks_join`); the division into events keeps every token of a variable kind, at most without its newline (`segment_vars`). |
| C70 | A text gets the same types behind a newline and at the start of a file (`LexerOf.afterNl`), so the longest candidates are the same and a line begins with a timestamp in both places or in neither (`first_or_later`); by C67 an event then begins at the join (`lineEvents_join`), and C66 divides the log there. |
| C71 | What a schema recognises (`Instance`) only depends on the sets of declared variables and delimiters; schemas that agree on a text (`Agree`) divide it alike (`Agree.division`), so by C48 both parsers report the same pieces, with ids of the same names; `segment` only looks at the kinds of newlines and timestamps (`segment_alike`), and C24 gives the logtypes. |
| C72 | As C71: a schema with a further variable agrees with the one without it on texts in which the variable has no instance (`agree_of_unused`); the beginning of the text is treated apart, as the lexer also looks at what could begin there (`Hidden`). |
| C73 | As C71: instances of a variable are defined by what its patterns read (`Pat.ReadAs`), so schemas that read alike (`ReadsAlike`) agree on every text (`agree_of_alike`). For `ReaderParser` (C71–C73): `C48_reader_partial` for both files, and `EventsFit` only depends on the texts and timestamps of the events. |
| C74 | Instances of the renamed schema are those of the schema, renamed (`instance_rename`); with `id' ∘ f` for the ids of the second parser, C74 is C71 for one schema and two id tables. |
| C75 | A text without the character is read alike by every pattern (`readAs_congr`); for the beginning of the text, a continuation with the character, which only `.` can have read, is replaced by one with another character (`reading_sub`). Then as C71. |
| C76 | The common part of C71–C75: `Division` is defined by `Instance`, `Opens` and the delimiters in the text, so schemas that agree on those (`Agree`) have the same divisions; C48 and `segment_alike` do the rest. |

## 5. Findings: where the code does not have a property

Each is proved as a `refuted` theorem unless marked (read only).

1. `r*` and `r{0,n}` never match the empty string (C09); `r{0}` matches any number of repetitions, `r{0,0}` one or more, `r{5,3}` five (C36).
2. `a+|b` accepts `ba` (C08): the loop of an unbounded repetition is put on the shared end state. With captures the capture can be negated and then set (C32).
3. `[^]` matches nothing (C14).
4. The order of types follows heap addresses (C11).
5. The parser reads one byte behind a finished input (C01).
6. A schema without variables dereferences a null pointer (C37).
7. A partial timestamp match at the start of the file hides following variables (C06); a timestamp or variable at the start of the file that would only be recognised after a newline is missed (C06_exact).
8. `reset()` keeps the pending start-of-log token (C21).
9. The offset of `BufferParser` is wrong after Success and when bytes run out within an event without a timestamp (C22): then it is the start position of whatever token was left in the first slot of the output buffer, 0 for a new parser, however many events were returned before.
10. `deep_copy` loses the first token of events without timestamp and throws for the empty event (C23).
11. The logtype shows the first character of a variable at the beginning of an event without timestamp (C24).
12. `Token::get_char` truncates its index to 8 bits (C25).
13. `set_register` after `copy_register` changes both registers (C31).
14. NFA serialisation writes newlines raw (C33).
15. A schema string of at least half the buffer size is re-read from its beginning for ever (C35).
16. `scan_with_wildcard`: `?` dereferences null; `*` reports the types of the text only; an assertion fails when the automaton dies (C39).
17. `ReaderParser`: a short read is taken for the end (C28); an event without timestamp ending in the middle of the buffer garbles the following ones (C28); a word crossing the end of the buffer is misclassified (C28); an event ending at the end of the buffer makes `parse_next_event` double its buffer for ever (C29).
18. LALR(1) generator: an unproductive symbol makes item sets with equal (empty) lookaheads replace each other, so that the parser reaches a null state; a reduction at the end of the input overwrites the accepting entry without a conflict being reported (for `S → a | S` the parser then never ends, `C45_unclean_refuted`); the static `m_next_children_start` is never reset between parses, so that a process that parses enough one-variable schemas writes beyond the array (C42).
19. Schema texts: a line of more than about 10000 units, or about as many units in several calls (`add_variable` never frees what it uses), makes the parser write beyond the static children array (C43). By the syntax proved: a file that begins with an empty line, `//` with nothing behind it and names containing the word `delimiters` are syntax errors; `[(ab)]` throws but `[(a)]` is `[a]`. `delimiters:(ab)` dereferences a null pointer and `[b-a]`, also `[a-a]`, violates an assertion (C43).
20. `UnicodeIntervalTree::Node::balance_factor` subtracts the child pointers instead of their heights; `find` on an empty tree, `pop` right of the root and `pop` of a node with two children have undefined behaviour (C46).
21. (read only) `FileReader::read` hides the `std::function` member `Reader::read`; `[\s]` always throws; `|` binds tighter than concatenation.
22. Error messages (C47): a newline that does not fit is reported with the number of the next line; at the end of the text the message contains a NUL character, so that `what()` ends before the line is shown; a text whose last line is empty, such as a schema followed by a carriage return, is reported as an empty file; the list of expected symbols contains nonterminals and, because of merged lookaheads, symbols that cannot follow.
23. The loop of examples/buffer-parser.cpp prints an event twice if the bytes run out in a later event without timestamp of the same buffer (C49_repeats_refuted: the offset reported is that of token 0, never written); a timestamp containing a newline is recognised inside a buffer but not at the beginning of a piece (C49_twoLine_refuted).
24. examples/intersect-test.cpp misses variables: since `.*` does not match the empty text (C09), `*1*` finds neither `v1:1` nor `v6:123` (C50_missed_refuted, C50_example); it prints `v:a+|b` for the search string `ba` (C50_open_refuted); and the program cannot answer more than 1428 search strings in one process, as every `add_variable` takes entries of the static array for children that are never freed (C50_many_refuted).
25. The two example programs print different variables for the same log when an event is longer than half of the buffer of `ReaderParser` (C51_refuted, a consequence of 17).
26. `serialize` of regex ASTs does not escape: `a{1}` and `\(a\)\{1,1\}` have the same text (C52_refuted).
27. A schema file whose length is a positive multiple of 48000 is never parsed (C43_aligned_refuted): `ParserInputBuffer::read` leaves `m_pos_last_read_char` at the size of the buffer (ParserInputBuffer.cpp:56-59 wraps only beyond it), `get_next_character` compares it with a position that has wrapped to 0, so the end of the input is not noticed and the lexer goes on with the old contents of the buffer, or reports an error.
28. The byte 0xFD in a log (C06_fd_refuted): the start-of-file character is always a delimiter (Lexer.tpp:345-355) and begins the rule of the timestamp of the first line, so behind such a byte, in the middle of a log, a timestamp gives a first-timestamp token, and what only looks like the beginning of a timestamp hides the variables in it.
29. `Lexer::generate` moves `m_rules` away (Lexer.tpp:377-378, RegexNFA.hpp:102-108). Afterwards `get_rule` finds nothing: in `report_error` (LALR1Parser.tpp:605-612) the branch that shows a literal is dead, and the messages say 'Colon', 'NewLine' instead of the character. A second call of `generate()` builds an automaton of no rules.
30. Lexer.hpp:119 documents `is_first_char` as the first characters of variables; it marks what precedes them, the delimiters (C56).
31. A buffer of 2 GiB or more given to `BufferParser`: `set_storage` computes `size * 2` in 32 bits. Of 2^31 + m bytes (modulo 2^32) only the first m are parsed and the loop ends with BufferOutOfBounds although the input is finished; sizes from 4 GiB on are truncated (C63).
32. A log whose length is a multiple of the buffer of `ReaderParser` (48000 bytes): the end of the input is only noticed after the buffer has been grown (same cause as 27), and the scan is resumed in the state before the last word, which may then be reported as a variable although it is none (C28_refuted_aligned). A `Reader` that returns less than half of the buffer is taken to be at its end: the events are exactly those of the text up to there (C28_any_reader_partial).
33. `SchemaAST::m_file_path` (SchemaParser.hpp:31) is read by `add_rules` (LogParser.cpp:111, 114, 137) but never assigned: the message about a variable with a delimiter begins with `:LINE:`, without the file name, and the code that shows the line (LogParser.cpp:119-143) never runs, unless the user sets the member. Variables added with `Schema::add_variable` are parsed as texts of their own and always report line 1 (C64).
34. (Not a theorem.) `LogEventView` keeps a reference to its parser (LogEvent.hpp:124) and `ReaderParser`/`BufferParser` objects can be moved: after a move `get_logtype` of an old event looks into the moved-from parser; the models have no moves.
35. `get_logtype` does not escape `<`: static text that looks like a mark makes the logtype ambiguous. With the variable `x:b` the logs `T <x> b` and `T b <x>` have the same logtype ` <x> <x>` and the same variables (C65).
36. The newline at the end of an event is static text in its logtype if another event with a timestamp follows, but `<newLine>` if it is the last event of the input (LogParser.cpp:253-275 divides the token of the next line, LogEvent.cpp:51-67): the same message has two logtypes, depending on what follows it (C66_logtype_refuted).
37. Without a timestamp an empty line is neither an event nor part of the event in front of it: the event of `a⏎` ends with its newline, and the next newline becomes the first character of the next event, `⏎b⏎` (LogParser.cpp:214-252: the first token of an event is taken whatever it is) (C67_empty_line_refuted). Whether a line begins a new event thus depends on the line in front of it being empty.
