{"id": "C01", "title": "UTF-8 input decoding is exact", "statement": "When the input encoding is UTF-8, the characters the parser sees are exactly the Unicode scalar values encoded by the input bytes: every well-formed UTF-8 encoding of permitted characters is accepted and decoded to those characters in order, and every ill-formed sequence (bad leading byte, bad trailing byte, truncated, overlong, surrogate, above U+10FFFF) makes parsing fail with a reader error.", "quantifier": "all byte strings", "why_tests_cant": "2^(8n) inputs; tests sample a handful of malformed sequences", "anchors": ["src/reader.c:yaml_parser_update_buffer"]}
{"id": "C02", "title": "UTF-16 input decoding is exact", "statement": "When the input encoding is UTF-16LE/BE, every well-formed UTF-16 byte string of permitted characters is accepted and decoded to those characters; unpaired surrogates and truncated units make parsing fail with a reader error.", "quantifier": "all byte strings, both byte orders", "why_tests_cant": "infinite input space; surrogate arithmetic is only sampled by tests", "anchors": ["src/reader.c:yaml_parser_update_buffer"]}
{"id": "C03", "title": "Only permitted characters reach the parser", "statement": "No matter what bytes and which encoding are supplied, every character delivered to tokenisation is TAB, LF, CR, U+0020-7E, U+0085, U+00A0-D7FF, U+E000-FFFD, or U+10000-10FFFF, except for the single NUL end marker; in particular an embedded NUL or C0/C1 control can never be mistaken for the end of input.", "quantifier": "all byte strings, all encodings, all chunkings", "why_tests_cant": "needs every code point in every position", "anchors": ["src/reader.c:yaml_parser_update_buffer"]}
{"id": "C04", "title": "Encoding detection and BOM stripping", "statement": "If no encoding was set, a leading FF FE / FE FF / EF BB BF selects UTF-16LE / UTF-16BE / UTF-8 and exactly those bytes are removed; any other beginning selects UTF-8 and removes nothing; an explicitly set encoding is never overridden and removes nothing.", "quantifier": "all byte strings and chunkings (including a first chunk of one byte)", "why_tests_cant": "detection depends on how the first reads are split", "anchors": ["src/reader.c:yaml_parser_determine_encoding", "src/api.c:yaml_parser_set_encoding"]}
{"id": "C05", "title": "Input is independent of read chunking", "statement": "The sequence of characters obtained from a read handler depends only on the concatenation of the bytes it returns, not on how the handler splits them over calls; if one split ends in a reader error then every split does.", "quantifier": "all byte strings, all ways a handler may split them into non-empty reads", "why_tests_cant": "exponentially many splits; multi-byte characters may straddle any boundary", "anchors": ["src/reader.c:yaml_parser_update_raw_buffer", "src/reader.c:yaml_parser_update_buffer"]}
{"id": "C06", "title": "Input buffers never overflow", "statement": "While refilling its buffers the parser never writes outside the raw or working buffer and never asks the handler for more bytes than fit, as long as callers request at most the small look-ahead the scanner uses.", "quantifier": "all inputs, chunkings, histories of refills and consumptions", "why_tests_cant": "overflow would need one adversarial size/width/chunk combination out of infinitely many", "anchors": ["src/reader.c:yaml_parser_update_buffer", "src/yaml_private.h:INPUT_BUFFER_SIZE"]}
{"id": "C07", "title": "Refill delivers the requested look-ahead or the end", "statement": "A successful request for k characters terminates and leaves at least k unread characters, or all remaining characters followed by exactly one NUL end marker; characters already buffered and unread are preserved in order.", "quantifier": "all inputs, chunkings, k and buffer states", "why_tests_cant": "depends on the full history of previous refills", "anchors": ["src/reader.c:yaml_parser_update_buffer"]}
{"id": "C08", "title": "UTF-8 output is delivered verbatim and in order", "statement": "With UTF-8 output the concatenation of all buffers passed to the write handler equals the bytes emitted, in order, without loss or duplication, for every sequence of emissions and flushes as long as the handler succeeds.", "quantifier": "all emission histories and flush points", "why_tests_cant": "flush points depend on the accumulated length of output", "anchors": ["src/writer.c:yaml_emitter_flush", "src/emitter.c:FLUSH"]}
{"id": "C09", "title": "UTF-16 output encodes the emitted characters", "statement": "With UTF-16LE/BE output the bytes passed to the handler are the UTF-16 encoding of the emitted characters, so that decoding them yields the characters again.", "quantifier": "all characters U+0000-10FFFF and all strings of them", "why_tests_cant": "tests use a few BMP characters; the surrogate-pair path covers 2^20 characters", "anchors": ["src/writer.c:yaml_emitter_flush"]}
{"id": "C10", "title": "String output never overruns the caller's buffer", "statement": "With a fixed output string of a given size, the library never writes beyond it; the reported size_written always equals the number of bytes stored, those bytes are a prefix of the output, and emission fails with a writer error exactly when the output does not fit.", "quantifier": "all buffer sizes and all output histories", "why_tests_cant": "needs every size/flush-boundary combination", "anchors": ["src/api.c:yaml_string_write_handler", "src/api.c:yaml_emitter_set_output_string"]}
{"id": "C11", "title": "The output buffer never overflows", "statement": "No emission step writes past the end of the emitter's working buffer, and flushing never writes past the end of the raw (UTF-16) buffer.", "quantifier": "all emission histories, all characters and line-break settings", "why_tests_cant": "buffer boundary can fall at any character", "anchors": ["src/emitter.c:FLUSH", "src/emitter.c:PUT", "src/emitter.c:PUT_BREAK", "src/emitter.c:WRITE", "src/writer.c:yaml_emitter_flush"]}
{"id": "C12", "title": "Stacks are faithful LIFO lists of unbounded growth", "statement": "Every growable stack used by the library behaves as a list: pushes keep all earlier elements in order, pops return them in reverse, growth never loses or moves elements observably, nothing is written outside the allocation, and a push only fails when allocation fails or the documented size limit is hit, leaving the contents unchanged.", "quantifier": "all operation histories and allocation outcomes", "why_tests_cant": "reallocation happens at arbitrary points of an unbounded history", "anchors": ["src/api.c:yaml_stack_extend", "src/yaml_private.h:PUSH", "src/yaml_private.h:POP"]}
{"id": "C13", "title": "Queues are faithful FIFO lists with insertion", "statement": "The token and event queues behave as lists under enqueue, dequeue and insertion at an index: order is preserved across compaction and growth and nothing is written outside the allocation.", "quantifier": "all operation histories and allocation outcomes", "why_tests_cant": "compaction versus reallocation depends on the whole history", "anchors": ["src/api.c:yaml_queue_extend", "src/yaml_private.h:ENQUEUE", "src/yaml_private.h:DEQUEUE", "src/yaml_private.h:QUEUE_INSERT"]}
{"id": "C14", "title": "Growable text buffers preserve content and termination", "statement": "Appending characters, line breaks and whole strings to the scanner's text buffers yields exactly the concatenation, stays inside the allocation, and always leaves room for and contains a terminating NUL.", "quantifier": "all append/join/clear histories", "why_tests_cant": "growth points depend on all preceding lengths", "anchors": ["src/api.c:yaml_string_extend", "src/api.c:yaml_string_join", "src/yaml_private.h:STRING_EXTEND", "src/yaml_private.h:JOIN", "src/yaml_private.h:CLEAR"]}
{"id": "C15", "title": "Text given to the API is validated as UTF-8", "statement": "Strings passed to event and document constructors are accepted if they are well-formed UTF-8 and rejected if they contain bad leading bytes, bad trailing bytes, truncated or overlong sequences; what is accepted is always decodable.", "quantifier": "all byte strings", "why_tests_cant": "infinite input space", "anchors": ["src/api.c:yaml_check_utf8"]}
{"id": "C16", "title": "Document node ids are dense, stable and checked", "statement": "Adding nodes to a document returns ids 1,2,3,...; an id keeps denoting the same node (type, tag, value, style) for the lifetime of the document; looking up any other number yields nothing; the root is node 1 if it exists.", "quantifier": "all sequences of document API calls", "why_tests_cant": "histories are unbounded", "anchors": ["src/api.c:yaml_document_add_scalar", "src/api.c:yaml_document_add_sequence", "src/api.c:yaml_document_add_mapping", "src/api.c:yaml_document_get_node", "src/api.c:yaml_document_get_root_node"]}
{"id": "C17", "title": "Appending children preserves order and everything else", "statement": "Appending an item or a pair adds it at the end of exactly that collection and changes no other node; all ids stored in a document always denote existing nodes.", "quantifier": "all sequences of document API calls respecting the asserted preconditions", "why_tests_cant": "histories are unbounded", "anchors": ["src/api.c:yaml_document_append_sequence_item", "src/api.c:yaml_document_append_mapping_pair"]}
{"id": "C18", "title": "Token stream framing", "statement": "The token stream of any input starts with exactly one STREAM-START, contains STREAM-END only as its last token, and after STREAM-END or an error no further token is ever returned (calls succeed with an empty token).", "quantifier": "all inputs and numbers of calls", "why_tests_cant": "unbounded call histories on all inputs", "anchors": ["src/scanner.c:yaml_parser_scan", "src/scanner.c:yaml_parser_fetch_more_tokens"]}
{"id": "C19", "title": "Block collections are closed", "statement": "In the token stream of any input scanned to the end, every BLOCK-SEQUENCE-START and BLOCK-MAPPING-START is matched by exactly one later BLOCK-END, properly nested, and none is left open at STREAM-END; at no time have more BLOCK-ENDs than starts been produced.", "quantifier": "all inputs", "why_tests_cant": "indentation structure is unbounded; insertion of retroactive mapping starts happens at arbitrary queue positions", "anchors": ["src/scanner.c:yaml_parser_roll_indent", "src/scanner.c:yaml_parser_unroll_indent", "src/scanner.c:yaml_parser_fetch_value"]}
{"id": "C20", "title": "Indentation levels are strictly nested", "statement": "At every moment the open block collections have strictly increasing columns starting from -1; opening one requires a larger column, closing pops exactly those deeper than the current column.", "quantifier": "all inputs, every point of the scan", "why_tests_cant": "invariant over unbounded executions", "anchors": ["src/scanner.c:yaml_parser_roll_indent", "src/scanner.c:yaml_parser_unroll_indent"]}
{"id": "C21", "title": "Implicit keys are limited to one line and 1024 characters", "statement": "A ':' never turns earlier text into an implicit mapping key if that text started on an earlier line or more than 1024 characters before; a required key that is lost this way is reported as an error and never silently ignored.", "quantifier": "all inputs, all points of the scan", "why_tests_cant": "positions are unbounded", "anchors": ["src/scanner.c:yaml_parser_save_simple_key", "src/scanner.c:yaml_simple_key_is_valid", "src/scanner.c:yaml_parser_remove_simple_key", "src/scanner.c:yaml_parser_stale_simple_keys"]}
{"id": "C22", "title": "The scanner never looks beyond buffered input", "statement": "Scanning never inspects or consumes a character that has not been requested from the reader, and never reads past the end-of-input marker, for any input however malformed or truncated.", "quantifier": "all inputs, chunkings and truncation points", "why_tests_cant": "a read past the look-ahead shows only on specific truncations at specific places", "anchors": ["src/scanner.c:CACHE", "src/scanner.c:SKIP", "src/scanner.c:READ", "src/scanner.c:yaml_parser_fetch_next_token"]}
{"id": "C23", "title": "Scanning and parsing terminate", "statement": "For every finite input, scanning reaches STREAM-END or an error after finitely many steps, and the number of tokens is bounded linearly in the input length.", "quantifier": "all inputs", "why_tests_cant": "termination is not testable", "anchors": ["src/scanner.c", "src/parser.c:yaml_parser_parse"]}
{"id": "C24", "title": "Source positions are exact", "statement": "The reported index equals the number of characters consumed, line the number of line breaks passed (CRLF counting once) and column the number of characters since; start mark <= end mark for every token and no token starts before the one before it has ended.", "quantifier": "all inputs, all tokens", "why_tests_cant": "all line-break combinations at all positions", "anchors": ["src/scanner.c:SKIP", "src/scanner.c:SKIP_LINE", "src/scanner.c:READ_LINE"]}
{"id": "C25", "title": "The event stream always obeys the event grammar", "statement": "For every input the events returned are a prefix of a word of the documented grammar STREAM-START document* STREAM-END with document = DOCUMENT-START node DOCUMENT-END, node = ALIAS | SCALAR | SEQ-START node* SEQ-END | MAP-START (node node)* MAP-END; if STREAM-END is returned the whole sequence is such a word.", "quantifier": "all inputs (all token sequences), all call counts", "why_tests_cant": "grammar conformance over unbounded nesting", "anchors": ["src/parser.c:yaml_parser_parse", "src/parser.c:yaml_parser_state_machine"]}
{"id": "C26", "title": "The parser's stacks never underflow", "statement": "Whatever the token sequence, the parser never pops an empty state stack or an empty mark stack, and both are empty when the stream ends.", "quantifier": "all token sequences", "why_tests_cant": "unbounded nesting and arbitrary malformed token orders", "anchors": ["src/parser.c:yaml_parser_state_machine", "src/yaml_private.h:POP"]}
{"id": "C27", "title": "Errors are final", "statement": "Once a scan or parse call has returned failure, every later call delivers no token or event; the error type and message stay the same.", "quantifier": "all inputs and histories after the error", "why_tests_cant": "unbounded histories", "anchors": ["src/scanner.c:yaml_parser_scan", "src/parser.c:yaml_parser_parse"]}
{"id": "C28", "title": "Tags are resolved against the document's directives", "statement": "A tag with a handle becomes prefix++suffix of the directive declaring that handle in the same document (with '!' and '!!' predeclared unless overridden); an undeclared handle is a parse error; no directive of one document affects another.", "quantifier": "all token sequences", "why_tests_cant": "all directive/tag combinations over arbitrarily many documents", "anchors": ["src/parser.c:yaml_parser_parse_node", "src/parser.c:yaml_parser_process_directives", "src/parser.c:yaml_parser_append_tag_directive", "src/parser.c:yaml_parser_parse_document_end"]}
{"id": "C29", "title": "Directives are validated", "statement": "A document with two %YAML directives, a version other than 1.1 or 1.2, or two %TAG directives with the same handle is rejected; otherwise the DOCUMENT-START event reports exactly the directives given, in order.", "quantifier": "all directive sequences", "why_tests_cant": "unbounded lists", "anchors": ["src/parser.c:yaml_parser_process_directives"]}
{"id": "C30", "title": "Collection nesting is bounded", "statement": "The parser never lets the number of simultaneously open collections grow beyond the configured maximum plus a constant: deeper input yields an error, so recursion-free memory use for nesting is bounded.", "quantifier": "all inputs and all configured limits", "why_tests_cant": "depth is unbounded", "anchors": ["src/parser.c:MAX_NESTING_LEVEL", "src/parser.c:yaml_maximum_level_reached", "src/parser.c:yaml_set_max_nest_level"]}
{"id": "C31", "title": "Loaded documents are well-formed", "statement": "Every document returned by load has all item, key and value ids denoting nodes of that document, node 1 is the root, and every mapping pair has both key and value.", "quantifier": "all inputs", "why_tests_cant": "all structures including aliases and arbitrary nesting", "anchors": ["src/loader.c:yaml_parser_load_nodes", "src/loader.c:yaml_parser_load_node_add"]}
{"id": "C32", "title": "Aliases denote the node that carried the anchor", "statement": "In a loaded document an alias is represented by the id of the unique earlier node of that document with that anchor; an alias without such a node or a second node with the same anchor is a composer error; anchors do not leak from one document to the next.", "quantifier": "all inputs", "why_tests_cant": "all anchor/alias placements", "anchors": ["src/loader.c:yaml_parser_load_alias", "src/loader.c:yaml_parser_register_anchor", "src/loader.c:yaml_parser_delete_aliases"]}
{"id": "C33", "title": "Loading is faithful to the event stream", "statement": "Reading back a loaded document as a tree (expanding structure, keeping alias identity) gives exactly the event sequence it was built from: same order, values, styles and tags, with absent or '!' tags replaced by the default tag of the node kind.", "quantifier": "all event sequences", "why_tests_cant": "arbitrary nesting", "anchors": ["src/loader.c:yaml_parser_load_scalar", "src/loader.c:yaml_parser_load_sequence", "src/loader.c:yaml_parser_load_mapping"]}
{"id": "C34", "title": "Load returns one document per call, then an empty one", "statement": "Successive load calls return the documents of the stream in order, one per call; after the last one every call returns a document without root.", "quantifier": "all inputs and call counts", "why_tests_cant": "unbounded histories", "anchors": ["src/loader.c:yaml_parser_load"]}
{"id": "C35", "title": "Load after a failure is safe", "statement": "Calling load again after a call has failed returns failure or an empty document and does not abort the process.", "quantifier": "all inputs that fail, all later calls", "why_tests_cant": "needs every failure point", "anchors": ["src/loader.c:yaml_parser_load", "src/parser.c:yaml_parser_parse"]}
{"id": "C36", "title": "Dumping terminates and serialises each reachable node once", "statement": "Dumping any document, including shared and cyclic ones, terminates; every node reachable from the root is emitted in full exactly once, at its first occurrence in pre-order, and every further reference is an alias.", "quantifier": "all node graphs", "why_tests_cant": "graphs incl. cycles are unbounded", "anchors": ["src/dumper.c:yaml_emitter_dump", "src/dumper.c:yaml_emitter_anchor_node", "src/dumper.c:yaml_emitter_dump_node"]}
{"id": "C37", "title": "Anchors are generated exactly when needed and are unique", "statement": "While dumping, a node gets an anchor iff it is referenced at least twice; distinct nodes get distinct anchors; every alias names the anchor of an already emitted node; anchor text fits its buffer and is valid.", "quantifier": "all node graphs", "why_tests_cant": "graphs are unbounded; anchor ids range over all ints", "anchors": ["src/dumper.c:yaml_emitter_anchor_node", "src/dumper.c:yaml_emitter_generate_anchor"]}
{"id": "C38", "title": "Dump then load preserves the graph", "statement": "Composing the events produced by dumping a document gives back an isomorphic graph: same reachable nodes, kinds, tags, values, styles, children order and sharing (cycles included).", "quantifier": "all documents", "why_tests_cant": "graph isomorphism over unbounded graphs", "anchors": ["src/dumper.c", "src/loader.c"]}
{"id": "C39", "title": "The emitter accepts exactly grammatical event sequences", "statement": "Emitting a sequence of events is refused with an emitter error at the first event that violates the event grammar (or has an invalid anchor, tag, directive, or missing tag), and is never refused for structural reasons otherwise; after STREAM-END everything is refused.", "quantifier": "all event sequences", "why_tests_cant": "unbounded sequences and nesting", "anchors": ["src/emitter.c:yaml_emitter_emit", "src/emitter.c:yaml_emitter_state_machine"]}
{"id": "C40", "title": "The emitter's stacks never underflow", "statement": "For every event sequence, grammatical or not, the emitter never pops an empty state or indentation stack, and its flow level never becomes negative.", "quantifier": "all event sequences", "why_tests_cant": "unbounded nesting", "anchors": ["src/emitter.c:yaml_emitter_state_machine"]}
{"id": "C41", "title": "Emitter look-ahead delays but never reorders or loses events", "statement": "Events are processed in the order emitted; at most three are held back, only behind a DOCUMENT-START, SEQUENCE-START or MAPPING-START; after STREAM-END of a grammatical stream nothing is held back.", "quantifier": "all event sequences", "why_tests_cant": "unbounded sequences", "anchors": ["src/emitter.c:yaml_emitter_emit", "src/emitter.c:yaml_emitter_need_more_events"]}
{"id": "C42", "title": "Scalar style selection is safe", "statement": "The style actually used for a scalar is one in which its value is representable in the context: plain only if the analysis allows it, never plain-empty or block style in flow or simple-key position, never multi-line in a simple key; canonical mode always double-quotes.", "quantifier": "all scalar values, styles, contexts, settings", "why_tests_cant": "infinite values times contexts", "anchors": ["src/emitter.c:yaml_emitter_select_scalar_style", "src/emitter.c:yaml_emitter_analyze_scalar"]}
{"id": "C43", "title": "Double-quoted scalars round-trip", "statement": "Whatever text is written in double-quoted style (any width, unicode setting, line-break and folding positions) scans back to exactly that text.", "quantifier": "all well-formed texts, widths, columns, indents, line-break settings", "why_tests_cant": "every character at every folding position", "anchors": ["src/emitter.c:yaml_emitter_write_double_quoted_scalar", "src/scanner.c:yaml_parser_scan_flow_scalar"]}
{"id": "C44", "title": "Single-quoted scalars round-trip", "statement": "Text that the analysis allows in single-quoted style and is written that way scans back to exactly that text, including folding.", "quantifier": "all allowed texts, widths, columns, indents, line-break settings", "why_tests_cant": "every space/break/quote combination at every folding position", "anchors": ["src/emitter.c:yaml_emitter_write_single_quoted_scalar", "src/scanner.c:yaml_parser_scan_flow_scalar"]}
{"id": "C45", "title": "Plain scalars round-trip", "statement": "Text that the analysis allows in plain style in a context and is written that way is scanned back in that context as one plain scalar with exactly that text.", "quantifier": "all allowed texts, contexts, widths, columns, indents", "why_tests_cant": "indicator characters in all positions and contexts", "anchors": ["src/emitter.c:yaml_emitter_write_plain_scalar", "src/emitter.c:yaml_emitter_analyze_scalar", "src/scanner.c:yaml_parser_scan_plain_scalar", "src/scanner.c:yaml_parser_fetch_next_token"]}
{"id": "C46", "title": "Block scalars round-trip", "statement": "Text written in literal (or folded) style scans back to exactly that text, including leading spaces and trailing breaks.", "quantifier": "all allowed texts, indents, widths, line-break settings", "why_tests_cant": "leading/trailing break and space combinations are unbounded", "anchors": ["src/emitter.c:yaml_emitter_write_literal_scalar", "src/emitter.c:yaml_emitter_write_folded_scalar", "src/emitter.c:yaml_emitter_write_block_scalar_hints", "src/scanner.c:yaml_parser_scan_block_scalar"]}
{"id": "C47", "title": "Tags survive emission and scanning", "statement": "A tag written by the emitter, shortened with the longest-declared or first matching %TAG prefix and percent-escaped where needed, scans and resolves back to the original tag.", "quantifier": "all tags and directive lists", "why_tests_cant": "all byte values and prefix overlaps", "anchors": ["src/emitter.c:yaml_emitter_analyze_tag", "src/emitter.c:yaml_emitter_write_tag_content", "src/scanner.c:yaml_parser_scan_tag_uri", "src/scanner.c:yaml_parser_scan_uri_escapes"]}
{"id": "C48", "title": "Emitter settings are normalised", "statement": "Whatever values are configured, the effective indentation is 2..9, the effective width is either unlimited or larger than twice the indentation (or 80), and a line break style and encoding are always chosen.", "quantifier": "all integer settings in all orders", "why_tests_cant": "integers are unbounded", "anchors": ["src/api.c:yaml_emitter_set_indent", "src/api.c:yaml_emitter_set_width", "src/emitter.c:yaml_emitter_emit_stream_start"]}
{"id": "C49", "title": "Events created through the API own their data", "statement": "Event constructors either fail without side effects or produce an event whose strings equal the arguments and are NUL-terminated copies; invalid UTF-8 arguments are rejected.", "quantifier": "all arguments and allocation outcomes", "why_tests_cant": "all strings and all failing allocations", "anchors": ["src/api.c:yaml_scalar_event_initialize", "src/api.c:yaml_sequence_start_event_initialize", "src/api.c:yaml_alias_event_initialize"]}
{"id": "C50", "title": "Emitted text re-parses to the emitted events", "statement": "Parsing the output of the emitter for any grammatical event sequence yields the same events (up to presentation details such as style and implicit flags).", "quantifier": "all grammatical event sequences and emitter settings", "why_tests_cant": "the full product of structure, text and settings", "anchors": ["src/emitter.c", "src/scanner.c", "src/parser.c"]}
{"id": "C51", "title": "Life cycle of the dumper", "statement": "For any sequence of open, dump and close calls that meet their preconditions, whatever fails on the way: no assertion is reached, the emitter accepts at most one STREAM-START and at most one STREAM-END, and closing twice has no further effect; when nothing fails the accepted events form a grammatical stream.", "quantifier": "all sequences of calls, all documents, all emitters (any outcome of every event)", "why_tests_cant": "all call sequences and all failure patterns of the output", "anchors": ["src/dumper.c:yaml_emitter_open", "src/dumper.c:yaml_emitter_close", "src/dumper.c:yaml_emitter_dump"]}
{"id": "C52", "title": "The document API leaks nothing and frees nothing twice", "statement": "A document created with yaml_document_initialize, changed by any sequence of add and append calls that respects their assertions, and destroyed with yaml_document_delete leaves the heap exactly as it was; every call does what the abstract document operation does or, when memory runs out, leaves the document unchanged and releases its copies.", "quantifier": "all heaps, allocation outcomes, arguments and adaptive programs of calls", "why_tests_cant": "every combination of failing allocations and call sequences", "anchors": ["src/api.c:yaml_document_initialize", "src/api.c:yaml_document_add_scalar", "src/api.c:yaml_document_append_sequence_item", "src/api.c:yaml_document_delete"]}
{"id": "C53", "title": "The parser accepts exactly the grammar of tokens and delivers its events", "statement": "The token sequences that yaml_parser_parse accepts up to STREAM-END are exactly the words of a grammar, and the events are exactly those the grammar assigns (anchors, expanded tags, implicit flags, styles, empty scalars for absent nodes). The grammar is unambiguous. It differs from the one documented at the top of parser.c in the entries without a key: those words are rejected, or accepted with a comma swallowed.", "quantifier": "all token sources below the nesting limit, all numbers of calls, all token sequences", "why_tests_cant": "infinitely many token sequences and nesting structures; both inclusions between two languages", "anchors": ["src/parser.c:yaml_parser_parse", "src/parser.c:yaml_parser_state_machine", "src/parser.c:yaml_parser_parse_node", "src/parser.c:yaml_parser_parse_flow_sequence_entry_mapping_key", "src/parser.c:yaml_parser_parse_block_mapping_key"]}
{"id": "C54", "title": "The character macros classify characters exactly", "statement": "At the beginning of a character of a text in UTF-8, every character macro (IS_ALPHA ... IS_BLANKZ, IS_PRINTABLE, IS_CRLF, AS_DIGIT, AS_HEX, WIDTH, COPY, CHECK with an ASCII octet) and the emitter's decoder give the answer that the definition by code points gives, and read no byte outside of the buffer.", "quantifier": "all buffers, all offsets at which a character begins, all Unicode scalar values", "why_tests_cant": "1.1 million characters in unboundedly many contexts, including those where a neighbouring byte could be misread", "anchors": ["src/yaml_private.h:CHECK_AT", "src/yaml_private.h:IS_ALPHA_AT", "src/yaml_private.h:IS_PRINTABLE_AT", "src/yaml_private.h:IS_BREAK_AT", "src/yaml_private.h:WIDTH_AT", "src/yaml_private.h:COPY", "src/emitter.c:yaml_emitter_write_double_quoted_scalar"]}
{"id": "C55", "title": "The scanner reads exactly the lexical grammar", "statement": "The functions that read quoted, plain and block scalars, anchors and aliases, tags, directives and the white space between tokens succeed exactly on the texts that the lexical rules admit, deliver exactly the value the rules give (escapes, folding, chomping, indentation, percent escapes, version numbers) and stop exactly where the rules say. In a run on any byte string, the tokens delivered, without those that only mark block structure, are the lexemes of the text in order: between two lexemes stands nothing but white space and comments, every token starts where its lexeme starts and has the value of its lexeme, and nothing of the text is left out.", "quantifier": "all texts, all positions, all byte strings", "why_tests_cant": "unboundedly many texts; the rules interact (folding, indentation, tabs, document markers, escapes) and a test only shows the combinations somebody thought of", "anchors": ["src/scanner.c:yaml_parser_scan_flow_scalar", "src/scanner.c:yaml_parser_scan_plain_scalar", "src/scanner.c:yaml_parser_scan_block_scalar", "src/scanner.c:yaml_parser_scan_anchor", "src/scanner.c:yaml_parser_scan_tag", "src/scanner.c:yaml_parser_scan_directive", "src/scanner.c:yaml_parser_scan_to_next_token"]}
{"id": "C56", "title": "From any bytes to events and documents, totally", "statement": "With the scanner and the reader as the parser's source of tokens, every number of calls of yaml_parser_parse and yaml_parser_load on every byte string returns: no undefined behaviour, no endless loop. The events are a prefix of (with STREAM-END: exactly) an event stream, their number is at most 16 per byte plus 28, and after that many calls the stream has ended or failed. The tokens the parser sees are those yaml_parser_scan delivers; the events depend only on the characters, not on how the handler splits the bytes; the documents loaded are those of the events.", "quantifier": "all byte strings, encodings settings, handler behaviours, nesting limits and numbers of calls", "why_tests_cant": "all byte strings and all ways of splitting them; termination and linear bounds", "anchors": ["src/parser.c:yaml_parser_parse", "src/parser.c:PEEK_TOKEN", "src/scanner.c:yaml_parser_fetch_more_tokens", "src/reader.c:yaml_parser_update_buffer", "src/loader.c:yaml_parser_load"]}
{"id": "C57", "title": "The emitter writes only text the reader accepts, and all of it arrives", "statement": "Every character the emitter passes to the writer is permitted in a YAML stream and every output operation fits the buffer check, for all events (also rejected ones) and also after failed writes; at the end of a stream the write handler has received exactly the encoding of the text, in UTF-8 and in UTF-16.", "quantifier": "all event sequences, settings, encodings, write handlers and failures", "why_tests_cant": "all code points in all positions (values, tags, anchors, handles) times all styles and failure histories", "anchors": ["src/emitter.c", "src/writer.c"]}
{"id": "C58", "title": "The token stream is the layout of the lexemes, and every text that has one is accepted", "statement": "Block structure and implicit keys are decided by columns and lines alone: a lexeme of the block context closes the block collections further to the right with BLOCK-END tokens; `-`, `?`, a `:` without an implicit key and an implicit key open a block collection if they are further to the right than the innermost one; an implicit key is what starts at the last place of its level where a key could start, if the `:` follows on the same line within 1024 characters, and gets a KEY token (and BLOCK-MAPPING-START) in front of it; what starts in the column of the innermost collection in the block context must be followed by a `:`; directives and document markers close everything. In every run on any byte string the tokens delivered, with their positions, are the beginning of the tokens these rules give for the lexemes of the text, and all of them once STREAM-END has been delivered. Conversely, the rules give at most one token stream for a text, and if they give one, the scanner delivers it.", "quantifier": "all byte strings, all ways the input is split into pieces, all numbers of calls", "why_tests_cant": "columns, lines, nesting levels and pending keys combine without bound; the KEY token is inserted long before the `:` that decides about it is read", "anchors": ["src/scanner.c:yaml_parser_fetch_next_token", "src/scanner.c:yaml_parser_fetch_more_tokens", "src/scanner.c:yaml_parser_save_simple_key", "src/scanner.c:yaml_parser_roll_indent", "src/scanner.c:yaml_parser_unroll_indent", "src/scanner.c:yaml_parser_fetch_value", "src/scanner.c:yaml_parser_stale_simple_keys"]}
{"id": "C59", "title": "Which texts the parser accepts, and which events it delivers", "statement": "There is a relation between texts and event streams, defined without reference to the code by three sets of rules: the lexical rules (how each lexeme reads), the layout rules (which tokens the lexemes give) and the grammar (which events the tokens give). A text has at most one event stream. If reading a byte string reaches STREAM-END, the bytes decode completely and the events delivered are those of the text. Conversely, if the bytes decode to a text that has events and is not nested deeper than the limit, the parser delivers exactly these events, one per call, without error, however the input arrives.", "quantifier": "all byte strings and encodings, all ways the input is split into pieces, all nesting limits, all numbers of calls", "why_tests_cant": "it is an equivalence between the language of the implementation and that of the rules: every text is a test case, accepted or rejected", "anchors": ["src/parser.c:yaml_parser_parse", "src/scanner.c:yaml_parser_fetch_more_tokens", "src/scanner.c:yaml_parser_fetch_next_token", "src/reader.c:yaml_parser_update_buffer"]}
{"id": "C60", "title": "Which texts the loader accepts, and which documents it returns", "statement": "A text is a list of documents if it has events (C59) and in each document every alias refers to an anchor in front of it and no anchor is given twice. A text has at most one such list, and the events of a document determine the document up to positions. If the calls of the loader return an empty document (the end) and none failed, the bytes decode completely, the text is a list of documents, and the documents returned are these, in order and without gap. Conversely, for every text that is a list of documents, with memory enough and nesting below the limit, the calls return these documents, one per call, and then empty documents for ever, however the input arrives.", "quantifier": "all byte strings and encodings, all ways the input is split into pieces, all nesting limits, all numbers of calls", "why_tests_cant": "equivalence between the language of the implementation and that of the rules, with aliases over unbounded distances and cycles", "anchors": ["src/loader.c:yaml_parser_load", "src/loader.c:yaml_parser_load_document", "src/loader.c:yaml_parser_register_anchor", "src/loader.c:yaml_parser_load_alias", "src/parser.c:yaml_parser_parse"]}
{"id": "C61", "title": "Documents dumped and loaded again are the same documents", "statement": "Let the documents be such that: all ids denote nodes; every tag is not empty, is made of Unicode characters other than NUL, and has no comma or bracket behind a prefix; values are made of Unicode characters; no folded scalar has a line that begins with a space or tab and has, further on, a single space at which it could be folded; directives are well-formed; the first document is not one that is written as nothing (an untagged empty plain scalar without markers), unless the emitter is canonical. Open, dump them all, close, with any settings of the emitter, any encoding and any write handler. If no call fails (none does if memory suffices and the handler never fails), the bytes received by the handler, loaded without being told the encoding, however they arrive, give the same number of documents, each with the same version, tag directives and graph of nodes (sharing and cycles included) up to styles and positions, except that the tag `!` becomes the default tag; then the end of the stream. The nesting limit must not be exceeded, which is so in particular if no document has as many nodes as the limit.", "quantifier": "all lists of documents that meet the conditions (any graphs), all emitter settings, write handlers, encodings, input chunkings", "why_tests_cant": "dumper, emitter, writer, reader, scanner, parser and loader together over unbounded graphs and all settings", "anchors": ["src/dumper.c:yaml_emitter_dump", "src/emitter.c:yaml_emitter_emit", "src/writer.c:yaml_emitter_flush", "src/loader.c:yaml_parser_load"]}
{"id": "C62", "title": "Ownership in the loader: one call of yaml_parser_load and whole histories on the heap", "statement": "The loader runs on a heap of blocks, where each allocation may fail, freeing twice and using a freed or foreign block are errors, and the strings and lists of an event belong to the caller. For every sequence of parser outcomes that the parser can deliver (C25), every heap and every pattern of failing allocations, yaml_parser_load never frees twice and never uses a block that is not alive. If it succeeds, the document is the one of the model on values and owns exactly the blocks that are new; everything else that came with the events, the alias table and the context stack are freed. If it fails, the document is cleared, the alias table is gone, and the heap is as before except for the leaks of two places: the directives of a document whose alias stack cannot be allocated, and the children list of a collection whose node cannot be pushed. Without failing allocations (and with less than five million events) it fails only if the parser or the composer does, and then nothing leaks. Loading and deleting documents until the end or the first failure leaves the heap as it was, up to the same leaks.", "quantifier": "all event sequences in the order the parser delivers, all heaps, all patterns of allocation failures, all numbers of calls", "why_tests_cant": "every allocation of every run must be made to fail; aliasing between blocks of events, nodes and the alias table over unbounded documents", "anchors": ["src/loader.c:yaml_parser_load", "src/loader.c:yaml_parser_load_document", "src/loader.c:yaml_parser_load_nodes", "src/loader.c:yaml_parser_load_scalar", "src/loader.c:yaml_parser_load_sequence", "src/loader.c:yaml_parser_load_mapping", "src/loader.c:yaml_parser_register_anchor", "src/loader.c:yaml_parser_delete_aliases"]}
{"id": "C63", "title": "Ownership in the dumper: yaml_emitter_dump frees the document on every path", "statement": "The dumper runs on a heap of blocks, where each allocation may fail and freeing twice or using a freed or foreign block is an error. The emitter is any program that takes over the blocks of the events given to it, frees them at once or later, and may refuse events or run out of memory. For every document whose ids denote nodes (shared and cyclic ones included), every such emitter, every heap and every pattern of failing allocations, yaml_emitter_dump never frees twice and never uses a block that is not alive, and afterwards every block of the document has been freed or given to the emitter exactly once and the table of anchors has been freed, whether the call succeeded or failed, wherever it failed. With memory, the call does exactly what the model on values does. The same holds for any sequence of dumps.", "quantifier": "all documents with valid ids, all emitters that take over events, all heaps, all patterns of allocation failures, all numbers of calls", "why_tests_cant": "every allocation and every call of the emitter must be made to fail at every point of the dump of every graph; a leak or a double free shows only in the heap", "anchors": ["src/dumper.c:yaml_emitter_dump", "src/dumper.c:yaml_emitter_open", "src/dumper.c:yaml_emitter_close", "src/dumper.c:yaml_emitter_delete_document_and_anchors", "src/dumper.c:yaml_emitter_anchor_node", "src/dumper.c:yaml_emitter_generate_anchor", "src/dumper.c:yaml_emitter_dump_node"]}
{"id": "C64", "title": "Ownership in the parser: tokens, stacks, directives and events on the heap", "statement": "The parser runs on a heap of blocks, where each allocation may fail and freeing twice or using a freed or foreign block is an error. For every source of tokens (with ASCII handles, and tags that can be written in UTF-8), every heap, every pattern of failing allocations and every number of calls: yaml_parser_initialize either builds a parser or leaves the heap as it was; the calls of yaml_parser_parse never free twice and never use a block that is not alive; at any time, also after a failure in the middle of a production, every new block belongs to the parser object or to exactly one event already returned; the events are those of the model on values up to the first failure; yaml_parser_delete frees exactly the blocks of the parser object, so events outlive the parser; when they are deleted too the heap is as it was. The outcomes and the error are those of the model on values, unless the error is the memory error, and this needs a failing allocation or a stack at its size limit.", "quantifier": "all token sources, all heaps, all patterns of allocation failures, all numbers of calls, all nesting limits", "why_tests_cant": "every allocation of every production must be made to fail at every point; ownership moves from tokens to locals to events through many error exits, and a leak or double free shows only in the heap", "anchors": ["src/parser.c:yaml_parser_parse", "src/parser.c:yaml_parser_state_machine", "src/parser.c:yaml_parser_parse_node", "src/parser.c:yaml_parser_process_directives", "src/parser.c:yaml_parser_append_tag_directive", "src/parser.c:yaml_parser_parse_document_start", "src/parser.c:yaml_parser_parse_document_end", "src/api.c:yaml_parser_initialize", "src/api.c:yaml_parser_delete", "src/api.c:yaml_token_delete"]}
{"id": "C65", "title": "Parsing and loading from bytes account for every block on one heap", "statement": "For every byte string, encoding setting and behaviour of the read handler, every heap and every pattern of failing allocations: after yaml_parser_initialize any number of calls of yaml_parser_parse, or of yaml_parser_load up to the first failure, never use undefined behaviour, free nothing twice and use nothing that is not alive. At any time every new block belongs to the parser object, to an event or document already returned, or, after a failed yaml_parser_load only, to the one list of children or the one set of directives that C62 shows to be lost. The events are exactly those of the parser on values over the scanner and the reader, up to the first failure, and the calls fail exactly when they do on values unless memory is lacking; the documents are the first of those of the loader on values. yaml_parser_delete can follow at any time and events and documents outlive it. If all calls of yaml_parser_load succeed, or all allocations succeed and no stack is at its size limit, nothing leaks, and then the calls succeed exactly when they do on values.", "quantifier": "all byte strings, encodings, handlers, heaps, patterns of allocation failures, numbers of calls, nesting limits", "why_tests_cant": "the failing allocation may be in the parser, in the loader or between them, at any point of any input; the claim also needs that no token of the scanner has a text the C string functions would cut", "anchors": ["src/loader.c:yaml_parser_load", "src/loader.c:yaml_parser_load_nodes", "src/parser.c:yaml_parser_parse", "src/scanner.c:yaml_parser_fetch_more_tokens", "src/scanner.c:yaml_parser_scan_uri_escapes", "src/api.c:yaml_parser_delete", "src/api.c:yaml_document_delete"]}
{"id": "C66", "title": "Ownership in the emitter: event queue, stacks, directives and borrowed strings on the heap", "statement": "The emitter runs on a heap of blocks, where each allocation may fail and freeing twice or using a freed or foreign block is an error; the strings of events are borrowed while an event is processed. For every output handler, every heap, every pattern of failing allocations, every setting and every series of calls of the event constructors and of yaml_emitter_emit up to the first failing write or allocation: yaml_emitter_initialize either builds an emitter or leaves the heap as it was; no call uses undefined behaviour; at any time, also after a failure in the middle of an event, every block of the events handed over belongs to the emitter object or was freed exactly once; results, error kinds and output are those of the emitter on values; yaml_emitter_delete can follow at any time and leaves the heap as it was. Memory is lacking only if an allocation fails or a stack is at its size limit. After a failing write a further call of yaml_emitter_emit may take an indent from an empty stack (witness).", "quantifier": "all output handlers, heaps, patterns of allocation and write failures, settings, events and numbers of calls", "why_tests_cant": "every allocation and every write of every event must fail at every point; the strings of the event at the head of the queue are used through borrowed pointers, and an early free or a leak shows only in the heap", "anchors": ["src/emitter.c:yaml_emitter_emit", "src/emitter.c:yaml_emitter_state_machine", "src/emitter.c:yaml_emitter_append_tag_directive", "src/emitter.c:yaml_emitter_increase_indent", "src/emitter.c:yaml_emitter_emit_document_start", "src/emitter.c:yaml_emitter_emit_document_end", "src/emitter.c:yaml_emitter_analyze_event", "src/api.c:yaml_emitter_initialize", "src/api.c:yaml_emitter_delete", "src/api.c:yaml_event_delete"]}
{"id": "C67", "title": "Dumping with the emitter on one heap, and reading back", "statement": "yaml_emitter_open, any number of calls of yaml_emitter_dump and yaml_emitter_close run with the emitter on one heap. For all documents in the heap (all ids denote nodes, strings are C strings), all settings, output handlers, heaps and patterns of failing allocations and writes: no call uses undefined behaviour; after each call every block of the document handed over was freed once or belongs to the emitter; when the emitter and the documents not handed over are deleted the heap is as it was. If all calls succeed, the output is exactly that of dumping on values; with the writer as output handler, the bytes loaded again, also by the loader on the heap, give the same documents up to presentation. If all allocations succeed and no stack is at its size limit, the calls fail only if they fail on values.", "quantifier": "all documents, settings, handlers, encodings, heaps, patterns of allocation and write failures, numbers of documents", "why_tests_cant": "strings move from the document to events to the queue of the emitter and are freed by whoever holds them when something fails; every allocation and write must fail at every point of every document graph, cyclic ones included", "anchors": ["src/dumper.c:yaml_emitter_open", "src/dumper.c:yaml_emitter_close", "src/dumper.c:yaml_emitter_dump", "src/dumper.c:yaml_emitter_dump_node", "src/dumper.c:yaml_emitter_delete_document_and_anchors", "src/emitter.c:yaml_emitter_emit", "src/api.c:yaml_emitter_delete", "src/loader.c:yaml_parser_load"]}
{"id": "C68", "title": "Reformatting: events move from the parser to the emitter on one heap", "statement": "The program of tests/example-reformatter.c: initialize parser and emitter, hand every event that the parser returns to the emitter until the end of the stream or the first failure, delete both. For every byte string, read and write handler, encoding and setting, every heap and every pattern of failing allocations and writes, it comes to an end (the number of rounds is at most 16 times the length of the input plus 29), uses no undefined behaviour, and leaves the heap as it was: no string of an event is lost, freed twice or used after it was freed, also if parser or emitter fail at any point. What is written, how the program ends and the error of the parser are those of parser and emitter on values, unless an allocation fails or a stack is at its size limit.", "quantifier": "all byte strings, handlers, encodings, emitter settings, heaps, patterns of allocation and write failures", "why_tests_cant": "the strings of each event have one owner after the other (token, event, queue of the emitter); every allocation and every write must fail at every point of every input", "anchors": ["tests/example-reformatter.c:main", "src/parser.c:yaml_parser_parse", "src/emitter.c:yaml_emitter_emit", "src/api.c:yaml_parser_delete", "src/api.c:yaml_emitter_delete"]}
{"id": "C69", "title": "What is reformatted is read back", "statement": "Let the parser read the whole input, and let its events have: no empty tag and no empty prefix of a %TAG directive (which need an escaped NUL), no tag with a comma or bracket behind a prefix, no folded scalar with an indented line that can be folded. Run the program of C68 with any settings of the emitter and the writer of the library. If it gets to the end, the memory is as before, and the bytes that the write handler received, parsed again however they arrive and without being told the encoding, give the same events up to presentation; and if the input loads, the output loads to the same number of documents with the same version, directives, and node by node the same tag, contents and children. It does get to the end if the write handler never fails and every allocation succeeds, unless a stack reaches its size limit. Each of the four exclusions is necessary: there is an input for each that parses, and is refused, unreadable or changed.", "quantifier": "all byte strings, read and write handlers, encodings, emitter settings, heaps and patterns of failing allocations; all ways of reading the output", "why_tests_cant": "every stream that can be parsed, times all settings and handlers; the four exceptions were found only by proving that there are no others", "anchors": ["tests/example-reformatter.c:main", "src/parser.c:yaml_parser_parse", "src/emitter.c:yaml_emitter_emit", "src/scanner.c:yaml_parser_scan_uri_escapes", "src/emitter.c:yaml_emitter_write_folded_scalar", "src/emitter.c:yaml_emitter_write_tag_content"]}
{"id": "C70", "title": "Reformatting documents: what is loaded, dumped and loaded again stays the same", "statement": "The program of tests/example-reformatter-alt.c: initialize parser and emitter, dump every document that is loaded until a document without nodes, which closes the emitter, or the first failure, then delete both. For every byte string, read and write handler, encoding and setting, every heap and every pattern of failing allocations and writes, it comes to an end, uses no undefined behaviour and leaves the heap as it was, but for at most the blocks of one leak of the loader, which needs a failing allocation or a stack at its size limit. Output and end are those of loader, dumper and emitter on values unless memory is lacking. If the program gets to the end of an input that loads, no tag or prefix is empty, no tag has a comma or bracket behind a prefix, no folded scalar has an indented line that can be folded, and the first document is not implicit with an empty plain string as its root, then the output, however it arrives, loads to the same number of documents with the same version, directives and, node by node and with the same numbers, the same tags, contents and children. Under these conditions it does get to the end if every write and allocation succeeds, unless a stack reaches its size limit. The last exclusion is necessary: the inputs &a and !!str load as one document, and the output loads as none.", "quantifier": "all byte strings, read and write handlers, encodings, emitter settings, heaps and patterns of failing allocations and writes; all ways of reading the output", "why_tests_cant": "strings move from tokens to events, documents, events and the queue of the emitter, with every allocation and write failing at every point; and all streams that load, shared and cyclic nodes included, times all settings", "anchors": ["tests/example-reformatter-alt.c:main", "src/loader.c:yaml_parser_load", "src/dumper.c:yaml_emitter_dump", "src/dumper.c:yaml_emitter_close", "src/emitter.c:yaml_emitter_emit", "src/api.c:yaml_document_get_root_node", "src/api.c:yaml_document_delete"]}
{"id": "C71", "title": "The functions that scan one token account for their strings on the heap", "statement": "yaml_parser_scan_directive, _anchor, _tag, _block_scalar, _flow_scalar and _plain_scalar run on a heap of blocks: the strings they build start with 16 bytes and are doubled before there is no room, every allocation may fail, and writing or reading outside of a block, using a freed block and freeing twice are undefined behaviour. For every heap, pattern of failing allocations, position, reader state and read handler for which the function on values is defined, the function on the heap is defined. If it succeeds, the token, the position and the reader are those on values, and the new blocks are exactly those of the token, its strings being terminated by a NUL. If it fails, the heap is as it was before and no string is held; the error is that on values, or some allocation failed. An allocation that fails is reported as a memory error, except that the two small ones of yaml_parser_scan_tag (lines 2403 and 2455) leave parser->error unset.", "quantifier": "all heaps, patterns of failing allocations, positions, reader states, read handlers, indentations and flow contexts", "why_tests_cant": "up to four strings grow independently while any allocation can fail, with cleanup at error labels in nested functions; the room left before each store depends on the whole input", "anchors": ["src/scanner.c:yaml_parser_scan_directive", "src/scanner.c:yaml_parser_scan_anchor", "src/scanner.c:yaml_parser_scan_tag", "src/scanner.c:yaml_parser_scan_tag_uri", "src/scanner.c:yaml_parser_scan_block_scalar", "src/scanner.c:yaml_parser_scan_flow_scalar", "src/scanner.c:yaml_parser_scan_plain_scalar", "src/yaml_private.h:STRING_EXTEND", "src/yaml_private.h:JOIN", "src/api.c:yaml_string_extend", "src/api.c:yaml_string_join"]}
{"id": "C72", "title": "Scanning sessions account for all memory", "statement": "A client initializes a parser, gives it an input, calls yaml_parser_scan any number of times until STREAM-END or a call returns 0, deletes the parser and then the tokens it received. On a heap where every allocation may fail and any access to memory that is not held is undefined behaviour, with the token queue (growing, moving, inserting in the middle), the stacks of indentation levels and simple keys, and the strings of the tokens being blocks, such a session is always defined and leaves the heap as it was. The tokens received are exactly those of the calls on values, with the same positions and strings. If a call returns 0, it does so on values too and sets the same error, or some allocation failed, or a stack has reached its size limit. Without a parser, some allocation of yaml_parser_initialize failed.", "quantifier": "all inputs below the file size limit, encodings, read handlers, numbers of calls, heaps and patterns of failing allocations", "why_tests_cant": "the parser may be deleted between any two tokens and any allocation may fail; the queue is shifted and grown while tokens that own strings are inserted before others, and tokens change owner between queue, fetcher and client", "anchors": ["src/scanner.c:yaml_parser_scan", "src/scanner.c:yaml_parser_fetch_more_tokens", "src/scanner.c:yaml_parser_fetch_next_token", "src/scanner.c:yaml_parser_stale_simple_keys", "src/scanner.c:yaml_parser_save_simple_key", "src/scanner.c:yaml_parser_roll_indent", "src/scanner.c:yaml_parser_unroll_indent", "src/api.c:yaml_parser_initialize", "src/api.c:yaml_parser_delete", "src/api.c:yaml_token_delete", "src/api.c:yaml_queue_extend", "src/api.c:yaml_stack_extend", "src/yaml_private.h:QUEUE_INSERT", "src/yaml_private.h:ENQUEUE"]}
{"id": "C73", "title": "Scanner, parser, loader, emitter and dumper on one heap", "statement": "Take the programs of C65, C68 and C70: a client that initializes a parser, calls yaml_parser_parse or yaml_parser_load any number of times, deletes the parser and then what it received; the program that hands every event to an emitter; and the program that hands every document to a dumper. Let every block that scanner, parser, loader, emitter and dumper allocate be a block of one heap, including the strings of tokens while they are scanned, the token queue, and the stacks of indentation levels and simple keys, and let any allocation fail. Then no program ever accesses or frees a block that is not held. When parser, emitter, events and documents are deleted the heap is as it was; only the loader may lose the one block, or the directives of the one document, of the known defects (C62), and only if a call fails. Events and documents in the heap are exactly those that the same input gives on values, up to the first failure. Unless memory is lacking (an allocation failed, or a stack has reached its size limit), outcomes, errors and output are those on values.", "quantifier": "all inputs below the file size limit, encodings, read and write handlers, emitter settings, numbers of calls, heaps and patterns of failing allocations", "why_tests_cant": "ownership of a string passes from the scanner's buffers to a token, from the token to an event, from there to a node or to the emitter; each of these steps can be cut short by any of the allocations of any of the layers, and input and handlers are unbounded", "anchors": ["src/scanner.c:yaml_parser_fetch_more_tokens", "src/parser.c:yaml_parser_parse", "src/loader.c:yaml_parser_load", "src/emitter.c:yaml_emitter_emit", "src/dumper.c:yaml_emitter_dump", "src/api.c:yaml_parser_initialize", "src/api.c:yaml_parser_delete", "src/api.c:yaml_event_delete", "src/api.c:yaml_document_delete", "tests/example-reformatter.c:main", "tests/example-reformatter-alt.c:main"]}
{"id": "C74", "title": "Events lie on their tokens", "statement": "The events that yaml_parser_parse delivers divide the tokens among them in order, and the marks of each event are given by its tokens: from the start of its first property (or directive) to the end of its content (or document marker); a collection starts at its first property or its opening token and its end event is the closing token; indicators and commas do not belong to the node they precede; an event without tokens of its own (implicit document start and end, end of a collection without closing token, missing node) is empty and lies at the start of the next token, and a missing node in block context at the end of its indicator. Hence no event ends before it starts, no event starts before the one before it has ended, and every mark is an exact position in the decoded text or its end.", "quantifier": "all token sources, all inputs below the file size limit, encodings, read handlers, numbers of calls", "why_tests_cant": "every production sets its own marks from tokens it peeked at or has skipped, in every combination of properties, indicators and missing nodes at any nesting; tests compare events without marks", "anchors": ["src/parser.c:yaml_parser_parse_node", "src/parser.c:yaml_parser_parse_document_start", "src/parser.c:yaml_parser_parse_document_end", "src/parser.c:yaml_parser_parse_block_sequence_entry", "src/parser.c:yaml_parser_parse_indentless_sequence_entry", "src/parser.c:yaml_parser_parse_block_mapping_key", "src/parser.c:yaml_parser_parse_block_mapping_value", "src/parser.c:yaml_parser_parse_flow_sequence_entry", "src/parser.c:yaml_parser_parse_flow_mapping_key", "src/parser.c:yaml_parser_parse_flow_mapping_value", "src/parser.c:yaml_parser_process_empty_scalar"]}
{"id": "C75", "title": "Positions of nodes nest", "statement": "In every document that yaml_parser_load returns, the nodes lie in the extent of the document and within the root node; no node ends before it starts; of two nodes the one created later lies within the other or starts after it has ended; every child of a collection that is not there by an alias lies within the collection. No document starts before the one before it has ended. Every mark of a document or node is an exact position in the decoded text or its end.", "quantifier": "all inputs below the file size limit, encodings, read handlers, numbers of calls, limits of the node stack", "why_tests_cant": "a node's marks are set when it is pushed and changed when its end event comes, at any nesting depth and number of nodes; tests do not look at marks of nodes", "anchors": ["src/loader.c:yaml_parser_load_document", "src/loader.c:yaml_parser_load_scalar", "src/loader.c:yaml_parser_load_sequence", "src/loader.c:yaml_parser_load_sequence_end", "src/loader.c:yaml_parser_load_mapping", "src/loader.c:yaml_parser_load_mapping_end"]}
{"id": "C76", "title": "Input and output handlers", "statement": "A parser that reads through any read handler that fulfils the contract of yaml.h over some fixed content (at most as many bytes as asked for, none only at the end, failure at any time), with any data of its own, scans, parses and loads exactly what it does for that content as a byte string with some oracle, so that all claims about byte strings hold for it; the oracle fails only if the handler does. The handler of yaml_parser_set_input_string reads exactly the bytes given and nothing outside of them; that of yaml_parser_set_input_file reads the content of the file and fails only if its error indicator is set. What the handler of yaml_emitter_set_output_file has written is the beginning of the output, and all of it if no call fails.", "quantifier": "all handlers, contents, encodings, numbers of calls, histories of writes", "why_tests_cant": "handlers are client code with unbounded state; how they divide the content and when they fail is arbitrary", "anchors": ["src/api.c:yaml_string_read_handler", "src/api.c:yaml_file_read_handler", "src/api.c:yaml_file_write_handler", "src/api.c:yaml_parser_set_input_string", "src/api.c:yaml_parser_set_input_file", "src/api.c:yaml_parser_set_input", "src/api.c:yaml_emitter_set_output_file", "src/reader.c:yaml_parser_update_raw_buffer"]}
{"id": "C77", "title": "Errors point into the text", "statement": "Every error of the scanner, parser and loader is reported where it is. Problem and context marks of scanner errors are positions in the decoded text (the problem possibly the end of the text, moved to a new line). A parser error has its problem at the start of the next token (an undefined tag handle: at the tag) and its context at the first property of the node or at the token that opened the innermost open collection. An error of the parser that is not its own is that of the scanner on the same text right after the tokens taken. The loader rejects exactly aliases to anchors not given before in the document, reported at the alias, and anchors given twice, reported at both events. Contexts do not lie after the problem, and the tokens delivered before a scanner error do not reach beyond its context.", "quantifier": "all byte strings, encodings, chunkings, token sources, nesting limits, numbers of calls", "why_tests_cant": "every error is reported from its own place in the code and after arbitrarily many tokens; which collection is the innermost depends on an unbounded stack", "anchors": ["src/scanner.c:yaml_parser_set_scanner_error", "src/scanner.c:yaml_parser_stale_simple_keys", "src/parser.c:yaml_parser_set_parser_error", "src/parser.c:yaml_parser_set_parser_error_context", "src/parser.c:yaml_parser_parse_node", "src/parser.c:yaml_parser_parse_flow_mapping_key", "src/parser.c:yaml_parser_parse_block_mapping_key", "src/loader.c:yaml_parser_set_composer_error", "src/loader.c:yaml_parser_set_composer_error_context", "src/loader.c:yaml_parser_register_anchor", "src/loader.c:yaml_parser_load_alias"]}
{"id": "C78", "title": "The notation of the test suite", "statement": "Whatever stream the parser delivers, run-parser-test-suite prints it without abort. A printed line is read by run-emitter-test-suite with the right arguments of the event constructor (kind, implicitness of documents, anchor, tag, value, style; brackets according to the options of both programs) exactly if anchor and tag have less than 256 bytes, an event without anchor has no '&' in tag and value, a scalar without tag does not have both '<' and '>' (the sign of the folded style counts), the value has no NUL, and the line has less than 1022 bytes; provided that the tag has no NUL, line break, space or angle bracket. The buffer of the value is never overrun; copies of anchors and tags run out of bounds exactly if they have 256 bytes or more, or a '>' comes before the first '<'. The last happens for the text \"> <\".", "quantifier": "all events, event streams, options, byte strings parsed, lines", "why_tests_cant": "the cases that fail depend on where four characters stand in unbounded texts; a test suite whose texts lack them never shows it", "anchors": ["tests/run-parser-test-suite.c:main", "tests/run-parser-test-suite.c:print_escaped", "tests/run-emitter-test-suite.c:main", "tests/run-emitter-test-suite.c:get_line", "tests/run-emitter-test-suite.c:get_anchor", "tests/run-emitter-test-suite.c:get_tag", "tests/run-emitter-test-suite.c:get_value"]}
{"id": "C79", "title": "The scanner looks at most 8 characters ahead", "statement": "If two inputs in the same encoding begin with the same characters, and some calls of yaml_parser_scan on the first have neither failed nor delivered STREAM-END and have left the scanner at least 8 characters before the end of the common part, then the same number of calls on the second (which can be decoded and read) returns the same tokens and leaves the scanner in the same state. The sizes of the reads may differ between the two.", "quantifier": "all pairs of byte strings with a common beginning, all read sizes, all numbers of calls", "why_tests_cant": "it compares pairs of runs over all continuations of a text; a test fixes one continuation", "anchors": ["src/scanner.c:yaml_parser_scan", "src/scanner.c:yaml_parser_fetch_more_tokens", "src/scanner.c:yaml_parser_scan_flow_scalar", "src/scanner.c:CACHE"]}
