{
 "claims": [
  {
   "property": "C01",
   "status": "proved",
   "theorems": [
    "LibYaml.C01_utf8_decoding_exact"
   ],
   "note": "Inputs below 2^63-1 bytes, handler that does not fail."
  },
  {
   "property": "C02",
   "status": "proved",
   "theorems": [
    "LibYaml.C02_utf16_decoding_exact"
   ],
   "note": "Same scope as C01, both byte orders."
  },
  {
   "property": "C03",
   "status": "proved",
   "theorems": [
    "LibYaml.C03_only_permitted_characters"
   ],
   "note": "Every reachable reader state."
  },
  {
   "property": "C04",
   "status": "proved",
   "theorems": [
    "LibYaml.C04_encoding_detection"
   ],
   "note": ""
  },
  {
   "property": "C05",
   "status": "proved",
   "theorems": [
    "LibYaml.C05_chunking_independence",
    "LibYaml.C05_client_chunking_independence"
   ],
   "note": "The second theorem lifts the claim to every client program of the buffer (scanner)."
  },
  {
   "property": "C06",
   "status": "proved",
   "theorems": [
    "LibYaml.C06_input_buffers_never_overflow"
   ],
   "note": "Requests up to 6144 characters; the library requests at most 8."
  },
  {
   "property": "C07",
   "status": "proved",
   "theorems": [
    "LibYaml.C07_refill_delivers"
   ],
   "note": ""
  },
  {
   "property": "C08",
   "status": "proved",
   "theorems": [
    "LibYaml.C08_utf8_output_verbatim"
   ],
   "note": "Every handler that returns, every history up to the first failure."
  },
  {
   "property": "C09",
   "status": "partial",
   "theorems": [
    "LibYaml.C09_utf16_output_partial",
    "LibYaml.C09_correct_iff",
    "LibYaml.C09_violated"
   ],
   "note": "False in the code: writer.c:119 computes a wrong second surrogate. C09_correct_iff says for which characters the output is right, C09_violated is a witness."
  },
  {
   "property": "C10",
   "status": "proved",
   "theorems": [
    "LibYaml.C10_string_output"
   ],
   "note": ""
  },
  {
   "property": "C11",
   "status": "partial",
   "theorems": [
    "LibYaml.C11_output_buffers_never_overflow_partial",
    "LibYaml.C11_utf8_output_never_overflows",
    "LibYaml.C11_violated_after_failed_write"
   ],
   "note": "False in the code when a client continues after a failed write with UTF-16 output (raw buffer overflow, proved); proved up to the first failure, and for UTF-8 output for all histories."
  },
  {
   "property": "C12",
   "status": "proved",
   "theorems": [
    "LibYaml.C12_stack_refines_list",
    "LibYaml.C12_pushes_keep_everything"
   ],
   "note": "All histories and allocation outcomes; popping an empty stack excluded by hypothesis (shown never to happen in C26)."
  },
  {
   "property": "C13",
   "status": "proved",
   "theorems": [
    "LibYaml.C13_queue_refines_list"
   ],
   "note": "All histories and allocation outcomes; misuse (dequeue of empty, insert beyond end) excluded by hypothesis."
  },
  {
   "property": "C14",
   "status": "proved",
   "theorems": [
    "LibYaml.C14_strings_hold_the_concatenation"
   ],
   "note": "Any number of buffers; terminating NUL not claimed for the source of a JOIN before it is cleared."
  },
  {
   "property": "C15",
   "status": "proved",
   "theorems": [
    "LibYaml.C15_check_utf8",
    "LibYaml.C15_well_formed_accepted",
    "LibYaml.C15_accepts_ill_formed"
   ],
   "note": "Exact characterisation; surrogates and values above U+10FFFF are accepted (third theorem)."
  },
  {
   "property": "C16",
   "status": "proved",
   "theorems": [
    "LibYaml.C16_ids_dense_and_checked",
    "LibYaml.C16_ids_are_stable",
    "LibYaml.C16_added_node"
   ],
   "note": "All call histories and allocation outcomes."
  },
  {
   "property": "C17",
   "status": "proved",
   "theorems": [
    "LibYaml.C17_append_is_local",
    "LibYaml.C17_stored_ids_valid"
   ],
   "note": "All call histories respecting the asserts (a failed assert is ub in the model)."
  },
  {
   "property": "C18",
   "status": "proved",
   "theorems": [
    "LibYaml.C18_token_stream_framing"
   ],
   "note": "for every input, chunking, encoding setting and number of calls"
  },
  {
   "property": "C19",
   "status": "partial",
   "theorems": [
    "LibYaml.C19_block_left_open",
    "LibYaml.C19_block_collections_closed_partial"
   ],
   "note": "The property is false as stated: '- [a' yields STREAM-END with a block sequence open (C19_block_left_open). Proved instead: BLOCK-ENDs never exceed starts at any time, and all block collections are closed at STREAM-END if the flow collections are."
  },
  {
   "property": "C20",
   "status": "proved",
   "theorems": [
    "LibYaml.C20_columns_strictly_nested",
    "LibYaml.C20_opening",
    "LibYaml.C20_closing"
   ],
   "note": "invariant between any two calls; opening and closing for any state"
  },
  {
   "property": "C21",
   "status": "proved",
   "theorems": [
    "LibYaml.C21_implicit_keys_are_short",
    "LibYaml.C21_required",
    "LibYaml.C21_required_keys_are_kept"
   ],
   "note": "output level (every implicit KEY has its VALUE on the same line within 1024 characters) and call level (a required key stays pending, becomes a KEY token, or the call fails)"
  },
  {
   "property": "C22",
   "status": "proved",
   "theorems": [
    "LibYaml.C22_never_beyond_buffered_input",
    "LibYaml.C22_only_requested_characters"
   ],
   "note": "over the reader for all chunkings, and over lists of characters where only requested characters may be inspected"
  },
  {
   "property": "C23",
   "status": "proved",
   "theorems": [
    "LibYaml.C23_scanning_terminates",
    "LibYaml.C22_never_beyond_buffered_input",
    "LibYaml.C56_parsing_is_total"
   ],
   "note": "Scanner: at most 4n+7 calls until the end or an error, and the modelled loops never run out of fuel. Parser: C56_parsing_is_total."
  },
  {
   "property": "C24",
   "status": "proved",
   "theorems": [
    "LibYaml.C24_positions_exact"
   ],
   "note": "marks are positions in the decoded text; STREAM-END and the BLOCK-ENDs at the end of the stream lie on a forced new line (scanner.c:1336-1341)"
  },
  {
   "property": "C25",
   "status": "proved",
   "theorems": [
    "LibYaml.C25_events_obey_grammar"
   ],
   "note": "For every token source that does not itself run into undefined behaviour, and every number of calls."
  },
  {
   "property": "C26",
   "status": "proved",
   "theorems": [
    "LibYaml.C26_no_underflow",
    "LibYaml.C26_stacks_empty_at_end"
   ],
   "note": "For every safe token source."
  },
  {
   "property": "C27",
   "status": "proved",
   "theorems": [
    "LibYaml.C27_errors_are_final",
    "LibYaml.C27_scan_errors_are_final",
    "LibYaml.C27_nothing_after_the_end"
   ],
   "note": "Parse calls and scan calls; what a load call does after an error is C35."
  },
  {
   "property": "C28",
   "status": "proved",
   "theorems": [
    "LibYaml.C28_C29_directives_and_tags",
    "LibYaml.C28_lookup"
   ],
   "note": "For every safe token source: the events show exactly what an independent walk over the consumed tokens sees."
  },
  {
   "property": "C29",
   "status": "proved",
   "theorems": [
    "LibYaml.C28_C29_directives_and_tags",
    "LibYaml.C29_directives_decide"
   ],
   "note": "Both directions: only valid directive lists are consumed; valid lists are accepted and reported, invalid ones fail."
  },
  {
   "property": "C30",
   "status": "partial",
   "theorems": [
    "LibYaml.C30_bounded_partial",
    "LibYaml.C30_violated",
    "LibYaml.C30_nesting_checked_partial"
   ],
   "note": "Proved for whole runs on any bytes: at most 2*(limit+1025) collections are open at any time, and every checked collection start had a scanner depth below the limit. The full claim (limit plus a constant) is false: C30_violated gives, for every limit, an error-free run with almost twice as many open collections."
  },
  {
   "property": "C31",
   "status": "proved",
   "theorems": [
    "LibYaml.C31_loaded_documents_are_well_formed",
    "LibYaml.repDoc_wellFormed"
   ],
   "note": "For every safe token source, any stack limits and call count; also every node is reachable from the root."
  },
  {
   "property": "C32",
   "status": "proved",
   "theorems": [
    "LibYaml.C32_anchors",
    "LibYaml.C32_faults_are_errors",
    "LibYaml.C32_bindings"
   ],
   "note": "anchorFault/bindings are defined on events only; per document."
  },
  {
   "property": "C33",
   "status": "proved",
   "theorems": [
    "LibYaml.C33_loading_is_faithful",
    "LibYaml.C33_read_back",
    "LibYaml.C33_composition_succeeds"
   ],
   "note": "readBack/shapes are defined without the loader."
  },
  {
   "property": "C34",
   "status": "proved",
   "theorems": [
    "LibYaml.C34_one_document_per_call"
   ],
   "note": ""
  },
  {
   "property": "C35",
   "status": "partial",
   "theorems": [
    "LibYaml.C35_load_after_failure_aborts",
    "LibYaml.C35_load_is_safe_partial"
   ],
   "note": "The property is false: after a failed load every further load hits a failing assertion (proved for all runs). Proved instead: no abort before a call has failed."
  },
  {
   "property": "C36",
   "status": "proved",
   "theorems": [
    "LibYaml.C36_dump_follows_the_walk",
    "LibYaml.C36_first_dump"
   ],
   "note": "For every document whose ids denote nodes and every emitter: dumping ends (recursion depth at most number of nodes + 1), and sends exactly the events of the unique pre-order walk: each reachable node in full once, later references as aliases."
  },
  {
   "property": "C37",
   "status": "proved",
   "theorems": [
    "LibYaml.C37_anchors"
   ],
   "note": "For every document of at most INT_MAX nodes."
  },
  {
   "property": "C38",
   "status": "proved",
   "theorems": [
    "LibYaml.C38_dump_then_compose",
    "LibYaml.C38_dump_is_grammatical"
   ],
   "note": "Isomorphism of the reachable part; the tag '!' becomes the default tag, as in loading."
  },
  {
   "property": "C39",
   "status": "proved",
   "theorems": [
    "LibYaml.C39_accepts",
    "LibYaml.C39_refuses",
    "LibYaml.C39_exact",
    "LibYaml.C39_after_end"
   ],
   "note": "For every initial setting. Conversely to acceptance, a list that is refused has no grammatical completion of good events, or contains an event with a bad anchor, tag, directive or missing implicit flags. GoodEvent states these conditions independently of the emitter's code."
  },
  {
   "property": "C40",
   "status": "partial",
   "theorems": [
    "LibYaml.C40_no_underflow",
    "LibYaml.C40_until_failure_partial",
    "LibYaml.C40_violated"
   ],
   "note": "Holds for every list of events, grammatical or not, refused calls included, as long as no write or allocation has failed (C40_no_underflow without environment failures; C40_until_failure_partial up to and including the first such failure). False as stated for a client that calls again after a failed write: C40_violated, the flow level is popped twice."
  },
  {
   "property": "C41",
   "status": "proved",
   "theorems": [
    "LibYaml.C41_order",
    "LibYaml.C41_end"
   ],
   "note": "The events that reached the state machine followed by those still queued are the events given, in order; after a complete stream the queue is empty."
  },
  {
   "property": "C42",
   "status": "proved",
   "theorems": [
    "LibYaml.C42_safe",
    "LibYaml.C42_honoured",
    "LibYaml.C42_one_line"
   ],
   "note": "C42_one_line covers analysis, selection and writing of any text in simple key position."
  },
  {
   "property": "C43",
   "status": "proved",
   "theorems": [
    "LibYaml.C43_double_quoted_round_trip"
   ],
   "note": "All Unicode scalar texts, all emitter states with a chosen line break and an indentation of at least 1 (C45_indent: this holds wherever the writers are called). Covers recognition (fetch_next_token) and scanning."
  },
  {
   "property": "C44",
   "status": "proved",
   "theorems": [
    "LibYaml.C44_single_quoted_round_trip"
   ],
   "note": "All texts for which the analysis allows single quotes; the scalar must not be followed by a quote or by the end of the buffer without NUL."
  },
  {
   "property": "C45",
   "status": "proved",
   "theorems": [
    "LibYaml.C45_plain_round_trip",
    "LibYaml.C45_indent"
   ],
   "note": "All non-empty texts allowed in plain style, in block and flow context, with the possible continuations listed in PlainEnd. The empty plain scalar has no token; the parser supplies it."
  },
  {
   "property": "C46",
   "status": "partial",
   "theorems": [
    "LibYaml.C46_literal_round_trip",
    "LibYaml.C46_folded_round_trip_partial",
    "LibYaml.C46_folded_violated",
    "LibYaml.C46_indent"
   ],
   "note": "Literal style: proved for all texts and settings. Folded style: the claim is false (C46_folded_violated: a long line beginning with a space is folded at a space, which comes back as a line break; emitter.c:2344-2347); proved when every line beginning with a space fits into the width. An empty text is never written in block style."
  },
  {
   "property": "C47",
   "status": "partial",
   "theorems": [
    "LibYaml.C47_document_start",
    "LibYaml.C47_tag_round_trip_partial",
    "LibYaml.C47_directive_round_trip",
    "LibYaml.C47_anchor_round_trip",
    "LibYaml.C47_violated"
   ],
   "note": "False as stated: the emitter writes , [ ] unescaped in the suffix after a handle, where the scanner does not accept them (C47_violated: the tag !a,b). Proved for all tags without these characters in the suffix after a handle, for all tags written verbatim, and for all %TAG directives, anchors and aliases."
  },
  {
   "property": "C48",
   "status": "proved",
   "theorems": [
    "LibYaml.C48_settings",
    "LibYaml.C48_respected",
    "LibYaml.C48_setters"
   ],
   "note": ""
  },
  {
   "property": "C49",
   "status": "proved",
   "theorems": [
    "LibYaml.C49_constructor",
    "LibYaml.C49_invalid_rejected",
    "LibYaml.C49_succeeds",
    "LibYaml.C49_delete",
    "LibYaml.C49_no_leak"
   ],
   "note": "Over a heap with arbitrary allocation failures: no undefined behaviour, failure leaves the heap as it was, success yields NUL-terminated copies in new blocks, yaml_event_delete releases exactly those blocks."
  },
  {
   "property": "C50",
   "status": "partial",
   "theorems": [
    "LibYaml.C50_round_trip_partial",
    "LibYaml.C50_bytes_partial",
    "LibYaml.C50_violated"
   ],
   "note": "For every stream of events and all settings the emitter accepts the events, and parsing the text, or the bytes received by any write handler in any encoding, gives the same events up to presentation. Excluded, because the claim is false there (C50_violated, C47_violated, C46_folded_violated): an implicit first document that is written as nothing, tags with comma or bracket behind a prefix, folded scalars with indented lines that can be folded at a space; and nesting above the limit or text of 2 GiB and more."
  },
  {
   "property": "C51",
   "status": "proved",
   "theorems": [
    "LibYaml.C51_life_cycle",
    "LibYaml.C51_whole_stream",
    "LibYaml.C51_open_is_optional"
   ],
   "note": "All call sequences, for an arbitrary emitter that may refuse any event."
  },
  {
   "property": "C52",
   "status": "proved",
   "theorems": [
    "LibYaml.C52_initialize",
    "LibYaml.C52_initialize_succeeds",
    "LibYaml.C52_call",
    "LibYaml.C52_delete",
    "LibYaml.C52_program",
    "LibYaml.C52_no_leak"
   ],
   "note": "Refinement between the heap model of api.c:1035-1400 and the model on values (C16, C17), for all allocation outcomes and adaptive client programs."
  },
  {
   "property": "C53",
   "status": "partial",
   "theorems": [
    "LibYaml.C53_sound",
    "LibYaml.C53_complete",
    "LibYaml.C53_language",
    "LibYaml.C53_unambiguous",
    "LibYaml.C53_documented_partial",
    "LibYaml.C53_documented_rejected_flow",
    "LibYaml.C53_documented_rejected_block",
    "LibYaml.C53_undocumented_accepted"
   ],
   "note": "Proved in full for the grammar that the code implements (Stream .implemented): soundness, completeness, uniqueness. For the grammar documented in parser.c:4-38 both inclusions are false; witnesses are given, and C53_documented_partial covers the productions the two grammars share."
  },
  {
   "property": "C54",
   "status": "proved",
   "theorems": [
    "LibYaml.C54_check",
    "LibYaml.C54_alpha",
    "LibYaml.C54_digit",
    "LibYaml.C54_asDigit",
    "LibYaml.C54_hex",
    "LibYaml.C54_asHex",
    "LibYaml.C54_ascii",
    "LibYaml.C54_printable",
    "LibYaml.C54_zero",
    "LibYaml.C54_bom",
    "LibYaml.C54_space",
    "LibYaml.C54_tab",
    "LibYaml.C54_blank",
    "LibYaml.C54_break",
    "LibYaml.C54_crlf",
    "LibYaml.C54_breakz",
    "LibYaml.C54_spacez",
    "LibYaml.C54_blankz",
    "LibYaml.C54_width",
    "LibYaml.C54_copy",
    "LibYaml.C54_value",
    "LibYaml.C54_scanner",
    "LibYaml.C54_emitter"
   ],
   "note": "Macros as Boolean programs on bytes with short-circuit evaluation; a read outside of the buffer is a distinct outcome. C54_scanner and C54_emitter connect them to what the scanner and emitter models see."
  },
  {
   "property": "C55",
   "status": "proved",
   "theorems": [
    "LibYaml.C55_quoted_scalars",
    "LibYaml.C55_plain_scalars",
    "LibYaml.C55_block_scalars",
    "LibYaml.C55_anchors",
    "LibYaml.C55_tags",
    "LibYaml.C55_directives",
    "LibYaml.C55_filler",
    "LibYaml.C55_run_reads_the_lexemes"
   ],
   "note": "Each reading function is characterised by an equivalence with the lexical rules of Spec/Lexemes.lean; a run that reaches STREAM-END has delivered the lexemes of the whole text (Spec/Layout.lean: Lexed)."
  },
  {
   "property": "C56",
   "status": "proved",
   "theorems": [
    "LibYaml.C56_parsing_is_total",
    "LibYaml.C56_tokens_are_those_of_the_scanner",
    "LibYaml.C56_events_depend_on_characters",
    "LibYaml.C56_grammar",
    "LibYaml.C56_directives_and_tags",
    "LibYaml.C56_loading_is_total",
    "LibYaml.C56_loading"
   ],
   "note": "The parser and loader theorems (C25, C26, C28, C29, C31, C34, C53) transferred to the scanner over the reader over arbitrary bytes, plus termination with explicit bounds. Calls of the loader are covered until one has failed (C35: the call after that aborts)."
  },
  {
   "property": "C57",
   "status": "proved",
   "theorems": [
    "LibYaml.C57_permitted",
    "LibYaml.C57_in_every_environment",
    "LibYaml.C57_delivered"
   ],
   "note": "Also shows that the defect of the UTF-16 writer (C09) is not reachable through the emitter, which escapes all characters beyond the basic plane."
  },
  {
   "property": "C58",
   "status": "proved",
   "theorems": [
    "LibYaml.C58_tokens_of_the_layout",
    "LibYaml.C58_one_layout",
    "LibYaml.C58_delivers_the_layout",
    "LibYaml.C58_accepts_exactly"
   ],
   "note": "Every run delivers the beginning of the token stream that the layout rules give, and all of it at STREAM-END. The rules give at most one stream. If they give one and no read fails, the calls return exactly its tokens, for texts shorter than INT_MAX characters (the scanner refuses deeper nesting and larger columns)."
  },
  {
   "property": "C59",
   "status": "proved",
   "theorems": [
    "LibYaml.C59_one_meaning",
    "LibYaml.C59_sound",
    "LibYaml.C59_complete",
    "LibYaml.C59_accepts_exactly"
   ],
   "note": "The rules are those of C55/C58 (lexemes, layout) and the 'implemented' grammar of C53, which differs from the documented one as C53 says. Hypotheses: the read handler does not fail, the text is shorter than INT_MAX characters, for completeness the text is not nested deeper than the limit (shallow_of_short: true if twice its length is below the limit). Unbounded memory is assumed, as everywhere."
  },
  {
   "property": "C60",
   "status": "proved",
   "theorems": [
    "LibYaml.C60_complete",
    "LibYaml.C60_sound",
    "LibYaml.C60_accepts_exactly",
    "LibYaml.C60_one_list",
    "LibYaml.C60_one_document"
   ],
   "note": "The rules are those of C59 plus the anchor rule (Spec/TextDocs.lean). Hypotheses: the read handler does not fail, the text is shorter than INT_MAX characters; for completeness nesting below the limit and enough memory for the nodes (room)."
  },
  {
   "property": "C61",
   "status": "proved",
   "theorems": [
    "LibYaml.C61_dump_then_load",
    "LibYaml.C61_dump_succeeds",
    "LibYaml.C61_small_documents"
   ],
   "note": "The conditions on the documents (Dumpable, Invisible in Spec/RoundTrip.lean) are part of the claim; they exclude what the emitter is known to write so that it is not read back (the violations shown for C50). Output must be shorter than INT_MAX bytes."
  },
  {
   "property": "C62",
   "status": "partial",
   "theorems": [
    "LibYaml.C62_load",
    "LibYaml.C62_load_with_memory",
    "LibYaml.C62_history",
    "LibYaml.C62_violated",
    "LibYaml.C62_parser_events",
    "LibYaml.C62_same_document"
   ],
   "note": "Complete for all runs, with the leaks listed in Lost; the claim without leaks is false (C62_violated). Events are assumed to have ASCII anchors and tags without NUL (Proper); C65 proves this for the events of the parser over the scanner. loadedDoc is the document of the value model (C62_same_document); event orders of the parser are loadable (C62_parser_events)."
  },
  {
   "property": "C63",
   "status": "proved",
   "theorems": [
    "LibYaml.C63_dump",
    "LibYaml.C63_history",
    "LibYaml.dropEmit_takes"
   ],
   "note": "All heaps, allocation failures and emitters that take over their events (Takes); dropEmit is one."
  },
  {
   "property": "C64",
   "status": "proved",
   "theorems": [
    "LibYaml.C64_init",
    "LibYaml.C64_calls",
    "LibYaml.C64_history",
    "LibYaml.C64_fuel"
   ],
   "note": "All heaps, allocation failures, token sources and numbers of calls. Compared with the value model on tokens cut at NUL (cutSrc). The scanner's own allocations are not part of the model: tokens come with their strings."
  },
  {
   "property": "C65",
   "status": "proved",
   "theorems": [
    "LibYaml.C65_parse_bytes",
    "LibYaml.C65_parse_history",
    "LibYaml.C65_loads",
    "LibYaml.C65_load_history",
    "LibYaml.C65_load_bytes",
    "LibYaml.C65_leak",
    "LibYaml.scanner_clean"
   ],
   "note": "The scanner's own allocations are not part of this model (tokens come with their strings); with them it is C73. Lost lists the blocks of C62 that a failed load can leave behind; C65_leak shows one from bytes. Inputs are shorter than the library's limit on positions (maxFileSize)."
  },
  {
   "property": "C66",
   "status": "proved",
   "theorems": [
    "LibYaml.C66_init",
    "LibYaml.C66_settings",
    "LibYaml.C66_emit",
    "LibYaml.C66_delete",
    "LibYaml.C66_history",
    "LibYaml.C66_after_failed_write"
   ],
   "note": "For all heaps, allocation outcomes, output handlers, settings and series of calls. The series end at the first failing write or allocation; C66_after_failed_write shows that going on after one can be undefined behaviour."
  },
  {
   "property": "C67",
   "status": "proved",
   "theorems": [
    "LibYaml.C67_dump",
    "LibYaml.C67_history",
    "LibYaml.C67_dump_then_load",
    "LibYaml.C67_dump_succeeds",
    "LibYaml.C67_there_and_back"
   ],
   "note": "The series of calls stop at the first failure, as C66_after_failed_write shows they must. Reading back needs the conditions of C61 on the documents."
  },
  {
   "property": "C68",
   "status": "proved",
   "theorems": [
    "LibYaml.C68_reformat",
    "LibYaml.C68_output"
   ],
   "note": "ReformatLog (Proofs/Reformat.lean) tells what each round does; reformatted (Spec/Reformat.lean) is the program on values. The scanner's own allocations are not part of this model (tokens come with their strings); with them it is C73."
  },
  {
   "property": "C69",
   "status": "proved",
   "theorems": [
    "LibYaml.C69_parsed_events",
    "LibYaml.C69_events_survive",
    "LibYaml.C69_documents_survive",
    "LibYaml.C69_succeeds",
    "LibYaml.C69_violated"
   ],
   "note": "Keepable and SameLoaded are in Spec/Reread.lean. C69_succeeds also gives the ReformatLog, which says which stack was full if the program did not get to the end. The scanner's own allocations are not part of the model."
  },
  {
   "property": "C70",
   "status": "proved",
   "theorems": [
    "LibYaml.C70_convert",
    "LibYaml.C70_output",
    "LibYaml.C70_loaded_documents",
    "LibYaml.C70_documents_survive",
    "LibYaml.C70_succeeds",
    "LibYaml.C70_violated"
   ],
   "note": "For all bytes, handlers, settings and heaps. C70_documents_survive and C70_succeeds need KeptDoc and a visible first document; C70_violated shows that the latter is needed, C69_violated and the examples that KeptDoc is. The leak is that of C65."
  },
  {
   "property": "C71",
   "status": "proved",
   "theorems": [
    "LibYaml.C71_directive",
    "LibYaml.C71_anchor",
    "LibYaml.C71_tag",
    "LibYaml.C71_block_scalar",
    "LibYaml.C71_flow_scalar",
    "LibYaml.C71_plain_scalar",
    "LibYaml.C71_no_error_set"
   ],
   "note": "The hypothesis that the function on values is defined holds in every state that yaml_parser_scan reaches (C22, C23). C71_no_error_set is the witness for the missing error."
  },
  {
   "property": "C72",
   "status": "proved",
   "theorems": [
    "LibYaml.C72_tokens",
    "LibYaml.C72_session"
   ],
   "note": "That a stack has reached its size limit (2^28 indentation levels, or as many bytes of simple keys) stays as a possible reason for a failed call; the same run on values knows no such limit."
  },
  {
   "property": "C73",
   "status": "proved",
   "theorems": [
    "LibYaml.C73_events",
    "LibYaml.C73_parse_session",
    "LibYaml.C73_documents",
    "LibYaml.C73_load_session",
    "LibYaml.C73_reformat",
    "LibYaml.C73_reformat_output",
    "LibYaml.C73_convert",
    "LibYaml.C73_convert_output"
   ],
   "note": "The models of C65, C68 and C70 over the scanner of C72. Lost lists the blocks of C62 that a failed load can leave behind. A failed scan that leaves parser->error unset (C71) is recorded as a memory error, so calls after it are those after an error. The contents of the reader's two buffers are not on the heap."
  },
  {
   "property": "C74",
   "status": "proved",
   "theorems": [
    "LibYaml.C74_events_lie_on_their_tokens",
    "LibYaml.C74_positions"
   ],
   "note": "Rules for positions are stated on tokens and events only (Spec/Positions.lean); the byte-level theorem adds order and exactness through C24 (which now says that tokens do not overlap)."
  },
  {
   "property": "C75",
   "status": "proved",
   "theorems": [
    "LibYaml.C75_node_positions"
   ],
   "note": "For sessions with and without a failing call; in a failing session the documents before the failure."
  },
  {
   "property": "C76",
   "status": "proved",
   "theorems": [
    "LibYaml.C76_any_read_handler",
    "LibYaml.C76_string_input",
    "LibYaml.C76_file_input",
    "LibYaml.C76_file_output"
   ],
   "note": "fread, fwrite and ferror are parameters with the contract of the C standard (Spec/Handlers.lean); handlers serve some fixed content."
  },
  {
   "property": "C77",
   "status": "proved",
   "theorems": [
    "LibYaml.C77_scanner_errors_point_into_the_text",
    "LibYaml.C77_scanner_contexts_in_order",
    "LibYaml.C77_parser_errors_lie_on_tokens",
    "LibYaml.C77_errors_point_into_the_text",
    "LibYaml.C77_loader_errors_lie_on_events",
    "LibYaml.C77_loading_errors_point_into_the_text"
   ],
   "note": "Scanner, parser and loader over any byte string and chunking. Reader errors carry an offset and a value instead of marks and belong to C01-C03."
  },
  {
   "property": "C78",
   "status": "proved",
   "theorems": [
    "LibYaml.C78_line",
    "LibYaml.C78_lines",
    "LibYaml.C78_parsed",
    "LibYaml.C78_bounds",
    "LibYaml.C78_violated",
    "LibYaml.C78_violated_by_texts"
   ],
   "note": "Exact characterization of what is read back; the failing cases are findings (DESIGN section 4). Lines with tags that contain NUL, line break, space or angle brackets are only covered by C78_bounds."
  },
  {
   "property": "C79",
   "status": "proved",
   "theorems": [
    "LibYaml.C79_scanner_is_local"
   ],
   "note": "For all pairs of inputs with a common beginning. The second input must be decodable and its read handler must not fail, since the reader decodes further ahead than the scanner looks. That 8 is the least such number is not claimed."
  }
 ]
}