# Formal model of libyaml in Lean 4

Source under study: `/repo` (yaml/libyaml at a pinned commit), read as text.
Everything below refers to that commit. Property ids are those of `properties.jsonl`.

## 1. Trusted base

* Lean 4.33.0's kernel. The theorems use at most `propext`, `Classical.choice`, `Quot.sound`
  (the list per theorem is in section 6). No axiom, `sorry`, `native_decide`, `bv_decide`,
  `implemented_by` or `unsafe` is used.
* The hand-written translation from C to Lean. Each Lean definition cites file and lines and says
  what it simplifies. Nothing was extracted automatically and nothing in `/repo` was run.
* C semantics assumed: two's-complement `int`, 8-bit bytes, `unsigned char` stores reduce modulo 256,
  `size_t`/`unsigned` arithmetic does not wrap for the values that occur (marks and lengths are
  unbounded naturals in the model).

## 2. How C is represented

* **Undefined behaviour is an outcome.** A read beyond the requested look-ahead, a `POP` of an empty
  stack, a write outside an allocation or a failed `assert` is a distinct result (`ub`/`abort`), never a
  default value. Safety theorems say this result is unreachable.
* **Loops** take fuel; running out of fuel is another distinct result, and termination theorems give an
  amount of fuel that is always enough.
* **Characters** are code points (`Nat`) in the scanner and emitter and bytes (`UInt8`) in the reader and
  writer. The byte-level classification macros of `yaml_private.h` are modelled too and proved equal
  to the code-point predicates on well-formed UTF-8.
* **The scanner is a program over an abstract input** (`Prog`, a free monad with `cache n`, `look i`,
  `skip`). It is interpreted once over a plain list of characters and once over the reader model, and the two
  are related by one induction over programs.
* **Memory.** Three layers. (1) The container macros (stack, queue, string) have explicit capacities and every
  allocation may fail. (2) The event constructors, `yaml_event_delete`, the document API, the scanner, parser, loader, dumper and
  emitter run on an explicit heap of
  blocks: `malloc`, `realloc`, `free`, reads and writes through pointers, double free and use after free are `ub`, every
  allocation may fail (`Model/Heap.lean`). (3) The models on values of scanner, parser, loader, dumper and
  emitter have values instead of pointers; allocation succeeds, except that the emitter's environment may fail any write or allocation and the
  loader's document may run out of room. The models on the heap are proved to agree with those on values.

Section 5 lists what is and is not modelled.

## 3. Plan per property

| id | modelled | proof |
|----|----------|-------|
| C01, C02, C03 | decode step of `yaml_parser_update_buffer` | decoder = relational spec of UTF-8/UTF-16, by case analysis; lifted to lists by induction |
| C04 | `determine_encoding` over a chunked source | case analysis on the concatenated bytes |
| C05, C06, C07 | whole reader over an arbitrary handler script | invariant (remaining characters = decode of remaining bytes; offsets within capacity), induction over refills |
| C08, C09, C11 | `yaml_emitter_flush`, `FLUSH/PUT/WRITE` | invariant delivered ++ buffered = emitted; UTF-16 refuted by witness, partial for the rest |
| C10 | `yaml_string_write_handler` | invariant over arbitrary write histories |
| C12, C13, C14 | stack, queue, string macros with explicit capacities | refinement to lists, induction over operations |
| C15 | `yaml_check_utf8` | characterisation of the accepted language; negation witness for surrogates |
| C16, C17 | document API | invariant over operation histories |
| C18-C24 | scanner, function by function | weakest-precondition calculus over `Prog`; invariants; induction over loops |
| C25-C30 | parser state machine over any token list | invariant linking the state stack to a grammar automaton |
| C30, whole runs | parser over the scanner | the scanner reads at most 1024 characters ahead of a collection (`Proofs/LookAhead.lean`), the parser's stack against the tokens (`Proofs/NestCount.lean`), induction over calls (`Proofs/NestRun.lean`) |
| C31-C35 | loader over any event list | invariant, and inductive spec of composition |
| C36-C38 | dumper | graph traversal invariants, composition with the loader |
| C39-C42, C48 | emitter state machine, analysis, style selection | invariants, case analysis |
| C43-C47 | scalar and tag writers against the scanner | induction over the text |
| C49 | event constructors on a heap | separation-style triples `hw`; ownership of every block |
| C50 | emitter + scanner + parser | text of every construct described by predicates on text, proved on both sides; composition (section 4a) |
| C56 | parser and loader over the scanner over the reader | the scanner is an instance of the parser's source of tokens (`Proofs/Pipeline.lean`, `Proofs/ParserFuel.lean`, `Proofs/ParserPaid.lean`) |
| C57 | emitter against writer | invariant on what the analysis leaves in the emitter, for every operation performed |
| C51 | life cycle `yaml_emitter_open/dump/close` over an arbitrary emitter | invariant |
| C52 | document API on a heap | refinement to the model on values (C16, C17) |
| C53 | parser state machine over any token source | refinement to a push-down automaton without lookahead buffer, marks or errors; derivations = runs, by induction on derivations and on the length of runs |
| C54 | character macros on bytes | case analysis on the length of the encoding |
| C55 | lexical functions of the scanner, then whole runs | inductive relations on texts (`Spec/Lexemes.lean`), soundness by induction on the loops, completeness by induction on the derivations |
| C58 | whole runs of the scanner: block structure and implicit keys | `Lexed` and `layout` (`Spec/Layout.lean`) as the rules; invariant `Fit` between the state of the scanner and the layout of the lexemes read so far (`Proofs/LayoutFit.lean`), one step per token kind (`Proofs/LexStep.lean`), induction over calls (`Proofs/LexRun.lean`); the rules are deterministic (`LexUnique`, `NulKept`, `LexDet`), and each fetch succeeds when the rules have a next lexeme (`LexComplete`), so the scanner delivers every stream the rules give; positions are part of the rules: where each token starts and ends |
| C59 | reader, scanner and parser together: text to events | `Meaning` (`Spec/Language.lean`) joins `Lexed`, `layout` and `Stream`; soundness from C56, C58 and C53, completeness from C58 and C53 with the depth of the scanner tied to the lexemes by an invariant over all token calls (`Proofs/LexDepth.lean`) |
| C60 | reader, scanner, parser and loader together: text to documents | `TextDocs` and `RepData` (`Spec/TextDocs.lean`) on top of `Meaning`; soundness from C56 and C59; completeness: the loader over known events (`loads_known`, `Proofs/LoadText.lean`) and totality |
| C61 | dumper, emitter, writer, reader, scanner, parser, loader together | `SameDoc`, `Dumpable` (`Spec/RoundTrip.lean`); the events of a dump are `Readable` (`Proofs/DumpLoad.lean`), C50 gives events alike, the walk of the dump represents the graph (C38), and C60's lemma on known events gives the documents |
| C62 | loader on a heap | ownership by permutations of block lists (`LoadAt`, `CtxAt`, `AliasAt` in `Proofs/LoaderHeap.lean`), refinement to `composeEvent`; events are given as blocks of the caller |
| C63 | dumper on a heap | ownership by permutations of block lists (`DumpAt` in `Proofs/DumperHeap.lean`), refinement to `dumpNode`; the emitter is any program that takes over events (`Takes`, generalised to `Handles`) |
| C64 | parser on a heap | `HRel`: a program on the heap against one on values, one rule per primitive and per production (`Proofs/ParserHeap*.lean`); `Own` gives the blocks of the parser object, `St` adds those of local variables; the token at the start of a collection comes from `EInv` (`Proofs/ParserEnd.lean`) |
| C65 | parser and loader on one heap, from bytes | the rules of C64 with clean tokens (`Strict`, `EvGood`) give the loader its events; the rules of C62 for the loader (`Proofs/LoadParse.lean`); the tokens of the scanner are clean by C58 (`Proofs/CleanTokens.lean`) |
| C66 | emitter on a heap | `ERel`: a program on the heap against the emitter on values, whose environment fails where the memory does (`Proofs/EmitterHeap*.lean`); `EAt`/`EOwn` give the blocks of the emitter object; whole histories by induction over the calls (`EmitLog`) |
| C67 | dumper and emitter on one heap, then parser and loader | the emitter of C66 is an instance of what the dumper expects (`Handles` in `Proofs/DumperHeap.lean`, `emit_handles`); histories by induction over the documents; the bytes come back by C61 and C65 |
| C68 | parser and emitter on one heap, from bytes | the events of the parser are what the emitter expects (`EvGood` in `Proofs/ParserHeapDocs.lean`, from clean tokens); induction over the rounds with `ReformatLog` (`Proofs/Reformat.lean`); C56 bounds the rounds |
| C69 | parse, emit, write, and parse or load again | what the parser delivers comes from lexemes and the grammar, so all conditions of C50 hold but those in `Keepable` (`Proofs/Reread.lean`: `layout_good`, `gram_good`, `stream_stays`); C68 for the heap, C50 for the bytes, C60 and `alike_reps` for documents |
| C70 | loader and dumper on one heap, from bytes; then write and load again | every loaded document is what the dumper on the heap expects (`LoadedOk` in `Proofs/LoadParse.lean`); induction over the rounds with `ConvertLog` (`Proofs/Convert.lean`); what loads comes from good events, so all conditions of C61 hold but those in `KeptDoc` (`rep_good`, `kept_dumpable`); the walk of the dumper meets loaded nodes in the order of their numbers, so isomorphic loaded documents are equal (`rep_walk`, `iso_walk`, `same_loaded` in `Proofs/ConvertBack.lean`) |
| C71 | scanning functions on the heap against those on values | a relation between programs (`XRel` in `Proofs/ScannerHeap.lean`) that is closed under sequencing and under the `error` labels; each string is empty, holds some bytes followed by zeros, or is stale; every store is shown to leave room for the NUL |
| C72 | scanning sessions on the heap against `scanRun` | the relation of C71 for the state machine: the parser owns the blocks of the queue, its tokens, the stacks and the buffers (`FRep`), fetchers pass tokens on; C22 gives definedness on values; induction over the calls |
| C73 | scanner, parser, loader, emitter and dumper on one heap, from bytes | the parser on the heap works over any scanner with memory (`HSrc`; what it has to satisfy is `Link`, `SrcCloses`, `SrcStarts` in `Proofs/ParserHeap.lean`); C64, C65, C68 and C70 are proved for all of these, and instantiated with tokens from nowhere (`memSrc`) there and with the scanner of C72 (`scanSrc`, `scan_link`) here |
| C74 | positions of events | `Spec/Positions.lean` says by the tokens alone where each event lies; an invariant ties the state of the parser to the open collections (`PosInv` in `Proofs/Positions.lean`), one lemma per production, induction over the calls (`laid_run`); order and exactness come from C24 by `laid_inLine` and `laid_marks` |
| C75 | positions of nodes | the representation of C33 ties the marks of nodes to events; nodes of events in line nest (`rep_nest` in `Proofs/NodePositions.lean`, induction over `Rep`); C74 and C56 for bytes |
| C76 | read and write handlers | the reader once more over a handler with data of its own (`Model/Handlers.lean`); an oracle may depend on all sizes asked for, so every handler over a fixed content is one (`replyOracle`, `serves_agrees`); step by step the same (`same_run`), then `Simulates` of the parser and the loader |
| C77 | positions of errors | the specification of failing Lex programs (`pw`) now carries the marks of errors (`SpotIn`, `PointedErr` in `Proofs/LexSafe.lean`), so that the scanner invariants of C24 cover them; `Spec/ErrorMarks.lean` says by the tokens where a parser error lies and by the events where a loader error lies, `Proofs/ErrorMarks.lean` shows it with `PosInv` of C74, state by state; that scanner contexts lie between the tokens delivered and the problem is a statement about all branches of a program, whatever is read (`Prog.Sat`, `Proofs/ErrorOrder.lean`) |
| C78 | lines of the test suite | `Model/Suite.lean` has the printing and the reading of lines as functions on bytes; for each part of a line an equivalence (`anchor_read`, `tag_read`, `scalar_iff` in `Proofs/Suite.lean`), put together by induction over the stream; that parsed events can be printed comes from the grammar of C56 and the lexemes of C58 |
| C79 | look-ahead of the scanner | `Prog.Asks` in `Proofs/Requests.lean`: in every branch of every program of the scanner, whatever is read, no request is for more than 8 characters (`CACHE(parser, code_length)` for `\U`); such a program does not depend on what comes after the 8 characters at which it stops (`Prog.Asks.local`). `Proofs/Local.lean` follows two runs side by side (`Parallel`) with the invariants of C18 and the refinement by the reader. The limit 8 is what the proof needs; that no smaller one would do is not shown. |

## 4. Findings (places where the code does not have the property)

Each has a theorem with a concrete witness.

* C09: the second surrogate's high byte is `0xDC + ((value >> 8) & 0xFF)` (writer.c:119), so most
  supplementary characters are written as wrong UTF-16. `C09_correct_iff` says which ones survive. The emitter
  escapes all of them, so its own output is not affected (`C57_delivered`).
* C11: after a failed UTF-16 write the buffers are not reset; a client that continues overflows the raw buffer
  (`C11_violated_after_failed_write`). With UTF-8 a failed flush drops the buffered bytes but overflows nothing.
* C15: `yaml_check_utf8` (api.c:625-662) accepts encoded surrogates and values above U+10FFFF. The property is
  therefore stated as an exact characterisation; `C15_accepts_ill_formed` is the witness.
* C19: an unclosed flow collection at the end of the stream (`- [a`) suppresses the BLOCK-END tokens of the block
  collections around it (`C19_block_left_open`); the parser then reports the error.
* C30: the limit is compared with `indents + flow_level` of the scanner, which runs ahead of the parser; indentless
  sequences and single-pair mappings in flow sequences are not checked at all. For each limit there are texts with almost twice as
  many open collections (`C30_violated`), and twice the limit and 2050 more are never exceeded (`C30_bounded_partial`).
* C35: after a failed `yaml_parser_load`, calling it again reaches a failing `assert`.
* C40: after a failed write, a further call of `yaml_emitter_emit` pops the flow level twice (`C40_violated`).
* C66: by the same repetition it takes an indent from an empty stack, a read in front of the block (`C66_after_failed_write`): the write of the
  bracket that closes the outermost flow collection fails after the indent was taken (emitter.c:761-773), and the event is still in the queue.
  After a refused event (`YAML_EMITTER_ERROR`) further calls are safe, and `yaml_emitter_delete` always is.
* C46: in folded style a long line beginning with a space or tab is folded at a single space, which comes back as a line break
  (emitter.c:2344-2347, `C46_folded_violated`).
* C47: `,` `[` `]` are written unescaped behind a tag handle, where the scanner stops at them (`C47_violated`).
* C50: an implicit document whose root is an empty plain scalar is written as a blank line and read back as an empty
  stream (`C50_violated`). Any empty scalar at the root without properties has this form; `Readable` excludes it.
* C69: four kinds of streams parse but do not survive being emitted: `%TAG !e! %00` (empty prefix) and `!<%00>` (empty tag) are refused by the
  emitter, `!a%2Cb` is written as `!a,b` and does not parse, and folded scalars as in C46 change (`C69_violated`). There are no others.
* C70: `&a` and `!!str` each load as a document with an empty plain string; dumped, it is written as a blank line as in C50, and the output loads
  as no document (`C70_violated`). Only the first document can be lost like this, and not in canonical mode.
* C71: if one of the two small allocations in `yaml_parser_scan_tag` (scanner.c:2403, 2455) fails, the function returns 0 without setting
  `parser->error` (`C71_no_error_set`), so a client that asks for the error finds `YAML_NO_ERROR`. Calls of the
  parser after such a failure are not modelled: `scanNext` records a memory error (C73).
* C78: run-emitter-test-suite.c (a test program, not the library) looks for `&`, `<` and `>` in the whole line (210, 224, 226), so a text with these
  characters is taken for an anchor or a tag, and a `>` before the first `<` makes the length of a `memcpy` negative (228);
  anchors and tags of 256 bytes or more overrun their buffers (215, 228). `C78_violated_by_texts` shows it for the texts `"> <"` and `a&b`.
* C53: the grammar documented in parser.c:4-38 is not the grammar of the code. `: x` in block context and
  `[ ? : x ]` are words of the documented grammar and rejected; `[ ? , , x ]` is not one and accepted (the parser skips a
  token at parser.c:1063-1069 that it still needs).
* C62: two leaks when memory runs out: `yaml_parser_load` (loader.c:113-114) leaves the version and tag directives of the DOCUMENT-START event
  behind if the alias stack cannot be allocated, and `yaml_parser_load_sequence`/`_mapping` leave `items`/`pairs` behind if the node cannot be
  pushed (`C62_violated`, witnesses for both). `Lost` lists these blocks; nothing else leaks.

Smaller observations, visible in the models: `%`-escapes in tags accept overlong UTF-8 and `%00`
(scanner.c:2660-2731, only the leading-byte pattern is checked); overlong forms are numbers above 0x200000 in the models (`octetsChar`,
`Spec.octets`, `Storable`), and the emitter writes their octets, so that tags with them survive the round trips C47, C50 and C61, too; the parser builds resolved tags from C strings (parser.c:622-638), so
with a `%00` in a prefix or suffix what is behind it is lost (`%TAG !e! tag:a%00b` and `!e!c` give `tag:ac`): the scanner on values
cuts the texts of its tokens there (`upToNul`), so its tokens are `CleanSrc` (`scanner_clean`); C64 holds for arbitrary tokens and compares with the
tokens cut at the first NUL (`cutSrc`); dumping turns the tag `!` into the default tag (as does
loading); the byte order mark counts as a column (reader and scanner agree on this); in a
text like `a: 1\n[b` the scanner has already queued STREAM-END when the required key `[b` turns out to be stale, so every later
call fails with "could not find expected ':'" and STREAM-END is never delivered (`KeyKept` in `Spec/Layout.lean` says so).

C23, C56: termination of the scanner is proved with an explicit bound. The parser's loops (directives, DOCUMENT-END tokens)
take fuel in the model; `Proofs/ParserFuel.lean` shows that one unit per token still to come is enough, and
`Proofs/ParserPaid.lean` bounds the number of events by four per token with a potential on the state and the stack. The
scanner over the reader is an instance of the parser's source of tokens (`Proofs/Pipeline.lean`): C56 states the results for
byte strings.

## 4a. How C50 is proved

The emitter is run with continuation-passing weakest preconditions on the text (`tw`, `Writes`, `Proofs/EmitGo.lean`). For each
construct there is a predicate on the text it may become, in the context it stands in: scalars (`LeafWrite`,
`ScalarWrite`, `ScalarNode`), anchors and tags (`PropWrite`), nodes on one line (`InlineNode`, `FlowWrite`), block collections
(`NodeWrite`, `TreeWrite`), documents (`DocWrite`), streams (`StreamWrite`). Each predicate comes with the proof that
the scanner turns such text into a token sequence of the token grammar (`LeafScan`, `FlowScan`, `BlockNodes`, `DocScan`;
`Boundary` and `BoundaryTok` describe the scanner between two tokens). The parser turns these
tokens into the events (C53 `C53_complete`), and `Proofs/EmitBack.lean` puts reader, scanner and parser together.
`Proofs/PlainEnd.lean` and the other scanner lemmas are about text that goes on behind the construct, so that they compose.

## 5. What is modelled

| source | model | left out |
|--------|-------|----------|
| `yaml_private.h` macros for characters | `Model/Chars.lean` on bytes, `Model/Lexer.lean` on code points | proved equal (C54) |
| `yaml_private.h` STRING/STACK/QUEUE macros, `yaml_string_extend/join`, `yaml_stack_extend`, `yaml_queue_extend` (api.c:60-170) | `Model/Containers.lean` | |
| `reader.c` | `Model/Reader.lean` | |
| `writer.c`, `yaml_string_write_handler` (api.c) | `Model/Writer.lean` | |
| `yaml_string_read_handler`, `yaml_file_read_handler`, `yaml_file_write_handler`, `yaml_parser_set_input_string` (api.c:248-302, 445-451) | `Model/Handlers.lean` | `fread`, `fwrite`, `ferror` are parameters (`Files`), their contract is in `Spec/Handlers.lean` |
| `scanner.c` | `Model/Lexer.lean` (scalars, tags, directives, anchors), `Model/Scanner.lean` (state machine), `Model/ScannerHeap.lean` (heap: scalars, tags, directives, anchors), `Model/ScannerHeapFetch.lean` (heap: state machine) | contents of the buffers of the reader on the heap |
| `parser.c` | `Model/Parser.lean` (values), `Model/ParserHeap.lean` (heap) | |
| `yaml_parser_initialize`, `yaml_parser_delete`, `yaml_token_delete` (api.c:176-243, 583-617) | `Model/ParserHeap.lean`, `Model/ScannerHeapFetch.lean` | contents of the buffers of the reader; with `memSrc` (C64, C65, C67-C70) also queue and stacks of the scanner, which are single blocks there |
| `loader.c` | `Model/Loader.lean` (values), `Model/LoaderHeap.lean` (heap, over a list of events), `Model/LoadParse.lean` (heap, over the parser on the heap) | which error is recorded by the composer on the heap |
| `dumper.c` | `Model/Dumper.lean`, `Model/DumperHeap.lean` (heap, over any emitter), `Model/DumpSession.lean` (with the emitter on the heap) | |
| `tests/example-reformatter.c` | `Model/Reformat.lean` (main loop, over parser and emitter on the heap) | reports on stderr; options other than settings of the emitter |
| `tests/example-reformatter-alt.c` | `Model/Convert.lean` (main loop, over parser, loader, dumper and emitter on the heap) | reports on stderr; options other than settings of the emitter |
| `tests/run-parser-test-suite.c`, `tests/run-emitter-test-suite.c` | `Model/Suite.lean` (lines of events, as bytes; arguments of the event constructors) | options, reports on stderr, the loops around parser and emitter, errors of stdin and stdout; scalars of more than `INT_MAX` bytes |
| `emitter.c` | `Model/Emitter.lean` (values), `Model/EmitterHeap.lean` (heap) | |
| `yaml_emitter_initialize`, `yaml_emitter_delete` (api.c:354-414) | `Model/EmitterHeap.lean` | contents of the buffers of the writer, which are in `Model/Writer.lean` |
| event constructors, `yaml_event_delete`, `yaml_check_utf8` (api.c:583-1029) | `Model/EventApi.lean`, `Model/Reader.lean` | |
| document API (api.c:1035-1400) | `Model/Document.lean` (values), `Model/DocumentHeap.lean` (heap) | |
| `yaml_emitter_set_*` | `Model/Emitter.lean` | |

Not modelled: read handlers whose content depends on the sizes asked for, or is infinite (C76 is about handlers over some fixed
content), `yaml_get_version*`, the Win32 and deprecated code, the other programs in `tests/`, thread interleavings (the
library has no shared mutable state except the nesting limit set by `yaml_set_max_nest_level`, a parameter of the model).

Reading `seeded/LOG.jsonl`: `failed` names the declarations at which the build of the edited model stopped. Often these are lemmas
on which the theorem of the claim depends; modules after them were then not built, so the entry does not show that the theorem itself fails.
`caught: null` marks edits that did not compile. Edits called equivalent or harmless in a note were judged so by reading unless the note says otherwise.

## 6. Axioms per theorem

Output of `#print axioms` for every theorem named in `MANIFEST.json`, grouped by result.

**`propext`**: C09_violated, C15_accepts_ill_formed, C27_errors_are_final, C27_scan_errors_are_final, C27_nothing_after_the_end, C40_violated, C42_honoured, C47_violated, C53_documented_rejected_flow, C53_documented_rejected_block, C54_emitter, C62_violated, C65_leak, C66_settings, C66_after_failed_write, C69_violated, C70_violated, C78_violated, C78_violated_by_texts.

**`Quot.sound`, `propext`**: C11_utf8_output_never_overflows, C20_opening, C21_required, C26_no_underflow, C30_nesting_checked_partial, C32_bindings, C36_first_dump, C45_indent, C46_folded_violated, C46_indent, C50_violated, C51_open_is_optional, C53_undocumented_accepted, C54_width, C54_copy, C62_same_document, C71_no_error_set, C74_events_lie_on_their_tokens, C76_any_read_handler, C76_file_input.

**`Classical.choice`, `Quot.sound`, `propext`**: C01_utf8_decoding_exact, C02_utf16_decoding_exact, C03_only_permitted_characters, C04_encoding_detection, C05_chunking_independence, C05_client_chunking_independence, C06_input_buffers_never_overflow, C07_refill_delivers, C08_utf8_output_verbatim, C09_utf16_output_partial, C09_correct_iff, C10_string_output, C11_output_buffers_never_overflow_partial, C11_violated_after_failed_write, C12_stack_refines_list, C12_pushes_keep_everything, C13_queue_refines_list, C14_strings_hold_the_concatenation, C15_check_utf8, C15_well_formed_accepted, C16_ids_dense_and_checked, C16_ids_are_stable, C16_added_node, C17_append_is_local, C17_stored_ids_valid, C18_token_stream_framing, C19_block_left_open, C19_block_collections_closed_partial, C20_columns_strictly_nested, C20_closing, C21_implicit_keys_are_short, C21_required_keys_are_kept, C22_never_beyond_buffered_input, C22_only_requested_characters, C23_scanning_terminates, C56_parsing_is_total, C24_positions_exact, C25_events_obey_grammar, C26_stacks_empty_at_end, C28_C29_directives_and_tags, C28_lookup, C29_directives_decide, C30_bounded_partial, C30_violated, C31_loaded_documents_are_well_formed, repDoc_wellFormed, C32_anchors, C32_faults_are_errors, C33_loading_is_faithful, C33_read_back, C33_composition_succeeds, C34_one_document_per_call, C35_load_after_failure_aborts, C35_load_is_safe_partial, C36_dump_follows_the_walk, C37_anchors, C38_dump_then_compose, C38_dump_is_grammatical, C39_accepts, C39_refuses, C39_exact, C39_after_end, C40_no_underflow, C40_until_failure_partial, C41_order, C41_end, C42_safe, C42_one_line, C43_double_quoted_round_trip, C44_single_quoted_round_trip, C45_plain_round_trip, C46_literal_round_trip, C46_folded_round_trip_partial, C47_document_start, C47_tag_round_trip_partial, C47_directive_round_trip, C47_anchor_round_trip, C48_settings, C48_respected, C48_setters, C49_constructor, C49_invalid_rejected, C49_succeeds, C49_delete, C49_no_leak, C50_round_trip_partial, C50_bytes_partial, C51_life_cycle, C51_whole_stream, C52_initialize, C52_initialize_succeeds, C52_call, C52_delete, C52_program, C52_no_leak, C53_sound, C53_complete, C53_language, C53_unambiguous, C53_documented_partial, C54_check, C54_alpha, C54_digit, C54_asDigit, C54_hex, C54_asHex, C54_ascii, C54_printable, C54_zero, C54_bom, C54_space, C54_tab, C54_blank, C54_break, C54_crlf, C54_breakz, C54_spacez, C54_blankz, C54_value, C54_scanner, C55_quoted_scalars, C55_plain_scalars, C55_block_scalars, C55_anchors, C55_tags, C55_directives, C55_filler, C55_run_reads_the_lexemes, C56_tokens_are_those_of_the_scanner, C56_events_depend_on_characters, C56_grammar, C56_directives_and_tags, C56_loading_is_total, C56_loading, C57_permitted, C57_in_every_environment, C57_delivered, C58_tokens_of_the_layout, C58_one_layout, C58_delivers_the_layout, C58_accepts_exactly, C59_one_meaning, C59_sound, C59_complete, C59_accepts_exactly, C60_complete, C60_sound, C60_accepts_exactly, C60_one_list, C60_one_document, C61_dump_then_load, C61_dump_succeeds, C61_small_documents, C62_load, C62_load_with_memory, C62_history, C62_parser_events, C63_dump, C63_history, dropEmit_takes, C64_init, C64_calls, C64_history, C64_fuel, C65_parse_bytes, C65_parse_history, C65_loads, C65_load_history, C65_load_bytes, scanner_clean, C66_init, C66_emit, C66_delete, C66_history, C67_dump, C67_history, C67_dump_then_load, C67_dump_succeeds, C67_there_and_back, C68_reformat, C68_output, C69_parsed_events, C69_events_survive, C69_documents_survive, C69_succeeds, C70_convert, C70_output, C70_loaded_documents, C70_documents_survive, C70_succeeds, C71_directive, C71_anchor, C71_tag, C71_block_scalar, C71_flow_scalar, C71_plain_scalar, C72_tokens, C72_session, C73_events, C73_parse_session, C73_documents, C73_load_session, C73_reformat, C73_reformat_output, C73_convert, C73_convert_output, C74_positions, C75_node_positions, C76_string_input, C76_file_output, C77_scanner_errors_point_into_the_text, C77_scanner_contexts_in_order, C77_parser_errors_lie_on_tokens, C77_errors_point_into_the_text, C77_loader_errors_lie_on_events, C77_loading_errors_point_into_the_text, C78_line, C78_lines, C78_parsed, C78_bounds, C79_scanner_is_local.
