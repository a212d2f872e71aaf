{
 "claims": [
  {
   "property": "C01",
   "status": "proved",
   "theorems": [
    "Yary.C01_queue_stable_priority",
    "Yary.C01_queue_stable_priority_new"
   ],
   "note": ""
  },
  {
   "property": "C02",
   "status": "proved",
   "theorems": [
    "Yary.C02_queue_no_loss"
   ],
   "note": ""
  },
  {
   "property": "C03",
   "status": "partial",
   "theorems": [
    "Yary.C03_event_grammar_partial",
    "Yary.C03_event_grammar_no_root_alias",
    "Yary.C03_root_alias_emitted"
   ],
   "note": "The documented grammar is false of the code for a document that is just an alias (negation proved); it holds with that production added, and exactly as documented when no alias directly follows a document start."
  },
  {
   "property": "C04",
   "status": "proved",
   "theorems": [
    "Yary.C04_stream_marks"
   ],
   "note": ""
  },
  {
   "property": "C05",
   "status": "proved",
   "theorems": [
    "Yary.C05_node_kinds"
   ],
   "note": ""
  },
  {
   "property": "C06",
   "status": "proved",
   "theorems": [
    "Yary.C06_tags_resolvable",
    "Yary.C06_tag_tokens",
    "Yary.C06_tags_after_errors"
   ],
   "note": " Also for the events of calls after errors."
  },
  {
   "property": "C07",
   "status": "proved",
   "theorems": [
    "Yary.C07_directives",
    "Yary.C07_duplicates_rejected"
   ],
   "note": ""
  },
  {
   "property": "C08",
   "status": "proved",
   "theorems": [
    "Yary.C08_peek_is_pop",
    "Yary.C08_peeks_change_nothing",
    "Yary.C08_exhausted"
   ],
   "note": ""
  },
  {
   "property": "C09",
   "status": "proved",
   "theorems": [
    "Yary.C09_no_panic",
    "Yary.C09_histories"
   ],
   "note": "For every token source that does not itself panic."
  },
  {
   "property": "C10",
   "status": "proved",
   "theorems": [
    "Yary.C10_terminates"
   ],
   "note": ""
  },
  {
   "property": "C11",
   "status": "proved",
   "theorems": [
    "Yary.C11_marks_monotone"
   ],
   "note": ""
  },
  {
   "property": "C12",
   "status": "proved",
   "theorems": [
    "Yary.C12_order",
    "Yary.C12_key_first",
    "Yary.reader_reach"
   ],
   "note": "C12_order: positions of the tokens handed over never decrease, for any text, flags and history of calls without a panic. C12_key_first: a Key pushed while a possible key is held comes before all tokens of nodes pushed since. reader_reach: the states of a reader's scanner are the states the step theorems range over."
  },
  {
   "property": "C13",
   "status": "partial",
   "theorems": [
    "Yary.C13_consumes",
    "Yary.C13_scanner_partial",
    "Yary.C13_scanner_false"
   ],
   "note": "C13_consumes: exact for every text and every segmentation into advances that do not split a line break. At scanner level exact except for verbatim tags (brackets not counted) and a block scalar header at the end of the text; C13_scanner_false is a witness that it is false there."
  },
  {
   "property": "C14",
   "status": "proved",
   "theorems": [
    "Yary.C14_skips",
    "Yary.C14_unique",
    "Yary.C14_succeeds",
    "Yary.C14_line_change"
   ],
   "note": "Skipping is exact whenever it returns; it returns for ASCII comments (a non-ASCII comment panics, see C15)."
  },
  {
   "property": "C15",
   "status": "partial",
   "theorems": [
    "Yary.C15_no_panic_partial",
    "Yary.C15_false",
    "Yary.C58_never"
   ],
   "note": "False of the code: negation proved with four ASCII witnesses. Proved for all ASCII texts whose \\u/\\U escapes denote scalar values and whose %-escapes denote ASCII characters, with lazy scalars or without block scalar indicators. C58_never lists all ASCII texts on which a call can panic."
  },
  {
   "property": "C16",
   "status": "partial",
   "theorems": [
    "Yary.C16_false",
    "Yary.C16_read",
    "Yary.C16_end"
   ],
   "note": "False of the code: C16_false has a witness for each kind of scalar and for comments. How far it is false is settled for scanning without deferred scalars: C16_read: no step ever gets past a character of several bytes other than the line breaks U+0085, U+2028, U+2029; C16_end: a text with such a character anywhere is never scanned to its end, by any calls without a panic."
  },
  {
   "property": "C17",
   "status": "partial",
   "theorems": [
    "Yary.C17_partial",
    "Yary.C17_false"
   ],
   "note": "Proved for every ASCII text without line breaks and every following text that does not start with a quote. False for other texts: the scanner panics on a character of more than one byte in quotes (C17_false)."
  },
  {
   "property": "C18",
   "status": "proved",
   "theorems": [
    "Yary.C18",
    "Yary.C18_every"
   ],
   "note": "For every list of escapes and ASCII characters in double quotes; C18_every: every character has such escapes."
  },
  {
   "property": "C19",
   "status": "partial",
   "theorems": [
    "Yary.C19_partial",
    "Yary.C19_false"
   ],
   "note": "Proved for ASCII texts in which no \\u or \\U code is outside the Unicode scalar values. False for those: surrogates panic, and codes above 10FFFF can be accepted as another character (C19_false)."
  },
  {
   "property": "C20",
   "status": "partial",
   "theorems": [
    "Yary.C20_partial",
    "Yary.C20_chomped_partial",
    "Yary.C20_false_backslash",
    "Yary.C20_false_break",
    "Yary.C20_false_chomp"
   ],
   "note": "For BorrowReader, every history of calls and all flags, until the first failure of the calls that evaluate scalars: the same positions and tokens, for texts without \\\\\", with CR LF, CR or LF as line breaks, and with + or - after each | and >; without the latter a block scalar may lose its final line break. Each restriction has a witness: the end of a lazy \"\\\\\" is not found; U+0085 after a : panics; a clipped block scalar of one line loses its line break. Nothing is said about lazy scanning after a point where eager scanning fails."
  },
  {
   "property": "C21",
   "status": "partial",
   "theorems": [
    "Yary.C21_partial",
    "Yary.C21_ascii_partial",
    "Yary.C21_short_partial",
    "Yary.C21_lazy_partial",
    "Yary.C21_lazy_exact_partial",
    "Yary.C21_false",
    "Yary.C21_lazy_false",
    "Yary.C21_lazy_return_false"
   ],
   "note": "For eager scalars: all reports up to the first error are those of the whole text, for every text, source, chunk size and history, except for errors of the source and chunks that end inside a character; hence without exception for ASCII texts with any chunk size and for all texts up to 8 KiB. For lazy scalars: the same if the text has no | and no >; without CR, the same entries except that evaluating a block scalar may ask for more text. C21_false: a chunk that ends inside a character is an error. C21_lazy_false: a lazy block scalar read in chunks cannot be evaluated. C21_lazy_return_false: a chunk that ends between CR and LF in a lazy block scalar changes positions."
  },
  {
   "property": "C22",
   "status": "proved",
   "theorems": [
    "Yary.C22_flow_balanced",
    "Yary.C22_no_block_in_flow",
    "Yary.C22_unmatched_close"
   ],
   "note": "For any text and any history without a panic, going on after errors."
  },
  {
   "property": "C23",
   "status": "proved",
   "theorems": [
    "Yary.C23_block_balanced",
    "Yary.C23_all_closed_between"
   ],
   "note": "For any text and any history without a panic, going on after errors."
  },
  {
   "property": "C24",
   "status": "proved",
   "theorems": [
    "Yary.C24_text",
    "Yary.C24_counted",
    "Yary.C24_position",
    "Yary.C24_candidate",
    "Yary.C24_required"
   ],
   "note": "C24_text: in terms of the bytes of the text, for every text until the first error. C24_counted: in terms of the scanner's positions, also after errors. C24_required: the error for a mandatory key. C24_candidate: where possible keys are found."
  },
  {
   "property": "C25",
   "status": "proved",
   "theorems": [
    "Yary.C25_accepts",
    "Yary.C25_rejects",
    "Yary.C25_overflow",
    "Yary.C25_means"
   ],
   "note": "Acceptance up to where the directive ends in ASCII; rejection of ASCII texts; the converse for every text."
  },
  {
   "property": "C26",
   "status": "proved",
   "theorems": [
    "Yary.C26_accepts",
    "Yary.C26_rejects",
    "Yary.C26_means"
   ],
   "note": "For every text."
  },
  {
   "property": "C27",
   "status": "proved",
   "theorems": [
    "Yary.C27_accepts",
    "Yary.C27_rejects",
    "Yary.C27_means",
    "Yary.C27_every",
    "Yary.C25_accepts",
    "Yary.C25_means"
   ],
   "note": "Tags: acceptance and the converse for every text; prefixes of tag directives with C25. C27_rejects is for ASCII texts whose %XX are ASCII: a %XX sequence that is no UTF-8 panics (see C22)."
  },
  {
   "property": "C28",
   "status": "partial",
   "theorems": [
    "Yary.C28_partial",
    "Yary.C28_false"
   ],
   "note": "The code looks for > one byte too late: verbatim tags are an error (C28_false, for every one of them) unless another > follows, and then it is left over (C28_partial)."
  },
  {
   "property": "C29",
   "status": "partial",
   "theorems": [
    "Yary.C29_partial",
    "Yary.C29_false"
   ],
   "note": "Proved for every literal scalar with lines of ASCII text between line feeds, at every indentation, followed by the end or by less indented text, except one case. C29_false: in that case (a single line, clipped, at the end of the text) the line break is always lost; blank lines of exactly the indentation are not chomped; CR LF becomes CR."
  },
  {
   "property": "C30",
   "status": "proved",
   "theorems": [
    "Yary.C30_trimmed",
    "Yary.C30_line",
    "Yary.C30_means",
    "Yary.C30_accepts",
    "Yary.C30_unique",
    "Yary.C30_root"
   ],
   "note": "Values and text for every plain scalar pushed by an eager scanner, for every text; C30_means and C30_unique give the grammar with its folding; acceptance is for ASCII texts (others panic, see C17_false). C30_root: at the top level a continuation line in column zero is another scalar."
  },
  {
   "property": "C31",
   "status": "proved",
   "theorems": [
    "Yary.C31_evaluate_in_place",
    "Yary.C31_evaluated_identity",
    "Yary.C31_scalar",
    "Yary.C31_reachable",
    "Yary.C31_style"
   ],
   "note": "C31_scalar: evaluation gives nothing but a scalar, so the unreachable!() after it is not reached (C31_reachable)."
  },
  {
   "property": "C32",
   "status": "proved",
   "theorems": [
    "Yary.C32_classification",
    "Yary.C32_reader_category",
    "Yary.C32_io_conversion",
    "Yary.C32_next"
   ],
   "note": "C32_next: how the iterators return the errors and events of the parser."
  },
  {
   "property": "C33",
   "status": "proved",
   "theorems": [
    "Yary.C33_flags_are_sets"
   ],
   "note": ""
  },
  {
   "property": "C34",
   "status": "proved",
   "theorems": [
    "Yary.C34_terminates",
    "Yary.C34_end_is_last",
    "Yary.C34_nothing_after_end",
    "Yary.C34_end_is_reached"
   ],
   "note": "For BorrowReader on any text and any history of peeks and pops that did not panic; errors may occur and calls go on after them."
  },
  {
   "property": "C35",
   "status": "proved",
   "theorems": [
    "Yary.C35_handed_out_once",
    "Yary.C35_none_is_final"
   ],
   "note": ""
  },
  {
   "property": "C36",
   "status": "partial",
   "theorems": [
    "Yary.C36_states",
    "Yary.C36_states_smooth",
    "Yary.C36_scan",
    "Yary.C36_next",
    "Yary.C36_terminates",
    "Yary.C36_conserved_partial",
    "Yary.C36_end_partial",
    "Yary.C36_false"
   ],
   "note": "For every source, chunk size, set of flags and history without a panic, taking the next chunk never panics and continues with exactly the unread part followed by the next bytes; the end is noticed exactly when there are none; every call ends; and without I/O or encoding errors all bytes have been read when the stream ends. C36_false: on such errors text is dropped, and further calls reach an ordinary end of the stream."
  },
  {
   "property": "C37",
   "status": "proved",
   "theorems": [
    "Yary.C37_events_carry_tokens",
    "Yary.C37_list_source"
   ],
   "note": ""
  },
  {
   "property": "C38",
   "status": "proved",
   "theorems": [
    "Yary.C38_parser_complete",
    "Yary.C38_parser_exact",
    "Yary.C38_meaning_unique"
   ],
   "note": "The grammar is Verif/Spec/Translate.lean. Positions of the events are C11."
  },
  {
   "property": "C39",
   "status": "proved",
   "theorems": [
    "Yary.C39_accepts",
    "Yary.C39_rejects",
    "Yary.C39_means",
    "Yary.C39_unique"
   ],
   "note": "Acceptance and rejection for ASCII texts (for others see C17_false); the converse for every text, if in double quotes no \\u or \\U code is outside the Unicode scalar values."
  },
  {
   "property": "C40",
   "status": "partial",
   "theorems": [
    "Yary.C40_partial",
    "Yary.C40_false"
   ],
   "note": "As C29, for folded scalars whose lines do not start with blanks; C40_false: more indented lines are folded although they should not be."
  },
  {
   "property": "C41",
   "status": "proved",
   "theorems": [
    "Yary.C41_whole",
    "Yary.C41_chunks"
   ],
   "note": "For both readers and all flags. Evaluating a lazy scalar later is not a call on the reader; it can report the condition (C21_lazy_false)."
  },
  {
   "property": "C42",
   "status": "proved",
   "theorems": [
    "Yary.C42_entry",
    "Yary.C42_explicit",
    "Yary.C42_value",
    "Yary.C42_implicit",
    "Yary.C42_entry_rejects",
    "Yary.C42_flow_rejects",
    "Yary.C42_explicit_rejects",
    "Yary.C42_value_rejects"
   ],
   "note": "Where they are recognised: for every text. Rejection: of - ? : followed by white space, after white space and comments in ASCII (others panic, C15), in a complete text."
  },
  {
   "property": "C43",
   "status": "proved",
   "theorems": [
    "Yary.C43_texts_read",
    "Yary.C43_exact",
    "Yary.C43_meaning_unique",
    "Yary.C43_chunks",
    "Yary.C43_documents_false",
    "Yary.C43_deferred_partial",
    "Yary.C43_deferred_inline_partial",
    "Yary.C43_deferred_chunks_partial"
   ],
   "note": "The grammar is Spec/Language, with the events next to each production; it says where it is narrower than YAML because the library is (C43_documents_false for documents). Of block scalars it leaves out those with indentation indicators or without lines, blank lines that are indented like the others, indented lines of folded ones, and single lines that are misread (C29, C40). ASCII: others panic (C16_false). Not lazy (C20). The three theorems on deferred scalars go beyond the statement: with O_LAZY, for texts without \\\\\", the scalars evaluate to those of the grammar, exactly if there is no block scalar."
  },
  {
   "property": "C44",
   "status": "partial",
   "theorems": [
    "Yary.C44_json_partial",
    "Yary.C44_chunks_partial",
    "Yary.C44_false",
    "Yary.C44_deferred_partial"
   ],
   "note": "Missing, and false (C44_false): characters outside of ASCII and surrogates panic, a : in another line than its key is an error. Keys are limited to 1024 bytes as in YAML. With O_LAZY: C44_deferred_partial, for texts without \\\\\"."
  },
  {
   "property": "C45",
   "status": "proved",
   "theorems": [
    "Yary.C45_tree_read",
    "Yary.C45_tree_chunks",
    "Yary.C45_tree_determined",
    "Yary.C45_tree_deferred",
    "Yary.C45_tree_deferred_chunks"
   ],
   "note": "Spec/Tree writes the tree. Proved through the grammar of C43. With O_LAZY: C45_tree_deferred, and in chunks C45_tree_deferred_chunks."
  },
  {
   "property": "C46",
   "status": "partial",
   "theorems": [
    "Yary.C46_partial",
    "Yary.C46_ascii_partial",
    "Yary.C46_short_partial",
    "Yary.C46_lazy_partial",
    "Yary.C46_lazy_exact_partial",
    "Yary.C46_ascii_back_partial",
    "Yary.C46_lazy_ends_partial"
   ],
   "note": "Lazy scalars: the same if the text has no | and no >; without CR, the same except that evaluating a block scalar may ask for more text (C21_lazy_false). Missing: lazy block scalars in texts with CR (false, C21_lazy_return_false); texts cut inside a character fail to read (false, C21_false), which C46_partial allows for. For ASCII texts also the other way round, from the stream over the text to the one that reads chunks: C46_ascii_back_partial, and for lazy scalars, if the stream ends without an error, C46_lazy_ends_partial."
  },
  {
   "property": "C47",
   "status": "partial",
   "theorems": [
    "Yary.C47_partial",
    "Yary.C47_chomped_partial"
   ],
   "note": "Missing: texts with an escaped backslash before a quote, other line breaks, and final breaks of block scalars, for which it is false (C20_false_*)."
  },
  {
   "property": "C48",
   "status": "partial",
   "theorems": [
    "Yary.C48_false_text",
    "Yary.C48_false_read"
   ],
   "note": "False of the code, for both kinds of sources: the second stream hands out events, in the second case other ones, and no error."
  },
  {
   "property": "C49",
   "status": "proved",
   "theorems": [
    "Yary.C49_tokens_linear",
    "Yary.C49_chunks"
   ],
   "note": "The bound is attained."
  },
  {
   "property": "C50",
   "status": "partial",
   "theorems": [
    "Yary.C50_stream",
    "Yary.C50_prefix",
    "Yary.C50_text",
    "Yary.C50_ends",
    "Yary.C50_false",
    "Yary.C50_false_scan",
    "Yary.C50_chunks"
   ],
   "note": "Proved up to the first error, None or panic; false after errors (C50_false, C50_false_scan)."
  },
  {
   "property": "C51",
   "status": "proved",
   "theorems": [
    "Yary.C51_bytes",
    "Yary.C51_error"
   ],
   "note": ""
  },
  {
   "property": "C52",
   "status": "proved",
   "theorems": [
    "Yary.C52_parser_sound",
    "Yary.C52_parser_accepts",
    "Yary.C52_parser_rejects"
   ],
   "note": "With C38 an equivalence."
  },
  {
   "property": "C53",
   "status": "proved",
   "theorems": [
    "Yary.C53_means",
    "Yary.C53_accepts",
    "Yary.C53_rejects"
   ],
   "note": "Values, block entries and block keys: C53_means, C23, C24."
  },
  {
   "property": "C54",
   "status": "proved",
   "theorems": [
    "Yary.C54_means",
    "Yary.C54_unique",
    "Yary.C54_read",
    "Yary.C54_false"
   ],
   "note": "C54_false: texts that YAML does not allow and that are accepted, as the specification says."
  },
  {
   "property": "C55",
   "status": "proved",
   "theorems": [
    "Yary.C55_means",
    "Yary.C55_reader",
    "Yary.C55_never"
   ],
   "note": "Texts read as a whole, for C55_reader and C55_never; C55_means is about every single step of the scanner, in any mode."
  },
  {
   "property": "C56",
   "status": "proved",
   "theorems": [
    "Yary.C56_means",
    "Yary.C56_unique",
    "Yary.C56_text"
   ],
   "note": "The error is that of the first call that fails; later calls go on from an unspecified state (finding 13)."
  },
  {
   "property": "C57",
   "status": "partial",
   "theorems": [
    "Yary.C57_debug_partial",
    "Yary.C57_accepted",
    "Yary.C57_events",
    "Yary.C57_differs"
   ],
   "note": "False as stated: on `[\"a\": \"b\" \"c\"]` a debug build panics (C57_differs). Proved: that is the only way in which the builds differ, and the release build then reports MissingFlowSequenceEntryOrEnd in the next call (C57_debug_partial); a source read to its end without an error is read alike (C57_accepted), and a debug build hands out only events that a release build hands out (C57_events). Overflow checks are in C60."
  },
  {
   "property": "C58",
   "status": "proved",
   "theorems": [
    "Yary.C58_means",
    "Yary.C58_reader",
    "Yary.C58_ascii",
    "Yary.C58_never",
    "Yary.C58_events",
    "Yary.C58_events_ascii",
    "Yary.C58_read_events"
   ],
   "note": "Spec/Panics lists the texts. C58_means is about one step in any reachable state, C58_reader about a call of a reader after any calls, C58_ascii names the five causes left for ASCII texts, and C58_never says that without them no call panics. C58_events: for calls of streams of events. C58_read_events: for sources read in chunks, while events are returned."
  },
  {
   "property": "C59",
   "status": "partial",
   "theorems": [
    "Yary.C59_slices",
    "Yary.C59_quoted",
    "Yary.C59_plain",
    "Yary.C59_anchor",
    "Yary.C59_tag",
    "Yary.C59_directive",
    "Yary.C59_block",
    "Yary.C59_deferred",
    "Yary.C59_false"
   ],
   "note": "C59_slices, C59_quoted, C59_anchor, C59_tag, C59_directive and C59_deferred are for all texts. C59_plain characterises which plain scalars are borrowed; 'whenever it stands in the text as it is' is false of them (C59_false): one at the end of a line is copied. C59_block is for lines of ASCII text between line feeds. Missing: other block scalars."
  },
  {
   "property": "C60",
   "status": "proved",
   "theorems": [
    "Yary.C60_scan",
    "Yary.C60_deferred"
   ],
   "note": "Model/Release has the functions without the checks, Model/Scan those with them. Differences of the lengths of a slice and of its remainder are not covered, nor are sums above 2^64."
  },
  {
   "property": "C61",
   "status": "proved",
   "theorems": [
    "Yary.C61_stays",
    "Yary.C61_safe",
    "Yary.C61_same",
    "Yary.C61_deferred"
   ],
   "note": "Model/Heap has the reader with memory; C61_same: erasing memory gives the model of C21. That tokens borrow from nothing but the text given to the scanner is in their type ('de), which the compiler checks; for deferred scalars it is C61_deferred. The aliasing rules of references (&mut Impl beside &str) are not modelled."
  },
  {
   "property": "C62",
   "status": "partial",
   "theorems": [
    "Yary.C62_partial",
    "Yary.C62_events_partial",
    "Yary.C62_events_chomped_partial",
    "Yary.C62_false_backslash",
    "Yary.C62_events_ascii_partial"
   ],
   "note": "C62_partial is for texts without \\\\\" and with line breaks CR LF, CR or LF, and says nothing where the calls that evaluate panic. C62_events_partial says it of whole streams of events: if one with deferred scalars ends without an error and all its scalars evaluate, the one that evaluates ends without an error, with the same events. C62_false_backslash: with \\\\\" the property is false, the error in what follows the scalar goes by unseen. C62_events_ascii_partial replaces the condition on panics by one on the text (C58)."
  },
  {
   "property": "C63",
   "status": "proved",
   "theorems": [
    "Yary.C63_blocks",
    "Yary.C63_bytes"
   ],
   "note": "Bytes are counted by content; what a Vec reserves beyond its length is not modelled."
  },
  {
   "property": "C64",
   "status": "partial",
   "theorems": [
    "Yary.C64_false_events",
    "Yary.C64_false_scalars",
    "Yary.C64_false_bytes"
   ],
   "note": "False of every error: no error that the public functions return has a context (finding 48). The theorems say so of all of them."
  },
  {
   "property": "C65",
   "status": "proved",
   "theorems": [
    "Yary.C65_codes",
    "Yary.C65_messages",
    "Yary.C65_shown",
    "Yary.C65_place"
   ],
   "note": "Messages of std's errors are a parameter. C65_shown: which message each error of the scanner and the parser is shown with."
  },
  {
   "property": "C66",
   "status": "partial",
   "theorems": [
    "Yary.C66_false",
    "Yary.C66_false_all",
    "Yary.C66_partial"
   ],
   "note": "source() leads nowhere, for every error (finding 49); the conversion to io::Error does give back the I/O error (C66_partial)."
  },
  {
   "property": "C67",
   "status": "proved",
   "theorems": [
    "Yary.C67_text",
    "Yary.C67_read",
    "Yary.C67_text_calls",
    "Yary.C67_read_calls"
   ],
   "note": " Also for calls after errors."
  },
  {
   "property": "C68",
   "status": "partial",
   "theorems": [
    "Yary.C68_false_order",
    "Yary.C68_false_lost",
    "Yary.C35_handed_out_once"
   ],
   "note": "False (finding 50). At the level of the reader no token is lost, whatever errors there are (C35_handed_out_once)."
  },
  {
   "property": "C69",
   "status": "partial",
   "theorems": [
    "Yary.C69_false",
    "Yary.C69_tokens_partial",
    "Yary.C69_events_partial"
   ],
   "note": "False in general (finding 51). Proved for every error of the scanner but MissingValue, for which it is false, at the level of tokens and of events. Errors of the parser (an undefined tag) are not covered, the stream goes on after them."
  },
  {
   "property": "C70",
   "status": "proved",
   "theorems": [
    "Yary.C70_own_tokens",
    "Yary.C70_positions"
   ],
   "note": "For any drive, any calls, including those that return errors. Content may get lost after errors (C68); this says that none is made up."
  },
  {
   "property": "C71",
   "status": "proved",
   "theorems": [
    "Yary.C71_undefined_tags",
    "Yary.C71_not_nested"
   ],
   "note": "What is returned without the missing events need not nest (C71_not_nested, finding 52)."
  },
  {
   "property": "C72",
   "status": "partial",
   "theorems": [
    "Yary.C72_flow",
    "Yary.C72_block_partial",
    "Yary.C72_false",
    "Yary.C72_false_node"
   ],
   "note": "All of it for flow style. In block style it is false at the first entry (C72_false, finding 53): proved when the call before returned an event that does not start a collection. Other errors of events do not stay (C72_false_node)."
  },
  {
   "property": "C73",
   "status": "partial",
   "theorems": [
    "Yary.C73_leading_lines_partial",
    "Yary.C73_same_calls_partial",
    "Yary.C73_false"
   ],
   "note": "Proved for comments in ASCII, up to and including the first failure of the source: for some calls over the longer text (C73_leading_lines_partial) and for any that are as many (C73_same_calls_partial). With other comments it is false: they are a panic (C73_false). After an error of the scanner in the first token the position of the reader stays at the beginning in both texts, so later calls may differ; C70 says what their events are made of."
  },
  {
   "property": "C74",
   "status": "partial",
   "theorems": [
    "Yary.C74_after_end_partial",
    "Yary.C74_goes_on_partial",
    "Yary.C74_false",
    "Yary.C74_false_line"
   ],
   "note": "Proved for streams over &str, if no block collection was begun before the `...`, a line break follows it before the next token, and there is a next token; up to and including the first failure of the source, if the first call does not fail for the order of tokens. After a document with a block collection it is false: the flag that a collection was begun is never reset, so a block collection at column zero of the next document gets no start token and is an error (C74_false). It is false also in the line of the `...`, where no mapping can begin (C74_false_line; YAML wants a line break there)."
  },
  {
   "property": "C75",
   "status": "partial",
   "theorems": [
    "Yary.C75_partial",
    "Yary.C75_text_partial",
    "Yary.C75_false",
    "Yary.C75_false_first"
   ],
   "note": "Proved for all sources of tokens and whatever earlier calls returned, unless what follows the document is a directive, which the theorem then exhibits as the next token of the source, at the position of the document's end. C75_text_partial: hence for all texts without a `%` (Proof/Scan/NoPercent: these have no directives), if no call panicked before. With directives it is false: they are taken by the call that fails, so `[a]\\n%YAML 1.2\\n` is an error and then the end of the stream (C75_false), and `%TAG !e! x:\\nb` is an error and then a document that begins without the directive (C75_false_first)."
  },
  {
   "property": "C76",
   "status": "partial",
   "theorems": [
    "Yary.C76_partial",
    "Yary.C76_lazy_partial",
    "Yary.C76_later_partial",
    "Yary.C76_no_end",
    "Yary.C76_lazy_false"
   ],
   "note": "The second half is proved in full (C76_no_end: all flags, whatever else the calls return, short of a panic). The first half is proved for scalars that are evaluated at once, for lazy scalars in texts without '|' and '>', and, up to what evaluating a lazy block scalar gives, for lazy scalars in texts without a carriage return (C76_later_partial). For lazy block scalars it is false: one that was delivered in full may ask for more text when it is evaluated, and thus fail (C76_lazy_false). After the failure calls may reach an ordinary end (C36_false)."
  },
  {
   "property": "C77",
   "status": "proved",
   "theorems": [
    "Yary.C77",
    "Yary.C77_ascii"
   ],
   "note": "Over the borrowed reader. Panics (characters of more than one byte in comments, see findings) are excepted in C77 and excluded for ASCII in C77_ascii."
  },
  {
   "property": "C78",
   "status": "partial",
   "theorems": [
    "Yary.C78_partial",
    "Yary.C78_false"
   ],
   "note": "Over the borrowed reader. Missing: pasts of which one began a block collection and the other did not, for which the claim is false (C78_false)."
  },
  {
   "property": "C79",
   "status": "proved",
   "theorems": [
    "Yary.C79_returns",
    "Yary.C79_calls",
    "Yary.C79_ends",
    "Yary.C79_read_returns",
    "Yary.C79_read_calls",
    "Yary.C79_read_ends"
   ],
   "note": "C10 is the same for the parser over any source that is assumed to finish; here both halves are put together, for texts and for sources read in chunks."
  },
  {
   "property": "C80",
   "status": "proved",
   "theorems": [
    "Yary.C80_no_panic",
    "Yary.C80_calls",
    "Yary.C80_ends",
    "Yary.C80_signs",
    "Yary.C80_read_ends"
   ],
   "note": "C58 and C79 put together for streams of events. C80_read_ends: with C46, for sources."
  }
 ]
}
