{"id": "C01", "title": "Token queue is a stable priority queue", "statement": "Popping a queue always returns an entry that is least among the entries present, and among entries that compare equal the one pushed first. Draining a queue therefore yields the stable sort of its contents.", "quantifier": "every queue reachable by any sequence of push/pop operations over any element type with a total preorder", "why_tests_cant": "A unit test fixes one push/pop sequence; stability and minimality must hold for every interleaving and every pattern of ties.", "anchors": ["src/queue.rs: Queue::push, Queue::pop, Queue::into_sorted_vec, QueueEntry::cmp"]}
{"id": "C02", "title": "Token queue neither loses nor duplicates entries", "statement": "At every point the multiset of pushed entries equals the multiset of popped entries plus the entries still in the queue; len and is_empty report exactly the number still present.", "quantifier": "every sequence of push and pop operations from the empty queue or from a queue built out of a vector", "why_tests_cant": "Loss or duplication can depend on one particular ordering of operations and ties.", "anchors": ["src/queue.rs: Queue::push, Queue::pop, Queue::len, Queue::is_empty, From<Vec<T>>"]}
{"id": "C03", "title": "Event streams follow the documented grammar", "statement": "The sequence of events handed out before the first error is always a prefix of a sentence of the grammar stream := StreamStart document+ StreamEnd; document := DocumentStart content? DocumentEnd; sequence := SequenceStart node* SequenceEnd; mapping := MappingStart (node node)* MappingEnd; node := Alias | Scalar | sequence | mapping, and it is a complete sentence when the iterator finishes without an error.", "quantifier": "every token source (any tokens, in any order, with errors at any point) and every number of next_event calls", "why_tests_cant": "There are unboundedly many token sequences and nesting depths; tests exercise a few dozen.", "anchors": ["src/event/mod.rs: module documentation lines 32-49", "src/event/parser/mod.rs: Parser::next_event and all state handlers", "src/event/state.rs: StateMachine"]}
{"id": "C04", "title": "StreamStart first and once, StreamEnd last, then None forever", "statement": "The first event is StreamStart and no other event is; if StreamEnd is produced it is the last event, no event precedes StreamStart, and every later call returns None without touching the token source.", "quantifier": "every token source and every call history", "why_tests_cant": "Requires reasoning about all call histories, including calls after the end.", "anchors": ["src/event/parser/mod.rs: Parser::get_next_event, stream_start, stream_end"]}
{"id": "C05", "title": "NodeKind matches the node's position", "statement": "Every Scalar, SequenceStart and MappingStart event carries kind Root iff it is a document's top node, Entry iff its parent is a sequence, Key iff it is at an even position of a mapping and Value iff at an odd position.", "quantifier": "every token source, every event of every stream, every nesting depth", "why_tests_cant": "The kind depends on an unbounded stack of enclosing collections.", "anchors": ["src/event/types.rs: NodeKind", "src/event/parser/mod.rs: node, empty_scalar"]}
{"id": "C06", "title": "Tags on events are always resolvable", "statement": "Every tag on an emitted Scalar, SequenceStart or MappingStart has a handle that is a key of the tag directives of the DocumentStart that opened the current document, a scalar never carries the non-resolvable tag ('!',''), and a node whose handle is not defined is reported as an error instead of being emitted.", "quantifier": "every token source and every event", "why_tests_cant": "Depends on the directives of the enclosing document over an unbounded history.", "anchors": ["src/event/parser/mod.rs: validate_event_tag, validate_tag, document_start"]}
{"id": "C07", "title": "DocumentStart directives: defaults present, version once, duplicates rejected", "statement": "Every DocumentStart event lists the default tag handles '!' and '!!' with their default prefixes together with exactly the %TAG directives of that document, the version is the document's %YAML directive or 1.2, a second %YAML directive or a repeated %TAG handle gives an error, and no directive leaks into a later document.", "quantifier": "every sequence of directive tokens before a document, in every order and number", "why_tests_cant": "Unbounded directive lists and document histories.", "anchors": ["src/event/parser/mod.rs: scan_document_directives, document_start", "src/event/types.rs: DEFAULT_TAGS, DEFAULT_VERSION, Directives::default"]}
{"id": "C08", "title": "Peeking never changes what is read", "statement": "peek returns exactly the entry the next pop returns, repeated peeks return the same entry, peeks can be inserted anywhere without changing the sequence of popped entries, and an exhausted reader returns None for both.", "quantifier": "every token source and every sequence of peek/pop calls", "why_tests_cant": "Order of mixed peek/pop calls is unbounded.", "anchors": ["src/reader/mod.rs: PeekReader::peek, PeekReader::pop, PeekReader::take_next"]}
{"id": "C09", "title": "Parsing never hits an unreachable token", "statement": "Event production over any token source never panics: whatever the tokens are, each call returns an event, None or an error.", "quantifier": "every token source (including malformed token orders) and every call history", "why_tests_cant": "The unreachable!() branches depend on the relation between the peeked and the consumed token in every state.", "anchors": ["src/event/parser/macros.rs: consume!", "src/event/parser/mod.rs"]}
{"id": "C10", "title": "Each next_event call terminates", "statement": "A call to next_event finishes after a number of state transitions bounded by a constant plus the number of document-end tokens it skips.", "quantifier": "every parser state and token source", "why_tests_cant": "Termination of a while loop for every state is not observable by finitely many runs.", "anchors": ["src/event/parser/mod.rs: get_next_event, document_start"]}
{"id": "C11", "title": "Event marks never go backwards", "statement": "When token positions are nondecreasing, the end marks of the produced events are nondecreasing and start <= end for every event.", "quantifier": "every token source with nondecreasing positions", "why_tests_cant": "Unbounded token sequences.", "anchors": ["src/event/parser/mod.rs", "src/event/types.rs: Event::start, Event::end"]}
{"id": "C12", "title": "Tokens are delivered in stream order", "statement": "The positions of the tokens handed to the consumer by the reader never decrease, and a Key or collection-start token that is inserted retroactively always comes before the tokens of the key it belongs to.", "quantifier": "every input text and every flag set", "why_tests_cant": "Retroactive insertion depends on arbitrary later text.", "anchors": ["src/scanner/mod.rs: scan_tokens, fetch_value, roll_indent", "src/scanner/entry.rs: TokenEntry ordering", "src/queue.rs"]}
{"id": "C13", "title": "Position statistics are exact", "statement": "After consuming a piece of text the scanner's byte offset advanced by its length, its line counter by the number of line breaks (CRLF counting once), and its column equals the number of bytes since the last line break.", "quantifier": "every text and every way of cutting it into advance steps that does not split a line break", "why_tests_cant": "Every text and segmentation.", "anchors": ["src/scanner/stats.rs: MStats::update", "src/scanner/macros.rs: advance!", "src/scanner/mod.rs: eat_whitespace"]}
{"id": "C14", "title": "Whitespace and comment skipping is exact", "statement": "Skipping between tokens consumes the longest run of blanks, line breaks and comments and nothing else, and reports a line change exactly when a line break was consumed.", "quantifier": "every text, with and without comments enabled", "why_tests_cant": "Every text.", "anchors": ["src/scanner/mod.rs: eat_whitespace, Scanner::eat_whitespace"]}
{"id": "C15", "title": "Tokenisation never panics on ASCII text", "statement": "Scanning an ASCII text yields tokens or an error and never panics, whatever the text is.", "quantifier": "every ASCII text", "why_tests_cant": "Panics hide in rare boundary conditions of slicing at every offset.", "anchors": ["src/scanner/macros.rs: advance!, cache!", "src/scanner/mod.rs", "src/scanner/scalar/*.rs"]}
{"id": "C16", "title": "Multi-byte text inside scalars and comments is handled", "statement": "Any valid UTF-8 text inside a plain, quoted or block scalar or a comment is scanned without panicking.", "quantifier": "every valid UTF-8 text", "why_tests_cant": "Every code point at every position.", "anchors": ["src/scanner/macros.rs: advance!, widthOf!", "src/scanner/scalar/flow.rs", "src/scanner/scalar/plain.rs", "src/scanner/scalar/block.rs", "src/scanner/mod.rs: eat_whitespace"]}
{"id": "C17", "title": "Single-quoted scalars round-trip", "statement": "For every text without line breaks, writing it between single quotes with each quote doubled and scanning it gives back exactly that text, consuming exactly the quoted form, whatever follows other than another quote.", "quantifier": "every printable text without line breaks and every suffix", "why_tests_cant": "Every text and suffix.", "anchors": ["src/scanner/scalar/flow.rs: scan_flow_scalar_eager"]}
{"id": "C18", "title": "Unicode escapes produce the UTF-8 encoding of the code point", "statement": "In a double-quoted scalar the escapes \\xHH, \\uHHHH and \\UHHHHHHHH append exactly the UTF-8 encoding of the code point they denote, for every Unicode scalar value, and every single-letter escape appends the character YAML assigns to it.", "quantifier": "every Unicode scalar value and every escape letter", "why_tests_cant": "1.1 million code points, three notations, upper and lower case digits.", "anchors": ["src/scanner/scalar/escape.rs: flow_unescape, write_unicode_point, as_hex"]}
{"id": "C19", "title": "Invalid escapes are errors", "statement": "An unknown escape letter, a truncated or non-hexadecimal digit sequence, or a code that is not a Unicode scalar value (surrogates, above 10FFFF) is rejected with an error and never panics.", "quantifier": "every byte sequence following a backslash", "why_tests_cant": "Every byte sequence.", "anchors": ["src/scanner/scalar/escape.rs: flow_unescape, write_unicode_point", "src/scanner/scalar/flow.rs"]}
{"id": "C20", "title": "Lazy scalars evaluate to what eager scanning gives", "statement": "Scanning with lazy scalars and evaluating each scalar later gives the same scalar values, styles, positions and following tokens as eager scanning.", "quantifier": "every text", "why_tests_cant": "Two independent implementations must agree on every text.", "anchors": ["src/scanner/scalar/flow.rs: scan_flow_scalar_lazy", "src/scanner/scalar/plain.rs: scan_plain_scalar_lazy", "src/scanner/scalar/block.rs: scan_block_scalar_lazy", "src/event/types.rs: ScalarLike::evaluate"]}
{"id": "C21", "title": "Reading in chunks does not change the tokens", "statement": "Reading a stream through std::io::Read in chunks of any size gives the same tokens as scanning the whole text at once.", "quantifier": "every text and every way to cut it into chunks", "why_tests_cant": "Every text and every segmentation.", "anchors": ["src/reader/owned.rs: drive_scanner, refresh_buffer", "src/scanner/macros.rs: cache!", "src/scanner/flag.rs: O_EXTENDABLE"]}
{"id": "C22", "title": "Flow collection brackets are balanced", "statement": "In the token stream a closing flow bracket never occurs without an open one: the number of flow ends never exceeds the number of flow starts, an unmatched close is an error, and block starts never occur inside an open flow collection.", "quantifier": "every text", "why_tests_cant": "Unbounded nesting.", "anchors": ["src/scanner/mod.rs: fetch_flow_collection_start, fetch_flow_collection_end, roll_indent", "src/scanner/context.rs: flow_increment, flow_decrement"]}
{"id": "C23", "title": "Block collection starts and ends are balanced", "statement": "Every BlockSequenceStart or BlockMappingStart token is closed by exactly one BlockEnd, no BlockEnd occurs without an open block collection, and at StreamEnd (outside flow collections) none is left open.", "quantifier": "every text", "why_tests_cant": "Unbounded nesting and dedent patterns.", "anchors": ["src/scanner/mod.rs: roll_indent, unroll_indent, pop_zero_indent_sequence, fetch_stream_end", "src/scanner/context.rs: indent_increment, indent_decrement, pop_indent"]}
{"id": "C24", "title": "Implicit keys stay within one line and 1024 bytes", "statement": "A Key token is only inserted before a scalar when its ':' is found on the same line and at most 1024 bytes after the key started; a longer or multi-line candidate is never used as a key and a mandatory one is an error.", "quantifier": "every text", "why_tests_cant": "Every distance and line layout.", "anchors": ["src/scanner/mod.rs: save_key, expire_stale_saved_key, fetch_value", "src/scanner/key.rs"]}
{"id": "C25", "title": "Version directives parse exactly", "statement": "A %YAML directive yields the version whose decimal digits were written when both parts fit in 0..255 and is an error otherwise.", "quantifier": "every pair of digit strings and every following text", "why_tests_cant": "Every digit string, including leading zeros and overflow.", "anchors": ["src/scanner/directive.rs: scan_directive, scan_directive_version, take_while"]}
{"id": "C26", "title": "Anchor and alias names are exact", "statement": "After '&' or '*' the name is the longest run of ASCII letters and digits, it is never empty, and it must be followed by one of the permitted characters; otherwise it is an error.", "quantifier": "every text", "why_tests_cant": "Every text.", "anchors": ["src/scanner/anchor.rs: scan_anchor, take_while"]}
{"id": "C27", "title": "Tag URIs percent-decode exactly", "statement": "In tag suffixes and prefixes each %HH group sequence encoding a UTF-8 character is replaced by that character and every other permitted character is kept unchanged; anything else ends the tag.", "quantifier": "every Unicode scalar value and every permitted text", "why_tests_cant": "Every character in every position.", "anchors": ["src/scanner/tag.rs: scan_tag_uri", "src/scanner/scalar/escape.rs: tag_uri_unescape"]}
{"id": "C28", "title": "Verbatim tags are read up to the closing bracket", "statement": "!<uri> yields a tag whose suffix is uri and consumes exactly the bracketed text.", "quantifier": "every permitted uri text", "why_tests_cant": "Every uri.", "anchors": ["src/scanner/tag.rs: scan_node_tag"]}
{"id": "C29", "title": "Block scalar chomping", "statement": "A literal block scalar keeps its content lines, and its trailing line breaks are all dropped with '-', all kept with '+', and reduced to a single one otherwise.", "quantifier": "every list of content lines, number of trailing breaks and chomping indicator", "why_tests_cant": "Every combination of lines and breaks.", "anchors": ["src/scanner/scalar/block.rs: scan_block_scalar_eager, scan_chomp"]}
{"id": "C30", "title": "Plain scalars fold and carry no surrounding whitespace", "statement": "The value of a plain scalar never starts or ends with a blank or line break, and a plain scalar on a single line is exactly its text.", "quantifier": "every text", "why_tests_cant": "Every text.", "anchors": ["src/scanner/scalar/plain.rs: scan_plain_scalar_eager"]}
{"id": "C31", "title": "In-place evaluation leaves an evaluated scalar", "statement": "After evaluating a lazy scalar in place the scalar is evaluated whether or not it succeeded, evaluating again gives the same value, and evaluating an already evaluated scalar is the identity.", "quantifier": "every scalar and every result of the deferred scan", "why_tests_cant": "Every deferred outcome.", "anchors": ["src/event/types.rs: ScalarLike::evaluate_scalar_by_ref, evaluate_scalar, is_evaluated"]}
{"id": "C32", "title": "Error conversion keeps the category", "statement": "Every scanner, parser and reader error converts to a public error of the documented category, and converting a public error into std::io::Error never panics and preserves an underlying I/O error.", "quantifier": "every error value", "why_tests_cant": "The conversion chain has several layers; every variant must be covered.", "anchors": ["src/error.rs: ErrorCode, Error::classify, From<Error> for io::Error", "src/scanner/error.rs", "src/event/error.rs", "src/reader/error.rs"]}
{"id": "C33", "title": "Flags form a set", "statement": "Adding and removing event flags behaves like set insertion and removal, and the lazy flag (only) reaches the scanner.", "quantifier": "every flag value", "why_tests_cant": "Every 32-bit value.", "anchors": ["src/event/flag.rs: Flags, as_scanner", "src/scanner/flag.rs"]}
{"id": "C34", "title": "Scanning makes progress", "statement": "Every call that asks the scanner for more tokens terminates, and once the stream end token was produced no further token is ever produced.", "quantifier": "every text", "why_tests_cant": "Termination for every text.", "anchors": ["src/scanner/mod.rs: scan_tokens, scan_next_token"]}
{"id": "C35", "title": "The tail of a reader is exhausted exactly when no token is left", "statement": "A reader reports exhaustion only after every token was handed out; tokens produced by the source are handed out exactly once.", "quantifier": "every token source and call history", "why_tests_cant": "Every call history.", "anchors": ["src/reader/mod.rs: Reader::scan_tokens, Reader::is_exhausted, PeekReader"]}
{"id": "C36", "title": "No text is dropped when a chunk runs out", "statement": "When the scanner asks for more input, the unread part of the current chunk followed by the next chunk is what scanning continues with, so every byte of the source is presented in order and a source ending is detected exactly when it returns no more bytes.", "quantifier": "every source and every chunk size", "why_tests_cant": "Every segmentation.", "anchors": ["src/reader/owned.rs: Impl::refresh_buffer, read_fill, Take"]}
{"id": "C37", "title": "Events carry exactly the content of the tokens", "statement": "The tokens a parser takes from its source split into consecutive chunks, one per event, so that anchors, tags, alias names, scalar content and directives of each event are exactly those of the tokens in its chunk; no content token is dropped, duplicated or moved to another event.", "quantifier": "every token source and every history of successful calls", "why_tests_cant": "The parser peeks ahead and buffers; loss or duplication depends on the whole history.", "anchors": ["src/event/parser/mod.rs: Parser::next_event, node, scan_document_directives, fetch_anchor, fetch_tag", "src/reader/mod.rs: PeekReader"]}
{"id": "C38", "title": "Parsing the tokens of a stream of documents yields exactly its events", "statement": "There is one grammar of token streams (documents, directives, block and flow collections, omitted nodes) that assigns each stream its events. On every token stream of that grammar the parser hands out exactly these events, with their node kinds, tags, anchors, directives and implicit/explicit marks, reports no error, and then finishes. The meaning of a token stream is unique.", "quantifier": "every token stream of the grammar, of any length and nesting, delivered by any source in any batches", "why_tests_cant": "Unbounded nesting, arbitrary mixtures of omitted nodes and collections, and any batching of tokens.", "anchors": ["src/event/parser/mod.rs: Parser::next_event and all state handlers", "src/event/parser/state.rs: StateMachine"]}
{"id": "C39", "title": "Quoted scalars denote what YAML prescribes", "statement": "The value of a quoted scalar is its text, where a line break with the blanks around it becomes a blank, several become one line break less, two single quotes become one, escapes become their characters and an escaped line break is left out; what starts with a quote and is no quoted scalar, or has a document marker at the start of a line, is an error.", "quantifier": "every text after a quote, in both styles, in every state of the scanner", "why_tests_cant": "The folding rules combine blanks, breaks, escapes and quotes in unboundedly many ways; tests check a few combinations.", "anchors": ["src/scanner/scalar/flow.rs: scan_flow_scalar_eager", "src/scanner/scalar/escape.rs: flow_unescape", "src/scanner/mod.rs: fetch_flow_scalar"]}
{"id": "C40", "title": "Folded block scalars fold line breaks", "statement": "In a folded block scalar, the line break between two lines becomes a space, several become one line break less; line breaks before the first line stay and those after the last are chomped as in a literal scalar.", "quantifier": "every list of content lines with empty lines before them, number of trailing breaks, chomping indicator and indentation, in every state of the scanner in the block context", "why_tests_cant": "Every combination of lines, empty lines, indentations and chomping indicators.", "anchors": ["src/scanner/scalar/block.rs: scan_block_scalar_eager, scan_chomp"]}
{"id": "C41", "title": "No reader asks its caller for more input", "statement": "The condition that more input is needed is internal: no call on a reader of a complete text, or of a std::io::Read source, ever reports it, whatever the chunks and the calls before.", "quantifier": "every text, source, chunk size, set of flags and history of calls", "why_tests_cant": "Every place in the scanner that looks ahead can raise the condition, at every position of the text.", "anchors": ["src/reader/owned.rs: drive_scanner", "src/reader/borrow.rs", "src/scanner/macros.rs: cache!", "src/scanner/error.rs: ScanError::Extend"]}
{"id": "C42", "title": "Block collections and keys begin only where the grammar lets them", "statement": "Outside of flow collections, an entry indicator -, a key indicator ?, a value indicator : without a key before it, and an implicit key are recognised only at the start of a line (after white space) or, on the same line, after the start of the stream, another -, a ? or the : of an explicit key, a comma or a block scalar. Elsewhere -, ? and : are errors, as is - inside a flow collection.", "quantifier": "every text, every state the scanner reaches on it, every set of flags", "why_tests_cant": "Whether an indicator is allowed depends on everything scanned before it on the line; there are unboundedly many contexts.", "anchors": ["src/scanner/mod.rs: simple_key_allowed, fetch_block_collection_entry, fetch_explicit_key, fetch_value, save_key, eat_whitespace"]}
{"id": "C43", "title": "Texts of the YAML grammar are read as the events they stand for", "statement": "Reading a text that conforms to the grammar hands out exactly the events the grammar assigns to it: documents with their directives, nodes with their anchors, resolved tags, kinds and scalar values, in order, and then ends. No call reports an error, every sequence of calls sees the first events of that list, and the result does not depend on whether the text is read from a string or from an io::Read source in chunks of any size. The grammar covers flow and block collections nested in each other, also sequences that are not indented in their mapping, implicit and explicit keys, left out nodes, plain and quoted scalars over several lines, literal and folded block scalars with chomping indicators, aliases, anchors, tags, comments, %YAML and %TAG directives, bare and explicit documents.", "quantifier": "every ASCII text of the grammar, of any length and nesting, every chunk size, every number of calls", "why_tests_cant": "There are unboundedly many texts, and whether a construct is read right depends on everything around it: indentation, pending keys, the stack of open collections and the line it is in.", "anchors": ["src/scanner/mod.rs: Scanner", "src/event/parser/mod.rs: Parser", "src/reader/borrow.rs", "src/reader/owned.rs"]}
{"id": "C44", "title": "JSON is read", "statement": "Every JSON text is read as its value: one implicit document, with a sequence per array, a mapping per object with keys and values in order, a double-quoted scalar with the decoded characters per string, and a plain scalar with the text itself per number, true, false and null.", "quantifier": "every JSON text, of any length and nesting, with any white space", "why_tests_cant": "There are unboundedly many JSON texts, and a number or a key is recognised by what comes before and after it.", "anchors": ["src/scanner/mod.rs: fetch_flow_collection_start, fetch_flow_scalar, fetch_plain_scalar, fetch_value", "src/scanner/scalar/escape.rs: flow_unescape", "src/event/parser/mod.rs"]}
{"id": "C45", "title": "Trees written in block style are read back", "statement": "Any tree of strings (of any Unicode characters), sequences and mappings, written in block style with some positive indentation per level, strings in double quotes and everything but printable ASCII escaped, is read as the events of exactly that tree, from a string or in chunks; and different trees have different events.", "quantifier": "every tree of any depth, size and strings (keys of at most 1024 bytes as written), every indentation, every chunk size", "why_tests_cant": "There are unboundedly many trees; the columns of the lines decide where collections end, at any depth.", "anchors": ["src/scanner/mod.rs: roll_indent, unroll_indent, save_key, fetch_value", "src/scanner/scalar/flow.rs", "src/event/parser/mod.rs"]}
{"id": "C46", "title": "Events do not depend on how the text is read", "statement": "An event stream over an io::Read source returns, call by call, what the stream over the whole text returns: the same events and the same errors, also after errors of the parser, up to and including the first failure of the source; only reading itself can fail earlier.", "quantifier": "every text, every division into chunks, every number of calls of next, with or without errors on the way", "why_tests_cant": "Chunks can end anywhere in a token, and the parser goes on after errors; there are unboundedly many texts, divisions and histories.", "anchors": ["src/event/mod.rs: Events, EventIter::next, EventIterRef::next", "src/reader/owned.rs: OwnedReader", "src/reader/borrow.rs: BorrowReader"]}
{"id": "C47", "title": "Lazy event streams evaluate to the eager ones", "statement": "With O_LAZY, next returns the same events with the same marks and the same errors as without it, and each scalar evaluates to the value the eager stream has there.", "quantifier": "every text, every number of calls of next, with or without errors on the way", "why_tests_cant": "Laziness changes how every scalar is scanned; the claim is about all texts and histories.", "anchors": ["src/event/flag.rs: O_LAZY", "src/event/mod.rs: from_reader_with", "src/event/types.rs: ScalarLike", "src/scanner/scalar/*: Deferred"]}
{"id": "C48", "title": "A source that has been used cannot feed a second stream", "statement": "After a stream has handed out an event, the read source is bound: another event stream on it reports an error (documentation of from_reader_with and Events::new), and never hands out events.", "quantifier": "every source, every history of calls on the first stream", "why_tests_cant": "It depends on everything the first stream has done.", "anchors": ["src/event/mod.rs: from_reader_with, Events::new", "src/reader/owned.rs: ReadHolder"]}
{"id": "C49", "title": "A text has linearly many tokens", "statement": "The number of tokens handed out for a text is at most three per byte and two, so a consumer's memory and time are bounded by the size of the input.", "quantifier": "every text and every history of peeks and pops that succeed", "why_tests_cant": "One byte can open and close any number of collections; a bound for all texts needs an amortised argument.", "anchors": ["src/scanner/mod.rs: Scanner::scan_tokens, roll_indent, unroll_indent, fetch_*"]}
{"id": "C50", "title": "Iterating over the events of a text ends", "statement": "The number of events is bounded by the number of tokens (twice as many in a whole stream) and so by the size of the text; iteration reaches None after at most that many calls, also when errors are skipped as in the documentation.", "quantifier": "every token source, every text, every number of calls", "why_tests_cant": "The parser makes up events for nodes that are left out; that it cannot do so forever is a claim about all runs.", "anchors": ["src/event/mod.rs: EventIter, EventIterRef", "src/event/parser/mod.rs: Parser::next_event"]}
{"id": "C51", "title": "Byte slices are accepted exactly if they are UTF-8", "statement": "try_from_bytes succeeds exactly on the UTF-8 encodings of texts, and then behaves as from_utf8 on that text; otherwise the error is one of encoding.", "quantifier": "every byte slice", "why_tests_cant": "There are unboundedly many byte strings; surrogates, overlong forms and truncated characters are each an unbounded family.", "anchors": ["src/reader/mod.rs: try_from_bytes, from_utf8", "src/reader/borrow.rs: BorrowReader::try_from_bytes"]}
{"id": "C52", "title": "Only streams of the token language are accepted", "statement": "If iteration over the events ends with None and no call erred, then the tokens the source delivered are a stream of documents of the token language and the events are what the language says that stream means; so anything else (a missing end of a collection, a missing comma, an undefined tag handle, a doubled directive, content after a document) makes some call err.", "quantifier": "every token source and every history of calls that handed out events and then None", "why_tests_cant": "Rejecting some malformed streams in tests does not show that no malformed stream of any length or depth is let through.", "anchors": ["src/event/parser/mod.rs: Parser::next_event, state_transition and every handler"]}
{"id": "C53", "title": "Tokens stand for the characters that are next", "statement": "After white space and comments, the token the scanner adds last is one that the next characters stand for (an opening bracket for the start of a flow sequence, `---` in the first column before white space for the start of a document, `- ` for a block entry, and so on); the ones it adds before it are only the starts and ends of block collections and keys. Where the signs of flow collections and the document markers come, the scanner gives their tokens and goes on right behind them; where a reserved character comes (`@`, a backquote, `%` inside a line, `|` and `>` in flow collections) it returns UnknownDelimiter.", "quantifier": "every text, every set of flags and every state reached while scanning it", "why_tests_cant": "Which token a character stands for depends on the column, on the nesting and on what follows, in unboundedly many contexts.", "anchors": ["src/scanner/mod.rs: Scanner::fetch_next_token, Scanner::fetch_document_marker, Scanner::fetch_flow_collection_start, Scanner::fetch_flow_collection_end, Scanner::fetch_flow_collection_entry, Scanner::is_plain_scalar", "src/scanner/macros.rs"]}
{"id": "C54", "title": "Block scalars that are accepted are written in the text", "statement": "If the scanner gives a literal or folded scalar, then the text has, after white space and comments, `|` or `>`, a header (a chomping indicator and possibly the digit 0, blanks, a comment, a line break) and lines that are indented by what the widest of the first ones is, but more than the enclosing collection, with no tab in the indentation; its value is what these lines say, folded or not and chomped, and scanning goes on right behind them. The exception is the value of a single line right after the header, after which a part of the text is taken over as it is. What is read, and where it ends, is determined by the text. No other text is accepted as a block scalar.", "quantifier": "every text, every set of flags, every state reached while scanning it, and every block scalar given from there", "why_tests_cant": "Ranges over all texts, with any number of lines, blank lines, indentations, characters and kinds of line breaks.", "anchors": ["src/scanner/scalar/block.rs: scan_block_scalar, scan_block_scalar_eager, scan_headers, scan_chomp, detect_indent_level, scan_indent", "src/scanner/mod.rs: Scanner::fetch_block_scalar"]}
{"id": "C55", "title": "Scan errors name what is wrong with the text", "statement": "The first error reported while the tokens of a text are read is an error of the scanner, and it is true: its code says what is wrong at the place that is read. MissingValue: a key that must have a value has none. UnknownDelimiter: a reserved character. InvalidBlockEntry, InvalidKey, InvalidValue: a `-`, `?` or `:` where none may be. IntOverflow: a flow collection ends that was not begun. InvalidAnchorName, InvalidTagHandle, InvalidTagPrefix, InvalidTagSuffix, UnknownDirective, InvalidVersion, UnknownEscape, InvalidFlowScalar, InvalidBlockScalar, InvalidTab and UnexpectedEOF: the anchor, tag, directive, quoted or block scalar that begins there is malformed in that way. Extend is never reported, nor are MissingMajor, MissingMinor and InvalidPlainScalar.", "quantifier": "every text, every set of flags, every history of calls without errors and every next call that fails", "why_tests_cant": "Ranges over all texts and over every way in which they may be malformed, after any number of tokens.", "anchors": ["src/scanner/error.rs: ScanError", "src/scanner/mod.rs: Scanner::scan_next_token", "src/scanner/anchor.rs: scan_anchor", "src/scanner/tag.rs: scan_node_tag, scan_tag_directive", "src/scanner/directive.rs: scan_directive", "src/scanner/scalar/flow.rs: scan_flow_scalar", "src/scanner/scalar/block.rs: scan_block_scalar", "src/reader/mod.rs: PeekReader::peek, PeekReader::pop"]}
{"id": "C56", "title": "Parse errors name what is wrong with the tokens", "statement": "The first error an event stream reports is true: its code says what is wrong with the tokens taken so far and the next one. An error of the source is passed on. UnexpectedEOF: the tokens end before the end of the stream. CorruptStream: the first token is not the start of a stream. DuplicateVersion, DuplicateTagDirective: the directives of a document repeat. MissingDocumentStart: no `---` after directives, or after the node of a document. UndefinedTag: the handle of a tag is not defined for its document. MissingNode: there is no node where there must be one. MissingBlockEntry, MissingKey, MissingFlowSequenceEntryOrEnd, MissingFlowMappingEntryOrEnd: in the innermost open collection, of that kind, the next token neither goes on nor ends it. At most one error fits a token. For a text, UnexpectedEOF and CorruptStream are never reported.", "quantifier": "every token source, every history of events and every next call that fails", "why_tests_cant": "Ranges over all token sources, nested to any depth, and over every way in which their order may be wrong.", "anchors": ["src/event/error.rs: ParseError", "src/event/parser/mod.rs: Parser::next_event, Parser::state_transition, Parser::node, Parser::document_start", "src/event/parser/macros.rs"]}
{"id": "C57", "title": "Debug and release builds agree", "statement": "A debug build, in which the assertions of the parser are checked, hands out the same events, errors and end as a release build: no assertion ever fails.", "quantifier": "every token source, every history of events and every next call", "why_tests_cant": "Ranges over all token sources; the assertions are about the next token in states reached through any nesting.", "anchors": ["src/event/parser/mod.rs: debug_assert! at lines 406, 478, 592, 774, 805"]}
{"id": "C58", "title": "A panic has a cause in the text", "statement": "If a call of the reader panics, then what is next in the text, after white space and comments, is one of a short list of things: a comment, plain, quoted or block scalar with a character of more than one byte, a tag or tag prefix whose %XX are no UTF-8, an escaped code that is no character, a block scalar with an indentation indicator or without content, or a line break of more than one byte right after the character that ends a lazy plain scalar or after the only line of a block scalar. On every other text no call panics.", "quantifier": "every text, eager or lazy, every history of calls, errors included, and every next call", "why_tests_cant": "Ranges over all texts and histories: the tests only show texts that do not panic.", "anchors": ["src/scanner/mod.rs: scan_next_token", "src/scanner/scalar/", "src/scanner/tag.rs", "src/scanner/macros.rs: advance!"]}
{"id": "C59", "title": "Contents are borrowed where possible", "statement": "What a token holds is either borrowed, and then it is that very part of the text, or a copy; and it is borrowed whenever its value stands in the text as it is. Quoted scalars are borrowed exactly if there is no escape in them and they are in one line, anchors and aliases always, tags and tag directives exactly if nothing in them is percent-encoded, block scalars exactly if they are one line right after the header of whose line breaks at most one stays.", "quantifier": "every text, every reachable state of the scanner and every token with contents that the next step adds", "why_tests_cant": "Ranges over all texts: the tests compare values, which are the same whether borrowed or copied.", "anchors": ["src/event/types.rs: Slice", "src/scanner/scalar/", "src/scanner/tag.rs: assemble_tag", "src/scanner/anchor.rs"]}
{"id": "C60", "title": "Overflow checks make no difference", "statement": "Scanning never subtracts a larger number of bytes from a smaller one: a build with overflow checks and a build without them return the same result, push the same tokens and leave the scanner in the same state, and evaluate deferred scalars alike.", "quantifier": "every text, state of the scanner, option, and every result an underflowing subtraction could have", "why_tests_cant": "Ranges over all texts and states; the tests run in one build only, and an underflow needs a particular arrangement of blanks, line breaks and copies.", "anchors": ["src/scanner/scalar/flow.rs: lines 211, 223", "src/scanner/scalar/plain.rs: lines 206, 217, 234, 237, 383, 384", "src/scanner/scalar/block.rs: lines 168, 247, 269"]}
{"id": "C61", "title": "What tokens borrow stays valid", "statement": "Tokens of a source that is read in chunks borrow from its buffers. The text a token was scanned in stays at its place in memory, unchanged, through all later calls, even if they fail, until the source is dropped; no buffer is used after it was freed or freed twice, and none is leaked.", "quantifier": "every source, chunk size, flags, history of calls, and every way in which buffers grow in place or move", "why_tests_cant": "The buffers are in an UnsafeCell, so the compiler does not check it; a dangling reference usually still reads the old bytes, and whether a buffer moves depends on the allocator, the sizes and the history.", "anchors": ["src/reader/owned.rs: ReadHolder::data (SAFETY comment), ReadHolder::read_next_chunk, Impl::refresh_buffer, OwnedReader::drive_scanner"]}
{"id": "C62", "title": "Lazy scanning hides no errors", "statement": "If reading a text without evaluating its scalars succeeds to the end, and every token then evaluates, then reading it with evaluation succeeds as well: what is rejected is rejected in both ways, at the latest when the scalar is evaluated.", "quantifier": "every text, flags and history of calls that reaches the end of the tokens", "why_tests_cant": "Lazy scanners skip over scalars with code of their own, so every way in which a scalar can be wrong must be found again at evaluation, for all texts and all positions of the scalar.", "anchors": ["src/scanner/scalar/flow.rs: scan_flow_scalar_lazy, scan_flow_scalar_eager", "src/scanner/scalar/plain.rs: scan_plain_scalar_lazy, scan_plain_scalar_eager", "src/scanner/scalar/block.rs: scan_block_scalar_lazy, scan_block_scalar_eager", "src/scanner/entry.rs: Lazy::into_token"]}
{"id": "C63", "title": "Reading from a source takes few buffers", "statement": "However long a source is read, no buffer the reader holds has more bytes than the source has given, and the number of buffers is about the square root of the bytes divided by 8 KiB, plus one for each time the source ended or failed. All buffers together have at most their number times the length of the source.", "quantifier": "every source (any bytes, any ends and failures), every history of calls whatever it reports, every way in which memory is given out", "why_tests_cant": "Nothing is freed until the reader is dropped, and each buffer begins with what the last one left, so what is held depends on the whole history of reads; no test can try all texts, sources and calls.", "anchors": ["src/reader/owned.rs: Impl::refresh_buffer, DEFAULT_BUFFER_SIZE, ReadHolder, read_fill"]}
{"id": "C64", "title": "Errors tell where they occurred", "statement": "An error that concerns a place in the text reports its line, column and index: has_context is true.", "quantifier": "every source and history of calls, every evaluation of a scalar, every byte slice", "why_tests_cant": "It is about every error on every text.", "anchors": ["src/error.rs: Error::line, column, at, has_context, fmt"]}
{"id": "C65", "title": "Messages tell errors apart", "statement": "Two errors that the library itself finds are displayed the same only if they are the same; and an error that has a place shows the whole of it, line, column and index, after its message, one that has none shows the message only.", "quantifier": "all pairs of errors returned by any histories of calls on any sources", "why_tests_cant": "It is about all pairs of errors that any texts can cause.", "anchors": ["src/error.rs: Display for Error, ErrorKind, ErrorCode, SourceError"]}
{"id": "C66", "title": "Errors lead to their cause", "statement": "The source() of an error caused by a source that fails, or by bytes that are not UTF-8, leads to the underlying error; and conversion to std::io::Error gives back the I/O error.", "quantifier": "all errors", "why_tests_cant": "It is about every error on every source.", "anchors": ["src/error.rs: StdError for Error, StdError for ErrorKind, From<Error> for io::Error"]}
{"id": "C67", "title": "O_LAZY decides whether scalars are evaluated", "statement": "Without O_LAZY every scalar event holds an evaluated scalar; with O_LAZY every scalar event holds an unevaluated one, unless the scalar was left out in the text and is empty.", "quantifier": "all flags, all texts and all readable sources however they deliver, every event of every history of calls without an error", "why_tests_cant": "There are five styles of scalars in any position of any text, read in any chunks.", "anchors": ["src/event/mod.rs: Events::new", "src/event/flag.rs: as_scanner, O_LAZY", "src/scanner/entry.rs", "src/scanner/scalar"]}
{"id": "C68", "title": "Errors do not overtake or drop what precedes them", "statement": "What precedes an error in the text is returned as events before the error is.", "quantifier": "every text and history of calls", "why_tests_cant": "How far the scanner reads ahead depends on the whole text before.", "anchors": ["src/scanner/mod.rs: Scanner::scan_tokens", "src/reader/mod.rs: PeekReader::take_next", "src/event/parser/mod.rs"]}
{"id": "C69", "title": "A text with an error is not read to its end", "statement": "Once a call has returned an error of the text, no later call returns None or the event that ends the stream: going on after an error never makes a rejected text look like one that was read completely.", "quantifier": "every text, all flags, every history of calls, also after errors", "why_tests_cant": "Which state the scanner and the parser are left in depends on where in which text the error occurs, and on all calls after it.", "anchors": ["src/scanner/mod.rs: Scanner::scan_tokens, scan_next_token, expire_stale_saved_key, remove_saved_key", "src/reader/mod.rs: PeekReader::take_next", "src/event/parser/mod.rs: next_event"]}
{"id": "C70", "title": "Events after errors are made of what was read after them", "statement": "Whatever errors earlier calls returned, an event carries exactly names, tags, scalar content and directives of tokens that its own call took from the source, in their order: nothing a failed call had read shows up in a later event, and no content shows up twice or out of order. Its positions are those of tokens its call took or looked at.", "quantifier": "every source of tokens and every history of calls, with errors anywhere", "why_tests_cant": "The parser may fail in any of its states, half way through a node or a document, and is called again from there.", "anchors": ["src/event/parser/mod.rs: Parser::next_event, node, node_properties, document_start", "src/event/iter.rs: EventIter::next", "src/reader/mod.rs: PeekReader::pop"]}
{"id": "C71", "title": "An undefined tag costs one event", "statement": "When a call reports an undefined tag, exactly the node event that carries the tag is missing: put back in its place, the events of all calls are those of a well-formed stream, made of the tokens that were read, and complete if the calls came to the end. The tag on the missing event is one its document does not define.", "quantifier": "every source of tokens, every history of calls in which the only errors are undefined tags, at any nodes", "why_tests_cant": "A tag may be undefined on any node, any number of times, in any state of the parser.", "anchors": ["src/event/parser/mod.rs: Parser::node, Parser::next_event", "src/event/parser/state.rs"]}
{"id": "C72", "title": "Junk after an entry of a collection stops the stream", "statement": "When a call reports that an entry of a collection is followed neither by another entry nor by the end of the collection (missing flow sequence or mapping entry or end, missing block entry, missing key), all later calls report the same error: nothing after the junk is passed off as content.", "quantifier": "every source of tokens, every history of calls, every number of later calls", "why_tests_cant": "The claim is about all calls after the error, on all texts and at every nesting depth; tests call once or twice.", "anchors": ["src/event/parser/mod.rs: Parser::flow_sequence_entry, Parser::flow_mapping_key, Parser::block_sequence_entry, Parser::block_mapping_key, Parser::get_next_event", "src/reader/mod.rs: PeekReader::peek", "src/event/state.rs: StateMachine::push, StateMachine::pop"]}
{"id": "C73", "title": "Empty lines and comments before a text only move its events", "statement": "Putting lines that hold only spaces, tabs and comments before a text changes nothing in what the calls of a stream of events return, errors included, but the positions after StreamStart: they are all as many bytes further on as there are bytes in these lines.", "quantifier": "every text, every number and mixture of such lines with every kind of line break, every combination of flags, every number of calls", "why_tests_cant": "It compares two runs of scanner and parser on infinitely many pairs of texts; positions, line counts, saved keys and indentation all have to move alike in every state.", "anchors": ["src/scanner/mod.rs: Scanner::scan_next_token, Scanner::eat_whitespace", "src/scanner/mod.rs: eat_whitespace", "src/scanner/stats.rs: MStats", "src/scanner/key.rs: Key", "src/event/parser/mod.rs: Parser::get_next_event", "src/reader/borrow.rs: BorrowReader::drive"]}
{"id": "C74", "title": "After an explicit end of a document the stream goes on as one over what follows", "statement": "When a stream of events has returned the end of a document that is marked by `...`, what it returns from then on is what a stream over only the text after that `...` returns after StreamStart, errors included, with positions counted on from that of the `...`.", "quantifier": "every text, every combination of flags, every document in it that ends with `...`, every number of further calls", "why_tests_cant": "It compares a run from any state a stream can be in after any number of documents with a fresh run, on infinitely many texts; indentation, saved keys, flow depth, queued tokens, directives and parser states must all be as in a fresh stream.", "anchors": ["src/scanner/entry.rs: Scanner::fetch_document_marker, Scanner::scan_next_token", "src/scanner/context.rs: Context", "src/reader/mod.rs: Reader, PeekReader", "src/queue.rs: Queue", "src/event/parser/mod.rs: Parser::document_start, Parser::document_end"]}
{"id": "C75", "title": "What follows a document and does not start another stops the stream for good", "statement": "When a stream of events has returned the end of a document that no `...` marks, and the next call fails because what follows does not start another document, every later call fails in the same way: no part of what follows is ever returned as a document.", "quantifier": "every source of tokens, every list of calls on it, whatever they returned, every point at which a document has ended implicitly", "why_tests_cant": "It quantifies over all sources of tokens, all states a stream can be in at the end of a document, including after earlier errors, and unboundedly many calls after the failure.", "anchors": ["src/event/parser/mod.rs: Parser::document_start, Parser::document_end, Parser::scan_document_directives, Parser::next_event", "src/reader/mod.rs: PeekReader"]}
{"id": "C76", "title": "A source that fails midway: what was returned before stands, and the stream does not end", "statement": "When an `io::Read` source delivers some bytes and then fails, the events returned before the failure is reported are those that the stream over every text beginning with these bytes returns first; and until the failure has been reported no call returns the end of the stream or `None`, so a text that was cut off is never taken for a whole one.", "quantifier": "every text, every point at which the source fails (also inside of a character), every failure, every sequence of chunk sizes, every continuation of the text, every list of calls", "why_tests_cant": "It quantifies over all texts, all points of failure, all partitions into chunks and all continuations of the bytes that were delivered.", "anchors": ["src/reader/owned.rs: OwnedReader", "src/event/parser/mod.rs: Parser::next_event", "src/scanner/mod.rs: Scanner::scan_tokens"]}
{"id": "C77", "title": "White space and comments after the explicit end of a document are the end of the stream", "statement": "When a stream of events has returned the end of a document marked by `...` and only white space and comments follow in the text, the next call does not start another document, nor fail: it returns the end of the stream, whose position is the end of the text, and every later call returns `None`. Calls that panic are excepted; where what follows is ASCII there are none, and the next call does return.", "quantifier": "every text, every document in it and all before it, every flag, every list of calls", "why_tests_cant": "It quantifies over all texts, all documents before the marker, and all white space and comments after it.", "anchors": ["src/event/parser/mod.rs: Parser::document_start", "src/scanner/mod.rs: Scanner::scan_next_token, Scanner::fetch_stream_end, Scanner::fetch_document_marker"]}
{"id": "C78", "title": "What follows the explicit end of a document is read the same whatever came before it", "statement": "Two texts end, after the `...` of some document, in the same remainder, and a stream of events over each has returned that document's end. Then equally many further calls on both return the same events and errors, with positions counted from the two markers, up to the first failure of the source. True where a block collection was begun before the marker in both texts or in neither (otherwise it is false of this code, see finding 10).", "quantifier": "every pair of texts with a common remainder, every flag, every number of calls", "why_tests_cant": "It is a relation between two runs over all pairs of pasts and all remainders; state left over from a past document shows only for particular pairs.", "anchors": ["src/scanner/mod.rs: Scanner::fetch_document_marker, Scanner::scan_next_token", "src/scanner/context.rs: Context::indent_decrement", "src/event/parser/mod.rs: Parser::document_start, Parser::document_end"]}
{"id": "C79", "title": "Every call returns, and asking for events comes to an end", "statement": "Over any text and over any source read in chunks, failing or not, after any calls that did not panic (failures among them), the next call to a stream of events returns: no loop of the scanner, of the reader or of the parser runs forever, and the loops of the parser make at most as many rounds as there are tokens waiting and tokens the rest of the text can have, and two. So any number of calls can be made, and one who asks for events until something else comes back, has it after at most 9 n + 8 calls, n being the length in bytes.", "quantifier": "every text, every source and size of chunks, every flag, every list of calls without a panic", "why_tests_cant": "A call that never returns on some text after some history is not found by trying texts; the bound is for all lengths.", "anchors": ["src/event/mod.rs: next_event", "src/event/parser/mod.rs: Parser::get_next_event, scan_document_directives", "src/scanner/mod.rs: Scanner::scan_tokens", "src/reader/mod.rs: take_next", "src/reader/owned.rs: OwnedReader::drive"]}
{"id": "C80", "title": "Over a text without a cause of a panic no call panics, and its events come to an end", "statement": "Let no part of an ASCII text be a cause of a panic: a tag with %XX escapes that are no UTF-8, and, unless scalars are lazy, a code in a double-quoted scalar that is no character, or a block scalar with an indentation indicator or without content. Then no call of a stream of events over it panics, whatever the calls before returned; as many calls as one likes can be made; and iterating has None or an error after at most nine events per byte and seven. The last also holds for sources that supply such a text in chunks, or the beginning of one and then fail, if scalars are not lazy or there are no block scalars. A text without the characters !, %, and, unless scalars are lazy, double quotes, | and > is such a text.", "quantifier": "every ASCII text without these causes, every flag, every number of calls, every size of chunks", "why_tests_cant": "Panics are to be excluded for all such texts and all histories of calls, also those with errors.", "anchors": ["src/event/mod.rs: next_event", "src/event/parser/mod.rs: Parser::get_next_event", "src/reader/borrow.rs: drive", "src/scanner/mod.rs: Scanner::scan_tokens"]}
