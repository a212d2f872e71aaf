# Formal model of yary in Lean 4

`/verif/properties.jsonl` lists the properties, `/verif/MANIFEST.json` the theorems for each,
`/verif/seeded/LOG.jsonl` the wrong programs the theorems were tested against.

## Layout

| module | models |
|---|---|
| `Verif/Model/Basic.lean` | bytes, `&str` slices, outcomes (`ok`/`err`/`panic`/`diverge`), `src/scanner/error.rs` |
| `Verif/Model/Queue.lean` | `src/queue.rs` |
| `Verif/Model/Token.lean` | `src/token.rs`, `src/scanner/entry.rs` |
| `Verif/Model/Scalar.lean`, `Event.lean` | `src/event/types.rs` |
| `Verif/Model/Reader.lean` | `src/reader/mod.rs` (generic over a token source) |
| `Verif/Model/Parser.lean` | `src/event/state.rs`, `src/event/parser/*` |
| `Verif/Model/Error.lean`, `Flag.lean` | `src/error.rs` and the conversions into it, `src/event/flag.rs` |
| `Verif/Model/Scan/Macros.lean`, `Context.lean` | `src/scanner/{macros,stats,context,key}.rs` |
| `Verif/Model/Scan/Escape.lean`, `Anchor`, `Directive`, `Tag` | `src/scanner/{scalar/escape,anchor,directive,tag}.rs` |
| `Verif/Model/Scan/Flow.lean`, `Plain`, `Block` | `src/scanner/scalar/*` (eager and lazy) |
| `Verif/Model/Scan/Scanner.lean` | `src/scanner/mod.rs`, `BorrowReader` (`src/reader/borrow.rs`) |
| `Verif/Model/Scan/Owned.lean` | `src/reader/owned.rs` over any `std::io::Read` |
| `Verif/Model/Events.lean` | `src/event/mod.rs`, the constructors in `src/reader/mod.rs` |
| `Verif/Spec/*.lean` | specifications, independent of the model's helpers |
| `Verif/Proof/*.lean` | lemmas and invariants: `Proof/` parser and reader, `Proof/Scan` scanner, `Proof/Chunk` reading in chunks, `Proof/Lazy` lazy scalars, `Proof/Reading` texts of the grammar |
| `Verif/Props/*.lean` | the property theorems, one group per file, each with `example`s that meet the hypotheses |

## Modelling conventions

* `&str` and `&[u8]` are lists of bytes. Slicing a `&str` at a position that is not a
  character boundary, or out of range, is an explicit `panic` outcome.
* `Result` is data; `panic!`, `unwrap` on an error, `unreachable!` and slice errors are the
  `panic` outcome. A `&mut` parameter becomes a returned value that also survives errors
  where the Rust code leaves the mutation behind.
* Loops take fuel. Running out of it is the outcome `diverge`, and the theorems show that it
  never occurs (C34, C36_terminates), so fuel is no restriction.
* `usize` is `Nat`: no file of 2^64 bytes exists. `u8` version numbers and code points are
  range-checked exactly where the code checks; where the code wraps or truncates (`\U` codes
  above 10FFFF) so does the model.
* A token source is a parameter (any state type and any `drive` function) in the parser and
  reader theorems, so those hold for every source; the scanner instantiates it.
* An `io::Read` source is a list of answers (bytes, interruptions, errors), each of any length up
  to the size asked for, so C21 and C36 range over every behaviour of a source.
* `BinaryHeap` is std; its contract (pop returns a minimum w.r.t. `Ord`) is trusted and the
  queue is a list from which the least entry is extracted. `HashMap` is an association list
  with at most one entry per key.

## Per property: what is modelled, how it is proved, what came out

| id | modelled | proof and outcome |
|---|---|---|
| C01 | Queue as list of (entry, mark) | invariant over op list; drain = stable sort (insertion-order spec) |
| C02 | same | permutation invariant over op list |
| C03 | Parser over arbitrary token source | pushdown invariant: state stack ~ grammar stack; the grammar is an inductive definition in `Spec/Grammar`. Partial: a document that is just an alias is emitted (finding 18) |
| C04 | same | corollary of C03's invariant plus `done` lemma |
| C05 | same | the grammar spec carries the kind of every node |
| C06 | same | invariant: active directives = those of the last DocumentStart |
| C07 | `scan_document_directives` | characterisation by induction over the directive tokens |
| C08 | PeekReader | refinement to a list-like source; peek/pop laws |
| C09 | Parser with `panic` outcome for `unreachable!` | invariant over states |
| C10 | Parser | measure on states |
| C11 | Parser marks | invariant over calls |
| C12 | Scanner + Queue | invariant: pending key position bounds queue |
| C13 | MStats and `advance!` | induction over text segments; partial: verbatim tags and a block header at the end of the text miscount (finding 6, 27) |
| C14 | `eat_whitespace` | characterisation against a spec of the longest run |
| C15 | whole scanner on bytes < 128 | every slice is in range, function by function; partial: false for bad escapes and block scalars (findings 2, 22) |
| C16 | same | false of the code (finding 1): negation by witnesses for each kind of scalar and for comments; and that no text with such a character is ever scanned to its end, by an invariant of the steps: what was read is characters of one byte and line breaks (`Proof/Scan/Narrow`) |
| C17 | eager flow scanner | induction over the text; partial: ASCII only (finding 1) |
| C18 | `flow_unescape`, `write_unicode_point` | arithmetic proof per length class; table by cases |
| C19 | same | error cases proved; partial: surrogates panic, codes above 10FFFF wrap (findings 2, 29) |
| C20 | lazy and eager scalars, whole reader | simulation of two readers over every history; partial with a witness for each restriction (findings 3, 5, 35) |
| C21 | `cache!` with/without O_EXTENDABLE, OwnedReader | simulation of the chunked by the whole reader; a step that asks for more is shown to be retried from an equivalent state; partial: chunks that end inside a character (finding 12), lazy block scalars (findings 4, 46), which are related up to their flag. A CRLF split over chunks is no problem for eager scalars |
| C22 | Scanner | invariant over scan steps |
| C23 | Scanner | invariant: open starts = indent stack |
| C24 | Scanner keys | invariant over scan steps, relating stats to bytes of the text |
| C25 | directive scanner | induction over digits |
| C26 | anchor scanner | characterisation |
| C27 | tag URI scanner | round-trip by induction |
| C28 | node tag scanner | false of the code (finding 6): negation proved for every verbatim tag, partial kept |
| C29 | block scalar scanner | induction over lines; partial (findings 8, 22, 31, 32) |
| C30 | plain scalar scanner | induction; grammar of plain scalars in `Spec/Scalars` |
| C31 | ScalarLike | case analysis over every deferred result |
| C32 | error conversions | case analysis over every variant |
| C33 | flags | bit algebra over all values |
| C34 | scan loop | well-founded measure on remaining input |
| C35 | Reader/PeekReader | refinement |
| C36 | OwnedReader buffers | invariant: consumed ++ head ++ unread source = whole source; partial: false on I/O and encoding errors (finding 34) |
| C37 | Parser | trace of consumed tokens against events |
| C38 | Parser | grammar of token streams (`Spec/Translate`); forward simulation over derivations |
| C39 | flow scanner | grammar of quoted scalars (`Spec/Scalars`), both directions |
| C40 | block scanner, folded | as C29; partial (finding 33) |
| C41 | both readers | no outcome is `Extend`: by function |
| C42 | scanner `simple_key_allowed` | invariant: the flag = `Opens` of the tokens so far (`Spec/Places`), both directions |
| C43 | scanner and parser together | grammar of texts with events (`Spec/Language`); induction over derivations: each production makes the scanner deliver the tokens of C38's grammar (`Proof/Reading`), then C38; block scalars: of the errors (C55), the panics (C58) and the readings (C40) of their text only one is possible (`Proof/Scan/BlockOk`); chunks by C21 |
| C44 | same | `Spec/Json` derivations are derivations of C43's grammar; partial: false beyond ASCII and for a `:` on another line |
| C45 | same | induction over trees, computing columns; trees are derivations of C43's grammar; events are prefix-free; with O_LAZY: C43, then C47 forwards; the written text has no `\\"` since every `\` is followed by `U` (`Coded`), and no block scalar, so what is close is the same (`Means`) |
| C46 | event stream, both readers | simulation of the parser over two token sources (`Proof/Sim`), with C21; partial as C21 |
| C47 | event stream, lazy and eager | the same simulation, with C20; partial as C20 |
| C48 | `Events::new`, `OwnedReader`, `BorrowReader` (`Model/Events`) | false (finding 40): witnesses |
| C49 | scanner | potential: tokens owed by open collections and pending keys are paid for by bytes (`Proof/Scan/Cost`) |
| C50 | parser; with the scanner | potential of the parser's states (`Proof/Count`), and C49; partial: false after errors (finding 39) |
| C51 | `try_from_bytes` | the model's UTF-8 check accepts exactly encodings (`Spec/Utf8`) |
| C52 | parser | for each state and stack, the tokens and events still to come; every handler keeps within them, by backward induction over the calls (`Proof/Sound`) |
| C53 | scanner | what each branch of the dispatch says about the text, what each fetch pushes; signs and reserved characters run directly (`Proof/Scan/Signs`) |
| C54 | scanner, block scalars | inversion of each function of the block scanner into a grammar of texts (`Spec/BlockForm`, `Proof/Scan/BlockMeans`); the grammar is shown to be unambiguous |
| C55 | scanner and reader | for each error, the texts it stands for (`Spec/Faults`); every function of the scanner fails only with an error that is true of its text (`Proof/Scan/Faults`, `FaultQuoted`, `FaultBlock`, `FaultStep`) |
| C56 | parser | for each error, the tokens it stands for (`Spec/ParseFaults`); an invariant ties the parser's states to the last token and the open collections (`Proof/ParseFaults`, `ParseFaultsRun`) |
| C57 | parser | the assertions as a second parser (`Model/Debug`), compared call by call with the first; the pending start tokens are those of the invariant of C04 |
| C58 | scanner and reader | the texts on which the scanner can panic (`Spec/Panics`); every function of the scanner panics only on one of them (`Proof/Scan/Jams`, `JamQuoted`, `JamPlain`, `JamBlock`, `JamStep`), in every reachable state |
| C59 | the scanning functions, up to where the `Cow` is made (`Model/Cow`) | invariants of the loops of the scanning functions that relate the flag `can_borrow` to the text read (`Proof/Scan/Cow`), lifted to the steps of the scanner |
| C60 | The scanners of scalars a second time, with subtractions that yield anything when they underflow (`Model/Release`); equal, by invariants of the loops: blanks counted are in the copy or were read, and the position never goes back |
| C61 | `OwnedReader` a second time, with its buffers as blocks of memory (`Model/Heap`) | invariant: the blocks allocated are the head and the tails, each once, and every text given to a scanner is in one of them. Growing a buffer touches the new buffer only. The slices of deferred scalars by an invariant of the scanner (`Proof/Slices`) |
| C62 | the lazy and the eager scanners and `Lazy::into_token`, as for C20 | the converse of C20: where a lazy scanner succeeds and the eager one fails, evaluation fails (`Proof/Lazy/FlowErrors`, `ScalarErrors`); lifted to steps, drives and histories (`Proof/Lazy/Hides`); for events, the tokens of a stream that ends are exactly those of its events (C52), so no history over the text has an error (`Later.calls_ok`), and C20 read from right to left is followed by the parser (`Later.evaluates`); partial: texts with `\\"` (finding 47), other line breaks, panics |
| C63 | the reader with its buffers in memory, as for C61 | an invariant of the holder: what has been read and what is left make up the source, and the k-th buffer that the source filled took 8 KiB times k of it (`Proof/Memory`) |
| C64 | `Error` with its context, and where it is made (`Model/PublicError`) | false: no error gets a context, shown for all errors of iterating, evaluation and byte slices |
| C65 | `Display` of errors | by cases on the codes; with C64 there is no context that could differ |
| C66 | `source()`, and the conversion to `io::Error` | false: `ErrorKind` leads nowhere; `C66_partial` for the conversion |
| C67 | flags, `Events::new`, the scanner and both readers | every step of the scanner adds only tokens of the kind that was asked for (`Proof/Asked`); tokens reach the events by C37 |
| C68 | event stream | false: two texts |
| C69 | reader and event stream on a text, any calls after errors | false in general (`C69_false`); for all codes but `MissingValue`: the step that failed fails again from the state it leaves (`Proof/Final`; what is wrong with a block scalar does not depend on where it stands, `Proof/Scan/BlockShift`), the loop and the reader stay there (`Proof/FinalRun`), and a parser's call is a sequence of peeks and pops (`Proof/Client`, `Proof/FinalCalls`) |
| C70 | parser over any source, any calls after errors | every handler, from every state, makes its event of tokens it takes itself (`Proof/Shown`); calls that fail are sequences of peeks and pops (`Proof/Client`) |
| C71 | parser over any source, calls that return events or undefined tags | every handler but `node` and `document_start` commutes with exchanging the directives, so the failed call is one that returns its event under others (`Proof/Undefined`); then the grammar (`Proof/Run`) and the tokens (`Proof/TraceDoc`) as without errors |
| C72 | parser over any source, all calls | which handler raises which error (`Quiet`), the state and the peeked token when it is raised (`Blocked`), a call there changes nothing; states on the stack are never first entries, whatever calls returned (`Sh`); `Proof/Again`, `Proof/AgainRun` |
| C73 | scanner and parser over `&str`, two texts, all calls | two runs side by side: scanner states equal up to a shift of offsets, line counts, saved keys and marks (`ScR`, `SSR`), parser states up to a shift of the tokens in hand (`PSR`), each function commutes with the shift; the lines are eaten by the first call (`walk_lines`, `drive_lead`); `Proof/Moved` |
| C74 | scanner, reader and parser over `&str`, a run after `...` and a fresh one | the `...` is the last token of a call of the source (`loop_ended`), so when it is handed out nothing waits (`Having`) and the scanner is as at the start but for its position (`reader_afresh`); the white space with a line break makes the two scanners equal up to a shift (`scanNextToken_afresh`); the first call from `DocumentStart` with and without the flag for the first document (`documentStart_next`), whose token is not the end of the stream (`fresh_peek`); then as C73 |
| C75 | parser over any source of tokens | an implicit end is reported with the token that caused it held by the reader (`documentEnd_shut`); from there a failure means that this token is a directive, or one that no call takes (`shut_fails`, `junk_again`); for texts without `%`, an invariant of the scanner: no directive was pushed (`closed_noDirective`); partial (finding 54) |
| C76 | parser over the chunked reader whose source fails | the events: from C46, whose source may stand for any text its bytes begin; the end: a scanner told that text may follow emits no `StreamEnd` (`scanTokens_noEnd`), the reader is told otherwise only by an empty read (`refresh_open`), and a call that ends the stream has taken a `StreamEnd` (`calls_open`); partial (lazy block scalars) |
| C77 | parser over the borrowed reader, after `DocumentEnd` of `...` | no scanned token waits after a `...` (`reader_past`), its scanner has no indents left if outside of flow (`EndedHere`), so skipping to the end of the text gives `StreamEnd` and nothing before it (`step_blank`), of which the parser makes the last event (`nextEvent_last`) |
| C78 | two runs of the parser over the borrowed reader, after `DocumentEnd` of `...` | after the marker the scanner is, but for its position and its record of a first block collection, one fixed scanner (`left`, `reader_same`): no indents, so the indent is 0 (`Grounded`), column 3, no keys; both runs are tied to a third one over the remainder (`drive_same`), from between documents (`calls_both`) |
| C79 | parser over the borrowed and the owned reader, any history of calls | C10 for a source stopped where it fails (`calm`), which returns and whose tokens are paid by what the scanner owes (`Cost.loop`); the stopped source and the real one are followed side by side (`Sim.nextEvent`), as the scanner's invariant shows that each of its calls returns (`borrow_keeps`); over chunks a step that asks for more has pushed nothing (`ext_step`), so the chunk and the rest of the source pay together (`ownedLoop_pays`) |
| C80 | parser over the borrowed reader | a source whose panics are replaced by errors never makes the parser panic (C09), and is the same source if no history of the reader panics (`Quiet.tied`), which is C58; with C79 |

## Findings: where the code differs from what one expects

Found while modelling; where a theorem is named the difference is proved of the model.

1. A character of more than one byte in a scalar or comment panics: `advance!(.., 1)` cuts it (C16_false, C17_false). Without deferred
   scalars no text with such a character, wherever it stands, is scanned to its end, line breaks excepted (C16_end).
2. `\uD800`, `\UFFFFFFFF` and `%C0%80` in a tag panic in `from_utf8(..).unwrap()` (C15_false, C19_false).
3. A lazy `"\\"` does not end at its last quote (C20_false_backslash).
4. A lazy block scalar keeps `O_EXTENDABLE`, so evaluating it reports that more input is needed (C21_lazy_false).
5. A lazy plain scalar skips two bytes after `:` and can cut a character (C20_false_break); it does not check flow indicators at its start.
6. The `>` of a verbatim tag is looked for one byte too late (C28_false); its brackets are not counted in positions (C13_scanner_false).
7. `scan_headers` matches the byte after the first header byte even if that is past a line break.
8. Chomping on a borrowed slice uses the width of the byte after the break.
9. A `%TAG` directive that redefines `!` or `!!` is always a duplicate.
10. `started` is never reset: a block mapping that begins a second document gets no BlockMappingStart when at column zero of the same indentation. So `- a\n...\n- b\n` is the error MissingNode, though `- b\n` alone is read (`C74_false`).
11. A second `...` after an explicit document end is an error.
12. A chunk of OwnedReader that ends inside a character is an error (C21_false).
13. After an error the parser is not done: further calls go on.
14. The `debug_assert!` at the end of a pair in a flow sequence fails on `["a": "b" "c"]`: a debug build panics where a release build reports an error (C57_differs).
15. (refuted: a CRLF split over two chunks is counted once.)
16. A document marker or the end of the stream inside a flow collection leaves block collections unclosed (so C23 speaks of streams outside flow collections).
17. `eat_whitespace!` in directives crosses line breaks.
18. An alias alone is emitted as a document (C03_root_alias_emitted).
19. Flow collections are not supported as implicit keys.
20. In `is_plain_scalar` a slice pattern matches `]` only as the last byte.
21. `Token::into_owned` maps `Block*Start` to `Flow*Start`.
22. A block scalar with an indentation indicator, or without content, panics (C15_false).
23. `pop_zero_indent_sequence` also runs inside flow collections.
24. An unmatched `]` is reported as an integer overflow (C22_unmatched_close).
25. `*a` at the very end of a text is an error.
27. A block scalar header at the end of the text counts a line that isn't there (C13_scanner_false).
28. On an error the scanner's position is updated but its offset is not.
29. `"\U00410000"` is accepted as U+10000 (C19_false).
30. At the top level a plain scalar does not go on in column zero (C30_root).
31. A line of exactly the indentation of a block scalar, blank otherwise, counts as content (C29_false).
32. A block scalar of one line ended by CR LF keeps the CR (C29_false).
33. More indented lines of a folded scalar are folded (C40_false).
34. OwnedReader loses what it read before an I/O or encoding error, and then ends normally (C36_false).
35. A lazy, clipped block scalar of one line loses its line break (C20_false_chomp).
36. `,` is accepted outside of flow collections by the scanner.
37. A sequence that is not indented in its mapping breaks off when the content of an entry is in another line than the `-` (`a:\n-\n  b: c`), and when a flow collection in it goes over a line break.
38. After a block collection, the next document must not have one in column zero (C43_documents_false; see 10).
39. After an error the same error can be returned forever, so `filter_map(Result::ok)`, as in the examples of `src/event/mod.rs`, does not end on `[a` (C50_false).
40. A source that has been used is not "bound": a second stream on it reads the text again, or what is left in the last buffer, and reports no error (C48_false_text, C48_false_read).

41. `|0` is accepted, and the digit is ignored (`C54_false`); all other digits make the scanner panic.
42. `|#x` is accepted: the comment needs no blank before it (`C54_false`).
43. A line of blanks before the first line that is wider than it makes a block scalar empty, instead of being an error: the
    first line is then scanned as something else (`C54_false`).

44. A closing bracket too many is reported as an integer overflow (`Wrong.unbalanced`). The errors MissingMajor, MissingMinor
    and InvalidPlainScalar are never reported (`C55_never`): a version without numbers is an InvalidVersion.
45. A plain scalar at the end of a line is copied, although its contents are a part of the text (`C59_false`); so is every
    plain scalar, in one line, that is followed by a line break before the next token.
46. A chunk that ends between CR and LF in the header of a lazy block scalar with an indentation indicator moves the scalar and
    what follows (`C21_lazy_return_false`).
47. A lazy double quoted scalar that ends in `\\"` swallows the text up to the next quote; evaluation then drops it, so that an
    error there goes by unseen (`C62_false_backslash`).
48. No error of the public functions tells where it occurred: `line`, `column` and `at` are 0 and `has_context` is false for all of
    them (`C64_false_events`, `C64_false_scalars`, `C64_false_bytes`).
49. `source()` of an error leads to its `ErrorKind` and from there nowhere: `StdError for ErrorKind` keeps the default, so neither I/O nor
    UTF-8 errors can be reached (`C66_false`).
50. An error overtakes what precedes it: while a key is possible the scanner reads on, and an error there is returned before the tokens
    that wait. On `a` followed by a line `@` the error comes before the document (`C68_false_order`); in a collection the scalar is then lost,
    as the parser's call that takes its token fails as well (`C68_false_lost`).
51. After `MissingValue` the stream goes on, as the key that lacks its value has been forgotten when the error is returned: `:` followed by a
    line `a` gives errors, then the end of the mapping, of the document and of the stream, and `None` (`C69_false`); the scalar `a` is lost.
52. A call that reports an undefined tag has taken the whole node, and the state is that after its event. If the node is a collection, its entries
    and its end are returned by the calls that follow: `!x!y [a]` gives an error, `a` and the end of a sequence (`C71_not_nested`). A user who goes
    on after errors cannot rely on ends to match starts.
53. The handlers of the first entry of a block collection take its start token and then look at the next. If that is an error the state is still
    that of the first entry, so the next call takes one more token. `: a` (valid YAML, a mapping with an empty key) is reported as a missing key twice,
    then the end of the mapping, of the document and of the stream come, without `a` (`C72_false`). A `MissingNode` in flow style keeps the
    state it has just pushed, so `[,]` is an error, one end of a sequence, and errors from then on (`C72_false_node`).
54. Directives are taken before the start of their document is looked for. If it is missing they are lost, and the next call goes on after them:
    `%TAG !e! x:\nb` is an error, then a document `b` with the default tags (`C75_false_first`); a `%YAML 1.2` at the end of a text is an error, then
    the end of the stream (`C75_false`).
55. Events with lazy block scalars do not stand on their own when the source fails: the scalar keeps the flag that the text goes on, so evaluating it
    asks for more text (`Extend`), although all of it was delivered and further events were returned after it (`C76_lazy_false`).

## Trusted base

* Lean 4.33.0's kernel. No axioms are added, and no `sorry`, `native_decide` or `bv_decide` is used.
* Axioms: every theorem in the manifest depends on at most `propext`, `Classical.choice` and
  `Quot.sound`. On `propext` and `Quot.sound` only: C03_root_alias_emitted, C14_unique, C18_every,
  C27_every, C30_unique, C30_root, C31_evaluate_in_place. On `propext` only: C08_exhausted, C17_false,
  C19_false, C31_evaluated_identity, C32_classification, C32_reader_category, C32_io_conversion,
  C40_false. All others: on the three.
* The reading of the Rust source into the model (file and lines cited at each definition). As a
  check on it `Verif/Check` runs the inputs of 142 unit tests in `/repo`
  through the model, and compares the results with the expected ones.
* The contracts of `std` (`BinaryHeap`, `HashMap`, `str`, `io::Read`) and of `atoi`, `bitflags`.

Modelled: all of `src/queue.rs`, `src/token.rs`, `src/error.rs`, `src/event/**`, `src/reader/**`,
`src/scanner/**` except tests and what follows.

Not modelled: the aliasing rules of references to the `UnsafeCell` in `src/reader/owned.rs` (that its buffers stay valid is C61), lifetimes,
which contents of events are borrowed (those of tokens are, in `Model/Cow`), `Debug` formatting (what `Display` shows of errors is, in `Model/PublicError`), performance. Numbers are
unbounded: sums do not overflow. Differences are checked where they are of numbers of bytes read or of lengths of copies (`minus`,
`truncEnd`; that no check fails is C60); the length of what remains of a slice is at most that of the slice.
