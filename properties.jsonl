{"id": "C01", "title": "advance on &str / &[T] drops exactly the requested prefix", "statement": "Advancing a &str by a byte count that is a char boundary, or a &[T] by a count not beyond its end, leaves exactly the suffix after that prefix, and two successive advances equal one advance by the sum. Any other delta leaves the empty string for &str and panics for &[T].", "quantifier": "every text / slice, every delta, every split of a delta in two", "why_tests_cant": "the domain of texts, multi-byte characters and deltas is infinite; tests try a few ASCII strings", "anchors": ["crates/parcom-core/src/primitive/str.rs: Sequence::advance", "crates/parcom-core/src/primitive/slice.rs: Sequence::advance"]}
{"id": "C02", "title": "rewind restores the anchored sequence", "statement": "After any history of in-bounds advances, anchors and rewinds on a &str, &[T] (non-zero-sized T) or Measured sequence, rewinding to an anchor taken earlier on the path returns exactly the sequence (content and metrics) the anchor was taken from, without panicking.", "quantifier": "every initial sequence and every history of advance/anchor/rewind operations", "why_tests_cant": "histories are unbounded; the pointer-offset check must accept every legal one", "anchors": ["crates/parcom-core/src/primitive/str.rs: RewindSequence::anchor, rewind", "crates/parcom-core/src/primitive/slice.rs: rewind", "crates/parcom-core/src/sequence.rs: RewindSequence", "crates/parcom-core/src/unknown.rs: UnknownLocation::rewind"]}
{"id": "C03", "title": "rewind never moves a &str / &[T] forward", "statement": "Rewinding a &str or &[T] to an anchor that was taken at a strictly later position of the same text panics instead of silently skipping input; it never returns a sequence starting after the current one.", "quantifier": "every text, every pair of positions", "why_tests_cant": "needs all pairs of positions", "anchors": ["crates/parcom-core/src/primitive/str.rs: rewind", "crates/parcom-core/src/primitive/slice.rs: rewind"]}
{"id": "C04", "title": "rewind after over-advancing a &str", "statement": "A parser that advances a &str beyond its end (or off a char boundary) and then fails can still be rewound to the anchor it started from.", "quantifier": "every text and every delta past the end", "why_tests_cant": "only inputs that over-advance reveal the pointer comparison across allocations", "anchors": ["crates/parcom-core/src/primitive/str.rs: advance (unwrap_or), rewind (offset_from)"]}
{"id": "C05", "title": "Measured metrics stay in lockstep with the text", "statement": "At every point of every history of advance/anchor/rewind on a Measured sequence, metrics() is the meter fed with exactly the text between the start and the current position, independent of how the advances were split.", "quantifier": "every text or slice and every history; every meter, and for the independence of splitting every meter for which advancing twice is advancing over the concatenation", "why_tests_cant": "lockstep must survive arbitrary histories with rewinds", "anchors": ["crates/parcom-core/src/primitive/str.rs: Measured", "crates/parcom-core/src/primitive/slice.rs: Measured", "crates/parcom-core/src/sequence/measured.rs: Meter, IntoMeasured"]}
{"id": "C06", "title": "LineColumn counts lines and columns of LF and CR texts", "statement": "With the LF (CR) convention, after consuming any text in any chunks: total_count is the number of chars, line is the number of lines started (0 for empty text), column is the number of chars consumed on the last started line, terminator included.", "quantifier": "every text and every division into chunks", "why_tests_cant": "tests check four literals", "anchors": ["crates/parcom-metrics/src/line_colmn.rs: LineColumnMeter::advance", "crates/parcom-metrics/src/end_of_line.rs: LF, CR"]}
{"id": "C07", "title": "LineColumn counts CRLF lines", "statement": "With the CRLF convention a line ends exactly at each occurrence of \\r\\n in the text, in any chunking (also when a chunk boundary falls between \\r and \\n).", "quantifier": "every text and every division into chunks", "why_tests_cant": "the automaton state must be right after every prefix, e.g. \\r\\r\\n", "anchors": ["crates/parcom-metrics/src/end_of_line.rs: CRLF::next", "crates/parcom-metrics/src/line_colmn.rs: advance"]}
{"id": "C08", "title": "Metrics order locations by position", "statement": "Metrics taken along one stream are ordered by position: consuming at least one char strictly increases the metrics, and two metrics of the same stream compare as equal iff they are equal field by field.", "quantifier": "every text and every pair of positions", "why_tests_cant": "all pairs of prefixes", "anchors": ["crates/parcom-metrics/src/line_colmn.rs: Ord, PartialOrd, PartialEq", "crates/parcom-core/src/sequence/measured.rs: Metrics"]}
{"id": "C09", "title": "any_char / any_item take the first item however the input is segmented", "statement": "any_char and any_item succeed iff some item remains, return the first remaining item, and advance past exactly that item, for every division of the input into segments including empty ones; otherwise they fail having consumed nothing.", "quantifier": "every sequence content and every segmentation (also infinitely long ones)", "why_tests_cant": "segmentations are unbounded", "anchors": ["crates/parcom-parsers/src/primitive/any.rs: AnyChar::parse, AnyItem::parse"]}
{"id": "C10", "title": "the_char / the_item match the first item however the input is segmented", "statement": "the_char(c) and the_item(x) succeed iff the first remaining item equals the given one, and then advance past exactly it; otherwise they fail having consumed nothing; for every segmentation.", "quantifier": "every content, segmentation, and expected item", "why_tests_cant": "segmentations and characters are unbounded", "anchors": ["crates/parcom-parsers/src/primitive/the.rs: TheChar::parse, TheItem::parse"]}
{"id": "C11", "title": "atom on contiguous input matches exactly the prefix", "statement": "On a contiguous &[T] input (and on &str where it does not panic) atom(pattern) succeeds iff the pattern is a prefix of the input, and then leaves exactly the input after the pattern; otherwise it fails having consumed nothing.", "quantifier": "every pattern and every input", "why_tests_cant": "all patterns and inputs", "anchors": ["crates/parcom-parsers/src/primitive/atom.rs: Atom::parse"]}
{"id": "C12", "title": "atom is independent of segmentation", "statement": "atom(pattern) gives the same result and the same remaining input on a segmented sequence as on the contiguous sequence with the same content.", "quantifier": "every pattern, content and segmentation", "why_tests_cant": "a pattern spanning a segment boundary is the untested case", "anchors": ["crates/parcom-parsers/src/primitive/atom.rs: Atom::parse (advance(remain.len()))"]}
{"id": "C13", "title": "atom never panics", "statement": "atom(pattern) returns success or failure, without panicking, on every text input.", "quantifier": "every pattern and every text, multi-byte included", "why_tests_cant": "needs inputs whose char boundaries do not line up with the pattern length", "anchors": ["crates/parcom-parsers/src/primitive/atom.rs: split_at", "crates/parcom-core/src/primitive/str.rs: SequenceSegment::split_at"]}
{"id": "C14", "title": "a failed primitive parser leaves the input where it was", "statement": "When any_*, the_* or atom fails, the returned location still denotes the unconsumed input and rewinding it to an anchor of the input succeeds.", "quantifier": "every input, every segmentation", "why_tests_cant": "all failing inputs", "anchors": ["crates/parcom-parsers/src/primitive/any.rs", "crates/parcom-parsers/src/primitive/the.rs", "crates/parcom-parsers/src/primitive/atom.rs", "crates/parcom-core/src/unknown.rs"]}
{"id": "C15", "title": "or is ordered choice with backtracking", "statement": "p.or(q) returns p's success unchanged; if p fails recoverably, q runs on exactly the input p was given, and q's result is returned; q never runs if p succeeded or failed fatally; both recoverable errors are reported together.", "quantifier": "every pair of parsers, every rewindable sequence, every input", "why_tests_cant": "parsers are arbitrary code, inputs unbounded", "anchors": ["crates/parcom-parsers/src/combinator/or.rs: Or::parse, parse_once"]}
{"id": "C16", "title": "optional turns recoverable failure into success at the same input", "statement": "p.optional() succeeds with p's value and rest if p succeeds; succeeds with the error, at exactly the original input, if p fails recoverably; fails iff p fails fatally.", "quantifier": "every parser, sequence, input", "why_tests_cant": "parsers are arbitrary", "anchors": ["crates/parcom-parsers/src/combinator/optional.rs: Optional::parse, parse_once"]}
{"id": "C17", "title": "repeat collects the maximal run of successes", "statement": "p.repeat() returns the values of the maximal sequence of consecutive successes of p in order, the recoverable error that ended it, and the input positioned just after the last success; it fails iff some iteration fails fatally.", "quantifier": "every parser, sequence, input, any number of iterations", "why_tests_cant": "the number of iterations is unbounded", "anchors": ["crates/parcom-parsers/src/combinator/repeat.rs: Repeat::parse"]}
{"id": "C18", "title": "repeat terminates iff the body eventually fails", "statement": "p.repeat() terminates on every input when every success of p strictly consumes; and it never returns when p keeps succeeding (for example a body that succeeds without consuming).", "quantifier": "every parser and input", "why_tests_cant": "non-termination cannot be observed by a test", "anchors": ["crates/parcom-parsers/src/combinator/repeat.rs: Repeat::parse"]}
{"id": "C19", "title": "join runs both parsers in sequence", "statement": "p.join(q) succeeds iff p succeeds and q succeeds on p's rest, with both values and q's rest; otherwise it reports which one failed and its error.", "quantifier": "every pair of parsers and input", "why_tests_cant": "parsers are arbitrary", "anchors": ["crates/parcom-parsers/src/combinator/join.rs: Join::parse, parse_once"]}
{"id": "C20", "title": "map, map_err, and_then, unify, unify_err, as_ref, boxed only touch what they say", "statement": "map/unify change only the success value, map_err/unify_err only the error, and_then turns a success into failure exactly when the function rejects it, as_ref and boxed change nothing; none changes the position, success/failure status otherwise, or runs its function on the other branch; functor laws hold.", "quantifier": "every parser, function, input", "why_tests_cant": "functions and parsers are arbitrary", "anchors": ["crates/parcom-parsers/src/combinator/map.rs", "crates/parcom-parsers/src/combinator/and_then.rs", "crates/parcom-parsers/src/combinator/unify.rs", "crates/parcom-parsers/src/combinator/reference.rs", "crates/parcom-parsers/src/util.rs: Boxed", "crates/parcom-util/src/either.rs: Either::unify"]}
{"id": "C21", "title": "fatal errors are never recovered from", "statement": "If any sub-parser invoked by or, optional, repeat, join, bin_expr or the iterative form of optional/repeat fails with an error whose should_terminate() is true, the whole combinator fails with an error that also terminates, immediately, without running any further parser; and these combinators never produce a terminating error otherwise.", "quantifier": "every nesting of combinators, every input", "why_tests_cant": "nesting depth and error positions are unbounded", "anchors": ["crates/parcom-parsers/src/combinator/or.rs", "crates/parcom-parsers/src/combinator/optional.rs", "crates/parcom-parsers/src/combinator/repeat.rs", "crates/parcom-parsers/src/combinator/join.rs", "crates/parcom-parsers/src/combinator/bin_expr.rs", "crates/parcom-core/src/parse_error.rs", "crates/parcom-util/src/either.rs", "crates/parcom-util/src/either_both.rs"]}
{"id": "C22", "title": "collect propagates fatal errors", "statement": "When an iteration of the underlying iterative parser fails fatally, collect() fails.", "quantifier": "every iterative parser and input", "why_tests_cant": "needs all error positions", "anchors": ["crates/parcom-parsers/src/iterative/collect.rs: parse"]}
{"id": "C23", "title": "parse_once and parse agree", "statement": "For every parser built from these combinators, parse_once gives the same result as parse.", "quantifier": "every combinator nesting and every input", "why_tests_cant": "two separately written code paths must agree on all inputs", "anchors": ["crates/parcom-parsers/src/combinator/*.rs: ParserOnce impls", "crates/parcom-parsers/src/primitive/*.rs", "crates/parcom-parsers/src/util.rs"]}
{"id": "C24", "title": "every failure and success location can be rewound", "statement": "If the component parsers only return locations descended from their input, so does every combinator, so that rewinding to the anchor of the input always succeeds and restores it; no combinator ever triggers the foreign-anchor panic.", "quantifier": "every combinator nesting, every sequence satisfying the rewind law", "why_tests_cant": "nesting is unbounded", "anchors": ["crates/parcom-core/src/sequence.rs: RewindSequence", "crates/parcom-core/src/unknown.rs", "crates/parcom-parsers/src/combinator/*.rs", "crates/parcom-parsers/src/iterative/*.rs"]}
{"id": "C25", "title": "grammars built from the combinators follow PEG semantics", "statement": "A parser built from the_char, any_char, join, or, optional and repeat recognises exactly the prefixes prescribed by PEG semantics (ordered choice, greedy repetition) on every text.", "quantifier": "every finite grammar expression and every text", "why_tests_cant": "grammars and texts are unbounded", "anchors": ["crates/parcom-parsers/src/combinator/join.rs", "crates/parcom-parsers/src/combinator/or.rs", "crates/parcom-parsers/src/combinator/optional.rs", "crates/parcom-parsers/src/combinator/repeat.rs", "crates/parcom-parsers/src/primitive/the.rs", "crates/parcom-parsers/src/primitive/any.rs"]}
{"id": "C26", "title": "fold accumulates the items left to right", "statement": "fold(init,f) returns f applied left to right to all items of the underlying iterative parser, positioned where the iteration stopped; it fails with exactly the underlying error if an iteration fails.", "quantifier": "every iterative parser, f, init, number of items", "why_tests_cant": "unbounded item counts", "anchors": ["crates/parcom-parsers/src/iterative/fold.rs: parse"]}
{"id": "C27", "title": "collect gathers the items in order and rewinds to after the last one", "statement": "collect() returns all items in order, the error that stopped the iteration if any, and the input position right after the last collected item, whatever the final unsuccessful step consumed.", "quantifier": "every iterative parser and input", "why_tests_cant": "unbounded item counts", "anchors": ["crates/parcom-parsers/src/iterative/collect.rs: parse"]}
{"id": "C28", "title": "take(n) yields at most the first n items", "statement": "take(n) yields exactly the first n items of the underlying parser (fewer if it stops earlier), and stops at the position right after the n-th item without running the underlying parser again.", "quantifier": "every n, iterative parser and input", "why_tests_cant": "n and inputs unbounded", "anchors": ["crates/parcom-parsers/src/iterative/take.rs: parse_next"]}
{"id": "C29", "title": "map_each maps every item", "statement": "map_each(f) yields f of each underlying item, in order, with the same positions, end and errors.", "quantifier": "every f, iterative parser, input", "why_tests_cant": "unbounded", "anchors": ["crates/parcom-parsers/src/iterative/map_each.rs: parse_next"]}
{"id": "C30", "title": "scan threads its state through all items", "statement": "scan(st,f) yields the outputs of threading the state through all items from left to right, starting from the initial state on every new iteration.", "quantifier": "every f, state, iterative parser, input", "why_tests_cant": "unbounded", "anchors": ["crates/parcom-parsers/src/iterative/scan.rs: parse_next, parse_iterative"]}
{"id": "C31", "title": "map_while stops at the first rejected item", "statement": "map_while(f) yields f of the items up to, excluding, the first item f rejects.", "quantifier": "every f, iterative parser, input", "why_tests_cant": "unbounded", "anchors": ["crates/parcom-parsers/src/iterative/map_while.rs: parse_next"]}
{"id": "C32", "title": "try_map_each separates rejection from failure", "statement": "try_map_each(f) yields the accepted items; a recoverable rejection ends the iteration, a terminating rejection fails with that error, an underlying error is passed on converted.", "quantifier": "every f, iterative parser, input", "why_tests_cant": "unbounded", "anchors": ["crates/parcom-parsers/src/iterative/try_map_each.rs: parse_next"]}
{"id": "C33", "title": "optional as an iterative parser yields at most one item", "statement": "Iterating p.optional() yields p's value at most once, then ends; a recoverable failure of p yields no item at the original position.", "quantifier": "every parser, every number of parse_next calls", "why_tests_cant": "call counts are unbounded", "anchors": ["crates/parcom-parsers/src/combinator/optional.rs: IterationState::parse_next, IterationStateOnce::parse_next"]}
{"id": "C34", "title": "p.repeat().collect() agrees with p.repeat()", "statement": "Whenever no iteration fails fatally, collecting the iterative form of repeat gives the same items and the same remaining input as repeat itself.", "quantifier": "every parser and input", "why_tests_cant": "unbounded iteration", "anchors": ["crates/parcom-parsers/src/combinator/repeat.rs", "crates/parcom-parsers/src/iterative/collect.rs"]}
{"id": "C35", "title": "fold and collect stop at the same place", "statement": "For every iterative parser, fold and collect leave the input at the same position when the iteration ends without error.", "quantifier": "every iterative parser and input", "why_tests_cant": "only adaptors that consume before rejecting (map_while, try_map_each) show the difference", "anchors": ["crates/parcom-parsers/src/iterative/fold.rs", "crates/parcom-parsers/src/iterative/collect.rs", "crates/parcom-parsers/src/iterative/map_while.rs"]}
{"id": "C36", "title": "bin_expr keeps all operands and operators in order", "statement": "The expression returned by BinExprParser, read in order, lists exactly the terms and operators that were parsed, in input order, and the rest is the input right after the last operand.", "quantifier": "every term/operator parser and input, any number of operators", "why_tests_cant": "expression length is unbounded", "anchors": ["crates/parcom-parsers/src/combinator/bin_expr.rs: parse_impl"]}
{"id": "C37", "title": "bin_expr respects precedence and associativity", "statement": "In the returned tree no operator has an operand that should have been grouped the other way: higher precedence binds tighter, equal precedence groups according to the declared associativity.", "quantifier": "every operator table (apart from left-associative operators of precedence usize::MAX, which are C41) and every expression", "why_tests_cant": "all nestings of operators", "anchors": ["crates/parcom-parsers/src/combinator/bin_expr.rs: parse_impl, next_precedence"]}
{"id": "C38", "title": "the bin_expr tree is the only correct one", "statement": "For every list of operands and operators there is exactly one tree that respects the precedence and associativity declarations, and it is the one returned.", "quantifier": "every operator table (apart from left-associative operators of precedence usize::MAX, which are C41) and every expression", "why_tests_cant": "uniqueness quantifies over all trees", "anchors": ["crates/parcom-parsers/src/combinator/bin_expr.rs: parse_impl"]}
{"id": "C39", "title": "bin_expr gives back a dangling operator", "statement": "If an operator parses but the following operand fails recoverably, the operator is not consumed: the rest starts before it and the reason is the operand's error; if the operator parser fails recoverably the rest is exactly the position before it.", "quantifier": "every input", "why_tests_cant": "all positions of the failure", "anchors": ["crates/parcom-parsers/src/combinator/bin_expr.rs: parse_impl"]}
{"id": "C40", "title": "bin_expr never hits its unreachable!", "statement": "The unreachable branch of BinExprParser::parse is dead for every operator precedence; and, apart from the overflow of C41, parse never panics by itself.", "quantifier": "every operator table, every input", "why_tests_cant": "absence over all inputs", "anchors": ["crates/parcom-parsers/src/combinator/bin_expr.rs: parse"]}
{"id": "C41", "title": "extreme precedences are handled", "statement": "Precedence and associativity are respected for every usize precedence value, including usize::MAX.", "quantifier": "all usize precedence values", "why_tests_cant": "needs the extreme value", "anchors": ["crates/parcom-parsers/src/combinator/bin_expr.rs: next_precedence"]}
{"id": "C42", "title": "ShortVec behaves like a stack", "statement": "Any sequence of push/pop/reserve/as_slice on a ShortVec<T,N> returns what the same sequence on an ordinary list (pushed at the end, popped from the end) returns.", "quantifier": "every N, element values and operation sequence", "why_tests_cant": "operation sequences are unbounded", "anchors": ["crates/parcom-internals/src/shortvec.rs: push, pop, reserve, reserve_exact, as_slice"]}
{"id": "C43", "title": "ShortVec is memory safe", "statement": "No sequence of ShortVec operations with non-zero-sized T reads uninitialised or freed memory, writes out of bounds, or frees twice; the capacity invariant of the doc comment holds in every reachable state.", "quantifier": "every N, operation sequence", "why_tests_cant": "memory errors need not manifest in a test run", "anchors": ["crates/parcom-internals/src/shortvec.rs: cap invariant, push, pop, reserve_exact, Drop"]}
{"id": "C44", "title": "ShortVec allocates only when the inline buffer is exceeded", "statement": "As long as no more than N elements are stored at once and no larger capacity is requested, no heap allocation is made.", "quantifier": "every N and operation sequence", "why_tests_cant": "tests check a few N", "anchors": ["crates/parcom-internals/src/shortvec.rs: with_capacity, reserve_exact"]}
{"id": "C45", "title": "ShortVec drops each element exactly once and leaks nothing", "statement": "After dropping a ShortVec every element ever pushed has been either handed out by pop or dropped, exactly once, and no allocation remains.", "quantifier": "every operation sequence", "why_tests_cant": "all sequences", "anchors": ["crates/parcom-internals/src/shortvec.rs: Drop, pop"]}
{"id": "C46", "title": "ShortVec works for zero-sized elements", "statement": "ShortVec<T,N> is safe for every element type, including zero-sized ones.", "quantifier": "every element type and operation sequence", "why_tests_cant": "a zero-size allocation request is undefined behaviour and may appear to work", "anchors": ["crates/parcom-internals/src/shortvec.rs: with_capacity, reserve_exact"]}
{"id": "C47", "title": "Notify loses no wake-up", "statement": "If a Wait was polled to Pending and a send() that started after its wait() has completed, then the waker of that poll has been woken (as long as fewer than 2^64 sends happened since that wait()); no interleaving of any number of senders and waiters loses the notification.", "quantifier": "every interleaving of every number of threads", "why_tests_cant": "schedules are unbounded", "anchors": ["crates/parcom-internals/src/future/notify.rs: Notify::send, Wait::poll"]}
{"id": "C48", "title": "Wait is not ready before a send", "statement": "Polling a Wait returns Ready only if some send() incremented the version after the wait() that created it; in particular some send() had not yet returned when wait() was called.", "quantifier": "every interleaving", "why_tests_cant": "schedules", "anchors": ["crates/parcom-internals/src/future/notify.rs: Wait::poll, Notify::wait"]}
{"id": "C49", "title": "a Wait polled after a send is ready", "statement": "Once a send() begun after wait() has incremented the version, every later poll returns Ready (as long as fewer than 2^64 sends happened in between).", "quantifier": "every interleaving", "why_tests_cant": "schedules and wrap-around", "anchors": ["crates/parcom-internals/src/future/notify.rs: Wait::poll"]}
{"id": "C50", "title": "send wakes every registered waker exactly once", "statement": "A completed send has called wake exactly once for each waker registered when it drained the list, and the list holds no waker that was already woken.", "quantifier": "every interleaving", "why_tests_cant": "schedules", "anchors": ["crates/parcom-internals/src/future/notify.rs: Notify::send"]}
{"id": "C51", "title": "Filter forwards exactly the matching items in order", "statement": "An observer subscribed through filter(pred) receives exactly the items satisfying pred, in order.", "quantifier": "every item sequence and predicate", "why_tests_cant": "unbounded sequences", "anchors": ["crates/parcom-internals/src/reactive/extension/filter.rs: Observer::next"]}
{"id": "C52", "title": "ShouldNever types have no values", "statement": "Every type for which ShouldNever is implemented is uninhabited, hence always_first / always_last never reach never().", "quantifier": "every type built from the provided impls", "why_tests_cant": "ranges over all nested types", "anchors": ["crates/parcom-core/src/never.rs: ShouldNever impls", "crates/parcom-util/src/either.rs: always_first, always_last", "crates/parcom-util/src/either_both.rs"]}
{"id": "C53", "title": "push_item accepts items until the requested capacity is full", "statement": "A BufferWriter obtained by request_writer(n) accepts at least n items through push_item and never writes outside its buffer.", "quantifier": "every n, every strategy, every state of the buffer", "why_tests_cant": "which n fail depends on parity and prior contents", "anchors": ["crates/parcom-sequence-core/src/buffer_writer.rs: push_item", "crates/parcom-sequences/src/generic/control.rs: Request::capacity, len"]}
{"id": "C54", "title": "a loaded IteratorSource delivers every item", "statement": "Loading a GenericSequence from an IteratorSource until done yields the concatenation of all chunks of the iterator.", "quantifier": "every iterator of chunks, every strategy", "why_tests_cant": "the lost items depend on chunk lengths", "anchors": ["crates/parcom-sequence-sources/src/iterator_source.rs: next", "crates/parcom-sequences/src/generic/control.rs", "crates/parcom-sequences/src/generic/loader.rs"]}
{"id": "C55", "title": "the loader neither loses, duplicates nor reorders accepted items", "statement": "For every history of loads and force_commits in which no load is cancelled, committed segments followed by the pending buffer contain exactly the items accepted by the writers, in order; after finish everything is committed.", "quantifier": "every source behaviour and history", "why_tests_cant": "histories unbounded", "anchors": ["crates/parcom-sequences/src/generic/loader.rs: Load::poll, force_commit, commit_to", "crates/parcom-sequences/src/generic/control.rs: Control, Request"]}
{"id": "C56", "title": "a cancelled load loses only its own items", "statement": "A load that the source cancels leaves everything loaded before untouched: nothing that earlier loads accepted is lost.", "quantifier": "every history with cancels", "why_tests_cant": "needs a cancel right after a buffer switch", "anchors": ["crates/parcom-sequences/src/generic/control.rs: Request::cancel, Control::cancel"]}
{"id": "C57", "title": "LoadInfo is truthful", "statement": "commited() is the number of items the load made visible, uncommited() the number still pending, uncommited() <= buffer_capacity(), and when is_done() both are 0 and nothing is pending.", "quantifier": "every history", "why_tests_cant": "histories", "anchors": ["crates/parcom-sequence-core/src/load_info.rs", "crates/parcom-sequences/src/generic/loader.rs: Load::poll"]}
{"id": "C58", "title": "GenericSequenceBuffer::advance skips exactly the requested items", "statement": "advance(n) leaves exactly the committed items after the first n, and returns the number that was not yet available (0 iff all were).", "quantifier": "every segment list (empty segments included), offset, n", "why_tests_cant": "segmentations", "anchors": ["crates/parcom-sequences/src/generic/buffer.rs: advance"]}
{"id": "C59", "title": "buffer iteration yields the committed items once, in order, also those committed later", "statement": "The segments of the buffer are the committed ones after the current position, the first of them without what was skipped, and concatenate to exactly the committed items after it; an iterator that returned None yields later commits when asked again.", "quantifier": "every interleaving of commits and next calls", "why_tests_cant": "interleavings", "anchors": ["crates/parcom-sequences/src/generic/buffer.rs: Iter::next, segments", "crates/parcom-sequences/src/generic/loader.rs: commit_to"]}
{"id": "C60", "title": "Utf8Validator emits only valid UTF-8", "statement": "Everything Utf8Validator passes on is valid UTF-8, for every chunking of every byte stream.", "quantifier": "every byte stream and chunking; for what becomes visible, histories in which no load future is dropped (C78 is about those in which one is)", "why_tests_cant": "all byte streams", "anchors": ["crates/parcom-sequence-sources/src/utf8_validator.rs: Writer::advance"]}
{"id": "C61", "title": "Utf8Validator passes valid text through", "statement": "For a valid UTF-8 stream in any chunking (splitting characters anywhere) the validator never reports an error, and the bytes passed on are the whole stream.", "quantifier": "every text and chunking", "why_tests_cant": "all split points", "anchors": ["crates/parcom-sequence-sources/src/utf8_validator.rs: Writer::advance, Control::request_writer, Next::poll"]}
{"id": "C62", "title": "Utf8Validator reports malformed input", "statement": "A byte stream that is not valid UTF-8 is reported as InvalidSequence by the time the stream ends.", "quantifier": "every invalid byte stream and chunking", "why_tests_cant": "in particular errors in the last three bytes", "anchors": ["crates/parcom-sequence-sources/src/utf8_validator.rs: Writer::advance, Control::finish"]}
{"id": "C63", "title": "Utf8Validator works on the loader's writer", "statement": "Requesting a writer through the validator on top of the generic loader gives a usable writer (its capacity is computable and at least what was requested).", "quantifier": "every buffered tail, request size, loader state", "why_tests_cant": "needs the combination of two writers", "anchors": ["crates/parcom-sequence-sources/src/utf8_validator.rs: Writer::capacity", "crates/parcom-sequences/src/generic/control.rs: Request::capacity"]}
{"id": "C64", "title": "DefaultSegments delivers committed segments in order without gaps or duplicates", "statement": "Under every interleaving with the loading side, the segments returned by next() are exactly a prefix, in order, of the committed ones behind the position, the first of them without what was skipped.", "quantifier": "every interleaving", "why_tests_cant": "schedules", "anchors": ["crates/parcom-runners/src/default_runner/sequence/segments.rs: DefaultSegmentsNext::poll"]}
{"id": "C65", "title": "DefaultSegments::next returns None only at the end", "statement": "If next() resolves to None then every committed segment has been returned.", "quantifier": "every interleaving of the loader's append/done with the poll's steps", "why_tests_cant": "a race between two instructions", "anchors": ["crates/parcom-runners/src/default_runner/sequence/segments.rs: DefaultSegmentsNext::poll (checks (1) and (2))"]}
{"id": "C66", "title": "a pending DefaultSegments::next is woken by the next append or end", "statement": "If poll returned Pending and the loading side then appends a segment (or finishes) and signals, the task is woken and the next poll makes progress.", "quantifier": "every interleaving", "why_tests_cant": "schedules", "anchors": ["crates/parcom-runners/src/default_runner/sequence/segments.rs", "crates/parcom-internals/src/future/notify.rs"]}
{"id": "C67", "title": "DefaultSequence::advance skips the whole delta", "statement": "advance(n) resolves to the sequence with exactly n items skipped (or all, if the source ended earlier), however the data arrives.", "quantifier": "every arrival schedule", "why_tests_cant": "needs data arriving between polls", "anchors": ["crates/parcom-runners/src/default_runner/sequence/advance.rs: poll (remain)"]}
{"id": "C68", "title": "error classification is compositional", "statement": "should_terminate of Option, &T, Either, EitherBoth, Miss, Fatal follows its components: Miss never, Fatal always, Option iff Some terminating, Either/EitherBoth iff a contained error does.", "quantifier": "every nesting of error types", "why_tests_cant": "nesting unbounded", "anchors": ["crates/parcom-core/src/parse_error.rs", "crates/parcom-util/src/error.rs", "crates/parcom-util/src/either.rs", "crates/parcom-util/src/either_both.rs"]}
{"id": "C69", "title": "the example calculator grammar parses what it prints", "statement": "For every expression of the example grammar, parsing its rendering yields that expression and consumes all of it.", "quantifier": "every expression", "why_tests_cant": "expressions unbounded", "anchors": ["example/src/bin_expr.rs", "crates/parcom-parsers/src/combinator/bin_expr.rs"]}
{"id": "C70", "title": "commit never fails", "statement": "The assertion in commit_to (the tail cell is still unset) holds in every history of one loader.", "quantifier": "every history", "why_tests_cant": "histories", "anchors": ["crates/parcom-sequences/src/generic/loader.rs: commit_to"]}
{"id": "C71", "title": "grammars do not depend on how the input is cut", "statement": "A grammar built with any nesting of the combinators over any_char/the_char (or any_item/the_item) gives the same output or error and leaves the same items on any two rewindable sequences with the same content, whatever their types and segmentations; it panics or hangs on one iff it does on the other.", "quantifier": "every nesting, every two lawful rewindable sequences with equal content", "why_tests_cant": "segmentations, grammars and sequence types are unbounded", "anchors": ["crates/parcom-parsers/src/combinator/*.rs", "crates/parcom-parsers/src/iterative/*.rs", "crates/parcom-parsers/src/primitive/{any,the}.rs"]}
{"id": "C72", "title": "measuring is transparent", "statement": "On a Measured text every nesting of combinators over any_char, the_char and atom gives exactly the result it gives on the text itself, at the same place, and the metrics at that place are those of the start meter fed with exactly the text in between, however much backtracking happened.", "quantifier": "every nesting, every text, every meter whose advance is additive", "why_tests_cant": "grammars and texts are unbounded", "anchors": ["crates/parcom-core/src/sequence/measured.rs", "crates/parcom-core/src/primitive/str.rs: Measured", "crates/parcom-parsers/src/combinator/*.rs"]}
{"id": "C73", "title": "grammars without empty loops terminate", "statement": "A parser built from the_char, any_char, join, or, optional and repeat in which nothing that might match the empty text is repeated returns on every text, and its rest is never longer than its input (strictly shorter if the grammar cannot match the empty text).", "quantifier": "every such grammar and every text", "why_tests_cant": "termination on all texts", "anchors": ["crates/parcom-parsers/src/combinator/repeat.rs: Repeat::parse"]}
{"id": "C74", "title": "Notify never blocks for ever", "statement": "As long as some call of send or poll has not returned, some call under way can take a step; and without new calls the calls under way take finitely many steps. So under any fair scheduler every call returns.", "quantifier": "every interleaving of every number of calls", "why_tests_cant": "deadlocks depend on the schedule", "anchors": ["crates/parcom-internals/src/future/notify.rs: Notify::send, Wait::poll"]}
{"id": "C75", "title": "OptionFuture resolves as the future inside, or at once", "statement": "OptionFuture::none() is ready with None at the first poll. OptionFuture::some(f) is pending for exactly as many polls as f and then ready with Some of f's output; each poll polls f once.", "quantifier": "every future, every number of polls", "why_tests_cant": "futures are arbitrary state machines", "anchors": ["crates/parcom-internals/src/future/option_future.rs: OptionFuture::poll"]}
{"id": "C76", "title": "Either is unwrapped by the side it has", "statement": "unwrap_first returns x iff the value is First(x), unwrap_last returns x iff it is Last(x), exactly one of the two panics, and unify converts whichever is there.", "quantifier": "every value of every Either type", "why_tests_cant": "generic types", "anchors": ["crates/parcom-util/src/either.rs: unwrap_first, unwrap_last, unify"]}
{"id": "C77", "title": "dropping the future of a load loses nothing that was pending", "statement": "Dropping the future returned by load() at any point loses no item accepted by an earlier load: it stays pending, and nothing becomes visible.", "quantifier": "every history, every point at which the future is dropped", "why_tests_cant": "needs a drop between request_writer and advance, right after a buffer switch", "anchors": ["crates/parcom-sequences/src/generic/control.rs: Control::request_writer, Request::advance", "crates/parcom-sequences/src/generic/loader.rs: Load"]}
{"id": "C78", "title": "only valid UTF-8 becomes visible, whatever happens to the loads", "statement": "Behind a Utf8Validator, every byte that becomes visible in the sequence belongs to valid UTF-8, also after load futures have been dropped or sources have failed.", "quantifier": "every history of loads, including dropped and failed ones", "why_tests_cant": "needs a load dropped between writing and advancing, followed by a commit", "anchors": ["crates/parcom-sequence-sources/src/utf8_validator.rs: Control::request_writer, Writer::advance", "crates/parcom-sequences/src/generic/control.rs: Request"]}
{"id": "C79", "title": "the example calculator reads the longest expression", "statement": "Whatever the example calculator's `expr` accepts is a prefix of the input that stands for the expression it returns: decimal integers, parentheses, operators between spaces, `*` and `/` binding tighter than `+` and `-`, equal ranks grouping to the left. No longer prefix stands for an expression. If it misses, no prefix stands for one. Every text that stands for an expression is read whole as that expression, and no text stands for two.", "quantifier": "every input text, every expression, every nesting", "why_tests_cant": "texts and nesting depth unbounded; ambiguity is a statement about pairs of derivations", "anchors": ["example/src/bin_expr.rs", "crates/parcom-parsers/src/combinator/bin_expr.rs"]}
{"id": "C80", "title": "the example calculator always comes back", "statement": "On every text `expr` terminates, although it calls itself through the combinators. On texts of one-byte chars whose numbers are usize values it does not panic. It panics exactly if there is a char of more than one byte where an operand or a closing parenthesis is due, or a number above usize::MAX where an operand is due.", "quantifier": "every input text", "why_tests_cant": "termination over all texts and nestings", "anchors": ["example/src/bin_expr.rs", "crates/parcom-parsers/src/combinator/bin_expr.rs"]}
{"id": "C81", "title": "the example calculator computes the value", "statement": "If every intermediate result of an expression is a usize, `eval` returns the expression's value, with and without overflow checks; otherwise a build with overflow checks panics. A build without computes modulo 2^64, so that an expression without divisions has the remainder of its value in the integers, and panics exactly if a divisor comes out as zero. On a text standing for the expression the program prints its rendering and its value.", "quantifier": "every expression, every build", "why_tests_cant": "all expressions and values", "anchors": ["example/src/bin_expr.rs", "crates/parcom-parsers/src/combinator/bin_expr.rs"]}
{"id": "C82", "title": "skipping what has been shown works on the default runner's sequence", "statement": "If a user of DefaultSequence calls segments(), looks at some segments, and then calls advance(n) with n at most the number of items it was shown, the advance is ready at its first poll, skips exactly the first n items shown, and leaves the remaining items and whatever was made visible meanwhile.", "quantifier": "every interleaving with loads, commits, sends and the end of the source; every n up to what was shown", "why_tests_cant": "commits and sends may fall between any two accesses of the poll; C67 shows that other uses of advance do lose items", "anchors": ["crates/parcom-runners/src/default_runner/sequence/advance.rs: poll", "crates/parcom-runners/src/default_runner/sequence/segments.rs: poll", "crates/parcom-sequences/src/generic/buffer.rs: advance"]}
{"id": "C83", "title": "the stack of bin_expr changes nothing", "statement": "BinExprParser keeps pending operands in a ShortVec<_, 4>. For expressions and operators that are not both zero-sized, parsing gives the same result, error, panic or non-termination as with an unbounded list for a stack; when it returns, every block it allocated has been freed and nothing that went into the returned expression has been dropped; when it fails after the first operand, exactly the operands still waiting are dropped, once each. The only other outcomes are an abort when the allocator refuses, and a panic when twice as many pairs as operators read would not fit in isize::MAX bytes. If at most four operators compete for an operand (in particular with left-associative operators of at most four precedences) the allocator is never asked.", "quantifier": "every parser for operands and operators, operator table, input, build, element size and alignment, prior state of memory and behaviour of the allocator", "why_tests_cant": "stack depth, allocator refusals and memory states are unbounded", "anchors": ["crates/parcom-parsers/src/combinator/bin_expr.rs: BinExprParser::parse, parse_impl", "crates/parcom-internals/src/shortvec.rs: new, push, pop, drop"]}
{"id": "C84", "title": "bin_expr has no undefined behaviour", "statement": "For any types of expressions and operators, BinExprParser::parse, given operand and operator parsers without undefined behaviour, has none.", "quantifier": "every parser for operands and operators, operator table, input, build, element size (zero included) and alignment, memory and allocator", "why_tests_cant": "undefined behaviour need not show, and depends on depth of the stack and on the types used", "anchors": ["crates/parcom-parsers/src/combinator/bin_expr.rs: BinExprParser::parse, parse_impl", "crates/parcom-internals/src/shortvec.rs: push, reserve, reserve_exact"]}
{"id": "C85", "title": "no characters are made up across a failed load", "statement": "Behind a Utf8Validator, every character that becomes visible occurs in the bytes the source wrote, also when loads fail (with InvalidSequence or an error of the source) and loading goes on.", "quantifier": "every history of loads in which no load future is dropped, every byte stream and chunking, every failure, every build", "why_tests_cant": "the failing load must fall exactly between the bytes of a character and be followed by bytes that complete it", "anchors": ["crates/parcom-sequence-sources/src/utf8_validator.rs:78-99", "crates/parcom-sequence-sources/src/utf8_validator.rs:119-134", "crates/parcom-sequence-sources/src/utf8_validator.rs:193-224"]}
{"id": "C86", "title": "only the last waker of a Wait is woken", "statement": "Of several polls of one Wait that returned Pending one after the other, only the waker given to the last is woken (the contract of Future::poll), so that at most one waker is kept per Wait.", "quantifier": "every interleaving of any number of sends, waits and polls", "why_tests_cant": "needs a future polled repeatedly with different wakers, in any number and interleaving", "anchors": ["crates/parcom-internals/src/future/notify.rs:50-71"]}
{"id": "C87", "title": "the generic sequence frees each segment once, when it is consumed", "statement": "Whatever the order in which the loader and the buffer of a generic sequence work and are dropped: no node is used after it was freed or freed twice; as long as the buffer is there only items it has consumed are dropped; when advance returns every wholly consumed segment has been freed and its items dropped in order; once the buffer is dropped commits do not pile up; and when both are dropped every node is freed and every accepted item dropped exactly once.", "quantifier": "every interleaving of loads, commits, iterations, advances and drops of either side, any number of segments of any length", "why_tests_cant": "needs every order of drops and steps of two sides and histories of any length", "anchors": ["crates/parcom-sequences/src/generic.rs:13-33", "crates/parcom-sequences/src/generic/buffer.rs:7-56", "crates/parcom-sequences/src/generic/loader.rs:11-48"]}
{"id": "C88", "title": "dropping a generic sequence takes bounded stack", "statement": "There is a bound, independent of how many segments have been committed, on how many node destructors are active one inside the other when a part of a generic sequence is dropped or advance lets go of consumed nodes.", "quantifier": "every history, any number of segments", "why_tests_cant": "a test with few segments does not overflow the stack", "anchors": ["crates/parcom-sequences/src/generic.rs:13-16", "crates/parcom-sequences/src/generic/buffer.rs:51"]}
{"id": "C89", "title": "a line/column meter can go on from a location", "statement": "LineColumnMeter::new(m.metrics()) followed by advance over more text gives the metrics that m itself would give after that text.", "quantifier": "every text and every place to cut it", "why_tests_cant": "all texts and all cuts; depends on whether the cut is at a line end", "anchors": ["crates/parcom-metrics/src/line_colmn.rs:92-100"]}
{"id": "C90", "title": "LineColumn's Ord agrees with its Eq", "statement": "For any two LineColumn values cmp is Equal iff they are ==, as std requires of Ord.", "quantifier": "every two values of LineColumn", "why_tests_cant": "all pairs of values", "anchors": ["crates/parcom-metrics/src/line_colmn.rs:34-53"]}
{"id": "C91", "title": "parsing while the input is being loaded gives what parsing all of it would", "statement": "A program that uses the default runner's sequence only through segments, next and advance, and skips no more than it was shown, returns, while the input is being loaded in any way, what it returns on a sequence that holds all of the input from the beginning, and leaves the same items.", "quantifier": "every such program, every interleaving of its polls with loads, commits, sends and the setting of done_flag, every way the input is cut", "why_tests_cant": "all programs, all interleavings and all cuts; the failing interleaving needs a commit and the setting of done_flag inside one poll", "anchors": ["crates/parcom-runners/src/default_runner/sequence.rs:50-73", "crates/parcom-runners/src/default_runner/sequence/segments.rs:76-109", "crates/parcom-runners/src/default_runner/sequence/advance.rs:32-66"]}
{"id": "C92", "title": "a binary expression abandoned half way leaks nothing and drops nothing twice", "statement": "If the future of bin_expr's parse is dropped while it waits, or a parser, a conversion, a method of an operator or error, or the stack panics, then dropping what is alive succeeds, all memory taken is returned, and each operand and operator read so far is dropped exactly once, by itself or in the expression it was moved into; and when it returns, each of them is in the result or was dropped, exactly once.", "quantifier": "every parser, input, way to make expressions, layout of the pairs other than of size zero, state of the allocator, and every place to stop", "why_tests_cant": "all places to stop in all runs; leaks and double drops are not visible in results", "anchors": ["crates/parcom-parsers/src/combinator/bin_expr.rs:78-152", "crates/parcom-internals/src/shortvec.rs:87-106", "crates/parcom-internals/src/shortvec.rs:175-190"]}
{"id": "C93", "title": "the Wait<'static> inside an Advance never dangles", "statement": "However sequences and their Advance futures are made, polled, polled after a panic or after Ready, and dropped, the reference that a DefaultSequenceAdvance keeps in its Wait<'static> is never used or dropped after the sequence it points into is gone; each sequence has one owner at a time and is dropped with it, once; polling after Ready panics.", "quantifier": "every history of making, advancing, polling and dropping sequences and futures, every outcome of the waits and of buffer.advance", "why_tests_cant": "all histories; a dangling reference need not be visible when it is used", "anchors": ["crates/parcom-runners/src/default_runner/sequence/advance.rs:8-66"]}
{"id": "C94", "title": "a waker that panics does not keep the others asleep", "statement": "When a send is over, also if a waker it called panicked, everybody who was asleep when it took the mutex has been woken; and later sends and polls work.", "quantifier": "every interleaving of any number of sends, waits and polls, every set of wakers whose wake, clone or destructor panics", "why_tests_cant": "every interleaving and every place where a waker may panic", "anchors": ["crates/parcom-internals/src/future/notify.rs:25-31", "crates/parcom-internals/src/future/notify.rs:51-70"]}
{"id": "C95", "title": "a waker may use the Notify that wakes it", "statement": "If a waker, while send wakes it or poll clones or drops it, itself calls send or polls a Wait of the same Notify, then that call can come to an end.", "quantifier": "every interleaving of any number of sends, waits and polls, and of such calls from inside wakers", "why_tests_cant": "that a call can never return, in no continuation, is not visible to a test", "anchors": ["crates/parcom-internals/src/future/notify.rs:25-31", "crates/parcom-internals/src/future/notify.rs:51-70"]}
{"id": "C96", "title": "the calculator reads the text, not its segments", "statement": "For two sequences with the same remaining text, whatever their types and however they are cut into segments, the calculator returns the same expression with the same text left, or fails on both, or panics on both.", "quantifier": "all texts, all pairs of lawful sequences holding them, both build modes", "why_tests_cant": "all texts and all pairs of cuts, for sequence types the project has not written", "anchors": ["example/src/bin_expr.rs:194-232", "example/src/bin_expr.rs:142-192"]}
{"id": "C97", "title": "repeating a keyword counts its copies", "statement": "atom(p).map(f).repeat() on a &str that begins with exactly k copies of a non-empty p returns k values f(()), leaves the input after the k-th copy, and never fails; it panics exactly when, of p and the text after the copies, the byte size of the shorter falls inside a char of the longer. With an empty p it never returns.", "quantifier": "all keywords, closures and texts", "why_tests_cant": "all texts, including those whose chars straddle the keyword's size, and non-termination", "anchors": ["example/src/repeat.rs:9-18", "crates/parcom-parsers/src/combinator/repeat.rs:39-57", "crates/parcom-parsers/src/primitive/atom.rs"]}
{"id": "C98", "title": "grammars can be rewritten by the usual laws", "statement": "map, map_err and and_then fuse; join and or are associative and natural in results and errors, up to the nesting of pairs and enums; a common beginning can be taken out of two alternatives; or with itself changes nothing; optional is or with a parser that reads nothing; a repeat whose body succeeded goes on as a repeat. Both sides return, fail, panic or hang together, with the same value, error and location. A common end cannot be taken out.", "quantifier": "all parsers, closures, error types, inputs and sequences with a working rewind", "why_tests_cant": "equality of arbitrary parsers on all inputs, panics and divergence included", "anchors": ["crates/parcom-parsers/src/combinator/join.rs:26-57", "crates/parcom-parsers/src/combinator/or.rs:26-65", "crates/parcom-parsers/src/combinator/map.rs:27-82", "crates/parcom-parsers/src/combinator/and_then.rs:44-74", "crates/parcom-parsers/src/combinator/optional.rs:26-44", "crates/parcom-parsers/src/combinator/repeat.rs:39-57"]}
{"id": "C99", "title": "iterative adaptors can be rewritten by the usual laws", "statement": "Adjacent map_each, map_while and take fuse (take(n).take(m) is take(min)); map_while and try_map_each with closures that never reject are map_each; try_map_each with recoverable errors is map_while; take commutes with map_each and map_while; map_each goes into the closure of scan and fold, and out of collect; a fold after a scan is one fold. Both sides return, fail, panic or hang together.", "quantifier": "all iterative parsers, closures, counts, collections and inputs", "why_tests_cant": "equality of arbitrary iterations on all inputs, panics and divergence included", "anchors": ["crates/parcom-parsers/src/iterative/map_each.rs:54-76", "crates/parcom-parsers/src/iterative/map_while.rs:62-83", "crates/parcom-parsers/src/iterative/scan.rs:76-105", "crates/parcom-parsers/src/iterative/take.rs:52-76", "crates/parcom-parsers/src/iterative/try_map_each.rs:76-112", "crates/parcom-parsers/src/iterative/fold.rs:74-91", "crates/parcom-parsers/src/iterative/collect.rs:43-65"]}
{"id": "C100", "title": "a load of an IteratorSource that is never polled loses nothing", "statement": "When the future returned by load() on an IteratorSource is dropped without being polled, everything accepted so far, and what the iterator yielded for that load, is still pending, and nothing has become visible.", "quantifier": "every history, chunk and build; every point at which such a load is made and dropped", "why_tests_cant": "needs a load that is made and not awaited, at the end of the iterator or with a chunk that does not fit", "anchors": ["crates/parcom-sequences/src/generic/loader.rs:100-105", "crates/parcom-sequence-sources/src/iterator_source.rs:47-63", "crates/parcom-sequences/src/generic/control.rs: Control::finish, Request::advance"]}
{"id": "C101", "title": "a ShortVec whose elements panic when dropped leaks no memory", "statement": "With destructors that may panic, each element is still dropped at most once and none is lost, nothing is undefined behaviour, the process is aborted only where Rust demands it, and once all vectors are dropped no memory is in use.", "quantifier": "every program over any number of vectors, every element type of nonzero size, every set of elements whose destructors panic, every allocator", "why_tests_cant": "needs elements whose destructors panic, and a count of the memory in use after the panic is caught", "anchors": ["crates/parcom-internals/src/shortvec.rs:175-190", "crates/parcom-internals/src/shortvec.rs:75-95"]}
{"id": "C102", "title": "pushing to a ShortVec takes constant time on average", "statement": "The number of requests a vector makes to the allocator is logarithmic in the number of elements pushed to it, growing moves at most two elements for each one pushed, and a vector that never outgrows its inline slots asks for nothing.", "quantifier": "every program over any number of vectors in any order, with pops, failed allocations and panics in between; every element type of nonzero size; every inline capacity", "why_tests_cant": "about the sum over all programs of any length; a test sees one run, and not the allocator", "anchors": ["crates/parcom-internals/src/shortvec.rs:87-95", "crates/parcom-internals/src/shortvec.rs:108-158"]}
{"id": "C103", "title": "bin_expr takes linear time", "statement": "The steps of parse_impl, its comparisons, its combinations and its calls of the parsers are at most linear in the number of operators read, wherever it is; it fails to come back only if a parser or a rewind does, or if there is no end of operators, which on input that operators make smaller cannot be.", "quantifier": "every parser of operands and operators, precedence table, sequence, state of memory and element layout; every point of every run", "why_tests_cant": "a bound for all runs of any length, with an amortised argument over the stack", "anchors": ["crates/parcom-parsers/src/combinator/bin_expr.rs:78-152"]}
{"id": "C104", "title": "an advance that waits is woken and gets on", "statement": "If the last poll of a DefaultSequence::advance returned Pending although there are items behind the position of the sequence, or done_flag is set, and what was made visible was followed by a send on append_signal, then the waker of that poll has been woken, whenever during the poll the items arrived; and the next poll does not return Pending, whatever happens meanwhile. The first poll does not either if there are enough items, or the end was reached, before it begins.", "quantifier": "every interleaving of the user's steps with loads, commits, sends, and setting done_flag; fewer than 2^64 sends", "why_tests_cant": "a lost wakeup needs one particular interleaving of the poll, a commit and a send", "anchors": ["crates/parcom-runners/src/default_runner/sequence/advance.rs:38-65", "crates/parcom-internals/src/future/notify.rs"]}
{"id": "C105", "title": "a grammar takes time linear in the text", "statement": "A parser made of the_char, any_char, join, or, optional, repeat and the mapping combinators, in which no repetition is over something that can match the empty text, makes a number of calls of segments, next, advance and rewind that is linear in the length of the text.", "quantifier": "every such grammar, every text; for the general bound every sequence and every way it is cut into segments", "why_tests_cant": "a measured run says nothing about longer texts or other grammars", "anchors": ["crates/parcom-parsers/src/combinator/repeat.rs", "crates/parcom-parsers/src/combinator/or.rs", "crates/parcom-parsers/src/combinator/optional.rs", "crates/parcom-parsers/src/combinator/join.rs"]}
{"id": "C106", "title": "the example calculator takes linear time", "statement": "expr comes back after a number of calls of segments, next, advance and rewind that is linear in the number of chars ahead, however deeply parentheses are nested and whether or not it finds an expression; for a &str at most 24 calls per char and 20 more. Counting the calls does not change what it returns.", "quantifier": "every text, every sequence, every way it is cut into at most k segments", "why_tests_cant": "backtracking at every level of nesting would be exponential only on deeply nested texts that are wrong at the end", "anchors": ["example/src/bin_expr.rs:44-68", "example/src/bin_expr.rs:155-232"]}
{"id": "C107", "title": "combinators panic and hang only where their parsers do", "statement": "join, or and optional panic, or never return, exactly if a parser they run does on the input they give it: the first on the combinator's input, the second of join on the first's rest, the second of or on the combinator's input after a recoverable failure. repeat panics exactly if its body does after some successes. The panic is the parser's.", "quantifier": "every pair of parsers, every rewindable sequence, every input", "why_tests_cant": "panics and hangs of arbitrary parsers", "anchors": ["crates/parcom-parsers/src/combinator/join.rs", "crates/parcom-parsers/src/combinator/or.rs", "crates/parcom-parsers/src/combinator/optional.rs", "crates/parcom-parsers/src/combinator/repeat.rs"]}
{"id": "C108", "title": "the grammar of the cache example reads the longest expression", "statement": "`expr` of the cache example returns the expression that the text it consumed stands for, by the grammar in its comments with spaced operators, `*` and `/` binding tighter than `+` and `-` and grouping to the left; no longer text at this place stands for an expression, and if it misses none does. How the text is cut into segments makes no difference. Each of the inputs `main` builds, `0` in d pairs of parentheses, is read to its end.", "quantifier": "every text, every way to cut it into segments, every depth", "why_tests_cant": "all texts, nestings and segmentations", "anchors": ["example/src/cache.rs", "crates/parcom-parsers/src/combinator/bin_expr.rs"]}
{"id": "C109", "title": "the grammar of the cache example comes back, and panics only on chars of several bytes", "statement": "On every text `expr` of the cache example terminates. It panics exactly if the text has a char of more than one byte where an operand or a closing parenthesis is due.", "quantifier": "every text, every way to cut it into segments", "why_tests_cant": "termination and absence of panics over all texts and nestings", "anchors": ["example/src/cache.rs", "crates/parcom-parsers/src/combinator/bin_expr.rs"]}
{"id": "C110", "title": "the grammar of the cache example takes linear time without a cache", "statement": "The number of calls `expr` of the cache example makes of its input (segments, next, advance, rewind) is at most linear in the number of chars, for a bounded number of segments; on the inputs `main` builds it is at most 48 d + 44 at depth d.", "quantifier": "every text, every depth, every bound on the number of segments", "why_tests_cant": "asymptotic cost over all texts; the example's own measurement drops the future without polling it", "anchors": ["example/src/cache.rs", "crates/parcom-parsers/src/combinator/bin_expr.rs"]}
{"id": "C111", "title": "the stack the calculator needs depends on the nesting of parentheses alone", "statement": "There is a bound on how many calls of `expr`, `display`, `eval` and the destructor of `Expr` lie inside one another when the calculator parses, shows, evaluates and drops the expression of a text, and the bound depends only on how deep parentheses nest in the text: with room for that many calls no call overflows the stack.", "quantifier": "every text, every limit on the number of calls", "why_tests_cant": "all texts of all lengths and nestings; a test has one stack size and few lengths", "anchors": ["example/src/bin_expr.rs:44-112"]}
{"id": "C112", "title": "the counters of a meter do not overflow on a text", "statement": "However a text measured from its beginning in lines and columns, or a slice measured by a usize, is advanced and rewound, no counter overflows: with overflow checks advance does not panic for it, without them the counters are the true counts. A meter started at a location panics (with checks) exactly if the number of chars or lines exceeds usize::MAX, and counts modulo 2^64 without checks.", "quantifier": "every text and slice that fits into memory, every history, every line convention, every start location", "why_tests_cant": "counters near usize::MAX need texts too long to be walked through; only a bound that follows from the size of the text covers them", "anchors": ["crates/parcom-metrics/src/line_colmn.rs:67-90", "crates/parcom-core/src/sequence/measured.rs:36-57"]}
{"id": "C113", "title": "a writer drops no item twice, also if destructors panic", "statement": "Whatever a source does with the loader's writer, and whichever destructors of its items panic, no item is dropped twice: not by a further operation, not when the load is cancelled, not when the buffer is dropped; and no item is lost.", "quantifier": "every history of operations on a writer of the loader with panics caught, every buffer with pending items, every set of items whose destructors panic", "why_tests_cant": "needs items whose destructors panic while shrink_to runs, and the second drop is undefined behaviour that a test need not notice", "anchors": ["crates/parcom-sequence-core/src/buffer_writer.rs:65-80", "crates/parcom-sequences/src/generic/control.rs:76-121"]}
{"id": "C114", "title": "with LF, the line and column are those of str::lines", "statement": "Whatever the chunks in which a text is consumed, LineColumn with LF reports as many lines as str::lines returns, and as column the length of the last of them plus that of the line end the text ends with; the unit tests' equation with str::len holds exactly on texts whose chars take one byte each.", "quantifier": "every text and every chunking", "why_tests_cant": "the unit tests check it on a few ASCII texts", "anchors": ["crates/parcom-metrics/src/line_colmn.rs:11-176"]}
{"id": "C115", "title": "the grammar of bin_expr's unit tests reads the longest expression", "statement": "The expression parser of the unit tests of bin_expr reads the longest prefix that stands for an expression (with ~ weakest and grouping to the right, - and then * stronger and grouping to the left), returns the only expression this text stands for, misses exactly if no prefix stands for one, always returns, panics exactly on a multi-byte char where an operand or a closing parenthesis is due, and does not depend on how the text is cut into segments; the tests' equations hold for any number of operators.", "quantifier": "every sequence of text, every text, any number of operators", "why_tests_cant": "two inputs are tested; the claim is about all texts and the longest of all prefixes", "anchors": ["crates/parcom-parsers/src/combinator/bin_expr.rs:160-330"]}
{"id": "C116", "title": "the axes of the chart hold every sample and no more", "statement": "Each axis of the chart begins at the least and ends at the greatest of zero and the coordinates that are numbers; NaN has no influence, nor have the order of the samples and their split into series.", "quantifier": "every list of series", "why_tests_cant": "all inputs including NaN; the example draws one chart", "anchors": ["example/src/utils/line_chart.rs:11-25"]}
{"id": "C117", "title": "Notify does not rely on the memory order of its version", "statement": "Even if every load of the version may return any earlier value that its thread has not come to know to be outdated: a Wait polled to Pending is woken by every send whose increment it did not see, once that has returned; it never returns Pending again after such a send has returned; it is ready only if there is an increment it did not see; wakers are woken at most once and the slab is used without panics; nothing blocks for ever.", "quantifier": "any number of threads and calls, every interleaving, every choice of stale values", "why_tests_cant": "hardware that reorders is needed, and luck; tests run on one architecture", "anchors": ["crates/parcom-internals/src/future/notify.rs:17-72"]}
{"id": "C118", "title": "the runner's sequence works with reads that miss what was just written", "statement": "Even if OnceLock::get misses nodes, and loads miss increments and done_flag, unless the user has come to know of them: segments are delivered in order without gaps or duplicates; a Next or Advance that returned Pending is woken once a send has returned whose thread knew of items the user does not have yet, or of the end; the stream ends only after done_flag was set, and what the user knew of when that poll began has been delivered; advance skips only what is there.", "quantifier": "every interleaving of the user with any number of other threads, every choice of what is missed", "why_tests_cant": "stale reads depend on hardware and timing", "anchors": ["crates/parcom-runners/src/default_runner/sequence/segments.rs:75-109", "crates/parcom-runners/src/default_runner/sequence/advance.rs:33-66", "crates/parcom-sequences/src/generic/buffer.rs:29-80"]}
{"id": "C119", "title": "peek looks ahead and changes nothing", "statement": "What peek returns for a &str or &[T] can be advanced over any prefix exactly as the sequence can, and rewound from there to where the sequence is.", "quantifier": "every text and slice, every prefix", "why_tests_cant": "there are no tests of peek; the claim is about all texts and prefixes", "anchors": ["crates/parcom-core/src/primitive/str.rs:55-64", "crates/parcom-core/src/primitive/slice.rs:65-74"]}
{"id": "C120", "title": "a grammar does not wait for input that it does not need", "statement": "On input of which only a part has arrived, a parser that spells out a parsing expression grammar returns exactly when what has arrived settles its verdict, with that verdict; else it waits; it never panics. Whatever any nesting of combinators returns before the input has ended, it returns on every input that begins so, however it is cut, leaving the same and what came since. any_char, the_char, any_item and the_item wait iff nothing has arrived; atom waits iff what has arrived is a proper beginning of its pattern, or no segment at all has.", "quantifier": "every such grammar, every sequence that keeps the contract as far as it has arrived, every continuation, every cut", "why_tests_cant": "a test that waits hangs; which continuations are possible is unbounded; the tests only have complete inputs", "anchors": ["crates/parcom-parsers/src/primitive/{any,the,atom}.rs", "crates/parcom-parsers/src/combinator/*.rs", "crates/parcom-parsers/src/iterative/*.rs"]}
{"id": "C121", "title": "ShortVec keeps the aliasing rules", "statement": "Whatever the element type and N, and whatever its owner calls, a ShortVec is made, used and dropped without using a pointer that the aliasing rules (Stacked Borrows) no longer allow to be used so.", "quantifier": "every N, capacity asked for, element size, with interior mutability or without, every sequence of calls", "why_tests_cant": "compiled code works by chance until the optimiser uses the rules; call sequences are unbounded", "anchors": ["crates/parcom-internals/src/shortvec.rs:59-106", "crates/parcom-internals/src/shortvec.rs:116-189"]}
{"id": "C122", "title": "an anchor of another sequence is refused", "statement": "Rewinding a sequence to an anchor of which it is not a remainder panics with \"the anchor is not an anchor of this stream.\"; it neither returns something else nor is undefined.", "quantifier": "every pair of a sequence and an anchor: in one buffer or two, overlapping or not, of texts, slices of items that have a size, and Measured", "why_tests_cant": "undefined behaviour of offset_from need not show; pairs of places are unbounded", "anchors": ["crates/parcom-core/src/primitive/str.rs:35-44", "crates/parcom-core/src/primitive/slice.rs:33-42", "crates/parcom-core/src/primitive/str.rs:119-121"]}
{"id": "C123", "title": "the validator copies what it kept back only into room for it", "statement": "Asking Utf8Validator's control for a writer is never undefined, whatever the BufferStrategy (a safe trait) returns and whatever min_capacity the source asks for: the bytes kept back are only copied into a buffer with room for them.", "quantifier": "every history of a loader with a validator, every strategy that is defined, every allocator that gives at least what it is asked for, every usize", "why_tests_cant": "a write past a small allocation need not show; sizes near usize::MAX and strategies are not enumerable", "anchors": ["crates/parcom-sequence-sources/src/utf8_validator.rs:119-134", "crates/parcom-sequences/src/generic/control.rs:29-51", "crates/parcom-sequences/src/buffer_strategy.rs:3-5"]}
{"id": "C124", "title": "waiting for input does not spin", "statement": "A DefaultSegments::next or DefaultSequence::advance that waits does not keep its executor busy: polls wake their own task at most once for every call of next(), advance or send; an executor that polls again only after the waker of the last poll was woken polls at most twice for every such call; and while nothing is called or sent, at most twice more.", "quantifier": "every interleaving of the user with loads, commits, sends and the end of the source; any number of sends, also more than 2^64", "why_tests_cant": "a busy wait gives the right results, only later; the number of wake-ups depends on when a send falls into a poll", "anchors": ["crates/parcom-runners/src/default_runner/sequence/segments.rs:83-108", "crates/parcom-runners/src/default_runner/sequence/advance.rs:38-65", "crates/parcom-internals/src/future/notify.rs:25-70"]}
{"id": "C125", "title": "any BufferWriter can be used by safe code", "statement": "Whatever safe code implements BufferWriter, other safe code that uses it through as_slice, as_mut_slice, spare_capacity, push_item and shrink_to does nothing undefined; with an implementation that keeps to the documentation they act as on a list of at most capacity items.", "quantifier": "all implementations (any state, any len, capacity and set_len), all memories, all sequences of calls, both build modes", "why_tests_cant": "tests run the implementations there are; the claim is about those that others may write", "anchors": ["crates/parcom-sequence-core/src/buffer_writer.rs:3-81"]}
{"id": "C126", "title": "at most one waker is kept for the user", "statement": "However long the user of a DefaultSequence waits, and whatever it does with the futures of next(), the sequence holds at most one clone of a waker for it.", "quantifier": "every interleaving of the user with loads, commits, sends and the end of the source; executors that poll only after being woken; any number of futures made, polled and dropped", "why_tests_cant": "a waker too many changes nothing but the memory used and a spurious wake-up; it takes a user who gives up waiting, again and again, with nothing sent meanwhile", "anchors": ["crates/parcom-runners/src/default_runner/sequence/segments.rs:56-108", "crates/parcom-internals/src/future/notify.rs:42-71"]}
{"id": "C127", "title": "a binary expression whose parts panic when dropped leaks nothing and drops nothing twice", "statement": "Suppose destructors of operands, operators and expressions may panic. If the future of bin_expr's parse is dropped, code it calls panics, or it gives up itself, then a second panic aborts the process; otherwise each operand and operator read so far is dropped exactly once, by itself or in the expression it was moved into, and all memory taken is returned.", "quantifier": "every parser, input, way to make expressions, layout of the pairs other than of size zero, state of the allocator, set of values whose destructors panic, and every place to stop", "why_tests_cant": "needs destructors that panic at every place to stop; leaks and double drops are not visible in results", "anchors": ["crates/parcom-parsers/src/combinator/bin_expr.rs:78-152", "crates/parcom-internals/src/shortvec.rs:175-190"]}
{"id": "C128", "title": "advance passes each segment once over the whole life of a buffer", "statement": "Over any history of a sequence, whatever the loader does meanwhile, all calls of GenericSequenceBuffer::advance together look at a node at most once for each segment made visible so far and once for each call that returned; if a call returns because items are missing, exactly so often.", "quantifier": "every history of loads, commits, advances and iterators, every interleaving, empty segments included", "why_tests_cant": "needs every history and interleaving; the number of looks is not visible in results", "anchors": ["crates/parcom-sequences/src/generic/buffer.rs:30-54"]}
{"id": "C129", "title": "the loader leaks no item", "statement": "Whatever a source does with the loader's writer, and however its loads end, no item is leaked: the loader's buffer, the nodes it commits and the Vecs that are dropped with a load never have an item in their memory behind their length, and no item is written over another that was not dropped.", "quantifier": "every history of loads, commits and reads; every source, strategy and allocator; every operation at which a load may be stopped", "why_tests_cant": "leaked items are not visible in results, and each source and each place to stop it is another case", "anchors": ["crates/parcom-sequence-core/src/buffer_writer.rs:50-80", "crates/parcom-sequences/src/generic/control.rs:29-121"]}
{"id": "C130", "title": "after the end nothing waits", "statement": "Once the source of the default runner has ended (done_flag is set), a future of next() or advance() is ready at its first poll: it never returns Pending.  With stale reads the same holds once the user has been told of the end by an earlier next() or advance().", "quantifier": "every execution of the sequence's user, the loader and the signal; every number of items skipped and segments read; every stale read", "why_tests_cant": "a future that sleeps after the end needs a schedule that sets done_flag between two particular accesses, and there are unboundedly many histories before it", "anchors": ["crates/parcom-runners/src/default_runner/sequence/segments.rs:83-108", "crates/parcom-runners/src/default_runner/sequence/advance.rs:38-65"]}
