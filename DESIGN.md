# A Lean 4 model of parcom

## Layout

* `lean/Verif/Model/*.lean`: the model. Every definition cites the file and lines of /repo it models.
* `lean/Verif/Spec/*.lean`: small specifications that do not mention the model's functions
  (UTF-8 by encoding, PEG semantics, operator trees, line counting, runs of an iterative parser, ...).
* `lean/Verif/Lemmas/*.lean`: helper lemmas.
* `lean/Verif/Props/*.lean`: the property theorems, with a non-vacuity `example` beside each, and the
  counterexample theorems for properties the code violates.
* `properties.jsonl`: the claims in words. `MANIFEST.json`: which theorems prove which claim.
* `seeded/LOG.jsonl`: wrong programs the theorems were tried against.

A claim the code violates is handled in three parts: `CxxStatement` is the full claim as a `Prop`, `Cxx_false` refutes it
with a run of the model, and `Cxx_exact` / `Cxx_partial` say what the code does instead and under which condition the
claim holds. The manifest lists these as `partial`.

## Trusted base

* Lean 4.33.0's kernel, and Lean's elaborator as far as it turns the statements into what a reader takes them for.
* The axioms `propext`, `Quot.sound` and `Classical.choice`, no others; no axiom is declared in this project, and there
  is no `sorry`, `native_decide` or `bv_decide`. `lake env lean` on `#print axioms Parcom.C01_str_advance` etc. shows the
  axioms of one theorem. The last section of this file lists them all.
  (`Classical.choice` enters through `omega`, `simp` and `partial_fixpoint`, and in `Model/Aliasing` to tell whether every byte of
  a range allows an access; no model chooses a value by it.)
* The model: that the Lean definitions say what the Rust code says. Nothing was compiled or run; the code was read as text.
* What the model takes from the Rust standard library, as specified by its documentation: `str` is valid UTF-8 and its
  `get`, `split_at`, `char_indices` and slicing behave by byte offset and char boundary; `offset_from` is undefined between
  different allocations and panics on zero-sized elements; `Vec`, `LinkedList`, `Mutex`, atomics (sequentially consistent:
  the code uses `SeqCst` throughout), `Waker`, `std::str::from_utf8` (`valid_up_to`, `error_len`),
  `checked_*` arithmetic, the global allocator (may refuse, never hands out a live block; a zero-sized request is undefined).

## Computation model

* `Run a := ExceptT Fault Option a`. `none` is divergence (a loop that never ends), `Fault` is a Rust panic or
  undefined behaviour, a value is normal return. Loops are `partial_fixpoint` definitions, so a Rust `loop` is its own
  least fixed point: no fuel, no bound, and non-termination is provable (`= diverge`). Stack depth is not limited.
* `async`/`.await` inside a combinator is sequential composition (`bind`). Suspension is modelled only where the repository
  writes a `Future` by hand (`Notify`, `DefaultSegmentsNext`, `DefaultSequenceAdvance`, `Load`, `OptionFuture`, `Utf8Validator`'s `Next`).
* A `Parser` is a record of its two methods `parse` and `parse_once`, because the repository writes them twice.
  Component parsers are arbitrary Lean functions (pure: same input, same outcome; they may panic or not return); the closures
  and conversions given to `map`, `fold`, `scan` etc. are pure and total. A `Sequence` is any type with the trait's methods; theorems about parsers hold for every implementation that
  meets `LawfulSequence` / `LawfulRewind` (`Spec/Sequence.lean`), and `Lemmas/Lawful.lean` shows `&str`, `&[T]`, `Measured`
  and arbitrarily cut texts meet them.
* A `&mut self` method returns the new value. `usize` lengths are `Nat` unless a property is about overflow
  (`next_precedence`, `Notify.version`, `ShortVec`'s capacity, the writers' capacities, the calculator's integers), where
  the bound and the build (with or without overflow checks) are explicit.
* Concurrency (`Notify`, the runner's sequence against its loader) is an interleaving machine with any number of
  participants; one step is one access to shared state. Where that needs more than the code asks of the memory (a `OnceLock` is
  acquire/release only), `Model/NotifyWeak` and `Model/RunnerWeak` say what holds with stale reads (C117, C118).

## What is modelled, file by file

| File in /repo | Modelled | Not modelled |
|---|---|---|
| `parcom-core/src/primitive.rs`, `primitive/{str,slice}.rs`, `sequence/*.rs`, `sequence.rs` | everything about `&str`, `&[T]` and their `Measured`, `usize` as a meter, `peek` | `BindableSequence` (no implementation) |
| `parcom-core/src/{parser,parse_error,unknown,never,lib}.rs` | everything | lifetimes; `UnknownLocation::as_ref` |
| `parcom-util/src/*.rs` | everything | |
| `parcom-metrics/src/*.rs` | everything; what the unit tests check (C114) | |
| `parcom-parsers/src/primitive/*.rs` | `any`, `the`, `atom` for texts and for items | |
| `parcom-parsers/src/combinator/*.rs`, `util.rs`, `extension/*.rs` | everything; the grammar of the unit tests of `bin_expr` (`Model/Tilde`) | `Box::pin` (a move); the stack of `bin_expr` is a list in `Model/BinExpr.lean` and a `ShortVec` in memory in `Model/BinExprVec.lean` (C83: no difference); `Model/BinExprSteps.lean` cuts it into steps, with what is alive at each (C92: the steps are the function), for futures dropped half way and panics; `Model/BinExprPanic.lean` adds destructors that panic; not modelled: that anchors, errors and the rest of the input are dropped |
| `parcom-parsers/src/iterative/*.rs` | everything | |
| `parcom-internals/src/shortvec.rs` | everything on a memory of blocks and cells; the unit tests replayed (`Props/UnitTests`); the aliasing rules, apart from the values (`Model/Aliasing`) | aliasing rules other than Stacked Borrows; slices kept while the vector is used otherwise |
| `parcom-internals/src/future/*.rs` | everything; wakers that panic or call back into the same `Notify` apart (`Model/NotifyHostile`); stale reads of the version apart (`Model/NotifyWeak`) | the destructors of wakers that a panicking `send` drops or that are in a `Notify` when it is dropped; a lock of a mutex that the same thread holds blocks (the standard library lets it panic instead) |
| `parcom-internals/src/reactive*` | everything | |
| `parcom-sequence-core/src/*.rs` | `BufferWriter`, `BufferWriterExtension`, `SequenceSource`, `LoadInfo`; items whose destructors panic apart (`Model/WriterPanic`); writers of others apart (`Model/AnyWriter`) | `push`/`WriteTo`, `as_mut_slice` other than assigning to one item; a `len` or `capacity` of others that changes something, a pointer of theirs to no allocation |
| `parcom-sequences/src/*.rs` | buffer, control, loader, iterator; the reference counts of the nodes (`Model/Release`) | `Vec`s replaced or dropped by loads have no reference counts and are not tracked there; `GenericSequenceBuilder` beyond its parts (it cannot be constructed outside its crate); `Rc`/`Arc`/`&` forwarding of `BufferStrategy` |
| `parcom-sequence-sources/src/*.rs` | everything | |
| `parcom-runners/src/default_runner/sequence*` | everything; the `unsafe` reference in `Advance` apart (`Model/AdvanceCell`), with polling after `Ready` and dropping; stale reads apart (`Model/RunnerWeak`) | dropping an `Advance` that waits (the sequence goes with it), apart from `Model/AdvanceCell` |
| `parcom-runners/src/default_runner{,/parse,/parse_iterative}.rs`, `parcom-runner-core` | nothing: `todo!()` and trait declarations | |
| `example/src/bin_expr.rs` | parser, `eval`, `display`; how deep they and the destructor call themselves (`Model/CalcStack`) | `main`'s printing; the bytes a call takes; what a panic drops |
| `example/src/repeat.rs` | the parser, for any keyword and closure (`Props/Keywords`) | printing |
| `example/src/cache.rs` | the grammar and the inputs | by reading: `main` times `let _ = expr(input_str)`, which only makes a future and never polls it |
| `example/src/utils/line_chart.rs` | the ranges of the axes | calls of `plotters` |
| `example/src/main.rs`, the rest of `utils` | nothing | |

## Per property: what is modelled, how it is proved

| Id | Model | Proof |
|---|---|---|
| C01 | `StrRef`/`SliceRef` (allocation, offset, contents), `advance` | structural induction on the text |
| C02 | `rewind` with the pointer test; histories as op lists | invariant over the op list |
| C03 | same | case analysis on offsets |
| C04 | same | expected false (different allocation): witness, plus `_partial` for in-bounds |
| C05 | `Measured` + abstract meter | invariant over the op list |
| C06, C07 | meter fold + EOL automata | induction; C07 expected false for `\r\r\n`: witness + `_partial` |
| C08 | `LineColumn` comparison | from total_count = length |
| C09, C10, C14 | parsers over an abstract `Sequence` with a segment stream | induction on the segments the stream yields |
| C11-C13 | `Atom.parse` | induction on segments; C12, C13 expected false: witnesses + exact characterisation |
| C15-C17, C19, C20 | combinator functions | case analysis, induction on runs |
| C18 | `partial_fixpoint` loop | well-founded measure; fixpoint induction for divergence |
| C21, C22 | all combinators | C22 expected false: witness |
| C23 | both code paths | equality of functions, by cases |
| C24 | `Descends` relation of a lawful rewindable sequence | closure lemma per combinator |
| C25 | deep-embedded PEG, big-step spec | equivalence by induction |
| C26-C35 | `IterState` records; spec `Run of items` relation | induction on runs; C35 expected false: witness |
| C36-C41 | `parse_impl` loops | invariant: stack + rhs flatten; uniqueness by induction on trees; C41 expected false at usize::MAX |
| C42-C46 | memory model: blocks, cells, alloc/free log | refinement to lists by invariant over op lists; C46 expected false |
| C101 | the memory model with destructors that panic (`Model/ShortVecPanic`) | the refinement of C42-C45 with blocks that have no owner any more; false, witness of two pushes |
| C102 | the memory model, with what each growth moves (`Spec/Growing`) | potential: capacity against elements pushed, by induction on histories |
| C47-C50 | interleaving small-step machine, any number of threads | inductive invariant |
| C51, C52, C68 | direct | induction; C52 expected false for `[T; 0]` |
| C53-C57, C63, C70 | `BufferWriter` records, `Request`, `Control`, loader machine | invariants over histories; C53, C54, C56, C63 expected false |
| C58, C59 | cell list with cursor | induction on segments, history relation; also segment by segment (`Props/Segments`) |
| C60-C62 | byte-level validator, `valid_up_to` | encoder spec vs. decoder; C62 expected false at end of stream |
| C64-C67 | interleaving machine consumer/loader | inductive invariant; C65, C67 expected false |
| C69 | example grammar run on `StrRef` | induction on expressions |
| C71 | primitives + combinators over any lawful sequence | two runs related step by step (`Lemmas/Twin`): same items, other cuts |
| C72 | `Measured` against its base | same relation, other pair of sequences |
| C73 | PEG of C25 with the static "may succeed without consuming" test | induction on (remaining length, grammar) |
| C74 | the machine of C47 | every reachable state has an enabled step; rank of the steps left in a call |
| C75, C76 | direct | case analysis |
| C77, C78, C100 | the loader machine with dropped futures: in the middle of a write, or with the result of the source not taken (`Script.lost`) | invariant over histories; all false, witnesses |
| C82 | the machine of C64-C67 | invariant from the call of `advance` to its end |
| C91 | programs over `Sequence` (`Spec/Streaming`), as users of the machine of C64-C67 and on a sequence that holds everything | simulation along the log; parsers are shown to be such programs by fixpoint induction in both directions; false by the race of C65 |
| C92 | the steps of `parse_impl` with what is alive at each (`Model/BinExprSteps`), dropping it, and what it accounts for (`Spec/Ownership`) | invariant over the steps: the stack represents a list, and the values alive and dropped are made of what was read, each piece once; equality of running the steps with C83's function by fixpoint induction in both directions |
| C103 | the steps of C92, with where a run has been (`Spec/Work`) | potential: what the height of the stack and the place in the code still cost; traces of every length if it does not return |
| C104 | the machine of C64 to C67 | invariant: nothing was left when `buffer.advance` returned, and the `Wait` was there before; the next poll followed step by step |
| C105 | the combinators of C01 to C20 over a sequence that counts its calls (`Spec/Counting`) | induction over the grammar; for the lower bound a family of grammars, induction on the depth |
| C106 | the calculator of C79 to C81 over the same | amortisation: every char read pays for a constant number of calls, also of those that are undone; induction on the length of what is ahead. Simulation: counting changes nothing |
| C107 | the combinators of C15 to C19 | cases on what the parsers do; fixpoint induction for `repeat` |
| C108–C110 | `example/src/cache.rs` over any lawful sequence | as C79, C80 and C106 |
| C111 | the calculator's recursive functions with room for `n` calls (`Model/CalcStack`) | which operand is due inside how many parentheses (`OperandNext`, as for C80); induction on the limit, and on the length of the text for the loop of `parse_impl`; C111 is false for `display`, `eval` and dropping, so also for parsing `(1 + 1 + ... + 1`, which drops what it read |
| C112 | the meters with `usize` additions (`Model/Counters`) | no counter exceeds the number of chars consumed (C05), which is at most the number of bytes; for any start, induction on the text next to the meter of C89 |
| C113 | the loader's writer with destructors that panic (`Model/WriterPanic`) | two invariants over histories: sound, or an item that counts as written is gone; false, witness of two pushes; without panicking destructors it agrees with `Model/Writer` |
| C114 | the meter of C05 with LF | `str::lines` as a spec of its own (`Spec/StdLines`); induction on the text, from the beginning of a line and from within one |
| C115 | the grammar of the unit tests (`Model/Tilde`) | as C79: an evaluation relation that the parser refines on lawful sequences, then texts of expressions (`Spec/Tilde`) by induction |
| C116 | the closures that compute the ranges (`Model/LineChart`) | invariant of the two folds |
| C117 | `Notify` with loads that return old values (`Model/NotifyWeak`) | the invariants of C47-C50 by simulation, since they do not mention the version; one more about which increments were seen |
| C118 | the runner's user over nodes that `get` may miss, and over C117's `Notify` (`Model/RunnerWeak`) | inductive invariant about what the user knows of; a simulation: every run of `Model/Runner` is one of this |
| C119 | `peek` | direct |
| C120 | primitive parsers and combinators on sequences whose `next` does not return at the end of what has arrived (`Spec/Waiting`) | as C25, with the verdicts that do not look at the end; the early results by the simulation of C71 |
| C121 | `ShortVec` as uses of references and pointers under Stacked Borrows (`Model/Aliasing`) | invariant on the stack of every byte: what is above the pointers of the calls under way guards nothing and ends nobody |
| C122 | `rewind` of `&str`, `&[T]`, `Measured` (`Model/Sequences`) | cases: the buffer, and where one begins within the other |
| C123 | `Utf8Control::request_writer` (`Model/Utf8`) over `Control::request_writer` | cases of the sum and of the buffer; a history that keeps a byte back |
| C124 | the machine of `Model/Runner` | two potentials: how often the user can still wake itself, and whether it may be polled; every step pays for what it uses |
| C125 | the provided methods over any implementation of the others (`Model/AnyWriter`) | cases of what the implementation answers; for honest ones a refinement to lists, by induction on the calls |
| C126 | the machine of `Model/Runner` | invariant: a waker that is kept was given to the last poll, or a `Next` was dropped after it; then counting |
| C127 | the steps of `Model/BinExprSteps` with destructors that panic (`Model/BinExprPanic`) | the invariant of C92; dropping a list of values counts the panics, and dropping the stack is dropping its values, by induction on them |
| C128 | histories of `Model/Loader` with the looks of `advance` counted (`Props/AdvanceCost`) | invariant: looks so far and segments ahead add up to segments made visible and calls returned |
| C129 | `Model/Loader`, `Model/Writer`; a writer that may not write over items (`Props/NoLeak`) | a vector holds its items and nothing else, as an invariant of histories; the two writers do the same |
| C130 | `Model/Runner`, `Model/RunnerWeak` | every poll begins once; what the user knows of is never forgotten |
| C93 | `Advance` as two addresses on a heap (`Model/AdvanceCell`) | invariant over histories: one owner each, the `Wait` refers to the sequence beside it |
| C83, C84 | `parse_impl` on the memory of C42-C46 | simulation in both directions by fixpoint induction; depth of the stack is the right edge of the declared grouping; C84 is false for zero-sized pairs |
| C85 | the validated loader with failing loads | one-step characterisation from the invariant of C60-C62; false, witness of three loads |
| C86 | the machine of C47 | the registered wakers read off the log; false, witness of two polls |
| C87, C88 | the loader machine with reference counts and dropping (`Model/Release`) | invariant: the counts are the holders plus one for each link, the freed cells are a prefix of the chain; C88 is false, witness of n commits |
| C89, C90 | the meter started at a location; comparison | two meters side by side, induction on the text; both false, witnesses of two characters |
| C94, C95 | the machine of C47 with steps for wakers whose `wake`, `clone` or destructor panics or calls back, any number of times (`Model/NotifyHostile`) | invariants: up to the first panic the log is one of C47's machine, after it only calls that need no mutex get on; a call at the mutex inside a waker stays there. Both false, witnesses of two sleepers and of one |
| C96 | the calculator of C79 on two sequences | both outcomes are the one of the text (C79), which is unique; false, witness of three segments |
| C97 | `atom`, `map`, `repeat` on `StrRef` | induction on the number of copies; non-termination by fixpoint induction |
| C98 | the combinators of C15-C20 | case analysis on what each call returns; `repeat` by fixpoint induction in both directions |
| C99 | the adaptors of C26-C32 | a relation between the states of two iterations that yield alike; `fold` and `collect` by fixpoint induction in both directions |
| C79-C81 | the calculator of `example/src/bin_expr.rs` on texts and on any cut of a text | outcome relations on texts, deterministic, proved sound and complete against the grammar |


## Where the code and the claims disagree

Each has a refuting theorem (in brackets) unless it says otherwise.

1. `atom` on several segments consumes only the last segment's share of the pattern, and an empty pattern fails when no
   segment is delivered [C12]; it panics when the input is cut inside a multi-byte character at the pattern's length [C13].
2. Over-advancing a `&str` or `&[T]` moves the pointer to another object; rewinding it is undefined behaviour [C04]. So is
   rewinding to an anchor of another text, while `Measured` takes any anchor [C122]. Rewinding a slice of
   zero-sized items panics [`C02_slice_zst_counterexample`].
3. `\r\r\n` is not counted as a line end [C07]. A meter started at a location begins a new line there [C89]. `LineColumn`s of
   different texts can compare as `Equal` without being `==` [C90].
4. `repeat` does not return when its body succeeds without consuming for ever [C18, as claimed].
5. `collect` swallows fatal errors [C22].
6. `fold` does not go back after `map_while` / `try_map_each` reject an item, `collect` does [C35].
7. A left-associative operator of precedence `usize::MAX` overflows [C41].
8. `ShortVec` of zero-sized elements asks the allocator for zero bytes [C46]. It is reached from safe code: `BinExprParser` with
   zero-sized expressions and operators, once five operators compete for an operand, as in `x>x>x>x>x>x` with a
   right-associative `>` [C84]. `Drop` of a vector frees its block after the elements: a destructor that panics leaks
   it [C101], in a binary expression too [C127]. `push` writes through a pointer made from `&self`, which the aliasing rules forbid: every first element pushed into
   the inline buffer, so every binary expression whose stack is used, is undefined behaviour unless it has interior
   mutability [C121]. By reading only: doubling the capacity may panic where `len + 1` would still fit.
9. `Notify`'s version counter wraps after 2^64 sends [`C49_wraps`]. A `Wait` polled again keeps its earlier wakers: they pile up
   and are all woken [C86]. A waker that panics leaves the others asleep for ever and the `Notify` unusable [C94]; one that sends, or
   polls a `Wait` that is not ready, deadlocks [C95].
10. `[T; 0]` implements `ShouldNever` and has a value [C52].
11. `Request::capacity` is the room left instead of the whole room: `push_item` refuses at half the room or writes outside it,
    by the parity of the room [C53]; `IteratorSource` ignores the refusal and loses items [C54]. `shrink_to` drops items
    before it shortens the buffer: if a destructor panics, they are dropped again [C113].
12. A load that is cancelled, or whose future is dropped, after it got a new buffer loses the old one [C56, C77].
    `load` calls its source at once: on an `IteratorSource`, a load that is never polled has taken a chunk, or dropped everything pending
    at the end of the iterator [C100].
    Dropping a chain of unread segments recurses once per segment, so a long one overflows the stack [C88].
13. The validator's `finish` ignores kept bytes, so a truncated character at the end goes unreported [C62]; its writer's `capacity`
    subtracts the kept bytes twice, so without overflow checks `spare_capacity` may give a slice beyond the allocation [C63]; a dropped load leaves raw bytes that are later committed as text [C78];
    a failed load leaves the bytes kept back, so that a later load can complete a character the source never wrote [C85];
    the kept bytes are copied into the new buffer without a look at its room, so a `BufferStrategy` that returns too little, or in a
    release build a request of almost `usize::MAX`, makes safe code write out of bounds [C123].
14. `DefaultSegments::next` may return `None` though items arrived before the end was flagged [C65], and a parser
    then fails on input it should accept [C91];
    `DefaultSequence::advance` forgets what is left to skip when it has to wait [C67].
15. The calculator's `display` does not round-trip exactly [C69]; it panics on integers out of range, on overflowing arithmetic, on
    division by zero, and on non-ASCII text where an operand or `)` is expected [C80_exact, C81_checked]; the grammar of the cache example panics on such text too [C109].
    An empty segment inside a number ends the number [C96]. A long text without parentheses is parsed by a loop, but shown, evaluated and
    dropped by calls inside one another, one for each operator, so it overflows the stack [C111]; so do nested parentheses while parsing, and `(1 + 1 + ...` without `)`, where what was read is dropped.
16. By reading only: `LineColumnMeter`, `LF`, `CR` and `CRLF` are not `Clone`, which `RewindSequence for Measured` asks of the meter, so
    a text measured in lines and columns cannot be given to a parser that rewinds; the model's rewinding of `MeasuredStr` is for
    meters that are.
17. By reading only: nothing in the repository sets `done_flag` or sends `append_signal`; `ParseRunner::parse` is `todo!()`.

## Trying the theorems against wrong programs

`seeded/LOG.jsonl` has one line per attempt: in a copy outside the repository one definition of the model is edited the way a
realistic bug would, everything that depends on it is rebuilt, a theorem whose proof breaks is replaced by `sorry`, and the
manifest's theorems that now rest on a `sorry` are those the edit breaks. `proofs_broken_directly` lists where the break showed first.
An edit that breaks a claim without breaking a theorem leads to a tighter theorem (`theorems_tightened`). Some edits are controls that
change nothing observable.

## Axioms, theorem by theorem

Printed by `#print axioms` for the 555 theorems in the manifest.

* No axiom (9): `C04_measured`, `C52_false`, `C52_always_first_panics`, `C52_types`, `C89_false`, `C90_false`,
  `C122_measured`, `C122_measured_slice`, `C125_false`.
* `propext` alone (23): `C01_slice_advance`, `C01_slice_advance_off`, `C02_slice_zst_counterexample`, `C04_false`,
  `C05_has_path`, `C20_as_ref`, `C20_boxed`, `C46_false`, `C52_partial`, `C52_exact`, `C52_always`, `Runner.C65_false`,
  `C68_compositional`, `C75_none`, `C81`, `C90_exact`, `AdvanceCell.C93_after_ready`, `C113_false`, `torn_case`,
  `RunnerWeak.C118_end_stale`, `C120_settled_is_final`, `Aliasing.C121_start`, `C122_measured_false`.
* `Quot.sound` alone (3): `C99_mapWhile_some`, `C99_tryMapEach_ok`, `C99_mapEach_scan`.
* `propext` and `Quot.sound` (116): `C01_str_advance`, `C01_str_advance_off`, `C01_str_advance_add`, `C01_slice_advance_add`,
  `C03_str_rewind_backward`, `C03_slice_rewind_backward`, `C04_over_advance_ub`, `C04_partial`, `C04_measured_over`,
  `C04_measured_inside`, `C05_measured_lockstep`, `C05_slice_lockstep`, `C05_any_meter`, `C05_any_meter_slice`,
  `C05_measured_count`, `C05_lineColumn_additive`, `C06_lf_line_column`, `C06_cr_line_column`, `C07_false`, `C07_exact`,
  `C07_partial`, `total_count`, `C15_or_succeeds`, `C15_or_fails`, `C15_or_second_not_run`, `C16_optional_succeeds`,
  `C16_optional_fails`, `C19_join_succeeds`, `C19_join_fails`, `C20_map`, `C20_map_err`, `C20_unify`, `C20_unify_err`,
  `C20_and_then`, `C20_map_id`, `C20_map_comp`, `C20_map_err_comp`, `C28_take`, `C29_map_each`, `C30_scan`, `C31_map_while`,
  `C32_try_map_each`, `C33_optional`, `C33_optional_once`, `C43_alloc`, `C43_realloc`, `C43_dealloc`, `C43_usize`,
  `Notify.C49_wraps`, `C51_filtered`, `C51_filter`, `iteratorSource_is_script`, `C59_cut`, `Runner.C67_false`, `C75_some`,
  `C76_either`, `C81_checked`, `C81_wrapping`, `C81_wrapping_panics`, `Notify.C86_false`, `Notify.C86_grows`, `C89_exact`,
  `C89_partial_lf`, `C89_partial_cr`, `C89_partial_crlf`, `AdvanceCell.C93_no_dangling_use`, `AdvanceCell.C93_beside`,
  `AdvanceCell.C93_one_owner`, `Notify.C94_false`, `Notify.C95_case_drop`, `C97_any`, `C98_map_map`, `C98_map_id`,
  `C98_mapErr_mapErr`, `C98_map_mapErr`, `C98_andThen_ok`, `C98_andThen_andThen`, `C98_join_assoc`, `C98_join_map`,
  `C98_join_mapErr`, `C98_or_map`, `C98_or_mapErr`, `C98_or_assoc`, `C98_left_factor`, `C98_or_self`, `C98_optional_or`,
  `C99_mapEach_mapEach`, `C99_mapEach_id`, `C99_mapWhile_mapWhile`, `C99_tryMapEach_miss`, `C99_take_mapEach`, `C101_false`,
  `C103_steps`, `C103_operators`, `C107_join`, `C107_or`, `C107_optional`, `C111_drop`, `C112_text`, `C112_slice`,
  `C112_exact_wrapping`, `C115_unambiguous`, `C116_ranges`, `C116_order`, `Notify.C117_stale`, `C119_str`, `C119_slice`,
  `Aliasing.C121_not_granted`, `Aliasing.C121_read`, `C122_partial`, `C122_slice_partial`, `Runner.C124_tight`, `C125_view`,
  `C125_push`, `C125_partial`, `Runner.C130_later`.
* `propext`, `Quot.sound` and `Classical.choice` (404): `C02_str_rewind`, `C02_slice_rewind`, `C02_measured_str_rewind`,
  `C02_measured_slice_rewind`, `C08_metrics_order`, `C09_any_char`, `C09_any_item`, `C09_any_char_unbounded`,
  `C09_any_item_unbounded`, `C10_the_char`, `C10_the_item`, `C11_atom_slice`, `C11_atom_str`, `C12_false`, `C12_exact`,
  `C12_empty_pattern`, `C12_partial`, `C12_exact_text`, `C12_partial_text`, `C12_mid_char`, `C13_false`, `C13_exact`,
  `C13_partial`, `C13_exact_segmented`, `C13_partial_segmented`, `C14_any_char`, `C14_any_item`, `C14_the_char`,
  `C14_the_item`, `C14_atom`, `C17_repeat_succeeds`, `C17_repeat_fails`, `C17_repeat_maximal`, `C18_repeat_terminates`,
  `C18_repeat_diverges`, `C18_repeat_non_consuming`, `C21_fatal_is_final`, `C21_watched`, `C22_false`, `C22_exact`,
  `C22_once_exact`, `C22_partial`, `C23_parse_once_eq_parse`, `C23_iterations_agree`, `C23_leaves`,
  `C24_locations_rewindable`, `C24_texts`, `C24_items`, `C25_recognises`, `C25_rejects`, `C25_diverges`, `C25_every_grammar`,
  `C26_fold_succeeds`, `C26_fold_fails`, `C26_fold_stuck`, `C26_once_stuck`, `C27_collect_vec`, `C27_collect_any`,
  `C27_collect_stuck`, `C27_once_any`, `C27_once_stuck`, `C28_take_ends`, `C28_once_ends`, `C34_collect_repeat`,
  `C34_once_collect`, `C34_fatal`, `C35_false`, `C35_exact`, `C35_once_exact`, `C35_partial`, `C36_in_order`, `C36_listing`,
  `C37_grouped_as_declared`, `C38_unique_grouping`, `C38_returns_it`, `C39_dangling_operator`, `C39_failures`,
  `C40_unreachable_is_dead`, `C40_no_panic_of_its_own`, `C40_no_panic_lawful`, `C41_false`, `C41_partial`,
  `C41_exact_wrapping`, `C41_exact_checked`, `C42_behaves_like_a_stack`, `C42_fits`, `C42_aborts_only_without_memory`,
  `C43_no_undefined_behaviour`, `C43_invariants`, `C43_read`, `C43_write`, `C44_no_allocation`, `C45_conservation`,
  `C45_nothing_left`, `C46_partial`, `C46_exact`, `Notify.C47_no_lost_wakeup`, `Notify.C48_not_ready_before_send`,
  `Notify.C49_ready_after_send`, `Notify.C49_returns_at_once`, `Notify.C50_wakes_all_sleepers`, `Notify.C50_at_most_once`,
  `Notify.C50_list_is_asleep`, `Notify.C50_wakes_only_sleepers`, `Notify.C50_remove_succeeds`, `C53_false`,
  `C53_writes_outside`, `C53_exact`, `C53_partial`, `C53_spare_capacity`, `C54_false`, `C54_exact`, `C54_partial`,
  `C54_partial_single`, `C54_loads_return`, `C55_conservation`, `C55_in_order`, `C55_force_commit`, `C55_finished`,
  `C56_false`, `C56_exact`, `C56_partial`, `C57_truthful`, `C57_pending_is_visible_next`, `C58_skips`, `C58_zero`,
  `C58_never_fails`, `C58_terminates`, `C59_in_order`, `C59_exhausted`, `C59_drains`, `C59_segments`, `C59_all_segments`,
  `C59_items`, `C60_passes`, `C60_valid`, `C61_no_error`, `C61_whole`, `C61_finished`, `C61_stream`, `C62_false`,
  `C62_exact`, `C62_reports`, `C62_partial`, `C63_false`, `C63_exact`, `C63_push`, `C63_spare`, `C63_lawful`, `C63_slice`,
  `C63_panics`, `C63_partial`, `Runner.C64_in_order`, `Runner.C64_prefix`, `Runner.C64_segments`, `Runner.C65_exact`,
  `Runner.C65_partial`, `Runner.C65_done_before`, `Runner.C66_woken`, `Runner.C66_not_stuck`, `Runner.C66_progress`,
  `Runner.C67_exact`, `Runner.C67_at_most`, `Runner.C67_partial`, `Runner.C67_resolves`, `Runner.C67_first_poll`,
  `C69_false`, `C69_exact`, `C69_partial`, `C70`, `C71_segmentation_independent_text`, `C71_segmentation_independent_items`,
  `C72_measuring_is_transparent`, `C73_terminates`, `C73_rest_is_shorter`, `Notify.C74_no_deadlock`,
  `Notify.C74_calls_return`, `C77_false`, `C77_exact`, `C77_partial`, `C78_false`, `C78_exact`, `C78_lost`, `C78_partial`,
  `C79`, `C79_misses`, `C79_reads`, `C79_unambiguous`, `C80`, `C80_sane`, `C80_exact`, `C80_panics`, `C81_text`,
  `C81_wrapping_text`, `Runner.C82_skips_what_was_shown`, `Runner.C82_at_once`, `C83_same_results`, `C83_failure_drops`,
  `C83_inline`, `C83_four_levels`, `C84_false`, `C84_partial`, `C84_exact`, `C85_false`, `C85_partial`, `C85_exact`,
  `Notify.C86_exact`, `Notify.C86_partial`, `C87_no_use_after_free`, `C87_once`, `C87_keeps`, `C87_frees`,
  `C87_loader_alone`, `C87_all`, `C88_false`, `C88_deep`, `C88_exact`, `C88_partial`, `C89_exact_crlf`, `C90_partial`,
  `Runner.C91_false`, `Runner.C91_partial`, `Runner.C91_parser`, `Runner.C91_any_item`, `Spec.anyItem_reifies`,
  `Spec.theItem_reifies`, `Spec.atom_reifies`, `Spec.join_reifies`, `Spec.map_reifies`, `Spec.mapErr_reifies`,
  `Spec.andThen_reifies`, `C92_cut_off`, `C92_to_the_end`, `C92_every_panic`, `C92_steps`, `Notify.C94_partial`,
  `Notify.C94_until`, `Notify.C94_silence`, `Notify.C94_asleep`, `Notify.C94_goes_on`, `Notify.C94_dropped`,
  `Notify.C94_kept`, `Notify.C95_false`, `Notify.C95_stuck`, `Notify.C95_send`, `Notify.C95_partial`, `Notify.C95_exact`,
  `Notify.C95_case_clone`, `C96_partial`, `C96_gap`, `C96_false`, `C97_keywords`, `C97_empty`, `C98_repeat_cons`,
  `C98_no_right_factor`, `C99_take_take`, `C99_take_take_collect`, `C99_mapEach_fold`, `C99_mapEach_collect`,
  `C99_scan_fold`, `C99_take_mapWhile`, `C99_take_mapWhile_collect`, `C100_false`, `C100_exact`, `C100_partial`,
  `C100_returns`, `C100_all_lost`, `C101_exact`, `C101_partial`, `C101_conservation`, `C101_no_undefined_behaviour`,
  `C101_aborts`, `C101_abort`, `C101_drop`, `C102_all_counted`, `C102_requests`, `C102_inline`, `C102_moved`,
  `C102_amortised`, `C103_calls`, `C103_returns`, `C103_finite`, `Runner.C104_not_stuck`, `Runner.C104_progress`,
  `Runner.C104_first`, `C105_partial`, `C105_exact`, `C105_sharp`, `C105_false`, `C106`, `C106_str`, `C107_repeat`, `C108`,
  `C108_misses`, `C108_reads`, `C108_unambiguous`, `C108_inputs`, `C108_cuts`, `C109`, `C109_panics`, `C110`, `C110_str`,
  `C110_inputs`, `C111_partial`, `C111_parse`, `C111_whole`, `C111_bound`, `C111_display`, `C111_eval`, `C111_exact`,
  `C111_any`, `C111_flat`, `C111_unclosed`, `C111_false`, `C112_exact_checked`, `C113_partial`, `C113_exact`, `C113_shrink`,
  `C113_conservation`, `C113_cancel`, `C113_torn`, `C113_quiet`, `C114_lines`, `C114_tests`, `C115`, `C115_misses`,
  `C115_reads`, `C115_test`, `C115_test_left`, `C115_returns`, `C115_panics`, `C115_cuts`, `Notify.C117_no_lost_wakeup`,
  `Notify.C117_no_lost_wakeup_after`, `Notify.C117_ready_after_send`, `Notify.C117_ready_unseen`, `Notify.C117_wakes`,
  `Notify.C117_no_deadlock`, `Notify.C117_calls_return`, `Notify.C117_extends`, `RunnerWeak.C118_in_order`,
  `RunnerWeak.C118_end`, `RunnerWeak.C118_end_all`, `RunnerWeak.C118_next_woken`, `RunnerWeak.C118_advance_woken`,
  `RunnerWeak.C118_skips`, `RunnerWeak.C118_extends`, `C120_succeeds`, `C120_fails`, `C120_waits`, `C120_early_text`,
  `C120_early_items`, `C120_any_char`, `C120_the_char`, `C120_any_item`, `C120_the_item`, `C120_atom`, `Aliasing.C121_false`,
  `Aliasing.C121_partial`, `Aliasing.C121_elements_partial`, `Aliasing.C121_exact`, `Aliasing.C121_first_push`,
  `Aliasing.C121_write`, `Aliasing.C121_raw`, `Aliasing.C121_places`, `C122_false`, `C122_overlap`, `C122_str_exact`,
  `C122_slice_exact`, `C123_false`, `C123_false_lawful`, `C123_stingy`, `C123_wraps`, `C123_exact`, `C123_lawful`,
  `C123_load`, `C123_partial`, `Runner.C124_wakes`, `Runner.C124_polls`, `Runner.C124_quiet`, `C125_exact`, `C125_needed`,
  `Runner.C126_false`, `Runner.C126_unbounded`, `Runner.C126_between`, `Runner.C126_partial`, `Runner.C126_since`,
  `Runner.C126_list`, `C127_false`, `C127_partial`, `C127_exact`, `C127_step`, `C127_aborts`, `C127_to_the_end`, `C128`,
  `C128_counts`, `C128_exact`, `C129`, `C129_left`, `C129_careful`, `Runner.C130`, `Runner.C130_next`,
  `RunnerWeak.C130_weak`, `RunnerWeak.C130_told`.
