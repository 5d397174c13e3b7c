{
 "claims": [
  {
   "property": "C01",
   "status": "proved",
   "theorems": [
    "Parcom.C01_str_advance",
    "Parcom.C01_str_advance_off",
    "Parcom.C01_str_advance_add",
    "Parcom.C01_slice_advance",
    "Parcom.C01_slice_advance_off",
    "Parcom.C01_slice_advance_add"
   ],
   "note": "&str and &[T]; out-of-range and off-boundary deltas included."
  },
  {
   "property": "C02",
   "status": "proved",
   "theorems": [
    "Parcom.C02_str_rewind",
    "Parcom.C02_slice_rewind",
    "Parcom.C02_measured_str_rewind",
    "Parcom.C02_measured_slice_rewind",
    "Parcom.C02_slice_zst_counterexample"
   ],
   "note": "For &[T] the element type must not be zero-sized: for zero-sized T rewind always panics, shown by the counterexample theorem."
  },
  {
   "property": "C03",
   "status": "proved",
   "theorems": [
    "Parcom.C03_str_rewind_backward",
    "Parcom.C03_slice_rewind_backward"
   ],
   "note": ""
  },
  {
   "property": "C04",
   "status": "partial",
   "theorems": [
    "Parcom.C04_false",
    "Parcom.C04_over_advance_ub",
    "Parcom.C04_partial",
    "Parcom.C04_measured",
    "Parcom.C04_measured_over",
    "Parcom.C04_measured_inside"
   ],
   "note": "The code violates the full statement (C04Statement): over-advancing a &str yields a pointer into another object, and rewinding it is undefined behaviour. C04_partial covers advancing within bounds."
  },
  {
   "property": "C05",
   "status": "proved",
   "theorems": [
    "Parcom.C05_measured_lockstep",
    "Parcom.C05_slice_lockstep",
    "Parcom.C05_any_meter",
    "Parcom.C05_any_meter_slice",
    "Parcom.C05_has_path",
    "Parcom.C05_measured_count",
    "Parcom.C05_lineColumn_additive"
   ],
   "note": "A meter for which it matters how a text is cut is fed with exactly the pieces between the start and here, one for each advance not taken back (C05_any_meter); for the others, which the meters of the library are, how it was cut makes no difference."
  },
  {
   "property": "C06",
   "status": "proved",
   "theorems": [
    "Parcom.C06_lf_line_column",
    "Parcom.C06_cr_line_column"
   ],
   "note": ""
  },
  {
   "property": "C07",
   "status": "partial",
   "theorems": [
    "Parcom.C07_false",
    "Parcom.C07_exact",
    "Parcom.C07_partial"
   ],
   "note": "The code violates the full statement: \\r\\r\\n is not counted as a terminator. C07_exact says what is counted on every text; C07_partial covers texts without \\r\\r\\n."
  },
  {
   "property": "C08",
   "status": "proved",
   "theorems": [
    "Parcom.C08_metrics_order",
    "Parcom.total_count"
   ],
   "note": ""
  },
  {
   "property": "C09",
   "status": "proved",
   "theorems": [
    "Parcom.C09_any_char",
    "Parcom.C09_any_item",
    "Parcom.C09_any_char_unbounded",
    "Parcom.C09_any_item_unbounded"
   ],
   "note": ""
  },
  {
   "property": "C10",
   "status": "proved",
   "theorems": [
    "Parcom.C10_the_char",
    "Parcom.C10_the_item"
   ],
   "note": ""
  },
  {
   "property": "C11",
   "status": "proved",
   "theorems": [
    "Parcom.C11_atom_slice",
    "Parcom.C11_atom_str"
   ],
   "note": ""
  },
  {
   "property": "C12",
   "status": "partial",
   "theorems": [
    "Parcom.C12_false",
    "Parcom.C12_exact",
    "Parcom.C12_empty_pattern",
    "Parcom.C12_partial",
    "Parcom.C12_exact_text",
    "Parcom.C12_partial_text",
    "Parcom.C12_mid_char"
   ],
   "note": "The code violates the full statement: only the last segment's part of the pattern is consumed, and an empty pattern fails when no segment is delivered. C12_exact gives the behaviour on every segmentation of items. C12_exact_text does so for texts."
  },
  {
   "property": "C13",
   "status": "partial",
   "theorems": [
    "Parcom.C13_false",
    "Parcom.C13_exact",
    "Parcom.C13_partial",
    "Parcom.C13_exact_segmented",
    "Parcom.C13_partial_segmented"
   ],
   "note": "The code violates the full statement: split_at panics inside a multi-byte char. C13_exact is the exact condition, C13_exact_segmented the one for segmented texts."
  },
  {
   "property": "C14",
   "status": "proved",
   "theorems": [
    "Parcom.C14_any_char",
    "Parcom.C14_any_item",
    "Parcom.C14_the_char",
    "Parcom.C14_the_item",
    "Parcom.C14_atom"
   ],
   "note": ""
  },
  {
   "property": "C15",
   "status": "proved",
   "theorems": [
    "Parcom.C15_or_succeeds",
    "Parcom.C15_or_fails",
    "Parcom.C15_or_second_not_run"
   ],
   "note": "For parsers whose failure locations descend from their input (C24 shows all nestings do); parse_once by C23."
  },
  {
   "property": "C16",
   "status": "proved",
   "theorems": [
    "Parcom.C16_optional_succeeds",
    "Parcom.C16_optional_fails"
   ],
   "note": ""
  },
  {
   "property": "C17",
   "status": "proved",
   "theorems": [
    "Parcom.C17_repeat_succeeds",
    "Parcom.C17_repeat_fails",
    "Parcom.C17_repeat_maximal"
   ],
   "note": ""
  },
  {
   "property": "C18",
   "status": "proved",
   "theorems": [
    "Parcom.C18_repeat_terminates",
    "Parcom.C18_repeat_diverges",
    "Parcom.C18_repeat_non_consuming"
   ],
   "note": ""
  },
  {
   "property": "C19",
   "status": "proved",
   "theorems": [
    "Parcom.C19_join_succeeds",
    "Parcom.C19_join_fails"
   ],
   "note": ""
  },
  {
   "property": "C20",
   "status": "proved",
   "theorems": [
    "Parcom.C20_map",
    "Parcom.C20_map_err",
    "Parcom.C20_unify",
    "Parcom.C20_unify_err",
    "Parcom.C20_as_ref",
    "Parcom.C20_boxed",
    "Parcom.C20_and_then",
    "Parcom.C20_map_id",
    "Parcom.C20_map_comp",
    "Parcom.C20_map_err_comp"
   ],
   "note": ""
  },
  {
   "property": "C21",
   "status": "proved",
   "theorems": [
    "Parcom.C21_fatal_is_final",
    "Parcom.C21_watched"
   ],
   "note": "Every nesting of the combinators and adaptors except collect (see C22), over any parsers whatever; functions passed to map_err etc. must not themselves change whether an error terminates."
  },
  {
   "property": "C22",
   "status": "partial",
   "theorems": [
    "Parcom.C22_false",
    "Parcom.C22_exact",
    "Parcom.C22_once_exact",
    "Parcom.C22_partial"
   ],
   "note": "The code violates the full statement (C22Statement): collect never fails. A fatal error is reported inside a successful output."
  },
  {
   "property": "C23",
   "status": "proved",
   "theorems": [
    "Parcom.C23_parse_once_eq_parse",
    "Parcom.C23_iterations_agree",
    "Parcom.C23_leaves"
   ],
   "note": "Every nesting of the combinators and iterative adaptors; results, panics and divergence."
  },
  {
   "property": "C24",
   "status": "proved",
   "theorems": [
    "Parcom.C24_locations_rewindable",
    "Parcom.C24_texts",
    "Parcom.C24_items"
   ],
   "note": "Every nesting over leaves whose locations descend from their input; all primitive parsers are shown to be such leaves, atom on texts in one piece."
  },
  {
   "property": "C25",
   "status": "proved",
   "theorems": [
    "Parcom.C25_recognises",
    "Parcom.C25_rejects",
    "Parcom.C25_diverges",
    "Parcom.C25_every_grammar"
   ],
   "note": "On every lawful rewindable text sequence, however segmented (&str, Measured and segmented texts are instances)."
  },
  {
   "property": "C26",
   "status": "proved",
   "theorems": [
    "Parcom.C26_fold_succeeds",
    "Parcom.C26_fold_fails",
    "Parcom.C26_fold_stuck",
    "Parcom.C26_once_stuck"
   ],
   "note": ""
  },
  {
   "property": "C27",
   "status": "proved",
   "theorems": [
    "Parcom.C27_collect_vec",
    "Parcom.C27_collect_any",
    "Parcom.C27_collect_stuck",
    "Parcom.C27_once_any",
    "Parcom.C27_once_stuck"
   ],
   "note": ""
  },
  {
   "property": "C28",
   "status": "proved",
   "theorems": [
    "Parcom.C28_take",
    "Parcom.C28_take_ends",
    "Parcom.C28_once_ends"
   ],
   "note": ""
  },
  {
   "property": "C29",
   "status": "proved",
   "theorems": [
    "Parcom.C29_map_each"
   ],
   "note": ""
  },
  {
   "property": "C30",
   "status": "proved",
   "theorems": [
    "Parcom.C30_scan"
   ],
   "note": ""
  },
  {
   "property": "C31",
   "status": "proved",
   "theorems": [
    "Parcom.C31_map_while"
   ],
   "note": ""
  },
  {
   "property": "C32",
   "status": "proved",
   "theorems": [
    "Parcom.C32_try_map_each"
   ],
   "note": ""
  },
  {
   "property": "C33",
   "status": "proved",
   "theorems": [
    "Parcom.C33_optional",
    "Parcom.C33_optional_once"
   ],
   "note": ""
  },
  {
   "property": "C34",
   "status": "proved",
   "theorems": [
    "Parcom.C34_collect_repeat",
    "Parcom.C34_once_collect",
    "Parcom.C34_fatal"
   ],
   "note": ""
  },
  {
   "property": "C35",
   "status": "partial",
   "theorems": [
    "Parcom.C35_false",
    "Parcom.C35_exact",
    "Parcom.C35_once_exact",
    "Parcom.C35_partial"
   ],
   "note": "The code violates the full statement (C35Statement): map_while and try_map_each consume the item they reject, which fold leaves consumed and collect gives back. C35_partial covers all other adaptors."
  },
  {
   "property": "C36",
   "status": "proved",
   "theorems": [
    "Parcom.C36_in_order",
    "Parcom.C36_listing"
   ],
   "note": ""
  },
  {
   "property": "C37",
   "status": "proved",
   "theorems": [
    "Parcom.C37_grouped_as_declared"
   ],
   "note": ""
  },
  {
   "property": "C38",
   "status": "proved",
   "theorems": [
    "Parcom.C38_unique_grouping",
    "Parcom.C38_returns_it"
   ],
   "note": ""
  },
  {
   "property": "C39",
   "status": "proved",
   "theorems": [
    "Parcom.C39_dangling_operator",
    "Parcom.C39_failures"
   ],
   "note": ""
  },
  {
   "property": "C40",
   "status": "proved",
   "theorems": [
    "Parcom.C40_unreachable_is_dead",
    "Parcom.C40_no_panic_of_its_own",
    "Parcom.C40_no_panic_lawful"
   ],
   "note": ""
  },
  {
   "property": "C41",
   "status": "partial",
   "theorems": [
    "Parcom.C41_false",
    "Parcom.C41_partial",
    "Parcom.C41_exact_wrapping",
    "Parcom.C41_exact_checked"
   ],
   "note": "The code violates the full statement (C41Statement): next_precedence adds 1 to usize::MAX for a left-associative operator. With overflow checks it panics once another operator follows, without them the operator groups to the right."
  },
  {
   "property": "C42",
   "status": "proved",
   "theorems": [
    "Parcom.C42_behaves_like_a_stack",
    "Parcom.C42_fits",
    "Parcom.C42_aborts_only_without_memory"
   ],
   "note": "For programs over any number of vectors, panics caught and continued after."
  },
  {
   "property": "C43",
   "status": "proved",
   "theorems": [
    "Parcom.C43_no_undefined_behaviour",
    "Parcom.C43_invariants",
    "Parcom.C43_read",
    "Parcom.C43_write",
    "Parcom.C43_alloc",
    "Parcom.C43_realloc",
    "Parcom.C43_dealloc",
    "Parcom.C43_usize"
   ],
   "note": "C43_read to C43_dealloc say which accesses count as undefined. The aliasing rules are C121, and do not hold."
  },
  {
   "property": "C44",
   "status": "proved",
   "theorems": [
    "Parcom.C44_no_allocation"
   ],
   "note": ""
  },
  {
   "property": "C45",
   "status": "proved",
   "theorems": [
    "Parcom.C45_conservation",
    "Parcom.C45_nothing_left"
   ],
   "note": ""
  },
  {
   "property": "C46",
   "status": "partial",
   "theorems": [
    "Parcom.C46_false",
    "Parcom.C46_partial",
    "Parcom.C46_exact"
   ],
   "note": "The code violates the full statement (C46Statement): with zero-sized elements, capacity beyond N asks the allocator for zero bytes, which is undefined behaviour."
  },
  {
   "property": "C47",
   "status": "proved",
   "theorems": [
    "Parcom.Notify.C47_no_lost_wakeup"
   ],
   "note": "Any number of threads, any interleaving; sequentially consistent atomics as the code asks for."
  },
  {
   "property": "C48",
   "status": "proved",
   "theorems": [
    "Parcom.Notify.C48_not_ready_before_send"
   ],
   "note": ""
  },
  {
   "property": "C49",
   "status": "proved",
   "theorems": [
    "Parcom.Notify.C49_ready_after_send",
    "Parcom.Notify.C49_returns_at_once",
    "Parcom.Notify.C49_wraps"
   ],
   "note": "The 2^64 qualifier is necessary: Notify.C49_wraps."
  },
  {
   "property": "C50",
   "status": "proved",
   "theorems": [
    "Parcom.Notify.C50_wakes_all_sleepers",
    "Parcom.Notify.C50_at_most_once",
    "Parcom.Notify.C50_list_is_asleep",
    "Parcom.Notify.C50_wakes_only_sleepers",
    "Parcom.Notify.C50_remove_succeeds"
   ],
   "note": ""
  },
  {
   "property": "C51",
   "status": "proved",
   "theorems": [
    "Parcom.C51_filtered",
    "Parcom.C51_filter"
   ],
   "note": ""
  },
  {
   "property": "C52",
   "status": "partial",
   "theorems": [
    "Parcom.C52_false",
    "Parcom.C52_always_first_panics",
    "Parcom.C52_partial",
    "Parcom.C52_types",
    "Parcom.C52_exact",
    "Parcom.C52_always"
   ],
   "note": "The code violates the full statement (C52Statement): [T; 0] has a value and an implementation. C52_types lists the types with the trait; C52_exact says which of them are inhabited."
  },
  {
   "property": "C53",
   "status": "partial",
   "theorems": [
    "Parcom.C53_false",
    "Parcom.C53_writes_outside",
    "Parcom.C53_exact",
    "Parcom.C53_partial",
    "Parcom.C53_spare_capacity"
   ],
   "note": "The code violates the full statement (C53Statement): capacity() of the loader's writer is the room left, not the whole room. C53_exact says what happens instead, by the parity of the room."
  },
  {
   "property": "C54",
   "status": "partial",
   "theorems": [
    "Parcom.C54_false",
    "Parcom.C54_exact",
    "Parcom.C54_partial",
    "Parcom.C54_partial_single",
    "Parcom.C54_loads_return",
    "Parcom.iteratorSource_is_script"
   ],
   "note": "The code violates the full statement (C54Statement): refused items are dropped, so of a chunk only half may arrive. C54_partial gives the half that does, C54_exact the exact number."
  },
  {
   "property": "C55",
   "status": "proved",
   "theorems": [
    "Parcom.C55_conservation",
    "Parcom.C55_in_order",
    "Parcom.C55_force_commit",
    "Parcom.C55_finished"
   ],
   "note": ""
  },
  {
   "property": "C56",
   "status": "partial",
   "theorems": [
    "Parcom.C56_false",
    "Parcom.C56_exact",
    "Parcom.C56_partial"
   ],
   "note": "The code violates the full statement (C56Statement): a load cancelled after it got a new buffer drops the old one. C56_exact says when."
  },
  {
   "property": "C57",
   "status": "proved",
   "theorems": [
    "Parcom.C57_truthful",
    "Parcom.C57_pending_is_visible_next"
   ],
   "note": ""
  },
  {
   "property": "C58",
   "status": "proved",
   "theorems": [
    "Parcom.C58_skips",
    "Parcom.C58_zero",
    "Parcom.C58_never_fails",
    "Parcom.C58_terminates"
   ],
   "note": ""
  },
  {
   "property": "C59",
   "status": "proved",
   "theorems": [
    "Parcom.C59_in_order",
    "Parcom.C59_exhausted",
    "Parcom.C59_drains",
    "Parcom.C58_never_fails",
    "Parcom.C59_segments",
    "Parcom.C59_all_segments",
    "Parcom.C59_items",
    "Parcom.C59_cut"
   ],
   "note": "C59_segments: segment by segment. C59_cut: the segments are those committed, the first perhaps without its beginning; one of which nothing is left is not shown, and advance also passes empty ones."
  },
  {
   "property": "C60",
   "status": "proved",
   "theorems": [
    "Parcom.C60_passes",
    "Parcom.C60_valid"
   ],
   "note": "C60_passes is about the validator on any control; C60_valid about what becomes visible, for histories in which no load future is dropped; with dropped loads it is false, see C78."
  },
  {
   "property": "C61",
   "status": "proved",
   "theorems": [
    "Parcom.C61_no_error",
    "Parcom.C61_whole",
    "Parcom.C61_finished",
    "Parcom.C61_stream"
   ],
   "note": "C61_stream is end to end for sources that write their chunks behind what is written without asking for the capacity; with push_item data is lost or the program panics, see C53 and C63."
  },
  {
   "property": "C62",
   "status": "partial",
   "theorems": [
    "Parcom.C62_false",
    "Parcom.C62_exact",
    "Parcom.C62_reports",
    "Parcom.C62_partial"
   ],
   "note": "The code violates it: a stream that ends with up to three malformed or truncated bytes ends without an error. C62_reports says exactly when an error is reported, C62_exact what has been passed on."
  },
  {
   "property": "C63",
   "status": "partial",
   "theorems": [
    "Parcom.C63_false",
    "Parcom.C63_exact",
    "Parcom.C63_push",
    "Parcom.C63_spare",
    "Parcom.C63_lawful",
    "Parcom.C63_slice",
    "Parcom.C63_panics",
    "Parcom.C63_partial"
   ],
   "note": "The code violates it: the kept bytes are subtracted twice from the capacity, which panics with overflow checks. C63_exact gives the capacity, C63_push what push_item does, C63_spare what spare_capacity does: a slice that is too short, or a panic, or without overflow checks a slice beyond the allocation. C63_lawful: apart from the capacity the writer is a buffer. C63_partial: nothing kept back."
  },
  {
   "property": "C64",
   "status": "proved",
   "theorems": [
    "Parcom.Runner.C64_in_order",
    "Parcom.Runner.C64_prefix",
    "Parcom.Runner.C64_segments"
   ],
   "note": "Any interleaving of the user's polls with loads, commits, sends and the setting of done_flag. C64_segments: segment by segment; what is ahead is said by C59_cut."
  },
  {
   "property": "C65",
   "status": "partial",
   "theorems": [
    "Parcom.Runner.C65_false",
    "Parcom.Runner.C65_exact",
    "Parcom.Runner.C65_partial",
    "Parcom.Runner.C65_done_before"
   ],
   "note": "The code violates it: items made visible between the second look at the iterator and the look at done_flag are never delivered. C65_exact says which; C65_done_before: done_flag set before the poll."
  },
  {
   "property": "C66",
   "status": "proved",
   "theorems": [
    "Parcom.Runner.C66_woken",
    "Parcom.Runner.C66_not_stuck",
    "Parcom.Runner.C66_progress"
   ],
   "note": "Nothing in the repository signals or sets done_flag yet; the theorems assume that what is made visible is followed by a send, and fewer than 2^64 sends."
  },
  {
   "property": "C67",
   "status": "partial",
   "theorems": [
    "Parcom.Runner.C67_false",
    "Parcom.Runner.C67_exact",
    "Parcom.Runner.C67_at_most",
    "Parcom.Runner.C67_partial",
    "Parcom.Runner.C67_resolves",
    "Parcom.Runner.C67_first_poll"
   ],
   "note": "The code violates it: what buffer.advance could not skip is forgotten when the poll returns Pending. C67_exact says what is skipped; C67_partial: the items are there before the first poll. C67_resolves: what the future waits for; C67_first_poll: if it is ready in its first poll before the end, exactly n items were skipped."
  },
  {
   "property": "C68",
   "status": "proved",
   "theorems": [
    "Parcom.C68_compositional"
   ],
   "note": "&T is T in the model."
  },
  {
   "property": "C69",
   "status": "partial",
   "theorems": [
    "Parcom.C69_false",
    "Parcom.C69_exact",
    "Parcom.C69_partial"
   ],
   "note": "The code violates it, if the text is the one that display writes: display puts parentheses around every operation, and these come back as Term::Parenthesized. C69_exact says which expression comes back; C69_partial: it has the same rendering and the same value. C79_reads is the round trip for every other way to write an expression."
  },
  {
   "property": "C70",
   "status": "proved",
   "theorems": [
    "Parcom.C70"
   ],
   "note": ""
  },
  {
   "property": "C71",
   "status": "proved",
   "theorems": [
    "Parcom.C71_segmentation_independent_text",
    "Parcom.C71_segmentation_independent_items"
   ],
   "note": ""
  },
  {
   "property": "C72",
   "status": "proved",
   "theorems": [
    "Parcom.C72_measuring_is_transparent"
   ],
   "note": ""
  },
  {
   "property": "C73",
   "status": "proved",
   "theorems": [
    "Parcom.C73_terminates",
    "Parcom.C73_rest_is_shorter"
   ],
   "note": ""
  },
  {
   "property": "C74",
   "status": "proved",
   "theorems": [
    "Parcom.Notify.C74_no_deadlock",
    "Parcom.Notify.C74_calls_return"
   ],
   "note": ""
  },
  {
   "property": "C75",
   "status": "proved",
   "theorems": [
    "Parcom.C75_none",
    "Parcom.C75_some"
   ],
   "note": ""
  },
  {
   "property": "C76",
   "status": "proved",
   "theorems": [
    "Parcom.C76_either"
   ],
   "note": ""
  },
  {
   "property": "C77",
   "status": "partial",
   "theorems": [
    "Parcom.C77_false",
    "Parcom.C77_exact",
    "Parcom.C77_partial"
   ],
   "note": "The code violates the full statement (C77Statement): a load dropped after it got a new buffer, or after its source had its result, drops the old one. C77_exact says what is left; C77_partial: loads that stay in the buffer (Keeps)."
  },
  {
   "property": "C78",
   "status": "partial",
   "theorems": [
    "Parcom.C78_false",
    "Parcom.C78_exact",
    "Parcom.C78_lost",
    "Parcom.C78_partial"
   ],
   "note": "The code violates it: a dropped load leaves unvalidated bytes in the loader's buffer. C78_exact says which; C78_lost is about loads dropped after the source had its result; C78_partial: no load is dropped between requesting a writer and advancing it."
  },
  {
   "property": "C79",
   "status": "proved",
   "theorems": [
    "Parcom.C79",
    "Parcom.C79_misses",
    "Parcom.C79_reads",
    "Parcom.C79_unambiguous"
   ],
   "note": "For every lawful sequence without empty segments inside the text (Gapless); &str and measured &str are such."
  },
  {
   "property": "C80",
   "status": "proved",
   "theorems": [
    "Parcom.C80",
    "Parcom.C80_sane",
    "Parcom.C80_exact",
    "Parcom.C80_panics"
   ],
   "note": "C80_exact says on which texts it panics. C80_panics: it does panic on a char of more than one byte, or a number above usize::MAX, where an operand is looked for."
  },
  {
   "property": "C81",
   "status": "proved",
   "theorems": [
    "Parcom.C81",
    "Parcom.C81_checked",
    "Parcom.C81_text",
    "Parcom.C81_wrapping",
    "Parcom.C81_wrapping_panics",
    "Parcom.C81_wrapping_text"
   ],
   "note": ""
  },
  {
   "property": "C82",
   "status": "proved",
   "theorems": [
    "Parcom.Runner.C82_skips_what_was_shown",
    "Parcom.Runner.C82_at_once"
   ],
   "note": ""
  },
  {
   "property": "C83",
   "status": "proved",
   "theorems": [
    "Parcom.C83_same_results",
    "Parcom.C83_failure_drops",
    "Parcom.C83_inline",
    "Parcom.C83_four_levels"
   ],
   "note": ""
  },
  {
   "property": "C84",
   "status": "partial",
   "theorems": [
    "Parcom.C84_false",
    "Parcom.C84_partial",
    "Parcom.C84_exact"
   ],
   "note": "The aliasing rules are left to C121. The code violates the full statement (C84Statement): when the pairs of expression and operator are zero-sized and more than four operators compete for an operand, the stack asks the allocator for zero bytes, which is undefined behaviour reached from safe code. C84_partial: no undefined behaviour otherwise. C84_exact: always undefined in that case."
  },
  {
   "property": "C85",
   "status": "partial",
   "theorems": [
    "Parcom.C85_false",
    "Parcom.C85_partial",
    "Parcom.C85_exact"
   ],
   "note": "The code violates it: a failed load leaves the bytes kept back from before, so that E3, then 'xyz' (InvalidSequence), then 81 82 shows 'あ' (C85_false). Proved as long as no load failed (C85_partial); C85_exact says what happens after a failure: the next load goes on as if its bytes followed the kept ones."
  },
  {
   "property": "C86",
   "status": "partial",
   "theorems": [
    "Parcom.Notify.C86_false",
    "Parcom.Notify.C86_grows",
    "Parcom.Notify.C86_exact",
    "Parcom.Notify.C86_partial"
   ],
   "note": "The code violates it: each poll registers its waker anew and none is ever taken back, so a Wait polled n times keeps n wakers and a send wakes all of them. C86_exact says which wakers are registered; C86_partial: no old waker is woken in place of a newer one."
  },
  {
   "property": "C87",
   "status": "proved",
   "theorems": [
    "Parcom.C87_no_use_after_free",
    "Parcom.C87_once",
    "Parcom.C87_keeps",
    "Parcom.C87_frees",
    "Parcom.C87_loader_alone",
    "Parcom.C87_all"
   ],
   "note": ""
  },
  {
   "property": "C88",
   "status": "partial",
   "theorems": [
    "Parcom.C88_false",
    "Parcom.C88_deep",
    "Parcom.C88_exact",
    "Parcom.C88_partial"
   ],
   "note": "The code violates it: a node's drop drops the next one inside it, so n unread commits take a drop n + 1 deep (C88_deep). C88_exact: the depth of a step is the number of nodes it frees; C88_partial: it is bounded by the number of nodes there are at a time."
  },
  {
   "property": "C89",
   "status": "partial",
   "theorems": [
    "Parcom.C89_false",
    "Parcom.C89_exact",
    "Parcom.C89_partial_lf",
    "Parcom.C89_partial_cr",
    "Parcom.C89_partial_crlf",
    "Parcom.C89_exact_crlf"
   ],
   "note": "The code violates it: LineColumnMeter::new takes what follows to begin a new line. C89_exact gives the count for every line convention and start; C89_partial_lf and _cr say exactly from which locations counting goes on (line ends, and the beginning), C89_partial_crlf that it does from line ends, and C89_exact_crlf for which cuts of a text it does with CRLF (also within a line end, if a later line makes up for it)."
  },
  {
   "property": "C90",
   "status": "partial",
   "theorems": [
    "Parcom.C90_false",
    "Parcom.C90_exact",
    "Parcom.C90_partial"
   ],
   "note": "The code violates it: cmp compares total_count only while == compares all fields, so locations of different texts (or with fields set by hand) compare as Equal and are not equal. C90_exact: what cmp compares; C90_partial: one direction always, both within one text."
  },
  {
   "property": "C91",
   "status": "partial",
   "theorems": [
    "Parcom.Runner.C91_false",
    "Parcom.Runner.C91_partial",
    "Parcom.Runner.C91_parser",
    "Parcom.Runner.C91_any_item",
    "Parcom.Spec.anyItem_reifies",
    "Parcom.Spec.theItem_reifies",
    "Parcom.Spec.atom_reifies",
    "Parcom.Spec.join_reifies",
    "Parcom.Spec.map_reifies",
    "Parcom.Spec.mapErr_reifies",
    "Parcom.Spec.andThen_reifies"
   ],
   "note": "The code violates the full statement (C91Statement): the race of C65 makes any_item fail although an item was made visible before done_flag was set (C91_false). C91_partial: every interleaving in which done_flag is not set during a poll of Next that says that the stream has ended. C91_parser and the reifies theorems apply it to any_item, the_item, atom, and to what join, map, map_err and and_then make of them; parsers that rewind cannot use this sequence, which is no RewindSequence."
  },
  {
   "property": "C92",
   "status": "proved",
   "theorems": [
    "Parcom.C92_cut_off",
    "Parcom.C92_to_the_end",
    "Parcom.C92_every_panic",
    "Parcom.C92_steps"
   ],
   "note": "cut off at any await, or by a panic of any code called, everything alive is dropped exactly once and memory is as before; the panics of push included; pairs of expression and operator of size zero excluded (C84)"
  },
  {
   "property": "C93",
   "status": "proved",
   "theorems": [
    "Parcom.AdvanceCell.C93_no_dangling_use",
    "Parcom.AdvanceCell.C93_beside",
    "Parcom.AdvanceCell.C93_one_owner",
    "Parcom.AdvanceCell.C93_after_ready"
   ],
   "note": "sequences as addresses that go away as soon as their owner drops them; what the wait and buffer.advance return is arbitrary"
  },
  {
   "property": "C94",
   "status": "partial",
   "theorems": [
    "Parcom.Notify.C94_false",
    "Parcom.Notify.C94_partial",
    "Parcom.Notify.C94_until",
    "Parcom.Notify.C94_silence",
    "Parcom.Notify.C94_asleep",
    "Parcom.Notify.C94_goes_on",
    "Parcom.Notify.C94_dropped",
    "Parcom.Notify.C94_kept"
   ],
   "note": "The code violates it: when a waker panics, the others taken from the slab are dropped without being woken, and the mutex is poisoned, so every later send and sleeping poll panics. C94_partial: a send that returns; C94_until: up to the first panic everything is as in C47-C50; C94_silence, C94_asleep, C94_goes_on: what happens afterwards; C94_dropped, C94_kept: which wakers are still stored then."
  },
  {
   "property": "C95",
   "status": "partial",
   "theorems": [
    "Parcom.Notify.C95_false",
    "Parcom.Notify.C95_stuck",
    "Parcom.Notify.C95_send",
    "Parcom.Notify.C95_partial",
    "Parcom.Notify.C95_exact",
    "Parcom.Notify.C95_case_clone",
    "Parcom.Notify.C95_case_drop"
   ],
   "note": "The code violates it: send wakes while it holds the mutex, so a waker that sends, or polls a Wait that is not ready yet, blocks for ever (std may also panic there), and with it every send and every poll that has to sleep. C95_exact: what a waker calls can come to an end exactly if it is over or is a poll that has not found its Wait unready. C95_partial: a waker that polls a Wait made before a send began to notify gets Ready and goes on. Wakers may call back from wake, from clone and from their destructor, any number of times."
  },
  {
   "property": "C96",
   "status": "partial",
   "theorems": [
    "Parcom.C96_partial",
    "Parcom.C96_gap",
    "Parcom.C96_false"
   ],
   "note": "The code violates it: an empty segment inside a number ends the number, so \"1\",\"\",\"2\" reads 1 and leaves 2 (C96_gap). C96_partial: with no empty segment before a char the outcome is the same for every cut, also between different sequence types."
  },
  {
   "property": "C97",
   "status": "proved",
   "theorems": [
    "Parcom.C97_keywords",
    "Parcom.C97_any",
    "Parcom.C97_empty"
   ],
   "note": "For an empty keyword it never returns (C97_empty), as C18 says of bodies that consume nothing."
  },
  {
   "property": "C98",
   "status": "proved",
   "theorems": [
    "Parcom.C98_map_map",
    "Parcom.C98_map_id",
    "Parcom.C98_mapErr_mapErr",
    "Parcom.C98_map_mapErr",
    "Parcom.C98_andThen_ok",
    "Parcom.C98_andThen_andThen",
    "Parcom.C98_join_assoc",
    "Parcom.C98_join_map",
    "Parcom.C98_join_mapErr",
    "Parcom.C98_or_map",
    "Parcom.C98_or_mapErr",
    "Parcom.C98_or_assoc",
    "Parcom.C98_left_factor",
    "Parcom.C98_or_self",
    "Parcom.C98_optional_or",
    "Parcom.C98_repeat_cons",
    "Parcom.C98_no_right_factor"
   ],
   "note": "Equalities of parsers: every input, both methods, also panics and non-termination. The laws about or need parsers that only move forward and a sequence whose rewind works (C02, C24)."
  },
  {
   "property": "C99",
   "status": "proved",
   "theorems": [
    "Parcom.C99_mapEach_mapEach",
    "Parcom.C99_mapEach_id",
    "Parcom.C99_mapWhile_mapWhile",
    "Parcom.C99_mapWhile_some",
    "Parcom.C99_tryMapEach_ok",
    "Parcom.C99_tryMapEach_miss",
    "Parcom.C99_take_mapEach",
    "Parcom.C99_mapEach_scan",
    "Parcom.C99_take_take",
    "Parcom.C99_take_take_collect",
    "Parcom.C99_mapEach_fold",
    "Parcom.C99_mapEach_collect",
    "Parcom.C99_scan_fold",
    "Parcom.C99_take_mapWhile",
    "Parcom.C99_take_mapWhile_collect"
   ],
   "note": "Where the states of the two sides have the same type the laws are equalities of iterative parsers; otherwise equalities of what fold and collect make of them."
  },
  {
   "property": "C100",
   "status": "partial",
   "theorems": [
    "Parcom.C100_false",
    "Parcom.C100_exact",
    "Parcom.C100_partial",
    "Parcom.C100_returns",
    "Parcom.C100_all_lost"
   ],
   "note": "The code violates the full statement (C100Statement): load calls the source at once, and IteratorSource does everything before it returns. C100_exact says what is lost; C100_partial: the chunk fits behind what is pending."
  },
  {
   "property": "C101",
   "status": "partial",
   "theorems": [
    "Parcom.C101_false",
    "Parcom.C101_exact",
    "Parcom.C101_partial",
    "Parcom.C101_conservation",
    "Parcom.C101_no_undefined_behaviour",
    "Parcom.C101_aborts",
    "Parcom.C101_abort",
    "Parcom.C101_drop"
   ],
   "note": "The code violates the full statement (C101Statement): Drop::drop frees its block after dropping the elements, so a destructor that panics leaks it. C101_exact says what is leaked; C101_partial: no drop has panicked. C101_conservation, C101_no_undefined_behaviour, C101_aborts, C101_abort and C101_drop hold whatever the destructors do."
  },
  {
   "property": "C102",
   "status": "proved",
   "theorems": [
    "Parcom.C102_all_counted",
    "Parcom.C102_requests",
    "Parcom.C102_inline",
    "Parcom.C102_moved",
    "Parcom.C102_amortised"
   ],
   "note": ""
  },
  {
   "property": "C103",
   "status": "proved",
   "theorems": [
    "Parcom.C103_steps",
    "Parcom.C103_calls",
    "Parcom.C103_returns",
    "Parcom.C103_operators",
    "Parcom.C103_finite"
   ],
   "note": ""
  },
  {
   "property": "C104",
   "status": "proved",
   "theorems": [
    "Parcom.Runner.C104_not_stuck",
    "Parcom.Runner.C104_progress",
    "Parcom.Runner.C104_first"
   ],
   "note": ""
  },
  {
   "property": "C105",
   "status": "partial",
   "theorems": [
    "Parcom.C105_partial",
    "Parcom.C105_exact",
    "Parcom.C105_sharp",
    "Parcom.C105_false"
   ],
   "note": "False as stated, for example for ((a* b) / a)*: a repetition that is abandoned is read again (C105_false). Linear if no repetition is inside another (C105_partial); in general a polynomial whose degree is the depth to which repetitions are nested (C105_exact), and no smaller degree would do (C105_sharp)."
  },
  {
   "property": "C106",
   "status": "proved",
   "theorems": [
    "Parcom.C106",
    "Parcom.C106_str"
   ],
   "note": ""
  },
  {
   "property": "C107",
   "status": "proved",
   "theorems": [
    "Parcom.C107_join",
    "Parcom.C107_or",
    "Parcom.C107_optional",
    "Parcom.C107_repeat"
   ],
   "note": "For parsers whose failure locations descend from their input (C24). When repeat never returns is C18; map and its like, and and_then, are in C20, fold and collect in C26 and C27."
  },
  {
   "property": "C108",
   "status": "proved",
   "theorems": [
    "Parcom.C108",
    "Parcom.C108_misses",
    "Parcom.C108_reads",
    "Parcom.C108_unambiguous",
    "Parcom.C108_inputs",
    "Parcom.C108_cuts"
   ],
   "note": "Unlike the calculator (C96), this grammar reads the text alike however it is cut, also with empty segments."
  },
  {
   "property": "C109",
   "status": "proved",
   "theorems": [
    "Parcom.C109",
    "Parcom.C109_panics"
   ],
   "note": ""
  },
  {
   "property": "C110",
   "status": "proved",
   "theorems": [
    "Parcom.C110",
    "Parcom.C110_str",
    "Parcom.C110_inputs"
   ],
   "note": ""
  },
  {
   "property": "C111",
   "status": "partial",
   "theorems": [
    "Parcom.C111_partial",
    "Parcom.C111_parse",
    "Parcom.C111_whole",
    "Parcom.C111_bound",
    "Parcom.C111_display",
    "Parcom.C111_eval",
    "Parcom.C111_drop",
    "Parcom.C111_exact",
    "Parcom.C111_any",
    "Parcom.C111_flat",
    "Parcom.C111_unclosed",
    "Parcom.C111_false"
   ],
   "note": "Holds for parsing the text of an expression (C111_partial; C111_parse says exactly when room runs out on any text, counting the expression dropped when a parenthesis is not closed: C111_unclosed). False as stated: `1 + 1 + ... + 1` has no parentheses and needs as many calls of display, eval and the destructor inside one another as it has operators, and one (C111_flat, C111_false); C111_exact says how much room the whole needs, C111_any when it runs out on any text. Room is counted in calls, not in bytes."
  },
  {
   "property": "C112",
   "status": "proved",
   "theorems": [
    "Parcom.C112_text",
    "Parcom.C112_slice",
    "Parcom.C112_exact_checked",
    "Parcom.C112_exact_wrapping"
   ],
   "note": "For texts of at most isize::MAX bytes and slices of at most usize::MAX elements, measured from the beginning; every line convention. C112_exact_checked and C112_exact_wrapping: meters started at any location and fed with any number of segments, where the counters can overflow."
  },
  {
   "property": "C113",
   "status": "partial",
   "theorems": [
    "Parcom.C113_partial",
    "Parcom.C113_exact",
    "Parcom.C113_shrink",
    "Parcom.C113_conservation",
    "Parcom.C113_cancel",
    "Parcom.C113_torn",
    "Parcom.C113_quiet",
    "Parcom.C113_false",
    "Parcom.torn_case"
   ],
   "note": "False: shrink_to drops the items before it shortens the buffer, so if one destructor panics they are dropped again with the buffer (torn_case, C113_torn). C113_partial: true while no shrink_to panicked after it had begun to drop items. C113_exact says what holds in either case, C113_conservation and C113_cancel account for every item. C113_quiet: without panicking destructors this is the writer of C53."
  },
  {
   "property": "C114",
   "status": "proved",
   "theorems": [
    "Parcom.C114_lines",
    "Parcom.C114_tests"
   ],
   "note": "With LF. C114_tests: the equation as the unit tests write it, with lengths in bytes, holds exactly on texts of one-byte chars."
  },
  {
   "property": "C115",
   "status": "proved",
   "theorems": [
    "Parcom.C115",
    "Parcom.C115_misses",
    "Parcom.C115_reads",
    "Parcom.C115_test",
    "Parcom.C115_test_left",
    "Parcom.C115_returns",
    "Parcom.C115_panics",
    "Parcom.C115_unambiguous",
    "Parcom.C115_cuts"
   ],
   "note": "The unit tests' grammar, which mixes a right-associative operator with left-associative ones, over every lawful sequence of text and in both builds. C115_test and C115_test_left are the two tests for any number of operators."
  },
  {
   "property": "C116",
   "status": "proved",
   "theorems": [
    "Parcom.C116_ranges",
    "Parcom.C116_order"
   ],
   "note": "f64 is a linear order with NaN apart, and -0.0 and 0.0 counted as one."
  },
  {
   "property": "C117",
   "status": "proved",
   "theorems": [
    "Parcom.Notify.C117_no_lost_wakeup",
    "Parcom.Notify.C117_no_lost_wakeup_after",
    "Parcom.Notify.C117_ready_after_send",
    "Parcom.Notify.C117_ready_unseen",
    "Parcom.Notify.C117_wakes",
    "Parcom.Notify.C117_no_deadlock",
    "Parcom.Notify.C117_calls_return",
    "Parcom.Notify.C117_extends",
    "Parcom.Notify.C117_stale"
   ],
   "note": "The accesses to the version are as weak as Relaxed ones; the mutex is what makes it work. C117_extends: nothing that interleavings can do is left out. C117_stale: C48 does need the order, a Wait made after a send returned may be ready at once."
  },
  {
   "property": "C118",
   "status": "proved",
   "theorems": [
    "Parcom.RunnerWeak.C118_in_order",
    "Parcom.RunnerWeak.C118_end",
    "Parcom.RunnerWeak.C118_end_all",
    "Parcom.RunnerWeak.C118_end_stale",
    "Parcom.RunnerWeak.C118_next_woken",
    "Parcom.RunnerWeak.C118_advance_woken",
    "Parcom.RunnerWeak.C118_skips",
    "Parcom.RunnerWeak.C118_extends"
   ],
   "note": "OnceLock::get and the loads may miss what the user does not know of. C118_end_stale: that done_flag was set and the item committed before the poll began does not suffice, if the user does not know. The buffer is cut down to the list of nodes that were set; C118_extends: this machine has all the runs of the one with the whole buffer and no stale reads."
  },
  {
   "property": "C119",
   "status": "proved",
   "theorems": [
    "Parcom.C119_str",
    "Parcom.C119_slice"
   ],
   "note": "For slices of items that have a size, as C02."
  },
  {
   "property": "C120",
   "status": "proved",
   "theorems": [
    "Parcom.C120_succeeds",
    "Parcom.C120_fails",
    "Parcom.C120_waits",
    "Parcom.C120_early_text",
    "Parcom.C120_early_items",
    "Parcom.C120_settled_is_final",
    "Parcom.C120_any_char",
    "Parcom.C120_the_char",
    "Parcom.C120_any_item",
    "Parcom.C120_the_item",
    "Parcom.C120_atom"
   ],
   "note": "Waiting is modelled as not returning: a call of next that has no segment to give yet. C120_succeeds, C120_fails, C120_waits: exact for grammars in the sense of C25. C120_early_*: every nesting of combinators, bin_expr and iterating parsers included. C120_atom: the empty pattern waits though it needs nothing."
  },
  {
   "property": "C121",
   "status": "partial",
   "theorems": [
    "Parcom.Aliasing.C121_false",
    "Parcom.Aliasing.C121_partial",
    "Parcom.Aliasing.C121_elements_partial",
    "Parcom.Aliasing.C121_exact",
    "Parcom.Aliasing.C121_first_push",
    "Parcom.Aliasing.C121_not_granted",
    "Parcom.Aliasing.C121_read",
    "Parcom.Aliasing.C121_write",
    "Parcom.Aliasing.C121_raw",
    "Parcom.Aliasing.C121_start",
    "Parcom.Aliasing.C121_places"
   ],
   "note": "False as stated: push writes into the inline buffer through a pointer made from &self, so that the first element pushed into ShortVec::new() is undefined behaviour. C121_exact says which lives are undefined and which are not, without exception. C121_not_granted to C121_places spell out the rules it is judged by. Under Stacked Borrows; an element type is modelled as having interior mutability throughout or not at all."
  },
  {
   "property": "C122",
   "status": "partial",
   "theorems": [
    "Parcom.C122_false",
    "Parcom.C122_overlap",
    "Parcom.C122_measured_false",
    "Parcom.C122_partial",
    "Parcom.C122_slice_partial",
    "Parcom.C122_str_exact",
    "Parcom.C122_slice_exact",
    "Parcom.C122_measured",
    "Parcom.C122_measured_slice"
   ],
   "note": "The code violates it in three ways: an anchor of another buffer is undefined behaviour (offset_from), reached from safe code; of two overlapping parts of one buffer, an anchor of one is accepted for the other; Measured accepts every anchor. C122_partial: it holds among what comes from one &str (or &[T]) by advancing. The _exact theorems say for every pair what happens."
  },
  {
   "property": "C123",
   "status": "partial",
   "theorems": [
    "Parcom.C123_false",
    "Parcom.C123_false_lawful",
    "Parcom.C123_stingy",
    "Parcom.C123_wraps",
    "Parcom.C123_exact",
    "Parcom.C123_lawful",
    "Parcom.C123_load",
    "Parcom.C123_partial"
   ],
   "note": "The code violates it in two ways, both from safe code: a strategy that returns less than it is asked for, and, in a build without overflow checks, a size of almost usize::MAX, which wraps around with the bytes kept back. C123_exact says for every loader, validator, strategy and size when it is undefined, C123_lawful the same for strategies that return at least what they are asked for. C123_partial: such strategies, with overflow checks or sizes up to usize::MAX - 3."
  },
  {
   "property": "C124",
   "status": "proved",
   "theorems": [
    "Parcom.Runner.C124_wakes",
    "Parcom.Runner.C124_polls",
    "Parcom.Runner.C124_quiet",
    "Parcom.Runner.C124_tight"
   ],
   "note": "For the sequentially consistent machine of Model/Runner. C124_tight: with one next() and one send both bounds are reached. C124_quiet: from any moment on, while nothing is called and no send gets on, at most two self-wakes and two polls."
  },
  {
   "property": "C125",
   "status": "partial",
   "theorems": [
    "Parcom.C125_false",
    "Parcom.C125_exact",
    "Parcom.C125_needed",
    "Parcom.C125_view",
    "Parcom.C125_push",
    "Parcom.C125_partial"
   ],
   "note": "False: BufferWriter is a safe trait, yet its provided methods trust as_ptr, len and capacity inside unsafe blocks, so a safe implementation with wrong answers makes as_slice read out of bounds (C125_false). C125_exact says, for any implementation, which call is undefined; C125_needed: none is exactly if the answers are what the documentation of the trait says; C125_partial: then the provided methods are those of a list of bounded length. The repository's own writers are C53, C63 and C113. The pointer is assumed to be that of an allocation, and len and capacity to answer without changing anything."
  },
  {
   "property": "C126",
   "status": "partial",
   "theorems": [
    "Parcom.Runner.C126_false",
    "Parcom.Runner.C126_unbounded",
    "Parcom.Runner.C126_between",
    "Parcom.Runner.C126_partial",
    "Parcom.Runner.C126_since",
    "Parcom.Runner.C126_list"
   ],
   "note": "False: Wait has no destructor, so a Next dropped while it waits leaves its waker in append_signal until the next send; dropping n of them leaves n (C126_unbounded). C126_between and C126_partial: that is the only way; apart from one, each waker kept needs a Next dropped after it was given. C126_since: only Nexts dropped since the last send that has returned count. C126_list: the same for the length of the Slab, if nobody else polls append_signal. For the sequentially consistent machine of Model/Runner and executors that poll again only after the last waker was woken; others add one per poll (C86)."
  },
  {
   "property": "C127",
   "status": "partial",
   "theorems": [
    "Parcom.C127_false",
    "Parcom.C127_partial",
    "Parcom.C127_exact",
    "Parcom.C127_step",
    "Parcom.C127_aborts",
    "Parcom.C127_to_the_end"
   ],
   "note": "False: ShortVec's drop gives the block back only after the elements are dropped, so a destructor that panics in a stack that has moved to the heap (more than four levels) leaks its block. Everything else holds: C127_exact (each value dropped once, abort exactly at a second panic, which memory stays), C127_step, C127_aborts (values parse_impl itself lets go), C127_to_the_end."
  },
  {
   "property": "C128",
   "status": "proved",
   "theorems": [
    "Parcom.C128",
    "Parcom.C128_counts",
    "Parcom.C128_exact"
   ],
   "note": "C128_counts: every history has such a count, so C128 speaks of all of them. C128_exact: the bound is met whenever a call returns because items are missing. What is counted is the calls of node.get() in advance, not time."
  },
  {
   "property": "C129",
   "status": "proved",
   "theorems": [
    "Parcom.C129",
    "Parcom.C129_left",
    "Parcom.C129_careful"
   ],
   "note": "C129_left: the Vecs in a writer, control or result that is dropped. C129_careful: no item is written over another. Destructors that panic are C113; that the nodes themselves are dropped is C87."
  },
  {
   "property": "C130",
   "status": "proved",
   "theorems": [
    "Parcom.Runner.C130",
    "Parcom.Runner.C130_next",
    "Parcom.Runner.C130_later",
    "Parcom.RunnerWeak.C130_weak",
    "Parcom.RunnerWeak.C130_told"
   ],
   "note": "C130_later: a poll that begins in a Wait may still return Pending, before the send that follows done_flag. C130_weak, C130_told: with stale reads it takes that the user knows, and it knows once next() has resolved to None or advance has although something was left to skip."
  }
 ]
}