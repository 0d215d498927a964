{
 "claims": [
  {
   "property": "C01",
   "status": "proved",
   "theorems": [
    "Verif.C01_handed_out_disjoint",
    "Verif.C01_in_flight_disjoint"
   ],
   "note": ""
  },
  {
   "property": "C02",
   "status": "proved",
   "theorems": [
    "Verif.C02_in_bounds_aligned"
   ],
   "note": ""
  },
  {
   "property": "C03",
   "status": "proved",
   "theorems": [
    "Verif.C03_panics_iff",
    "Verif.C03_C12_unsuccessful_no_effect"
   ],
   "note": ""
  },
  {
   "property": "C04",
   "status": "proved",
   "theorems": [
    "Verif.C04_level_bounded",
    "Verif.C04_level_monotone",
    "Verif.C04_observations_monotone"
   ],
   "note": ""
  },
  {
   "property": "C05",
   "status": "proved",
   "theorems": [
    "Verif.C05_at_success_exact",
    "Verif.C05_at_mismatch_truthful",
    "Verif.C05_success_instant",
    "Verif.C05_mismatch_instant"
   ],
   "note": ""
  },
  {
   "property": "C06",
   "status": "proved",
   "theorems": [
    "Verif.C06_exhaustion_truthful",
    "Verif.C06_exhaustion_permanent"
   ],
   "note": ""
  },
  {
   "property": "C07",
   "status": "proved",
   "theorems": [
    "Verif.C07_fits_succeeds"
   ],
   "note": ""
  },
  {
   "property": "C08",
   "status": "proved",
   "theorems": [
    "Verif.C08_wait_free",
    "Verif.C08_wait_free_infinite"
   ],
   "note": ""
  },
  {
   "property": "C09",
   "status": "proved",
   "theorems": [
    "Verif.C09_retries_bounded",
    "Verif.C09_retry_means_progress"
   ],
   "note": ""
  },
  {
   "property": "C10",
   "status": "proved",
   "theorems": [
    "Verif.C10_linearizable"
   ],
   "note": ""
  },
  {
   "property": "C11",
   "status": "proved",
   "theorems": [
    "Verif.C11_isolation",
    "Verif.C11_leaked_value_readable"
   ],
   "note": ""
  },
  {
   "property": "C12",
   "status": "proved",
   "theorems": [
    "Verif.C03_C12_unsuccessful_no_effect",
    "Verif.C12_leak_error_returns_value"
   ],
   "note": ""
  },
  {
   "property": "C13",
   "status": "proved",
   "theorems": [
    "Verif.C13_zst",
    "Verif.C13_zst_response"
   ],
   "note": ""
  },
  {
   "property": "C14",
   "status": "proved",
   "theorems": [
    "Verif.C14_array_capacity",
    "Verif.C14_array_capacity_exact"
   ],
   "note": ""
  },
  {
   "property": "C15",
   "status": "proved",
   "theorems": [
    "Verif.C15_levels_repr_c",
    "Verif.C15_levels_array"
   ],
   "note": ""
  },
  {
   "property": "C16",
   "status": "proved",
   "theorems": [
    "Verif.C16_reset_like_fresh",
    "Verif.C16_reset_exclusive"
   ],
   "note": ""
  },
  {
   "property": "C17",
   "status": "proved",
   "theorems": [
    "Verif.C17_local_realloc",
    "Verif.C17_global_realloc"
   ],
   "note": ""
  },
  {
   "property": "C18",
   "status": "proved",
   "theorems": [
    "Verif.C18_live_disjoint",
    "Verif.C18_no_panic",
    "Verif.C18_alloc",
    "Verif.C18_alloc_zeroed",
    "Verif.C18_dealloc_noop",
    "Verif.C18_bytes_kept"
   ],
   "note": ""
  },
  {
   "property": "C19",
   "status": "proved",
   "theorems": [
    "Verif.C19_alloc_zeroed",
    "Verif.C19_local_alloc_zeroed"
   ],
   "note": ""
  },
  {
   "property": "C20",
   "status": "proved",
   "theorems": [
    "Verif.C20_consumption",
    "Verif.C20_worst_case_fits"
   ],
   "note": ""
  },
  {
   "property": "C21",
   "status": "proved",
   "theorems": [
    "Verif.C21_disjoint_in_bounds_aligned",
    "Verif.C21_results_are_granted",
    "Verif.C21_level_monotone",
    "Verif.C21_bytes_isolated"
   ],
   "note": ""
  },
  {
   "property": "C22",
   "status": "proved",
   "theorems": [
    "Verif.C22_panics_iff"
   ],
   "note": ""
  },
  {
   "property": "C23",
   "status": "proved",
   "theorems": [
    "Verif.C23_refines_spec",
    "Verif.C23_alloc_iff_fits",
    "Verif.C23_mismatch_iff",
    "Verif.C23_agrees_with_sync"
   ],
   "note": ""
  },
  {
   "property": "C24",
   "status": "proved",
   "theorems": [
    "Verif.C24_from_mem"
   ],
   "note": ""
  },
  {
   "property": "C25",
   "status": "partial",
   "theorems": [
    "Verif.C25_new_partial",
    "Verif.C25_new_panics_iff",
    "Verif.C25_new_level_arbitrary",
    "Verif.C25_new_first_alloc_may_panic"
   ],
   "note": "Violated by the code: MemBump::new never initialises the header (C25_new_level_arbitrary, C25_new_first_alloc_may_panic). Proved: capacity/layout, and level 0 if the heap memory happens to be zero."
  },
  {
   "property": "C26",
   "status": "partial",
   "theorems": [
    "Verif.C26_get_unchecked_iff",
    "Verif.C26_get_unchecked_partial",
    "Verif.C26_unaligned_wrong_pointer"
   ],
   "note": "Violated by the code if base+level is not aligned for the type (C26_unaligned_wrong_pointer). Proved for aligned levels."
  },
  {
   "property": "C27",
   "status": "partial",
   "theorems": [
    "Verif.C27_data_inside_object",
    "Verif.C27_typed_bump_partial",
    "Verif.C27_overaligned_debug_panics",
    "Verif.C27_overaligned_no_room",
    "Verif.C27_field_iff"
   ],
   "note": "Violated for align_of T > align_of usize (C27_overaligned_debug_panics, C27_overaligned_no_room). Proved for smaller alignments; in-bounds always."
  },
  {
   "property": "C28",
   "status": "partial",
   "theorems": [
    "Verif.C28_bump_array_iff",
    "Verif.C28_bump_box_iff",
    "Verif.C28_bump_array_partial",
    "Verif.C28_bump_box_partial",
    "Verif.C28_empty_array_panics",
    "Verif.C28_zst_box_panics"
   ],
   "note": "Violated for zero sizes (C28_empty_array_panics, C28_zst_box_panics). Proved for non-zero sizes. Exactly when: C28_bump_array_iff, C28_bump_box_iff."
  },
  {
   "property": "C29",
   "status": "partial",
   "theorems": [
    "Verif.C29_runs_iff",
    "Verif.C29_overflow",
    "Verif.C29_alloca_partial",
    "Verif.C29_closure_slice_safe",
    "Verif.C29_too_large",
    "Verif.C29_empty_panics",
    "Verif.C29_debug_panics"
   ],
   "note": "Violated for empty slices/zero-sized elements (C29_empty_panics), and debug builds where u64 is over-aligned (C29_debug_panics). Proved otherwise; the slice passed is always right. Exactly when: C29_runs_iff."
  },
  {
   "property": "C30",
   "status": "proved",
   "theorems": [
    "Verif.C30_operations_safe",
    "Verif.C30_freed_once",
    "Verif.C30_no_leak",
    "Verif.C30_drop_frees"
   ],
   "note": ""
  },
  {
   "property": "C31",
   "status": "proved",
   "theorems": [
    "Verif.C31_blocks_disjoint",
    "Verif.C31_blocks_kept",
    "Verif.C31_chain_joins",
    "Verif.C31_bump_box_in_front"
   ],
   "note": ""
  },
  {
   "property": "C32",
   "status": "proved",
   "theorems": [
    "Verif.C32_front_only",
    "Verif.C32_decreases",
    "Verif.C32_not_total"
   ],
   "note": ""
  },
  {
   "property": "C33",
   "status": "proved",
   "theorems": [
    "Verif.C33_conserved",
    "Verif.C33_no_ub",
    "Verif.C33_readable_is_live",
    "Verif.C33_ends",
    "Verif.C33_all_dropped",
    "Verif.C33_refines"
   ],
   "note": ""
  },
  {
   "property": "C34",
   "status": "proved",
   "theorems": [
    "Verif.C34_lifo",
    "Verif.C34_all_dropped_once",
    "Verif.C34_reverse_order"
   ],
   "note": ""
  },
  {
   "property": "C35",
   "status": "partial",
   "theorems": [
    "Verif.C35_no_ub",
    "Verif.C35_not_dropped_is_pinned_partial",
    "Verif.C35_pinned_stays",
    "Verif.C35_pinned_disjoint",
    "Verif.C35_slot_is_free",
    "Verif.C35_violated_after_panic"
   ],
   "note": "Violated after a destructor panicked: memory of a pinned, never dropped value is handed out again (C35_violated_after_panic). Proved for all histories in which no destructor panicked; absence of UB, stability and disjointness of the values in the stack for all histories."
  },
  {
   "property": "C36",
   "status": "partial",
   "theorems": [
    "Verif.C36_no_double_drop_partial",
    "Verif.C36_panic_drops_prefix",
    "Verif.C36_lost_forever",
    "Verif.C36_violated"
   ],
   "note": "Violated by the code: flag.chain was taken when the destructor runs, so the unwind guard has nothing left to drop (C36_panic_drops_prefix, C36_lost_forever, C36_violated). Proved: no double drops for any set of panicking destructors."
  },
  {
   "property": "C37",
   "status": "partial",
   "theorems": [
    "Verif.C37_set_succeeds_partial",
    "Verif.C37_violated",
    "Verif.C37_set_succeeds_iff"
   ],
   "note": "Violated for types with alignment larger than the machine word (C37_violated). Proved for all others if no destructor panics. Exactly when `set` succeeds: C37_set_succeeds_iff."
  },
  {
   "property": "C38",
   "status": "partial",
   "theorems": [
    "Verif.C38_split_at_byte_iff",
    "Verif.C38_within_partial",
    "Verif.C38_no_panic",
    "Verif.C38_violated",
    "Verif.C38_violated_split_to_fit",
    "Verif.C38_violated_run"
   ],
   "note": "Violated: split_at_byte/split_to_fit on a view of a type of 2 or more bytes scales the byte offset by the type size, so the tail leaves the memory (C38_violated, C38_violated_split_to_fit, C38_violated_run). Proved for every history in which these are only used on views of types of at most one byte. Exactly when a byte split stays inside: C38_split_at_byte_iff."
  },
  {
   "property": "C39",
   "status": "partial",
   "theorems": [
    "Verif.C39_split_at",
    "Verif.C39_split_first",
    "Verif.C39_split_last",
    "Verif.C39_disjoint_partial",
    "Verif.C39_violated",
    "Verif.C39_split_at_byte_iff"
   ],
   "note": "Violated: split_at_byte on a view of a zero-sized type (untyped memory!) gives a tail starting at the head's start (C39_violated). Proved: disjointness for every history in which split_at_byte is used on one-byte types only; slice splits always. C39_split_at_byte_iff states exactly when the two halves of a byte split are disjoint."
  },
  {
   "property": "C40",
   "status": "proved",
   "theorems": [
    "Verif.C40_cast",
    "Verif.C40_fits",
    "Verif.C40_fits_slice",
    "Verif.C40_cast_slice",
    "Verif.C40_views_fit",
    "Verif.C40_init",
    "Verif.C40_init_isolated"
   ],
   "note": ""
  },
  {
   "property": "C41",
   "status": "partial",
   "theorems": [
    "Verif.C41_split_layout_partial",
    "Verif.C41_split_layout_sound",
    "Verif.C41_split_layout_iff",
    "Verif.C41_violated",
    "Verif.C41_violated_cast"
   ],
   "note": "Violated: memory whose start is not aligned is always rejected although a later aligned place could hold the layout (C41_violated, C41_violated_cast). Proved for aligned starts; soundness always. Exactly when it succeeds: C41_split_layout_iff."
  },
  {
   "property": "C42",
   "status": "partial",
   "theorems": [
    "Verif.C42_split_at_iff",
    "Verif.C42_slice_matches_partial",
    "Verif.C42_maybe_uninit_slice",
    "Verif.C42_violated",
    "Verif.C42_sized_referent",
    "Verif.C42_empty"
   ],
   "note": "Violated: split_at leaves the head's slice pointer at the old element count (C42_violated). Proved for histories without such stale heads. Exactly what split_at does: C42_split_at_iff."
  },
  {
   "property": "C43",
   "status": "partial",
   "theorems": [
    "Verif.C43_slice_iff",
    "Verif.C43_maybe_uninit",
    "Verif.C43_back_and_forth",
    "Verif.C43_maybe_uninit_slice_partial",
    "Verif.C43_violated_zst",
    "Verif.C43_shrink_to_fit",
    "Verif.C43_invent_for_zst"
   ],
   "note": "Violated for slices of zero-sized elements: the length becomes usize::MAX (C43_violated_zst). Proved otherwise. Exactly when: C43_slice_iff."
  },
  {
   "property": "C44",
   "status": "proved",
   "theorems": [
    "Verif.FVec.C44_refines_list",
    "Verif.FVec.C44_readable",
    "Verif.FVec.C44_push",
    "Verif.FVec.C44_pop",
    "Verif.FVec.C44_set_len",
    "Verif.FVec.C44_index"
   ],
   "note": ""
  },
  {
   "property": "C45",
   "status": "proved",
   "theorems": [
    "Verif.FVec.C45_exactly_once",
    "Verif.FVec.C45_no_double"
   ],
   "note": ""
  },
  {
   "property": "C46",
   "status": "proved",
   "theorems": [
    "Verif.FVec.C46_never_twice",
    "Verif.FVec.C46_truncate",
    "Verif.FVec.C46_clear",
    "Verif.FVec.C46_drop"
   ],
   "note": ""
  },
  {
   "property": "C47",
   "status": "partial",
   "theorems": [
    "Verif.FVec.C47_drain_partial",
    "Verif.FVec.C47_forget",
    "Verif.FVec.C47_out_of_range",
    "Verif.FVec.C47_size_hint",
    "Verif.FVec.C47_violated_wrap",
    "Verif.FVec.C47_wraps",
    "Verif.FVec.C47_wrapped_history"
   ],
   "note": "Violated in builds without overflow checks for an inclusive bound of usize::MAX, which wraps and does not panic (C47_violated_wrap). Proved for all other ranges (all ranges with overflow checks). What such a build does instead, for all bounds and histories: C47_wraps, C47_wrapped_history (no undefined behaviour)."
  },
  {
   "property": "C48",
   "status": "proved",
   "theorems": [
    "Verif.FVec.C48_split_and_shrink_to",
    "Verif.FVec.C48_split_borrowed",
    "Verif.FVec.C48_shrink_to_fit"
   ],
   "note": ""
  },
  {
   "property": "C49",
   "status": "proved",
   "theorems": [
    "Verif.FVec.C49_fill",
    "Verif.FVec.C49_extend"
   ],
   "note": ""
  },
  {
   "property": "C50",
   "status": "partial",
   "theorems": [
    "Verif.FVec.C50_from_unaligned_partial",
    "Verif.FVec.C50_sound",
    "Verif.FVec.C50_capacity",
    "Verif.FVec.C50_violated"
   ],
   "note": "Violated for memory that does not start aligned: the vector has capacity 0 however much room there is (C50_violated). Proved for aligned memory. The exact capacity: C50_capacity."
  },
  {
   "property": "C51",
   "status": "proved",
   "theorems": [
    "Verif.C51_conserved",
    "Verif.C51_no_ub",
    "Verif.C51_readable_is_live",
    "Verif.C51_ends",
    "Verif.C51_all_dropped",
    "Verif.C51_refines"
   ],
   "note": ""
  },
  {
   "property": "C52",
   "status": "proved",
   "theorems": [
    "Verif.C52_refines",
    "Verif.C52_strong_count",
    "Verif.C52_weak_count",
    "Verif.C52_new_handle"
   ],
   "note": ""
  },
  {
   "property": "C53",
   "status": "proved",
   "theorems": [
    "Verif.C53_accessible",
    "Verif.C53_shared",
    "Verif.C53_drop",
    "Verif.C53_no_other_drop",
    "Verif.C53_upgrade",
    "Verif.C53_try_unwrap",
    "Verif.C53_stable",
    "Verif.C53_at_most_once",
    "Verif.C53_exactly_once"
   ],
   "note": ""
  },
  {
   "property": "C54",
   "status": "proved",
   "theorems": [
    "Verif.C54_get_mut",
    "Verif.C54_exclusive"
   ],
   "note": ""
  },
  {
   "property": "C55",
   "status": "partial",
   "theorems": [
    "Verif.C55_release_partial",
    "Verif.C55_not_user",
    "Verif.C55_violated"
   ],
   "note": "Violated by the code: Drop for Rc decrements the weak count before running the destructor, so that a Weak reached from the destructor gets the memory of the value being destroyed (C55_violated). Proved: the memory is given only to the only handle, at most once; all for any interleaving of destructors."
  },
  {
   "property": "C56",
   "status": "proved",
   "theorems": [
    "Verif.C56_into_raw",
    "Verif.C56_round_trip",
    "Verif.C56_raw_modify",
    "Verif.C56_layout",
    "Verif.C56_new",
    "Verif.C56_raw_views"
   ],
   "note": ""
  },
  {
   "property": "C57",
   "status": "partial",
   "theorems": [
    "Verif.C57_checked_safe_partial",
    "Verif.C57_checked_drop_partial",
    "Verif.C57_checked_exclusive_partial",
    "Verif.C57_upgrade_panic_miscounts",
    "Verif.C57_violated_wrap"
   ],
   "note": "Violated in builds without overflow checks: the count wraps after 2^bits forgotten clones, the value is dropped while a handle is usable (C57_violated_wrap). Proved for builds with overflow checks (any number of clones and forgotten handles), and for all builds below the bound (C52, C53). C57_upgrade_panic_miscounts: the panicking upgrade decrements the count."
  },
  {
   "property": "C58",
   "status": "proved",
   "theorems": [
    "Verif.C58_alloc_layout",
    "Verif.C58_alloc_t",
    "Verif.C58_boxed",
    "Verif.C58_rc",
    "Verif.C58_fixed_vec",
    "Verif.C58_copy_slice",
    "Verif.C58_copy_str"
   ],
   "note": ""
  },
  {
   "property": "C59",
   "status": "partial",
   "theorems": [
    "Verif.C59_copy_slice_prefix",
    "Verif.C59_copy_slice_partial",
    "Verif.C59_violated_zst",
    "Verif.C59_violated_larger",
    "Verif.C59_copy_str_partial",
    "Verif.C59_copy_slice_bump",
    "Verif.C59_violated_larger_run",
    "Verif.C59_copy_slice_iff"
   ],
   "note": "Violated: a non-empty slice of zero-sized elements is copied to an empty slice (C59_violated_zst); with an allocator that returns more memory than requested, which the trait allows, the result is longer than the source and has uninitialised elements (C59_violated_larger, C59_violated_larger_run with an allocator fulfilling the contract). Proved for allocators with exact layouts (as Bump, C59_copy_slice_bump) and elements of non-zero size; equality of the prefix for all allocators. Exactly when: C59_copy_slice_iff."
  },
  {
   "property": "C60",
   "status": "proved",
   "theorems": [
    "Verif.C60_fixed_vec"
   ],
   "note": ""
  },
  {
   "property": "C61",
   "status": "proved",
   "theorems": [
    "Verif.C61_default_realloc",
    "Verif.C61_default_alloc_zeroed",
    "Verif.C61_contract_fulfilled_by_bump"
   ],
   "note": ""
  },
  {
   "property": "C62",
   "status": "proved",
   "theorems": [
    "Verif.C62_nonZeroLayout"
   ],
   "note": ""
  },
  {
   "property": "C63",
   "status": "proved",
   "theorems": [
    "Verif.C63_vec",
    "Verif.C63_option",
    "Verif.C63_unit",
    "Verif.C63_keep_tail",
    "Verif.C63_fill_count",
    "Verif.C63_full"
   ],
   "note": ""
  },
  {
   "property": "C64",
   "status": "proved",
   "theorems": [
    "Verif.C64_checked_fill",
    "Verif.C64_full",
    "Verif.C64_returns",
    "Verif.C64_not_asked_again"
   ],
   "note": ""
  },
  {
   "property": "C65",
   "status": "partial",
   "theorems": [
    "Verif.C65_option",
    "Verif.C65_err",
    "Verif.C65_result_partial",
    "Verif.C65_result_exact",
    "Verif.C65_violated",
    "Verif.C65_violated_diverges"
   ],
   "note": "Violated for Result: it keeps taking Ok items from the iterator after the container is full, and they are lost (C65_violated); for an infinite iterator it never returns (C65_violated_diverges). Proved: Option and Err in full; Result if the container has room for all Ok items before the first other answer. What Result does in general: C65_result_exact."
  },
  {
   "property": "C66",
   "status": "proved",
   "theorems": [
    "Verif.C66_iter_mut",
    "Verif.C66_iter_mut_swap",
    "Verif.C66_slice"
   ],
   "note": ""
  },
  {
   "property": "C67",
   "status": "proved",
   "theorems": [
    "Verif.C67_unsize",
    "Verif.C67_to_dyn",
    "Verif.C67_to_slice",
    "Verif.C67_not_unsized"
   ],
   "note": ""
  },
  {
   "property": "C68",
   "status": "partial",
   "theorems": [
    "Verif.C68_copy_dst_partial",
    "Verif.C68_zero_sized",
    "Verif.C68_violated"
   ],
   "note": "Violated for zero-sized values with alignment above 1: the reference is misaligned (C68_violated). Proved for all other layouts and every allocator. Zero-sized values exactly: C68_zero_sized."
  },
  {
   "property": "C69",
   "status": "partial",
   "theorems": [
    "Verif.C69_provenance_partial",
    "Verif.C69_violated_pin_box"
   ],
   "note": "Violated for Pin<without_alloc::Box<T>>: the result has provenance for the value only, not for the rest of the memory of its Uninit (C69_violated_pin_box; in the Stacked Borrows model used). Proved for all others; for these too that the value can be accessed."
  },
  {
   "property": "C70",
   "status": "proved",
   "theorems": [
    "Verif.C70_live_blocks",
    "Verif.C70_no_panic",
    "Verif.C70_alloc"
   ],
   "note": ""
  },
  {
   "property": "C71",
   "status": "proved",
   "theorems": [
    "Verif.C71_contents_stable",
    "Verif.C71_write_read"
   ],
   "note": ""
  },
  {
   "property": "C72",
   "status": "proved",
   "theorems": [
    "Verif.C72_realloc"
   ],
   "note": ""
  },
  {
   "property": "C73",
   "status": "proved",
   "theorems": [
    "Verif.C73_wait_free"
   ],
   "note": ""
  },
  {
   "property": "C74",
   "status": "proved",
   "theorems": [
    "Verif.C74_writes",
    "Verif.C74_reads",
    "Verif.C74_no_data_race"
   ],
   "note": ""
  },
  {
   "property": "C75",
   "status": "proved",
   "theorems": [
    "Verif.FVec.C75_writes_own_memory",
    "Verif.FVec.C75_history_writes_only_given_memory",
    "Verif.FVec.C75_contents_irrelevant"
   ],
   "note": ""
  },
  {
   "property": "C76",
   "status": "proved",
   "theorems": [
    "Verif.C76_vec_compare",
    "Verif.C76_vec_order",
    "Verif.C76_vec_hash",
    "Verif.C76_box",
    "Verif.C76_rc"
   ],
   "note": ""
  },
  {
   "property": "C77",
   "status": "proved",
   "theorems": [
    "Verif.FVec.C77_drain_iterator",
    "Verif.FVec.C77_replace"
   ],
   "note": ""
  },
  {
   "property": "C78",
   "status": "proved",
   "theorems": [
    "Verif.C78_new"
   ],
   "note": ""
  },
  {
   "property": "C79",
   "status": "proved",
   "theorems": [
    "Verif.C79_fresh_memory_untouched",
    "Verif.C79_zeroed",
    "Verif.C79_unsync_fresh_memory_untouched",
    "Verif.C79_unsync_zeroed",
    "Verif.C79_not_after_reset"
   ],
   "note": ""
  },
  {
   "property": "C80",
   "status": "proved",
   "theorems": [
    "Verif.C80_disjoint",
    "Verif.C80_contents_kept",
    "Verif.C80_new_object",
    "Verif.C80_write",
    "Verif.C80_bump"
   ],
   "note": ""
  },
  {
   "property": "C81",
   "status": "proved",
   "theorems": [
    "Verif.C81_refines",
    "Verif.C81_counts",
    "Verif.C81_own_block"
   ],
   "note": ""
  },
  {
   "property": "C82",
   "status": "proved",
   "theorems": [
    "Verif.FVec.C82_refines",
    "Verif.FVec.C82_contents_irrelevant",
    "Verif.FVec.C82_other_bytes_kept",
    "Verif.FVec.C82_call_keeps_other_bytes"
   ],
   "note": ""
  },
  {
   "property": "C83",
   "status": "proved",
   "theorems": [
    "Verif.Unsync.BumpBoxes.C83_refines",
    "Verif.Unsync.BumpBoxes.C83_places",
    "Verif.Unsync.BumpBoxes.C83_value_kept",
    "Verif.Unsync.BumpBoxes.C83_at_most_once",
    "Verif.Unsync.BumpBoxes.C83_exactly_once"
   ],
   "note": ""
  },
  {
   "property": "C84",
   "status": "proved",
   "theorems": [
    "Verif.C84_refines",
    "Verif.C84_freed_once",
    "Verif.C84_no_leak",
    "Verif.C84_blocks",
    "Verif.C84_values_kept"
   ],
   "note": ""
  },
  {
   "property": "C85",
   "status": "proved",
   "theorems": [
    "Verif.C85_refines",
    "Verif.C85_layout",
    "Verif.C85_pinned_stays",
    "Verif.C85_own_bytes",
    "Verif.C85_pin",
    "Verif.C85_write",
    "Verif.C85_pop_all",
    "Verif.C85_pop_all_unwinds"
   ],
   "note": ""
  },
  {
   "property": "C86",
   "status": "proved",
   "theorems": [
    "Verif.C86_independent",
    "Verif.C86_as_if_alone",
    "Verif.C86_modular",
    "Verif.C86_in_allocated_memory"
   ],
   "note": ""
  },
  {
   "property": "C87",
   "status": "proved",
   "theorems": [
    "Verif.C87_level_is_end",
    "Verif.C87_level_order_is_address_order",
    "Verif.C87_addresses_ascend",
    "Verif.C87_after_seen_level",
    "Verif.C87_before_seen_level"
   ],
   "note": ""
  },
  {
   "property": "C88",
   "status": "proved",
   "theorems": [
    "Verif.ConcBoxes.C88_refines",
    "Verif.ConcBoxes.C88_observed",
    "Verif.ConcBoxes.C88_no_data_race",
    "Verif.ConcBoxes.C88_value_kept",
    "Verif.ConcBoxes.C88_at_most_once",
    "Verif.ConcBoxes.C88_exactly_once"
   ],
   "note": ""
  },
  {
   "property": "C89",
   "status": "proved",
   "theorems": [
    "Verif.C89_no_ub",
    "Verif.C89_answers",
    "Verif.C89_allocator",
    "Verif.C89_no_data_race",
    "Verif.C89_undisturbed"
   ],
   "note": ""
  },
  {
   "property": "C90",
   "status": "proved",
   "theorems": [
    "Verif.Bump.C90_interleaving",
    "Verif.Bump.C90_complete",
    "Verif.Bump.C90_linearizable",
    "Verif.Bump.C90_disjoint",
    "Verif.Bump.C90_no_race",
    "Verif.Bump.C90_ordered"
   ],
   "note": ""
  },
  {
   "property": "C91",
   "status": "partial",
   "theorems": [
    "Verif.BoxMem.C91_refines_partial",
    "Verif.BoxMem.C91_apart_partial",
    "Verif.BoxMem.C91_value_kept_partial",
    "Verif.BoxMem.C91_memory_kept_partial",
    "Verif.BoxMem.C91_at_most_once_partial",
    "Verif.BoxMem.C91_exactly_once_partial",
    "Verif.BoxMem.C91_violated"
   ],
   "note": "Violated by the code: a program without unsafe that splits a slice's memory with split_at_byte gets two boxes in the same bytes, one value is dropped twice (C91_violated). Proved for all programs that use split_at_byte and split_to_fit only where they do what is documented (see C38, C39)."
  },
  {
   "property": "C92",
   "status": "proved",
   "theorems": [
    "Verif.C92_stays",
    "Verif.C92_value",
    "Verif.C92_unsync",
    "Verif.C92_static_needed"
   ],
   "note": ""
  },
  {
   "property": "C93",
   "status": "proved",
   "theorems": [
    "Verif.Bump.Conc.C93_race_free",
    "Verif.Bump.Conc.C93_one_owner",
    "Verif.Bump.Conc.C93_in_storage",
    "Verif.Bump.Conc.C93_no_ub"
   ],
   "note": ""
  },
  {
   "property": "C94",
   "status": "proved",
   "theorems": [
    "Verif.Bump.Conc.C94_contents",
    "Verif.Bump.Conc.C94_unique"
   ],
   "note": ""
  },
  {
   "property": "C95",
   "status": "proved",
   "theorems": [
    "Verif.Bump.Conc.C95_sequentially_consistent",
    "Verif.Bump.Conc.C95_interleaving",
    "Verif.Bump.Conc.C95_complete"
   ],
   "note": ""
  },
  {
   "property": "C96",
   "status": "proved",
   "theorems": [
    "Verif.Linked.C96_refines",
    "Verif.Linked.C96_once",
    "Verif.Linked.C96_all",
    "Verif.Linked.C96_complete"
   ],
   "note": ""
  },
  {
   "property": "C97",
   "status": "proved",
   "theorems": [
    "Verif.Shared.C97_refines",
    "Verif.Shared.C97_few",
    "Verif.Shared.C97_counters",
    "Verif.Shared.C97_once",
    "Verif.Shared.C97_all",
    "Verif.Shared.C97_alive_iff",
    "Verif.Shared.C97_reachable",
    "Verif.Shared.C97_garbage",
    "Verif.Shared.C97_complete",
    "Verif.Shared.C97_layered"
   ],
   "note": ""
  },
  {
   "property": "C98",
   "status": "proved",
   "theorems": [
    "Verif.Nested.C98_refines",
    "Verif.Nested.C98_once",
    "Verif.Nested.C98_all",
    "Verif.Nested.C98_complete"
   ],
   "note": ""
  },
  {
   "property": "C99",
   "status": "partial",
   "theorems": [
    "Verif.Dtor.C99_refines_partial",
    "Verif.Dtor.C99_few",
    "Verif.Dtor.C99_counters_partial",
    "Verif.Dtor.C99_all_partial",
    "Verif.Dtor.C99_once_partial",
    "Verif.Dtor.C99_alive_iff_partial",
    "Verif.Dtor.C99_dying_partial",
    "Verif.Dtor.C99_garbage_partial",
    "Verif.Dtor.C99_complete_partial",
    "Verif.Dtor.C99_violated"
   ],
   "note": "Violated by the code: Drop for Rc gives up the memory before the destructor has run, so a destructor that calls Weak::try_unwrap for the block of its own value gets memory that is in use; in a program without unsafe another value is then used after its destruction and destroyed twice (C99_violated). Proved for all programs that do not call Weak::try_unwrap for the memory of a value that is being destroyed."
  },
  {
   "property": "C100",
   "status": "proved",
   "theorems": [
    "Verif.Mixed.C100_refines",
    "Verif.Mixed.C100_few",
    "Verif.Mixed.C100_counters",
    "Verif.Mixed.C100_all",
    "Verif.Mixed.C100_once",
    "Verif.Mixed.C100_alive_iff",
    "Verif.Mixed.C100_dying",
    "Verif.Mixed.C100_boxes",
    "Verif.Mixed.C100_garbage",
    "Verif.Mixed.C100_complete"
   ],
   "note": ""
  },
  {
   "property": "C101",
   "status": "proved",
   "theorems": [
    "Verif.FillDrops.C101_nothing",
    "Verif.FillDrops.C101_conserves",
    "Verif.FillDrops.C101_slice",
    "Verif.FillDrops.C101_slice_exact",
    "Verif.FillDrops.C101_swap",
    "Verif.FillDrops.C101_result",
    "Verif.FillDrops.C101_result_exact",
    "Verif.FillDrops.C101_keep_tail",
    "Verif.FillDrops.C101_checked",
    "Verif.FillDrops.C101_agrees"
   ],
   "note": ""
  },
  {
   "property": "C102",
   "status": "proved",
   "theorems": [
    "Verif.C102_refines",
    "Verif.C102_once",
    "Verif.C102_accounted",
    "Verif.C102_no_loss",
    "Verif.C102_all_dropped",
    "Verif.C102_pinned_or_dropped",
    "Verif.C102_newest",
    "Verif.C102_disjoint",
    "Verif.C102_agrees"
   ],
   "note": ""
  },
  {
   "property": "C103",
   "status": "proved",
   "theorems": [
    "Verif.VecBorrows.C103_defined",
    "Verif.VecBorrows.C103_refs_usable",
    "Verif.VecBorrows.C103_other_vectors",
    "Verif.VecBorrows.C103_shared_refs",
    "Verif.VecBorrows.C103_as_mut_ptr",
    "Verif.VecBorrows.C103_slice",
    "Verif.VecBorrows.C103_lengths",
    "Verif.VecBorrows.C103_drain_length"
   ],
   "note": ""
  },
  {
   "property": "C104",
   "status": "proved",
   "theorems": [
    "Verif.BumpBorrows.C104_defined",
    "Verif.BumpBorrows.C104_refs_usable",
    "Verif.BumpBorrows.C104_disjoint",
    "Verif.BumpBorrows.C104_other",
    "Verif.BumpBorrows.C104_alloc",
    "Verif.BumpBorrows.C104_give",
    "Verif.BumpBorrows.C104_deref",
    "Verif.BumpBorrows.C104_own",
    "Verif.BumpBorrows.C104_refs",
    "Verif.BumpBorrows.C104_reset"
   ],
   "note": ""
  },
  {
   "property": "C105",
   "status": "partial",
   "theorems": [
    "Verif.RcBorrows.C105_defined_partial",
    "Verif.RcBorrows.C105_refs_usable_partial",
    "Verif.RcBorrows.C105_exclusive_partial",
    "Verif.RcBorrows.C105_alive_partial",
    "Verif.RcBorrows.C105_other_partial",
    "Verif.RcBorrows.C105_counts_partial",
    "Verif.RcBorrows.C105_returned_partial",
    "Verif.RcBorrows.C105_get_mut_partial",
    "Verif.RcBorrows.C105_drop_partial",
    "Verif.RcBorrows.C105_try_unwrap_partial",
    "Verif.RcBorrows.C105_into_raw_partial",
    "Verif.RcBorrows.C105_upgrade_partial",
    "Verif.RcBorrows.C105_weak_unwrap_partial",
    "Verif.RcBorrows.C105_deref_partial",
    "Verif.RcBorrows.C105_handles_partial",
    "Verif.RcBorrows.C105_violated_unwrap_in_drop"
   ],
   "note": "Violated by the code: Drop for Rc gives up its Weak before the destructor of the value runs, so a Weak::try_unwrap in this destructor gives away the memory of the value being dropped, and using its &mut self afterwards is undefined behaviour (C105_violated_unwrap_in_drop). Proved for all programs which do not call Weak::try_unwrap on a value during its destructor. The counters are natural numbers (overflow: C57), the value contains no UnsafeCell."
  },
  {
   "property": "C106",
   "status": "partial",
   "theorems": [
    "Verif.C106_not_unpin_partial",
    "Verif.C106_empty_partial",
    "Verif.C106_never_moved_partial",
    "Verif.C106_inside_partial",
    "Verif.C106_violated_move_of_unpin"
   ],
   "note": "Violated by the code: ExitStack<Mem> is Unpin if Mem is, so safe code can pin a value (Pin::new), let the borrow end, and move the stack; the list of pinned values then points to the old place, and drop or pop_all follows it (C106_violated_move_of_unpin). Proved for Mem that is not Unpin, and for programs which move the stack only when no value is pinned."
  },
  {
   "property": "C107",
   "status": "partial",
   "theorems": [
    "Verif.ExitBorrows.C107_defined_partial",
    "Verif.ExitBorrows.C107_usable_partial",
    "Verif.ExitBorrows.C107_handles_partial",
    "Verif.ExitBorrows.C107_apart_partial",
    "Verif.ExitBorrows.C107_stays_partial",
    "Verif.ExitBorrows.C107_slot_partial",
    "Verif.ExitBorrows.C107_pin_partial",
    "Verif.ExitBorrows.C107_cleared_partial",
    "Verif.ExitBorrows.C107_violated_unpin_always"
   ],
   "note": "Violated by the code if Mem is Unpin: the &mut self of pop_all and drop is then a unique borrow of the whole stack, which contains the pinned values, and so the handles in the list must not be used any more, but are (C107_violated_unpin is a program; C107_violated_unpin_always: clearing or dropping an Unpin stack with values is undefined after every program; the tests use such a Mem). Proved for Mem that is not Unpin, and for programs which clear or drop the stack only without values. Protectors and the bytes of the field top are not modelled; calls are sequential (the type is not Sync)."
  }
 ]
}