# Axioms each theorem depends on

Generated from the compiled library by `tools/axioms.lean.txt` (Lean's `collectAxioms`). All are axioms of Lean itself.

| theorem | axioms |
|---|---|
| `Verif.C01_handed_out_disjoint` | Classical.choice, Quot.sound, propext |
| `Verif.C01_in_flight_disjoint` | Classical.choice, Quot.sound, propext |
| `Verif.C02_in_bounds_aligned` | Classical.choice, Quot.sound, propext |
| `Verif.C03_C12_unsuccessful_no_effect` | Classical.choice, Quot.sound, propext |
| `Verif.C03_panics_iff` | Classical.choice, Quot.sound, propext |
| `Verif.C04_level_bounded` | Classical.choice, Quot.sound, propext |
| `Verif.C04_level_monotone` | Classical.choice, Quot.sound, propext |
| `Verif.C04_observations_monotone` | Classical.choice, Quot.sound, propext |
| `Verif.C05_at_mismatch_truthful` | Classical.choice, Quot.sound, propext |
| `Verif.C05_at_success_exact` | Classical.choice, Quot.sound, propext |
| `Verif.C05_mismatch_instant` | Classical.choice, Quot.sound, propext |
| `Verif.C05_success_instant` | Classical.choice, Quot.sound, propext |
| `Verif.C06_exhaustion_permanent` | Classical.choice, Quot.sound, propext |
| `Verif.C06_exhaustion_truthful` | Classical.choice, Quot.sound, propext |
| `Verif.C07_fits_succeeds` | Classical.choice, Quot.sound, propext |
| `Verif.C08_wait_free` | Classical.choice, Quot.sound, propext |
| `Verif.C08_wait_free_infinite` | Classical.choice, Quot.sound, propext |
| `Verif.C09_retries_bounded` | Classical.choice, Quot.sound, propext |
| `Verif.C09_retry_means_progress` | Classical.choice, Quot.sound, propext |
| `Verif.C10_linearizable` | Classical.choice, Quot.sound, propext |
| `Verif.C11_isolation` | Classical.choice, Quot.sound, propext |
| `Verif.C11_leaked_value_readable` | Classical.choice, Quot.sound, propext |
| `Verif.C12_leak_error_returns_value` | Classical.choice, Quot.sound, propext |
| `Verif.C13_zst` | Classical.choice, Quot.sound, propext |
| `Verif.C13_zst_response` | Classical.choice, Quot.sound, propext |
| `Verif.C14_array_capacity` | Classical.choice, Quot.sound, propext |
| `Verif.C14_array_capacity_exact` | Classical.choice, Quot.sound, propext |
| `Verif.C15_levels_array` | Classical.choice, Quot.sound, propext |
| `Verif.C15_levels_repr_c` | Classical.choice, Quot.sound, propext |
| `Verif.C16_reset_exclusive` | propext |
| `Verif.C16_reset_like_fresh` | Quot.sound, propext |
| `Verif.C17_global_realloc` | Classical.choice, Quot.sound, propext |
| `Verif.C17_local_realloc` | Classical.choice, Quot.sound, propext |
| `Verif.C18_alloc` | Classical.choice, Quot.sound, propext |
| `Verif.C18_alloc_zeroed` | propext |
| `Verif.C18_bytes_kept` | Classical.choice, Quot.sound, propext |
| `Verif.C18_dealloc_noop` | propext |
| `Verif.C18_live_disjoint` | Classical.choice, Quot.sound, propext |
| `Verif.C18_no_panic` | Classical.choice, Quot.sound, propext |
| `Verif.C19_alloc_zeroed` | Classical.choice, Quot.sound, propext |
| `Verif.C19_local_alloc_zeroed` | Classical.choice, Quot.sound, propext |
| `Verif.C20_consumption` | Classical.choice, Quot.sound, propext |
| `Verif.C20_worst_case_fits` | Classical.choice, Quot.sound, propext |
| `Verif.C21_bytes_isolated` | Classical.choice, Quot.sound, propext |
| `Verif.C21_disjoint_in_bounds_aligned` | Classical.choice, Quot.sound, propext |
| `Verif.C21_level_monotone` | Classical.choice, Quot.sound, propext |
| `Verif.C21_results_are_granted` | propext |
| `Verif.C22_panics_iff` | Classical.choice, Quot.sound, propext |
| `Verif.C23_agrees_with_sync` | Classical.choice, Quot.sound, propext |
| `Verif.C23_alloc_iff_fits` | Classical.choice, Quot.sound, propext |
| `Verif.C23_mismatch_iff` | Classical.choice, Quot.sound, propext |
| `Verif.C23_refines_spec` | Classical.choice, Quot.sound, propext |
| `Verif.C24_from_mem` | Classical.choice, Quot.sound, propext |
| `Verif.C25_new_first_alloc_may_panic` | Classical.choice, Quot.sound, propext |
| `Verif.C25_new_level_arbitrary` | Classical.choice, Quot.sound, propext |
| `Verif.C25_new_panics_iff` | Classical.choice, Quot.sound, propext |
| `Verif.C25_new_partial` | Classical.choice, Quot.sound, propext |
| `Verif.C26_get_unchecked_iff` | Classical.choice, Quot.sound, propext |
| `Verif.C26_get_unchecked_partial` | Classical.choice, Quot.sound, propext |
| `Verif.C26_unaligned_wrong_pointer` | propext |
| `Verif.C27_data_inside_object` | Quot.sound, propext |
| `Verif.C27_field_iff` | Classical.choice, Quot.sound, propext |
| `Verif.C27_overaligned_debug_panics` | Quot.sound, propext |
| `Verif.C27_overaligned_no_room` | Classical.choice, Quot.sound, propext |
| `Verif.C27_typed_bump_partial` | Classical.choice, Quot.sound, propext |
| `Verif.C28_bump_array_iff` | Classical.choice, Quot.sound, propext |
| `Verif.C28_bump_array_partial` | Classical.choice, Quot.sound, propext |
| `Verif.C28_bump_box_iff` | Classical.choice, Quot.sound, propext |
| `Verif.C28_bump_box_partial` | Classical.choice, Quot.sound, propext |
| `Verif.C28_empty_array_panics` | Quot.sound, propext |
| `Verif.C28_zst_box_panics` | propext |
| `Verif.C29_alloca_partial` | Classical.choice, Quot.sound, propext |
| `Verif.C29_closure_slice_safe` | Classical.choice, Quot.sound, propext |
| `Verif.C29_debug_panics` | Quot.sound, propext |
| `Verif.C29_empty_panics` | Quot.sound, propext |
| `Verif.C29_overflow` | Quot.sound, propext |
| `Verif.C29_runs_iff` | Classical.choice, Quot.sound, propext |
| `Verif.C29_too_large` | Quot.sound, propext |
| `Verif.C30_drop_frees` | Classical.choice, Quot.sound, propext |
| `Verif.C30_freed_once` | Classical.choice, Quot.sound, propext |
| `Verif.C30_no_leak` | Classical.choice, Quot.sound, propext |
| `Verif.C30_operations_safe` | Classical.choice, Quot.sound, propext |
| `Verif.C31_blocks_disjoint` | Classical.choice, Quot.sound, propext |
| `Verif.C31_blocks_kept` | Classical.choice, Quot.sound, propext |
| `Verif.C31_bump_box_in_front` | Classical.choice, Quot.sound, propext |
| `Verif.C31_chain_joins` | Classical.choice, Quot.sound, propext |
| `Verif.C32_decreases` | Classical.choice, Quot.sound, propext |
| `Verif.C32_front_only` | Classical.choice, Quot.sound, propext |
| `Verif.C32_not_total` | Quot.sound, propext |
| `Verif.C33_all_dropped` | Classical.choice, Quot.sound, propext |
| `Verif.C33_conserved` | Classical.choice, Quot.sound, propext |
| `Verif.C33_ends` | Quot.sound, propext |
| `Verif.C33_no_ub` | Classical.choice, Quot.sound, propext |
| `Verif.C33_readable_is_live` | Classical.choice, Quot.sound, propext |
| `Verif.C33_refines` | Quot.sound, propext |
| `Verif.C34_all_dropped_once` | Classical.choice, Quot.sound, propext |
| `Verif.C34_lifo` | Classical.choice, Quot.sound, propext |
| `Verif.C34_reverse_order` | Classical.choice, Quot.sound, propext |
| `Verif.C35_no_ub` | Classical.choice, Quot.sound, propext |
| `Verif.C35_not_dropped_is_pinned_partial` | Classical.choice, Quot.sound, propext |
| `Verif.C35_pinned_disjoint` | Classical.choice, Quot.sound, propext |
| `Verif.C35_pinned_stays` | Classical.choice, Quot.sound, propext |
| `Verif.C35_slot_is_free` | Classical.choice, Quot.sound, propext |
| `Verif.C35_violated_after_panic` | Classical.choice, Quot.sound, propext |
| `Verif.C36_lost_forever` | Classical.choice, Quot.sound, propext |
| `Verif.C36_no_double_drop_partial` | Classical.choice, Quot.sound, propext |
| `Verif.C36_panic_drops_prefix` | Classical.choice, Quot.sound, propext |
| `Verif.C36_violated` | Classical.choice, Quot.sound, propext |
| `Verif.C37_set_succeeds_iff` | Classical.choice, Quot.sound, propext |
| `Verif.C37_set_succeeds_partial` | Classical.choice, Quot.sound, propext |
| `Verif.C37_violated` | Classical.choice, Quot.sound, propext |
| `Verif.C38_no_panic` | Classical.choice, Quot.sound, propext |
| `Verif.C38_split_at_byte_iff` | Classical.choice, Quot.sound, propext |
| `Verif.C38_violated` | Classical.choice, Quot.sound, propext |
| `Verif.C38_violated_run` | propext |
| `Verif.C38_violated_split_to_fit` | Classical.choice, Quot.sound, propext |
| `Verif.C38_within_partial` | Classical.choice, Quot.sound, propext |
| `Verif.C39_disjoint_partial` | Classical.choice, Quot.sound, propext |
| `Verif.C39_split_at` | Quot.sound, propext |
| `Verif.C39_split_at_byte_iff` | Classical.choice, Quot.sound, propext |
| `Verif.C39_split_first` | Classical.choice, Quot.sound, propext |
| `Verif.C39_split_last` | Classical.choice, Quot.sound, propext |
| `Verif.C39_violated` | Classical.choice, Quot.sound, propext |
| `Verif.C40_cast` | Classical.choice, Quot.sound, propext |
| `Verif.C40_cast_slice` | Quot.sound, propext |
| `Verif.C40_fits` | Quot.sound, propext |
| `Verif.C40_fits_slice` | Quot.sound, propext |
| `Verif.C40_init` | Classical.choice, Quot.sound, propext |
| `Verif.C40_init_isolated` | Classical.choice, Quot.sound, propext |
| `Verif.C40_views_fit` | Classical.choice, Quot.sound, propext |
| `Verif.C41_split_layout_iff` | Quot.sound, propext |
| `Verif.C41_split_layout_partial` | Quot.sound, propext |
| `Verif.C41_split_layout_sound` | Quot.sound, propext |
| `Verif.C41_violated` | Quot.sound, propext |
| `Verif.C41_violated_cast` | Quot.sound, propext |
| `Verif.C42_empty` | Quot.sound, propext |
| `Verif.C42_maybe_uninit_slice` | Classical.choice, Quot.sound, propext |
| `Verif.C42_sized_referent` | Classical.choice, Quot.sound, propext |
| `Verif.C42_slice_matches_partial` | Classical.choice, Quot.sound, propext |
| `Verif.C42_split_at_iff` | Classical.choice, Quot.sound, propext |
| `Verif.C42_violated` | Classical.choice, Quot.sound, propext |
| `Verif.C43_back_and_forth` | Classical.choice, Quot.sound, propext |
| `Verif.C43_invent_for_zst` | Classical.choice, Quot.sound, propext |
| `Verif.C43_maybe_uninit` | Classical.choice, Quot.sound, propext |
| `Verif.C43_maybe_uninit_slice_partial` | Quot.sound, propext |
| `Verif.C43_shrink_to_fit` | Quot.sound, propext |
| `Verif.C43_slice_iff` | Classical.choice, Quot.sound, propext |
| `Verif.C43_violated_zst` | Quot.sound, propext |
| `Verif.FVec.C44_index` | Classical.choice, Quot.sound, propext |
| `Verif.FVec.C44_pop` | Classical.choice, Quot.sound, propext |
| `Verif.FVec.C44_push` | Classical.choice, Quot.sound, propext |
| `Verif.FVec.C44_readable` | Classical.choice, Quot.sound, propext |
| `Verif.FVec.C44_refines_list` | Classical.choice, Quot.sound, propext |
| `Verif.FVec.C44_set_len` | Classical.choice, Quot.sound, propext |
| `Verif.FVec.C45_exactly_once` | Classical.choice, Quot.sound, propext |
| `Verif.FVec.C45_no_double` | Classical.choice, Quot.sound, propext |
| `Verif.FVec.C46_clear` | Classical.choice, Quot.sound, propext |
| `Verif.FVec.C46_drop` | Classical.choice, Quot.sound, propext |
| `Verif.FVec.C46_never_twice` | Classical.choice, Quot.sound, propext |
| `Verif.FVec.C46_truncate` | Classical.choice, Quot.sound, propext |
| `Verif.FVec.C47_drain_partial` | Classical.choice, Quot.sound, propext |
| `Verif.FVec.C47_forget` | Classical.choice, Quot.sound, propext |
| `Verif.FVec.C47_out_of_range` | Classical.choice, Quot.sound, propext |
| `Verif.FVec.C47_size_hint` | Classical.choice, Quot.sound, propext |
| `Verif.FVec.C47_violated_wrap` | Quot.sound, propext |
| `Verif.FVec.C47_wrapped_history` | Classical.choice, Quot.sound, propext |
| `Verif.FVec.C47_wraps` | Quot.sound, propext |
| `Verif.FVec.C48_shrink_to_fit` | Classical.choice, Quot.sound, propext |
| `Verif.FVec.C48_split_and_shrink_to` | Classical.choice, Quot.sound, propext |
| `Verif.FVec.C48_split_borrowed` | Classical.choice, Quot.sound, propext |
| `Verif.FVec.C49_extend` | Classical.choice, Quot.sound, propext |
| `Verif.FVec.C49_fill` | Classical.choice, Quot.sound, propext |
| `Verif.FVec.C50_capacity` | Quot.sound, propext |
| `Verif.FVec.C50_from_unaligned_partial` | Quot.sound, propext |
| `Verif.FVec.C50_sound` | Quot.sound, propext |
| `Verif.FVec.C50_violated` | Quot.sound, propext |
| `Verif.C51_all_dropped` | Classical.choice, Quot.sound, propext |
| `Verif.C51_conserved` | Classical.choice, Quot.sound, propext |
| `Verif.C51_ends` | Quot.sound, propext |
| `Verif.C51_no_ub` | Classical.choice, Quot.sound, propext |
| `Verif.C51_readable_is_live` | Classical.choice, Quot.sound, propext |
| `Verif.C51_refines` | propext |
| `Verif.C52_new_handle` | Classical.choice, Quot.sound, propext |
| `Verif.C52_refines` | Classical.choice, Quot.sound, propext |
| `Verif.C52_strong_count` | Classical.choice, Quot.sound, propext |
| `Verif.C52_weak_count` | Classical.choice, Quot.sound, propext |
| `Verif.C53_accessible` | Classical.choice, Quot.sound, propext |
| `Verif.C53_at_most_once` | Classical.choice, Quot.sound, propext |
| `Verif.C53_drop` | Classical.choice, Quot.sound, propext |
| `Verif.C53_exactly_once` | Classical.choice, Quot.sound, propext |
| `Verif.C53_no_other_drop` | Classical.choice, Quot.sound, propext |
| `Verif.C53_shared` | propext |
| `Verif.C53_stable` | Classical.choice, Quot.sound, propext |
| `Verif.C53_try_unwrap` | Classical.choice, Quot.sound, propext |
| `Verif.C53_upgrade` | Classical.choice, Quot.sound, propext |
| `Verif.C54_exclusive` | Classical.choice, Quot.sound, propext |
| `Verif.C54_get_mut` | Classical.choice, Quot.sound, propext |
| `Verif.C55_not_user` | Classical.choice, Quot.sound, propext |
| `Verif.C55_release_partial` | Classical.choice, Quot.sound, propext |
| `Verif.C55_violated` | Classical.choice, Quot.sound, propext |
| `Verif.C56_into_raw` | Classical.choice, Quot.sound, propext |
| `Verif.C56_layout` | Classical.choice, Quot.sound, propext |
| `Verif.C56_new` | Classical.choice, Quot.sound, propext |
| `Verif.C56_raw_modify` | Classical.choice, Quot.sound, propext |
| `Verif.C56_raw_views` | Classical.choice, Quot.sound, propext |
| `Verif.C56_round_trip` | Classical.choice, Quot.sound, propext |
| `Verif.C57_checked_drop_partial` | Classical.choice, Quot.sound, propext |
| `Verif.C57_checked_exclusive_partial` | Classical.choice, Quot.sound, propext |
| `Verif.C57_checked_safe_partial` | Classical.choice, Quot.sound, propext |
| `Verif.C57_upgrade_panic_miscounts` | Quot.sound, propext |
| `Verif.C57_violated_wrap` | Quot.sound, propext |
| `Verif.C58_alloc_layout` | propext |
| `Verif.C58_alloc_t` | Classical.choice, Quot.sound, propext |
| `Verif.C58_boxed` | Classical.choice, Quot.sound, propext |
| `Verif.C58_copy_slice` | Classical.choice, Quot.sound, propext |
| `Verif.C58_copy_str` | Classical.choice, Quot.sound, propext |
| `Verif.C58_fixed_vec` | Classical.choice, Quot.sound, propext |
| `Verif.C58_rc` | Classical.choice, Quot.sound, propext |
| `Verif.C59_copy_slice_bump` | Classical.choice, Quot.sound, propext |
| `Verif.C59_copy_slice_iff` | Classical.choice, Quot.sound, propext |
| `Verif.C59_copy_slice_partial` | Classical.choice, Quot.sound, propext |
| `Verif.C59_copy_slice_prefix` | Classical.choice, Quot.sound, propext |
| `Verif.C59_copy_str_partial` | Classical.choice, Quot.sound, propext |
| `Verif.C59_violated_larger` | Classical.choice, Quot.sound, propext |
| `Verif.C59_violated_larger_run` | propext |
| `Verif.C59_violated_zst` | Quot.sound, propext |
| `Verif.C60_fixed_vec` | Quot.sound, propext |
| `Verif.C61_contract_fulfilled_by_bump` | Classical.choice, Quot.sound, propext |
| `Verif.C61_default_alloc_zeroed` | Classical.choice, Quot.sound, propext |
| `Verif.C61_default_realloc` | Classical.choice, Quot.sound, propext |
| `Verif.C62_nonZeroLayout` | propext |
| `Verif.C63_fill_count` | Quot.sound, propext |
| `Verif.C63_full` | Classical.choice, Quot.sound, propext |
| `Verif.C63_keep_tail` | Quot.sound, propext |
| `Verif.C63_option` | propext |
| `Verif.C63_unit` | Classical.choice, Quot.sound, propext |
| `Verif.C63_vec` | Quot.sound, propext |
| `Verif.C64_checked_fill` | propext |
| `Verif.C64_full` | Classical.choice, Quot.sound, propext |
| `Verif.C64_not_asked_again` | Classical.choice, Quot.sound, propext |
| `Verif.C64_returns` | Classical.choice, Quot.sound, propext |
| `Verif.C65_err` | none |
| `Verif.C65_option` | propext |
| `Verif.C65_result_exact` | Quot.sound, propext |
| `Verif.C65_result_partial` | Quot.sound, propext |
| `Verif.C65_violated` | Quot.sound, propext |
| `Verif.C65_violated_diverges` | propext |
| `Verif.C66_iter_mut` | Classical.choice, Quot.sound, propext |
| `Verif.C66_iter_mut_swap` | Classical.choice, Quot.sound, propext |
| `Verif.C66_slice` | Classical.choice, Quot.sound, propext |
| `Verif.C67_not_unsized` | Classical.choice, Quot.sound, propext |
| `Verif.C67_to_dyn` | none |
| `Verif.C67_to_slice` | none |
| `Verif.C67_unsize` | Classical.choice, Quot.sound, propext |
| `Verif.C68_copy_dst_partial` | Classical.choice, Quot.sound, propext |
| `Verif.C68_violated` | Classical.choice, Quot.sound, propext |
| `Verif.C68_zero_sized` | Classical.choice, Quot.sound, propext |
| `Verif.C69_provenance_partial` | Classical.choice, Quot.sound, propext |
| `Verif.C69_violated_pin_box` | Classical.choice, Quot.sound, propext |
| `Verif.C70_alloc` | Classical.choice, Quot.sound, propext |
| `Verif.C70_live_blocks` | Classical.choice, Quot.sound, propext |
| `Verif.C70_no_panic` | Classical.choice, Quot.sound, propext |
| `Verif.C71_contents_stable` | Classical.choice, Quot.sound, propext |
| `Verif.C71_write_read` | Classical.choice, Quot.sound, propext |
| `Verif.C72_realloc` | Classical.choice, Quot.sound, propext |
| `Verif.C73_wait_free` | Classical.choice, Quot.sound, propext |
| `Verif.C74_no_data_race` | Classical.choice, Quot.sound, propext |
| `Verif.C74_reads` | Classical.choice, Quot.sound, propext |
| `Verif.C74_writes` | Quot.sound, propext |
| `Verif.FVec.C75_contents_irrelevant` | Classical.choice, Quot.sound, propext |
| `Verif.FVec.C75_history_writes_only_given_memory` | Classical.choice, Quot.sound, propext |
| `Verif.FVec.C75_writes_own_memory` | Classical.choice, Quot.sound, propext |
| `Verif.C76_box` | none |
| `Verif.C76_rc` | propext |
| `Verif.C76_vec_compare` | Classical.choice, Quot.sound, propext |
| `Verif.C76_vec_hash` | propext |
| `Verif.C76_vec_order` | Classical.choice, Quot.sound, propext |
| `Verif.FVec.C77_drain_iterator` | Classical.choice, Quot.sound, propext |
| `Verif.FVec.C77_replace` | Classical.choice, Quot.sound, propext |
| `Verif.C78_new` | Classical.choice, Quot.sound, propext |
| `Verif.C79_fresh_memory_untouched` | Classical.choice, Quot.sound, propext |
| `Verif.C79_not_after_reset` | propext |
| `Verif.C79_unsync_fresh_memory_untouched` | Classical.choice, Quot.sound, propext |
| `Verif.C79_unsync_zeroed` | Classical.choice, Quot.sound, propext |
| `Verif.C79_zeroed` | Classical.choice, Quot.sound, propext |
| `Verif.C80_bump` | Classical.choice, Quot.sound, propext |
| `Verif.C80_contents_kept` | Classical.choice, Quot.sound, propext |
| `Verif.C80_disjoint` | Classical.choice, Quot.sound, propext |
| `Verif.C80_new_object` | Classical.choice, Quot.sound, propext |
| `Verif.C80_write` | Classical.choice, Quot.sound, propext |
| `Verif.C81_counts` | Classical.choice, Quot.sound, propext |
| `Verif.C81_own_block` | Classical.choice, Quot.sound, propext |
| `Verif.C81_refines` | Classical.choice, Quot.sound, propext |
| `Verif.FVec.C82_call_keeps_other_bytes` | Classical.choice, Quot.sound, propext |
| `Verif.FVec.C82_contents_irrelevant` | Classical.choice, Quot.sound, propext |
| `Verif.FVec.C82_other_bytes_kept` | Classical.choice, Quot.sound, propext |
| `Verif.FVec.C82_refines` | Classical.choice, Quot.sound, propext |
| `Verif.Unsync.BumpBoxes.C83_at_most_once` | Classical.choice, Quot.sound, propext |
| `Verif.Unsync.BumpBoxes.C83_exactly_once` | Classical.choice, Quot.sound, propext |
| `Verif.Unsync.BumpBoxes.C83_places` | Classical.choice, Quot.sound, propext |
| `Verif.Unsync.BumpBoxes.C83_refines` | Classical.choice, Quot.sound, propext |
| `Verif.Unsync.BumpBoxes.C83_value_kept` | Classical.choice, Quot.sound, propext |
| `Verif.C84_blocks` | Classical.choice, Quot.sound, propext |
| `Verif.C84_freed_once` | Classical.choice, Quot.sound, propext |
| `Verif.C84_no_leak` | Classical.choice, Quot.sound, propext |
| `Verif.C84_refines` | Classical.choice, Quot.sound, propext |
| `Verif.C84_values_kept` | Classical.choice, Quot.sound, propext |
| `Verif.C85_layout` | Classical.choice, Quot.sound, propext |
| `Verif.C85_own_bytes` | Classical.choice, Quot.sound, propext |
| `Verif.C85_pin` | Classical.choice, Quot.sound, propext |
| `Verif.C85_pinned_stays` | Classical.choice, Quot.sound, propext |
| `Verif.C85_pop_all` | Classical.choice, Quot.sound, propext |
| `Verif.C85_pop_all_unwinds` | Classical.choice, Quot.sound, propext |
| `Verif.C85_refines` | Classical.choice, Quot.sound, propext |
| `Verif.C85_write` | Classical.choice, Quot.sound, propext |
| `Verif.C86_as_if_alone` | Classical.choice, Quot.sound, propext |
| `Verif.C86_in_allocated_memory` | Classical.choice, Quot.sound, propext |
| `Verif.C86_independent` | Classical.choice, Quot.sound, propext |
| `Verif.C86_modular` | Classical.choice, Quot.sound, propext |
| `Verif.C87_addresses_ascend` | Classical.choice, Quot.sound, propext |
| `Verif.C87_after_seen_level` | Classical.choice, Quot.sound, propext |
| `Verif.C87_before_seen_level` | Classical.choice, Quot.sound, propext |
| `Verif.C87_level_is_end` | Classical.choice, Quot.sound, propext |
| `Verif.C87_level_order_is_address_order` | Classical.choice, Quot.sound, propext |
| `Verif.ConcBoxes.C88_at_most_once` | Classical.choice, Quot.sound, propext |
| `Verif.ConcBoxes.C88_exactly_once` | Classical.choice, Quot.sound, propext |
| `Verif.ConcBoxes.C88_no_data_race` | Classical.choice, Quot.sound, propext |
| `Verif.ConcBoxes.C88_observed` | Quot.sound, propext |
| `Verif.ConcBoxes.C88_refines` | Classical.choice, Quot.sound, propext |
| `Verif.ConcBoxes.C88_value_kept` | Classical.choice, Quot.sound, propext |
| `Verif.C89_allocator` | Classical.choice, Quot.sound, propext |
| `Verif.C89_answers` | Classical.choice, Quot.sound, propext |
| `Verif.C89_no_data_race` | Classical.choice, Quot.sound, propext |
| `Verif.C89_no_ub` | Classical.choice, Quot.sound, propext |
| `Verif.C89_undisturbed` | Classical.choice, Quot.sound, propext |
| `Verif.Bump.C90_complete` | Classical.choice, Quot.sound, propext |
| `Verif.Bump.C90_disjoint` | Classical.choice, Quot.sound, propext |
| `Verif.Bump.C90_interleaving` | Classical.choice, Quot.sound, propext |
| `Verif.Bump.C90_linearizable` | Classical.choice, Quot.sound, propext |
| `Verif.Bump.C90_no_race` | Classical.choice, Quot.sound, propext |
| `Verif.Bump.C90_ordered` | Classical.choice, Quot.sound, propext |
| `Verif.BoxMem.C91_apart_partial` | Classical.choice, Quot.sound, propext |
| `Verif.BoxMem.C91_at_most_once_partial` | Classical.choice, Quot.sound, propext |
| `Verif.BoxMem.C91_exactly_once_partial` | Classical.choice, Quot.sound, propext |
| `Verif.BoxMem.C91_memory_kept_partial` | Classical.choice, Quot.sound, propext |
| `Verif.BoxMem.C91_refines_partial` | Classical.choice, Quot.sound, propext |
| `Verif.BoxMem.C91_value_kept_partial` | Classical.choice, Quot.sound, propext |
| `Verif.BoxMem.C91_violated` | Quot.sound, propext |
| `Verif.C92_static_needed` | Classical.choice, Quot.sound, propext |
| `Verif.C92_stays` | Classical.choice, Quot.sound, propext |
| `Verif.C92_unsync` | Classical.choice, Quot.sound, propext |
| `Verif.C92_value` | Classical.choice, Quot.sound, propext |
| `Verif.Bump.Conc.C93_in_storage` | Classical.choice, Quot.sound, propext |
| `Verif.Bump.Conc.C93_no_ub` | Classical.choice, Quot.sound, propext |
| `Verif.Bump.Conc.C93_one_owner` | Classical.choice, Quot.sound, propext |
| `Verif.Bump.Conc.C93_race_free` | Classical.choice, Quot.sound, propext |
| `Verif.Bump.Conc.C94_contents` | Classical.choice, Quot.sound, propext |
| `Verif.Bump.Conc.C94_unique` | Classical.choice, Quot.sound, propext |
| `Verif.Bump.Conc.C95_complete` | Classical.choice, Quot.sound, propext |
| `Verif.Bump.Conc.C95_interleaving` | Classical.choice, Quot.sound, propext |
| `Verif.Bump.Conc.C95_sequentially_consistent` | Classical.choice, Quot.sound, propext |
| `Verif.Linked.C96_all` | Classical.choice, Quot.sound, propext |
| `Verif.Linked.C96_complete` | Classical.choice, Quot.sound, propext |
| `Verif.Linked.C96_once` | Classical.choice, Quot.sound, propext |
| `Verif.Linked.C96_refines` | Classical.choice, Quot.sound, propext |
| `Verif.Shared.C97_alive_iff` | Classical.choice, Quot.sound, propext |
| `Verif.Shared.C97_all` | Classical.choice, Quot.sound, propext |
| `Verif.Shared.C97_complete` | Classical.choice, Quot.sound, propext |
| `Verif.Shared.C97_counters` | Classical.choice, Quot.sound, propext |
| `Verif.Shared.C97_few` | Classical.choice, Quot.sound, propext |
| `Verif.Shared.C97_garbage` | Classical.choice, Quot.sound, propext |
| `Verif.Shared.C97_layered` | Classical.choice, Quot.sound, propext |
| `Verif.Shared.C97_once` | Classical.choice, Quot.sound, propext |
| `Verif.Shared.C97_reachable` | Classical.choice, Quot.sound, propext |
| `Verif.Shared.C97_refines` | Classical.choice, Quot.sound, propext |
| `Verif.Nested.C98_all` | Classical.choice, Quot.sound, propext |
| `Verif.Nested.C98_complete` | Classical.choice, Quot.sound, propext |
| `Verif.Nested.C98_once` | Classical.choice, Quot.sound, propext |
| `Verif.Nested.C98_refines` | Classical.choice, Quot.sound, propext |
| `Verif.Dtor.C99_alive_iff_partial` | Classical.choice, Quot.sound, propext |
| `Verif.Dtor.C99_all_partial` | Classical.choice, Quot.sound, propext |
| `Verif.Dtor.C99_complete_partial` | Classical.choice, Quot.sound, propext |
| `Verif.Dtor.C99_counters_partial` | Classical.choice, Quot.sound, propext |
| `Verif.Dtor.C99_dying_partial` | Classical.choice, Quot.sound, propext |
| `Verif.Dtor.C99_few` | Classical.choice, Quot.sound, propext |
| `Verif.Dtor.C99_garbage_partial` | Classical.choice, Quot.sound, propext |
| `Verif.Dtor.C99_once_partial` | Classical.choice, Quot.sound, propext |
| `Verif.Dtor.C99_refines_partial` | Classical.choice, Quot.sound, propext |
| `Verif.Dtor.C99_violated` | Quot.sound, propext |
| `Verif.Mixed.C100_alive_iff` | Classical.choice, Quot.sound, propext |
| `Verif.Mixed.C100_all` | Classical.choice, Quot.sound, propext |
| `Verif.Mixed.C100_boxes` | Classical.choice, Quot.sound, propext |
| `Verif.Mixed.C100_complete` | Classical.choice, Quot.sound, propext |
| `Verif.Mixed.C100_counters` | Classical.choice, Quot.sound, propext |
| `Verif.Mixed.C100_dying` | Classical.choice, Quot.sound, propext |
| `Verif.Mixed.C100_few` | Classical.choice, Quot.sound, propext |
| `Verif.Mixed.C100_garbage` | Classical.choice, Quot.sound, propext |
| `Verif.Mixed.C100_once` | Classical.choice, Quot.sound, propext |
| `Verif.Mixed.C100_refines` | Classical.choice, Quot.sound, propext |
| `Verif.FillDrops.C101_agrees` | Quot.sound, propext |
| `Verif.FillDrops.C101_checked` | propext |
| `Verif.FillDrops.C101_conserves` | Classical.choice, Quot.sound, propext |
| `Verif.FillDrops.C101_keep_tail` | propext |
| `Verif.FillDrops.C101_nothing` | propext |
| `Verif.FillDrops.C101_result` | Classical.choice, Quot.sound, propext |
| `Verif.FillDrops.C101_result_exact` | Quot.sound, propext |
| `Verif.FillDrops.C101_slice` | Classical.choice, Quot.sound, propext |
| `Verif.FillDrops.C101_slice_exact` | Classical.choice, Quot.sound, propext |
| `Verif.FillDrops.C101_swap` | Classical.choice, Quot.sound, propext |
| `Verif.C102_accounted` | Classical.choice, Quot.sound, propext |
| `Verif.C102_agrees` | Classical.choice, Quot.sound, propext |
| `Verif.C102_all_dropped` | Classical.choice, Quot.sound, propext |
| `Verif.C102_disjoint` | Classical.choice, Quot.sound, propext |
| `Verif.C102_newest` | Classical.choice, Quot.sound, propext |
| `Verif.C102_no_loss` | Quot.sound, propext |
| `Verif.C102_once` | Classical.choice, Quot.sound, propext |
| `Verif.C102_pinned_or_dropped` | Classical.choice, Quot.sound, propext |
| `Verif.C102_refines` | Classical.choice, Quot.sound, propext |
| `Verif.VecBorrows.C103_as_mut_ptr` | Classical.choice, Quot.sound, propext |
| `Verif.VecBorrows.C103_defined` | Classical.choice, Quot.sound, propext |
| `Verif.VecBorrows.C103_drain_length` | Classical.choice, Quot.sound, propext |
| `Verif.VecBorrows.C103_lengths` | Quot.sound, propext |
| `Verif.VecBorrows.C103_other_vectors` | Quot.sound, propext |
| `Verif.VecBorrows.C103_refs_usable` | Classical.choice, Quot.sound, propext |
| `Verif.VecBorrows.C103_shared_refs` | Quot.sound, propext |
| `Verif.VecBorrows.C103_slice` | propext |
| `Verif.BumpBorrows.C104_alloc` | Classical.choice, Quot.sound, propext |
| `Verif.BumpBorrows.C104_defined` | Classical.choice, Quot.sound, propext |
| `Verif.BumpBorrows.C104_deref` | Quot.sound, propext |
| `Verif.BumpBorrows.C104_disjoint` | Classical.choice, Quot.sound, propext |
| `Verif.BumpBorrows.C104_give` | Quot.sound, propext |
| `Verif.BumpBorrows.C104_other` | Classical.choice, Quot.sound, propext |
| `Verif.BumpBorrows.C104_own` | Quot.sound, propext |
| `Verif.BumpBorrows.C104_refs` | Quot.sound, propext |
| `Verif.BumpBorrows.C104_refs_usable` | Classical.choice, Quot.sound, propext |
| `Verif.BumpBorrows.C104_reset` | Classical.choice, Quot.sound, propext |
| `Verif.RcBorrows.C105_alive_partial` | Classical.choice, Quot.sound, propext |
| `Verif.RcBorrows.C105_counts_partial` | Classical.choice, Quot.sound, propext |
| `Verif.RcBorrows.C105_defined_partial` | Classical.choice, Quot.sound, propext |
| `Verif.RcBorrows.C105_deref_partial` | Classical.choice, Quot.sound, propext |
| `Verif.RcBorrows.C105_drop_partial` | Classical.choice, Quot.sound, propext |
| `Verif.RcBorrows.C105_exclusive_partial` | Classical.choice, Quot.sound, propext |
| `Verif.RcBorrows.C105_get_mut_partial` | Classical.choice, Quot.sound, propext |
| `Verif.RcBorrows.C105_handles_partial` | Quot.sound, propext |
| `Verif.RcBorrows.C105_into_raw_partial` | Classical.choice, Quot.sound, propext |
| `Verif.RcBorrows.C105_other_partial` | Classical.choice, Quot.sound, propext |
| `Verif.RcBorrows.C105_refs_usable_partial` | Classical.choice, Quot.sound, propext |
| `Verif.RcBorrows.C105_returned_partial` | Classical.choice, Quot.sound, propext |
| `Verif.RcBorrows.C105_try_unwrap_partial` | Classical.choice, Quot.sound, propext |
| `Verif.RcBorrows.C105_upgrade_partial` | Classical.choice, Quot.sound, propext |
| `Verif.RcBorrows.C105_violated_unwrap_in_drop` | Quot.sound, propext |
| `Verif.RcBorrows.C105_weak_unwrap_partial` | Classical.choice, Quot.sound, propext |
| `Verif.C106_empty_partial` | Classical.choice, Quot.sound, propext |
| `Verif.C106_inside_partial` | Classical.choice, Quot.sound, propext |
| `Verif.C106_never_moved_partial` | Classical.choice, Quot.sound, propext |
| `Verif.C106_not_unpin_partial` | Classical.choice, Quot.sound, propext |
| `Verif.C106_violated_move_of_unpin` | Quot.sound, propext |
| `Verif.ExitBorrows.C107_apart_partial` | Classical.choice, Quot.sound, propext |
| `Verif.ExitBorrows.C107_cleared_partial` | propext |
| `Verif.ExitBorrows.C107_defined_partial` | Classical.choice, Quot.sound, propext |
| `Verif.ExitBorrows.C107_handles_partial` | Classical.choice, Quot.sound, propext |
| `Verif.ExitBorrows.C107_pin_partial` | propext |
| `Verif.ExitBorrows.C107_slot_partial` | Classical.choice, Quot.sound, propext |
| `Verif.ExitBorrows.C107_stays_partial` | Classical.choice, Quot.sound, propext |
| `Verif.ExitBorrows.C107_usable_partial` | Classical.choice, Quot.sound, propext |
| `Verif.ExitBorrows.C107_violated_unpin_always` | Classical.choice, Quot.sound, propext |
