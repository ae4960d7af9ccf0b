# Axioms of the property theorems

Written by `tools/axioms.py` from `#print axioms`; all names are in namespace `Blink`.

## propext, Classical.choice, Quot.sound (350 theorems)

`C01_no_overlap`, `C02_layout_and_memory`, `C02_held`, `C02_allocate`, `C03_no_ub`, `C04_resize_preserves`, `C04_grow_zeroed`, `C05_never_writes_owned`, `C06_failure_changes_nothing`, `C06_later_behaviour`, `C07_shrink_partial`, `C07_align_increase_moves`, `C08_grow_in_place`, `C08_after_allocate`, `C09_deallocate_noop`, `C10_reset_keeps_newest`, `C10_reset_total`, `C11_no_leak`, `C12_frees_fit`, `C13_warm`, `C14_converged_partial`, `C14_presized_partial`, `C14_full_false`, `C15_new_chunk_partial`, `C15_request_size_partial`, `C16_valid_requests_partial`, `C17_zeroed`, `C18_fails_for_a_reason`, `C18_room_suffices`, `C18_one_request`, `C19_bump`, `C19_new_chunk`, `C20_capacity_fib`, `C20_requests_fib`, `C20_logarithmic`, `C21_align_up`, `C21_align_up_none`, `C21_align_down`, `C21_is_aligned`, `C22_no_overlap`, `C22_layout_and_memory`, `C22_held`, `C22_allocate`, `C22_no_ub`, `C23_frame`, `C23_resize`, `C24_writer_alone`, `C24_root_change`, `C24_retry`, `C24_gives_up_only_if_full`, `C24_finishes_alone`, `C24_holder_enabled`, `C24_no_deadlock`, `C24_somebody_moves`, `C25_call`, `C25_carry_over`, `C26_no_overlap`, `C26_memory`, `C26_no_ub`, `C26_frame`, `C26_waiting`, `C26_resize_contents`, `C26_direct_resize`, `C27_first_chunk`, `C28_proxies_free_nothing`, `C28_only_shared_resets_free`, `C28_frees_fit`, `C28_shared_reset`, `C29_no_ub`, `C29_only_pushed`, `C29_push_between`, `C29_owned_once`, `C30_linearizable`, `C30_nothing_lost`, `C30_somebody_moves`, `C30_bounded_steps`, `C30_moves`, `C30_finishes_alone`, `C31_no_wrap`, `C31_exclusive`, `C32_full_false`, `C32_drop_partial`, `C33_all_dropped`, `C33_only_then`, `C33_returns`, `C33_exactly_once`, `C34_no_second_drop`, `C34_where_it_stops`, `C34_never_twice`, `C35_stable`, `C35_value`, `C35_with`, `C35_reads_value`, `C36_try_value`, `C36_try_with`, `C37_partial`, `C38_partial`, `C39_error_partial`, `C39_panic_partial`, `C39_never_twice_partial`, `C40_partial`, `C40_untouched_partial`, `C41_never_dropped`, `C41_partial`, `C42_partial`, `C43_partial`, `C44_same_address`, `C44_offsets`, `C45_copy`, `C46_shared`, `C47_send`, `C48_realloc_always_wrong`, `C48_partial`, `C48_threads_realloc_always_wrong`, `C48_threads_call`, `C48_threads_partial`, `C49_no_overlap`, `C49_layout_and_memory`, `C49_no_fault`, `C49_keeps`, `C49_realloc`, `C49_zeroed`, `C49_null_for_a_reason`, `C49_threads_no_overlap`, `C49_threads_layout_and_memory`, `C49_threads_no_fault`, `C49_threads_somebody_moves`, `C49_threads_finishes`, `C49_threads_keeps`, `C49_threads_realloc`, `C49_threads_alloc`, `C49_threads_null_for_a_reason`, `C50_counter`, `C50_panics_iff`, `C50_threads_counter`, `C50_threads_counter_quiet`, `C50_threads_panics_iff`, `C51_held`, `C51_direct_mode`, `C51_mode`, `C51_drop`, `C51_threads_held`, `C51_threads_direct_mode`, `C51_threads_mode`, `C51_threads_drop`, `C52_metadata_apart`, `C52_write_harmless`, `C53_content_independent`, `C54_into_inner`, `C54_no_leak_after_reset_final`, `C54_drop`, `C54_sync_drop`, `C54_sync_into_inner`, `C55_references`, `C56_no_fault`, `C57_resets`, `C57_send_resets`, `C57_not_reset`, `C59_reset`, `C59_reset_final`, `C59_frees_fit`, `C60_fails_for_a_reason`, `C61_no_room_partial`, `C61_lone_partial`, `C62_shrink_partial`, `C63_dealloc_partial`, `C63_threads_dealloc_partial`, `C64_footprint`, `C64_each_request`, `C65_each_request_partial`, `C65_footprint_partial`, `C65_request_partial`, `C65_bound_partial`, `C65_chunks_partial`, `C66_no_ub`, `C66_no_overlap`, `C66_layout_and_memory`, `C66_held`, `C66_allocate`, `C66_frame`, `C66_resize`, `C66_reset_unchecked`, `C66_holder_enabled`, `C66_finishes_alone`, `C67_accounts`, `C67_drop_owned`, `C67_drop_borrowed`, `C69_room`, `C69_no_room`, `C69_answer`, `C69_empty_chunk`, `C69_reset`, `C69_reset_unchecked`, `C69_reset_unchecked_rest`, `C69_shrink`, `C69_grow`, `C69_move`, `C69_resize_no_room`, `C69_deallocate`, `C69_drop`, `C70_lock`, `C70_no_race`, `C70_owned`, `C70_handed`, `C70_not_written`, `C70_headers`, `C71_no_race`, `C71_root`, `C71_reads`, `C71_handed_out`, `C71_released`, `C71_histories`, `C72_finishes_alone`, `C72_reset_finishes_alone`, `C72_direct_finishes_alone`, `C72_holder_enabled`, `C72_holder_inside`, `C72_no_deadlock`, `C72_somebody_moves`, `C72_starts`, `C72_blocks_untouched`, `C72_no_race`, `C73_starts`, `C73_next`, `C73_meanwhile`, `C73_history`, `C73_complete`, `C73_chunks_exist`, `C73_chunks`, `C73_all_but_newest`, `C74_request`, `C74_least`, `C74_grown`, `C74_number`, `C74_remembered`, `C75_own`, `C75_resetting`, `C75_calls`, `C76_own`, `C76_own_blocks`, `C76_inside_blocks`, `C76_writes`, `C76_handed`, `C76_no_race`, `C77_drop_full_false`, `C77_fresh_full_false`, `C77_drop_partial`, `C77_fresh_partial`, `C78_no_race`, `C78_root`, `C78_proxy`, `C78_answer`, `C78_reads`, `C78_handed_out`, `C78_handed_out_proxy`, `C78_handed_out_answer`, `C78_released`, `C78_histories`, `C79_refines`, `C79_no_overlap`, `C79_memory`, `C79_no_fault`, `C79_somebody_moves`, `C79_keeps`, `C79_realloc`, `C79_alloc`, `C79_counter`, `C79_panics_iff`, `C80_realloc_null_partial`, `C81_outstanding_partial`, `C82_no_fault_partial`, `C82_blocks_partial`, `C82_slices_partial`, `C82_given_back`, `C83_no_leak`, `C84_linearizable`, `C84_local`, `C84_step`, `C84_proxy`, `C84_proxy_state`, `C85_local`, `C85_local_step`, `C85_local_owned`, `C85_sync`, `C85_sync_step`, `C85_sync_owned`, `C85_proxy`, `C85_proxy_step`, `C85_proxy_owned`, `C86_refines`, `C86_no_overlap`, `C86_memory`, `C86_no_fault`, `C86_keeps`, `C86_realloc`, `C86_alloc`, `C86_direct`, `C86_realloc_always_wrong`, `C86_counter`, `C86_somebody_moves`, `C86_mode`, `C86_held`, `C86_resets`, `C86_drop`, `C87_few_hints`, `C87_modest`, `C88_every`, `C88_only`, `C88_blink_alloc`, `C89_local`, `C89_local_any`, `C89_local_no_ub`, `C89_sync`, `C89_thread`, `C89_thread_any`, `C89_sync_no_ub`, `C89_thread_no_ub`, `C89_proxy`, `C90_in_place`, `C90_tight`, `C90_one_request`, `C91_refines`, `C91_no_overlap`, `C91_layout_and_memory`, `C91_no_fault`, `C91_frame`, `C91_allocate_zeroed`, `C91_grow_zeroed`, `C91_answers`, `C91_moves`, `C91_calls_start`, `C91_gives_back`, `C91_finishes_alone`, `C92_linearizable`, `C93_refines`, `C93_no_overlap`, `C93_memory`, `C93_no_fault`, `C93_frame`, `C93_allocate_zeroed`, `C93_grow_zeroed`, `C93_starts`, `C93_finishes_alone`, `C94_proxy`, `C94_proxy_state`, `C95_warm`, `C95_never_waits`, `C96_at_once`, `C96_warm`, `C96_after_reset`

## propext, Quot.sound (44 theorems)

`C03_debug_zero_chunk_size`, `C07_full_false`, `C15_full_false`, `C16_full_false`, `C21_layout_sum`, `C25_reset`, `C26_huge_request_faults`, `C26_debug_empty_chunk`, `C27_new_proxy`, `C27_never_decreases`, `C27_variable`, `C27_unsynchronised_false`, `C37_full_false`, `C38_full_false`, `C39_full_false`, `C40_full_false`, `C41_full_false`, `C42_full_false`, `C42_twice`, `C42_empty_debug`, `C43_full_false`, `C48_full_false`, `C48_threads_full_false`, `C51_blink_mode`, `C51_threads_blink_mode`, `C61_full_false`, `C62_full_false`, `C63_full_false`, `C65_race`, `C65_full_false`, `C68_from_iter_bounded`, `C73_chunks_new`, `C74_minimum`, `C74_minimum_history`, `C75_exists`, `C78_root_proxy`, `C79_reset_unnoticed`, `C80_full_false`, `C80_unnoticed`, `C80_threads_false_alarm`, `C81_full_false`, `C82_full_false`, `C82_slices_full_false`, `C83_panic_leaks`

## no axioms (10 theorems)

`C58_local_new`, `C58_local_with_chunk_size`, `C58_sync_new`, `C58_sync_with_chunk_size`, `C58_proxies`, `C58_global_new`, `C58_global_with_chunk_size`, `C58_global_sync_new`, `C58_global_sync_with_chunk_size`, `C58_global_proxies`

## propext (2 theorems)

`C58_blink`, `C58_blink_any`
