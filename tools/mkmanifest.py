#!/usr/bin/env python3
"""Writes MANIFEST.json. Each claim: property, status, theorem names, note."""
import json, os
CLAIMS = [
 ("C01","proved",["Blink.C01_no_overlap"],""),
 ("C02","proved",["Blink.C02_layout_and_memory","Blink.C02_held","Blink.C02_allocate"],""),
 ("C03","proved",["Blink.C03_no_ub","Blink.C03_debug_zero_chunk_size"],"debug builds assume 0 < minimal chunk size <= 2^62 and addresses below 2^62; C03_debug_zero_chunk_size shows that 0 < is needed"),
 ("C04","proved",["Blink.C04_resize_preserves","Blink.C04_grow_zeroed"],""),
 ("C05","proved",["Blink.C05_never_writes_owned"],""),
 ("C06","proved",["Blink.C06_failure_changes_nothing","Blink.C06_later_behaviour"],""),
 ("C07","partial",["Blink.C07_shrink_partial","Blink.C07_full_false","Blink.C07_align_increase_moves"],"false as documented when the alignment is raised although the pointer happens to be aligned (C07_full_false); proved when the alignment is not raised"),
 ("C08","proved",["Blink.C08_grow_in_place","Blink.C08_after_allocate"],""),
 ("C09","proved",["Blink.C09_deallocate_noop"],""),
 ("C10","proved",["Blink.C10_reset_keeps_newest","Blink.C10_reset_total"],""),
 ("C11","proved",["Blink.C11_no_leak"],""),
 ("C12","proved",["Blink.C12_frees_fit"],""),
 ("C13","proved",["Blink.C13_warm"],""),
 ("C14","partial",["Blink.C14_converged_partial","Blink.C14_presized_partial","Blink.C14_full_false"],"false in general (C14_full_false: 400 then 200 bytes between resets never converges); proved once the kept chunk, or the minimal chunk size, covers the work between resets"),
 ("C15","partial",["Blink.C15_new_chunk_partial","Blink.C15_request_size_partial","Blink.C15_full_false"],"false in general (C15_full_false); proved: lower and upper bounds on a new chunk's size from minimal chunk size, capacity of all chunks but the current one and the request"),
 ("C16","partial",["Blink.C16_valid_requests_partial","Blink.C16_full_false"],"false near isize::MAX (C16_full_false); proved when sizes stay below explicit bounds"),
 ("C17","proved",["Blink.C17_zeroed"],""),
 ("C18","proved",["Blink.C18_fails_for_a_reason","Blink.C18_room_suffices","Blink.C18_one_request"],""),
 ("C19","proved",["Blink.C19_bump","Blink.C19_new_chunk"],""),
 ("C20","proved",["Blink.C20_capacity_fib","Blink.C20_requests_fib","Blink.C20_logarithmic"],""),
 ("C21","proved",["Blink.C21_align_up","Blink.C21_align_up_none","Blink.C21_align_down","Blink.C21_is_aligned","Blink.C21_layout_sum"],""),
 ("C22","proved",["Blink.C22_no_overlap","Blink.C22_layout_and_memory","Blink.C22_held","Blink.C22_allocate","Blink.C22_no_ub"],"interleaving at lock operations, atomic accesses and copied bytes; relaxed loads may return outdated values"),
 ("C23","proved",["Blink.C23_frame","Blink.C23_resize"],""),
 ("C24","proved",["Blink.C24_writer_alone","Blink.C24_root_change","Blink.C24_retry","Blink.C24_gives_up_only_if_full","Blink.C24_finishes_alone","Blink.C24_holder_enabled","Blink.C24_no_deadlock","Blink.C24_somebody_moves"],"fairness of parking_lot::RwLock is not modelled"),
 ("C25","proved",["Blink.C25_call","Blink.C25_reset","Blink.C25_carry_over"],""),
 ("C26","proved",["Blink.C26_no_overlap","Blink.C26_memory","Blink.C26_no_ub","Blink.C26_frame","Blink.C26_waiting","Blink.C26_resize_contents","Blink.C26_direct_resize","Blink.C26_huge_request_faults","Blink.C26_debug_empty_chunk"],"release and debug builds (in debug builds one assertion can fail, exactly as described by PS.EmptyChunk), requests through proxies and addresses below 2^61 (C26_huge_request_faults shows a bound is needed); the shared allocator is not reset while proxies exist, which the borrow checker enforces"),
 ("C27","proved",["Blink.C27_new_proxy","Blink.C27_never_decreases","Blink.C27_variable","Blink.C27_first_chunk","Blink.C27_unsynchronised_false"],"'before' means happens-before: max_local_alloc is accessed with Relaxed ordering, and without synchronisation the claim is false (C27_unsynchronised_false)"),
 ("C28","proved",["Blink.C28_proxies_free_nothing","Blink.C28_only_shared_resets_free","Blink.C28_frees_fit","Blink.C28_shared_reset"],""),
 ("C29","proved",["Blink.C29_no_ub","Blink.C29_only_pushed","Blink.C29_push_between","Blink.C29_owned_once"],""),
 ("C30","proved",["Blink.C30_linearizable","Blink.C30_nothing_lost","Blink.C30_somebody_moves","Blink.C30_bounded_steps","Blink.C30_moves","Blink.C30_finishes_alone"],"linearizability as trace inclusion in an atomic FIFO queue"),
 ("C31","proved",["Blink.C31_no_wrap","Blink.C31_exclusive"],"for at most 2^63 threads"),
 ("C32","partial",["Blink.C32_full_false","Blink.C32_drop_partial"],"false of the code: no Drop, cells are ManuallyDrop; proved: dropping changes nothing, so exactly allocators without chunks lose nothing"),
 ("C33","proved",["Blink.C33_all_dropped","Blink.C33_only_then","Blink.C33_returns","Blink.C33_exactly_once"],"legal uses: see BLegal in Verif/Spec/Blink.lean; it excludes only the uses refuted in C37, C38, C42"),
 ("C34","proved",["Blink.C34_no_second_drop","Blink.C34_where_it_stops","Blink.C34_never_twice"],"legal uses: see BLegal in Verif/Spec/Blink.lean; it excludes only the uses refuted in C37, C38, C42"),
 ("C35","proved",["Blink.C35_stable","Blink.C35_value","Blink.C35_with","Blink.C35_reads_value"],"legal uses: see BLegal in Verif/Spec/Blink.lean; it excludes only the uses refuted in C37, C38, C42; contents of slices: C38, C45"),
 ("C36","proved",["Blink.C36_try_value","Blink.C36_try_with"],"legal uses: see BLegal in Verif/Spec/Blink.lean; it excludes only the uses refuted in C37, C38, C42"),
 ("C37","partial",["Blink.C37_full_false","Blink.C37_partial"],"false of the code in the no-drop variant when Result<T,E> is larger than T (C37_full_false); proved otherwise"),
 ("C38","partial",["Blink.C38_full_false","Blink.C38_partial"],"false of the code in the drop variant for iterators that yield items after None (C38_full_false); proved otherwise, for all size hints"),
 ("C39","partial",["Blink.C39_full_false","Blink.C39_error_partial","Blink.C39_panic_partial","Blink.C39_never_twice_partial"],"same exception as C38"),
 ("C40","partial",["Blink.C40_full_false","Blink.C40_partial","Blink.C40_untouched_partial"],"false of the code for zero-sized items of iterators (C40_full_false); proved for values in the arena"),
 ("C41","partial",["Blink.C41_full_false","Blink.C41_never_dropped","Blink.C41_partial"],"false of the code: emplace_shared never drops (C41_never_dropped); what its documentation promises holds for emplace_unchecked (C41_partial)"),
 ("C42","partial",["Blink.C42_full_false","Blink.C42_twice","Blink.C42_empty_debug","Blink.C42_partial"],"false of the code: zero-sized items are dropped twice, and an empty iterator fails a debug assertion; proved: exactly what is dropped when"),
 ("C43","partial",["Blink.C43_full_false","Blink.C43_partial"],"false of the code above usize::MAX items (wraps around in release builds); proved below"),
 ("C44","proved",["Blink.C44_same_address","Blink.C44_offsets"],"legal uses: see BLegal in Verif/Spec/Blink.lean; it excludes only the uses refuted in C37, C38, C42"),
 ("C45","proved",["Blink.C45_copy"],"legal uses: see BLegal in Verif/Spec/Blink.lean; it excludes only the uses refuted in C37, C38, C42"),
 ("C46","proved",["Blink.C46_shared"],"legal uses: see BLegal in Verif/Spec/Blink.lean; it excludes only the uses refuted in C37, C38, C42"),
 ("C47","proved",["Blink.C47_send"],"legal uses: see BLegal in Verif/Spec/Blink.lean; it excludes only the uses refuted in C37, C38, C42"),
 ("C48","partial",["Blink.C48_full_false","Blink.C48_realloc_always_wrong","Blink.C48_partial","Blink.C48_threads_full_false","Blink.C48_threads_realloc_always_wrong","Blink.C48_threads_call","Blink.C48_threads_partial"],"false as stated: State::resize swaps grow and shrink in direct mode (both files), every size-changing realloc violates the contract; the rest is proved for src/global/local.rs and, under any schedule of threads, for src/global/sync.rs"),
 ("C49","proved",["Blink.C49_no_overlap","Blink.C49_layout_and_memory","Blink.C49_no_fault","Blink.C49_keeps","Blink.C49_realloc","Blink.C49_zeroed","Blink.C49_null_for_a_reason","Blink.C49_threads_no_overlap","Blink.C49_threads_layout_and_memory","Blink.C49_threads_no_fault","Blink.C49_threads_somebody_moves","Blink.C49_threads_finishes","Blink.C49_threads_keeps","Blink.C49_threads_realloc","Blink.C49_threads_alloc","Blink.C49_threads_null_for_a_reason"],"src/global/local.rs and src/global/sync.rs (all schedules); proxies made by local() are not modelled"),
 ("C50","proved",["Blink.C50_counter","Blink.C50_panics_iff","Blink.C50_threads_counter","Blink.C50_threads_counter_quiet","Blink.C50_threads_panics_iff"],"src/global/local.rs and src/global/sync.rs; legal histories exclude realloc of a null pointer and proxies made by local(), which allocate without counting (DESIGN.md, D18)"),
 ("C51","proved",["Blink.C51_held","Blink.C51_direct_mode","Blink.C51_blink_mode","Blink.C51_mode","Blink.C51_drop","Blink.C51_threads_held","Blink.C51_threads_direct_mode","Blink.C51_threads_blink_mode","Blink.C51_threads_mode","Blink.C51_threads_drop"],"src/global/local.rs and src/global/sync.rs"),
 ("C52","proved",["Blink.C52_metadata_apart","Blink.C52_write_harmless"],"histories of all other theorems also contain arbitrary writes of owners"),
 ("C53","proved",["Blink.C53_content_independent"],""),
 ("C54","proved",["Blink.C54_into_inner","Blink.C54_no_leak_after_reset_final","Blink.C54_drop","Blink.C54_sync_drop","Blink.C54_sync_into_inner"],"BlinkAlloc and SyncBlinkAlloc"),
 ("C55","proved",["Blink.C55_references"],"legal uses: see BLegal in Verif/Spec/Blink.lean; it excludes only the uses refuted in C37, C38, C42"),
 ("C56","proved",["Blink.C56_no_fault"],"legal uses: see BLegal in Verif/Spec/Blink.lean; it excludes only the uses refuted in C37, C38, C42"),
 ("C57","proved",["Blink.C57_resets","Blink.C57_send_resets","Blink.C57_not_reset"],"legal uses: see BLegal in Verif/Spec/Blink.lean; it excludes only the uses refuted in C37, C38, C42"),
 ("C58","proved",["Blink.C58_local_new","Blink.C58_local_with_chunk_size","Blink.C58_sync_new","Blink.C58_sync_with_chunk_size","Blink.C58_proxies","Blink.C58_global_new","Blink.C58_global_with_chunk_size","Blink.C58_global_sync_new","Blink.C58_global_sync_with_chunk_size","Blink.C58_global_proxies","Blink.C58_blink","Blink.C58_blink_any"],"debug builds: chunk size between 1 and 2^62 (DESIGN.md, D13)"),
 ("C59","proved",["Blink.C59_reset","Blink.C59_reset_final","Blink.C59_frees_fit"],""),
 ("C60","proved",["Blink.C60_fails_for_a_reason"],""),
 ("C61","partial",["Blink.C61_full_false","Blink.C61_no_room_partial","Blink.C61_lone_partial"],"false of the code: alloc_slow does not look at the current chunk again after taking the write lock; proved: the chunk that was current at some moment during the call had no room, and the full claim for requests that find no other request made since their call"),
 ("C62","partial",["Blink.C62_full_false","Blink.C62_shrink_partial"],"false of the code: shrinking never moves the cursor; proved: it changes nothing"),
 ("C63","partial",["Blink.C63_full_false","Blink.C63_dealloc_partial","Blink.C63_threads_dealloc_partial"],"false of the code: the arguments of compare_exchange are swapped; proved: deallocate changes nothing"),
 ("C64","proved",["Blink.C64_footprint","Blink.C64_each_request"],""),
 ("C65","partial",["Blink.C65_race","Blink.C65_full_false","Blink.C65_each_request_partial","Blink.C65_footprint_partial","Blink.C65_request_partial","Blink.C65_bound_partial","Blink.C65_chunks_partial"],"false of the code: thirty threads asking for 8 bytes each can make it ask for almost 2 GB; proved: each single request is linear in the memory held and the call, and the bounds of C64 (hence the full bound) hold for every interleaving in which no thread makes a request when another made one since it was called"),
 ("C66","proved",["Blink.C66_no_ub", "Blink.C66_no_overlap", "Blink.C66_layout_and_memory", "Blink.C66_held", "Blink.C66_allocate", "Blink.C66_frame", "Blink.C66_resize", "Blink.C66_reset_unchecked", "Blink.C66_holder_enabled", "Blink.C66_finishes_alone"],"contract: no block in the hands of an executing resize or deallocate; see Verif/Spec/SyncRace.lean"),
 ("C67","proved",["Blink.C67_accounts","Blink.C67_drop_owned","Blink.C67_drop_borrowed"],"legal uses: see BLegal in Verif/Spec/Blink.lean"),
 ("C68","proved",["Blink.C68_from_iter_bounded"],"all uses by safe code; the iterator does not itself use the Blink between two answers"),
 ("C69","proved",["Blink.C69_room","Blink.C69_no_room","Blink.C69_answer","Blink.C69_empty_chunk","Blink.C69_reset","Blink.C69_reset_unchecked","Blink.C69_reset_unchecked_rest","Blink.C69_shrink","Blink.C69_grow","Blink.C69_move","Blink.C69_resize_no_room","Blink.C69_deallocate","Blink.C69_drop"],"bounds as for C26"),
 ("C70","proved",["Blink.C70_lock","Blink.C70_no_race","Blink.C70_owned","Blink.C70_handed","Blink.C70_not_written","Blink.C70_headers"],"absence of conflicting accesses enabled at the same moment, accesses defined by what can be observed of a step"),
 ("C71","proved",["Blink.C71_no_race","Blink.C71_root","Blink.C71_reads","Blink.C71_handed_out","Blink.C71_released","Blink.C71_histories"],"data races in the sense of the memory model; assumes that memory obtained from the underlying allocator is ordered after its former uses"),
 ("C72","proved",["Blink.C72_finishes_alone","Blink.C72_reset_finishes_alone","Blink.C72_direct_finishes_alone","Blink.C72_holder_enabled","Blink.C72_holder_inside","Blink.C72_no_deadlock","Blink.C72_somebody_moves","Blink.C72_starts","Blink.C72_blocks_untouched","Blink.C72_no_race"],"requests through proxies up to 2^61 bytes"),
 ("C73","proved",["Blink.C73_starts","Blink.C73_next","Blink.C73_meanwhile","Blink.C73_history","Blink.C73_complete","Blink.C73_chunks_exist","Blink.C73_chunks_new","Blink.C73_chunks","Blink.C73_all_but_newest"],"requests through proxies up to 2^61 bytes"),
 ("C74","proved",["Blink.C74_minimum","Blink.C74_minimum_history","Blink.C74_request","Blink.C74_least","Blink.C74_grown","Blink.C74_number","Blink.C74_remembered"],"requests through proxies up to 2^61 bytes"),
 ("C75","proved",["Blink.C75_exists","Blink.C75_own","Blink.C75_resetting","Blink.C75_calls"],"requests through proxies up to 2^61 bytes"),
 ("C76","proved",["Blink.C76_own","Blink.C76_own_blocks","Blink.C76_inside_blocks","Blink.C76_writes","Blink.C76_handed","Blink.C76_no_race"],"absence of conflicting accesses enabled at the same moment, accesses defined by what can be observed of a step; requests through proxies up to 2^61 bytes"),
 ("C77","partial",["Blink.C77_drop_full_false","Blink.C77_fresh_full_false","Blink.C77_drop_partial","Blink.C77_fresh_partial"],"C77_drop_full and C77_fresh_full are false of the code (D15): a dropped proxy reads a freed header, and a proxy goes on allocating from memory that the shared allocator hands out again; the theorems say exactly when a drop is safe, and that proxies without chunks do no harm"),
 ("C78","proved",["Blink.C78_no_race","Blink.C78_root","Blink.C78_root_proxy","Blink.C78_proxy","Blink.C78_answer","Blink.C78_reads","Blink.C78_handed_out","Blink.C78_handed_out_proxy","Blink.C78_handed_out_answer","Blink.C78_released","Blink.C78_histories"],"data races in the sense of the memory model; assumes that memory obtained from the underlying allocator is ordered after its former uses; requests through proxies up to 2^61 bytes"),
 ("C79","proved",["Blink.C79_refines","Blink.C79_no_overlap","Blink.C79_memory","Blink.C79_no_fault","Blink.C79_somebody_moves","Blink.C79_keeps","Blink.C79_realloc","Blink.C79_alloc","Blink.C79_counter","Blink.C79_panics_iff","Blink.C79_reset_unnoticed"],"GlobalAlloc is called in blink mode (direct mode: C48 to C51, without proxies); requests through proxies up to 2^61 bytes"),
 ("C80","partial",["Blink.C80_full_false","Blink.C80_unnoticed","Blink.C80_threads_false_alarm","Blink.C80_realloc_null_partial"],"C80_full is false of the code (D18): the block is not counted; the partial theorem: all but the counter is as for alloc (single-threaded allocator)"),
 ("C81","partial",["Blink.C81_full_false","Blink.C81_outstanding_partial"],"C81_full is false of the code (D19); the partial theorem: a successful reset in a debug build means that nothing already returned is outstanding"),
 ("C82","partial",["Blink.C82_full_false","Blink.C82_slices_full_false","Blink.C82_no_fault_partial","Blink.C82_blocks_partial","Blink.C82_slices_partial","Blink.C82_given_back"],"C82_full and C82_slices_full are false of the code (D23, D24); the partial theorems leave out exactly these two uses (AKind.Asks in Verif/Spec/Blink.lean)"),
 ("C83","proved",["Blink.C83_no_leak","Blink.C83_panic_leaks"],"C83_panic_leaks shows that the hypothesis about panics is needed"),
 ("C84","proved",["Blink.C84_linearizable","Blink.C84_local","Blink.C84_step","Blink.C84_proxy","Blink.C84_proxy_state"],"allocate_zeroed and grow_zeroed here for BlinkAlloc only, for SyncBlinkAlloc see C92; requests through proxies up to 2^61 bytes"),
 ("C85","proved",["Blink.C85_local","Blink.C85_local_step","Blink.C85_local_owned","Blink.C85_sync","Blink.C85_sync_step","Blink.C85_sync_owned","Blink.C85_proxy","Blink.C85_proxy_step","Blink.C85_proxy_owned"],"steps of others happen between steps of this allocator; requests through proxies up to 2^61 bytes"),
 ("C86","proved",["Blink.C86_refines","Blink.C86_no_overlap","Blink.C86_memory","Blink.C86_no_fault","Blink.C86_keeps","Blink.C86_realloc","Blink.C86_alloc","Blink.C86_direct","Blink.C86_realloc_always_wrong","Blink.C86_counter","Blink.C86_somebody_moves","Blink.C86_mode","Blink.C86_held","Blink.C86_resets","Blink.C86_drop"],"excepts realloc to another size in direct mode, which always violates the contract of the underlying allocator (C48, C86_realloc_always_wrong); requests through proxies up to 2^61 bytes"),
 ("C87","proved",["Blink.C87_few_hints","Blink.C87_modest"],"the iterator does not use the Blink between two answers; the second statement for an arbitrary allocator (A is any type that implements Allocator), of which every request is logged"),
 ("C88","proved",["Blink.C88_every","Blink.C88_only","Blink.C88_blink_alloc"],"calls concern blocks with at least one byte (zero-sized blocks may share an address, the caller does not say which is meant); answers are shorter than isize::MAX and below the top of the address space; C88_blink_alloc for addresses below isize::MAX"),
 ("C89","proved",["Blink.C89_local","Blink.C89_local_any","Blink.C89_local_no_ub","Blink.C89_sync","Blink.C89_thread","Blink.C89_thread_any","Blink.C89_sync_no_ub","Blink.C89_thread_no_ub","Blink.C89_proxy"],"the comparison with the assumed allocator is for blocks with bytes; zeroed calls for BlinkAlloc only; requests through proxies up to 2^61 bytes"),
 ("C90","proved",["Blink.C90_in_place","Blink.C90_tight","Blink.C90_one_request"],"the Blink is on a BlinkAlloc it owns or shares; room is read from the current chunk's header; the iterator does not use the Blink between two answers; nobody else uses a shared BlinkAlloc during the call"),
 ("C91","proved",["Blink.C91_refines","Blink.C91_no_overlap","Blink.C91_layout_and_memory","Blink.C91_no_fault","Blink.C91_frame","Blink.C91_allocate_zeroed","Blink.C91_grow_zeroed","Blink.C91_answers","Blink.C91_moves","Blink.C91_calls_start","Blink.C91_gives_back","Blink.C91_finishes_alone"],"default methods of allocator_api2 0.2 modelled from their documentation and source; proxies (LocalBlinkAlloc) not among the threads' calls here"),
 ("C92","proved",["Blink.C92_linearizable"],"default methods of allocator_api2 0.2 as in C91; proxies not among the calls here"),
 ("C93","proved",["Blink.C93_refines","Blink.C93_no_overlap","Blink.C93_memory","Blink.C93_no_fault","Blink.C93_frame","Blink.C93_allocate_zeroed","Blink.C93_grow_zeroed","Blink.C93_starts","Blink.C93_finishes_alone"],"default methods of allocator_api2 0.2 as in C91; direct calls of the shared allocator are the plain ones here; the debug assertion of C26 (PS.EmptyChunk) is the one exception of C93_no_fault"),
 ("C94","proved",["Blink.C94_proxy","Blink.C94_proxy_state"],"default methods of allocator_api2 0.2 as in C91; direct calls of the shared allocator are the plain ones here; a proxy's history starts anew when a proxy with its number is created"),
 ("C95","proved",["Blink.C95_warm","Blink.C95_never_waits"],"the costs of all calls started since the reset are counted, finished or not; writes by the owners of blocks are part of the histories"),
 ("C96","proved",["Blink.C96_at_once","Blink.C96_warm","Blink.C96_after_reset"],"neither reset_unchecked nor drop of the proxy occurs in the history; stores of the owners of blocks are part of it"),
]
out = {"claims": [dict(property=p, status=s, theorems=t, note=n) for p, s, t, n in CLAIMS]}
path = os.path.join(os.path.dirname(os.path.abspath(__file__)), "..", "MANIFEST.json")
with open(path, "w") as f:
    json.dump(out, f, indent=1); f.write("\n")
