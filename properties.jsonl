{"id": "C01", "title": "Live allocations never overlap", "statement": "At every point of every history of allocate / allocate_zeroed / resize / deallocate / reset / reset_final calls on one BlinkAlloc, the byte ranges of any two allocations that the caller still owns are disjoint.", "quantifier": "all finite histories of API calls that respect the documented pointer contracts, all layouts, all chunk sizes, all behaviours of the underlying allocator allowed by the Allocator contract (including refusals and over-long blocks)", "why_tests_cant": "overlap depends on the whole history (which chunk is current, where the bump position is, what was resized in place); tests sample a few histories on one underlying allocator", "anchors": ["src/arena/mod.rs: ChunkHeader::alloc, ChunkHeader::resize, alloc_slow, resize_slow, dealloc, reset", "src/local.rs: BlinkAlloc::{allocate,resize,deallocate,reset,reset_final}"]}
{"id": "C02", "title": "Every returned block satisfies its layout and lies in owned memory", "statement": "Every successful allocate/resize returns a block whose address is a multiple of the requested alignment, whose length is at least the requested size, and which lies entirely inside memory obtained from the underlying allocator and not yet given back; it stays inside such memory until it is deallocated or the allocator is reset.", "quantifier": "all histories, layouts (including zero size and alignments larger than a chunk), chunk sizes and underlying allocators", "why_tests_cant": "alignment padding and end-of-chunk boundaries depend on the concrete addresses the underlying allocator picks", "anchors": ["src/arena/mod.rs: ChunkHeader::alloc, init_chunk, alloc_slow", "src/local.rs: BlinkAlloc::allocate, BlinkAlloc::resize"]}
{"id": "C03", "title": "No contract-respecting history reaches undefined behaviour inside the allocator", "statement": "No call executes one of the operations that would be undefined or that a debug build would abort on: integer overflow, pointer arithmetic leaving the chunk, reading allocator metadata that is not intact or already freed, the unchecked unwrap of the first allocation from a fresh chunk, overlapping copy_nonoverlapping, debug assertions of the arena, and the loop that frees chunks terminates.", "quantifier": "all histories, layouts and lawful underlying allocators; addresses are 64-bit machine words", "why_tests_cant": "the unchecked unwrap relies on an arithmetic argument over all sizes, alignments and start addresses; address-space edge cases cannot be produced in tests", "anchors": ["src/arena/mod.rs: alloc_slow (unwrap_unchecked), ChunkHeader::alloc (debug_assert!), layout_sum, dealloc_chunk, reset", "src/arena/local.rs: ArenaLocal"]}
{"id": "C04", "title": "resize preserves contents", "statement": "A successful resize/grow/shrink returns a block whose first min(old size, new size) bytes equal the bytes of the old block at the time of the call.", "quantifier": "all histories, all block contents, all size/alignment changes, all placements (in place, same chunk, new chunk)", "why_tests_cant": "which path is taken depends on history; a copy of the wrong length only shows for particular sizes and contents", "anchors": ["src/arena/mod.rs: ChunkHeader::resize, resize_slow", "src/local.rs: BlinkAlloc::resize, Allocator::grow, Allocator::shrink"]}
{"id": "C05", "title": "The allocator never writes into memory it has handed out", "statement": "No allocator call changes a byte of a live allocation, other than allocate_zeroed zeroing and resize copying into the block that very call returns.", "quantifier": "all histories, all contents of all live blocks", "why_tests_cant": "the allocator keeps its own metadata inside the same memory; only a global invariant excludes that a metadata write hits some user block in some history", "anchors": ["src/arena/mod.rs: init_chunk (ptr::write), ChunkHeader::reset, cursor updates"]}
{"id": "C06", "title": "Failed allocations leave everything as it was", "statement": "If allocate or resize returns Err, no live allocation is lost, moved or changed, the old block of a failed resize is still owned by the caller, and the allocator's later behaviour is the same as if the failed call had not been made (apart from the refused request the underlying allocator saw).", "quantifier": "all histories, all refusal patterns of the underlying allocator, all layouts including those overflowing the size computation", "why_tests_cant": "requires failing the underlying allocator at every possible point of every history", "anchors": ["src/arena/mod.rs: alloc_slow, resize_slow", "src/local.rs: BlinkAlloc::allocate, BlinkAlloc::resize"]}
{"id": "C07", "title": "Shrink never moves and never fails when the pointer is already aligned", "statement": "api.rs promises: Allocator::shrink always succeeds and never moves memory when ptr is already aligned to new_layout.align().", "quantifier": "all live blocks, all smaller layouts whose alignment divides the block's address, all allocator states", "why_tests_cant": "addresses that happen to be over-aligned depend on the underlying allocator and the history", "anchors": ["src/api.rs: BlinkAllocator doc", "src/arena/mod.rs: ChunkHeader::resize"]}
{"id": "C08", "title": "Growing the most recent allocation happens in place", "statement": "If a block is the last one allocated in the current chunk and the chunk has room, resize to a larger size (alignment not increased) keeps the address, does not touch the underlying allocator, and exactly the additional bytes are consumed.", "quantifier": "all histories ending with such a block, all new sizes up to the remaining room", "why_tests_cant": "the boundary (exactly filling the chunk versus one byte more) and all history shapes", "anchors": ["src/arena/mod.rs: ChunkHeader::resize (cursor == old_end)", "README.md: fast allocation grows"]}
{"id": "C09", "title": "Deallocate never disturbs anything", "statement": "deallocate of an owned block changes nothing observable except that the block is no longer owned: every later call returns exactly what it would have returned without the deallocate, and no other live block changes.", "quantifier": "all histories, all owned blocks (including zero-sized, in old chunks, most recent), all later histories", "why_tests_cant": "a wrong bump adjustment only shows for particular later allocations", "anchors": ["src/arena/mod.rs: ChunkHeader::dealloc, dealloc", "src/local.rs: BlinkAlloc::deallocate"]}
{"id": "C10", "title": "reset gives back every chunk but the newest and keeps that one", "statement": "After reset on a BlinkAlloc that holds at least one chunk, exactly one chunk is still held from the underlying allocator, namely the one obtained last; all others have been given back; a BlinkAlloc holding none still holds none.", "quantifier": "all histories before the reset", "why_tests_cant": "number and order of chunks is unbounded", "anchors": ["src/arena/mod.rs: reset, ChunkHeader::reset", "src/local.rs: BlinkAlloc::reset"]}
{"id": "C11", "title": "No leak: reset_final and drop give back everything", "statement": "After reset_final, and after dropping the BlinkAlloc, the set of blocks held from the underlying allocator is exactly what it was before the BlinkAlloc was created.", "quantifier": "all histories, including ones with refused requests", "why_tests_cant": "leaks depend on history (failed slow paths, resets with several chunks)", "anchors": ["src/arena/mod.rs: reset (keep_last = false), dealloc_chunk", "src/local.rs: reset_final, Drop for BlinkAlloc"]}
{"id": "C12", "title": "Every chunk is freed once, with a fitting layout", "statement": "Each deallocate call made to the underlying allocator names a block currently held from it, with the alignment it was requested with and a size between the requested size and the length the underlying allocator reported; no block is given back twice.", "quantifier": "all histories and all over-allocating underlying allocators", "why_tests_cant": "the size is recomputed from a stored end pointer; a mismatch only shows with allocators that return longer blocks", "anchors": ["src/arena/mod.rs: dealloc_chunk, alloc_chunk"]}
{"id": "C13", "title": "A warm allocator does not touch the underlying allocator", "statement": "After a reset that kept a chunk of capacity n, any sequence of allocations whose total of (size + align - 1) is at most n succeeds without any call to the underlying allocator.", "quantifier": "all kept chunks, all allocation sequences within the bound", "why_tests_cant": "all sequences of layouts within the bound", "anchors": ["src/arena/mod.rs: ChunkHeader::alloc, reset", "src/local.rs: BlinkAlloc doc 'Last chunk will be reused'"]}
{"id": "C14", "title": "Steady workloads converge to a single chunk", "statement": "The documentation says that with steady memory usage one chunk is sufficient for all allocations between resets after a few iterations, i.e. repeating the same work between resets eventually stops calling the underlying allocator.", "quantifier": "all workloads repeated forever, all initial chunk sizes", "why_tests_cant": "a statement about infinitely many iterations of every workload", "anchors": ["src/local.rs: BlinkAlloc::reset doc", "src/arena/mod.rs: alloc_slow (cumulative_size), reset", "README.md: Design"]}
{"id": "C15", "title": "A new chunk is larger than the exhausted one", "statement": "Documentation: when a chunk is exhausted a new larger chunk is allocated.", "quantifier": "all histories that exhaust a chunk", "why_tests_cant": "depends on the sequence of chunk sizes produced by every history", "anchors": ["src/local.rs: BlinkAlloc doc", "src/arena/mod.rs: alloc_slow"]}
{"id": "C16", "title": "Requests to the underlying allocator are valid layouts", "statement": "Every layout passed to the underlying allocator is valid: its alignment is a power of two and its size rounded up to the alignment does not exceed isize::MAX.", "quantifier": "all chunk sizes passed to with_chunk_size, all requested layouts, all histories", "why_tests_cant": "needs sizes near isize::MAX for which no real allocation succeeds", "anchors": ["src/arena/mod.rs: alloc_chunk (from_size_align_unchecked), alloc_slow"]}
{"id": "C17", "title": "allocate_zeroed returns zeroed memory whatever the memory held before", "statement": "Every byte of the block returned by a successful allocate_zeroed is zero, including when the arena reuses memory that earlier allocations had written before a reset.", "quantifier": "all histories and all previous contents", "why_tests_cant": "reuse after reset with arbitrary prior contents", "anchors": ["src/local.rs: allocate_zeroed (Allocator default method)", "src/global/local.rs: State::allocate_zeroed"]}
{"id": "C18", "title": "Allocation only fails for a reason", "statement": "allocate returns Err only if the underlying allocator refused a chunk request made by that very call or the chunk size computation exceeds usize; in particular it never fails while the current chunk has room, and it makes at most one request to the underlying allocator per call.", "quantifier": "all histories, layouts and underlying allocators", "why_tests_cant": "all combinations of fill level, size and refusal", "anchors": ["src/arena/mod.rs: alloc_slow", "src/local.rs: BlinkAlloc::allocate"]}
{"id": "C19", "title": "Bump waste is bounded", "statement": "An allocation served from the current chunk starts less than align bytes after the end of the previous allocation from that chunk, so no more than align-1 bytes are lost per allocation and blocks come out in increasing address order.", "quantifier": "all histories and layouts", "why_tests_cant": "all alignments and bump positions", "anchors": ["src/arena/mod.rs: ChunkHeader::alloc"]}
{"id": "C20", "title": "The number of chunks grows at most logarithmically", "statement": "Without resets, after k chunks have been obtained the total capacity is at least a Fibonacci-like exponential in k, so serving n bytes needs O(log n) requests to the underlying allocator.", "quantifier": "all histories without reset, all layouts", "why_tests_cant": "asymptotic statement over unboundedly many chunks", "anchors": ["src/arena/mod.rs: alloc_slow, init_chunk (cumulative_size)"]}
{"id": "C21", "title": "Alignment arithmetic is exact on machine words", "statement": "align_up(v, a) is the least multiple of a that is >= v and is None exactly if the computation exceeds usize; align_down(v, a) is the greatest multiple <= v; is_aligned_to decides divisibility, for every power of two a.", "quantifier": "all 64-bit values and all powers of two", "why_tests_cant": "2^64 x 64 inputs", "anchors": ["src/arena/mod.rs: align_up, align_down, is_aligned_to, layout_sum"]}
{"id": "C22", "title": "SyncBlinkAlloc: no overlap under any schedule", "statement": "If any number of threads call allocate/resize/deallocate on one SyncBlinkAlloc concurrently, at every moment all blocks that have been returned and are still owned are pairwise disjoint, aligned, long enough and inside memory currently held from the underlying allocator.", "quantifier": "all numbers of threads, all interleavings of their atomic steps (including spurious compare_exchange_weak failures), all histories", "why_tests_cant": "schedules cannot be enumerated by tests", "anchors": ["src/arena/sync.rs: ArenaSync::{alloc_fast,alloc_slow,resize_fast,resize_slow,dealloc}", "src/arena/mod.rs: ChunkHeader::{alloc,resize,dealloc}", "src/sync.rs: SyncBlinkAlloc"]}
{"id": "C23", "title": "SyncBlinkAlloc: contents survive concurrent activity", "statement": "A resize on one thread yields a block holding the old contents, and no allocator activity of any thread changes a byte of a block owned by someone else, whatever other threads do meanwhile.", "quantifier": "all schedules, all contents, copies interleaved byte by byte with other threads' steps", "why_tests_cant": "as above", "anchors": ["src/arena/sync.rs: resize_fast, resize_slow", "src/arena/mod.rs: ChunkHeader::resize"]}
{"id": "C24", "title": "SyncBlinkAlloc: lock discipline and progress", "statement": "A thread changes which chunk is current only while no other thread is inside the allocator; a thread's allocation attempt fails to commit only because another thread committed in between or spuriously; a thread that is inside and is scheduled alone finishes; the allocator never deadlocks.", "quantifier": "all schedules and numbers of threads", "why_tests_cant": "schedules", "anchors": ["src/arena/sync.rs: RwLock read/write usage", "src/arena/mod.rs: compare_exchange_weak loop"]}
{"id": "C25", "title": "SyncBlinkAlloc agrees with BlinkAlloc when used by one thread", "statement": "Executed without interleaving, every call on SyncBlinkAlloc returns the same block and makes the same requests to the underlying allocator as the call on a BlinkAlloc in the same state, so all single-threaded properties carry over.", "quantifier": "all states and calls", "why_tests_cant": "all histories", "anchors": ["src/arena/sync.rs", "src/arena/local.rs", "src/arena/mod.rs: with_cursor!"]}
{"id": "C26", "title": "Local proxies never hand out overlapping memory", "statement": "Blocks obtained through any number of LocalBlinkAlloc proxies of one SyncBlinkAlloc, and blocks obtained from the SyncBlinkAlloc directly, are pairwise disjoint and lie in memory the SyncBlinkAlloc holds from its underlying allocator, even after some proxies were reset or dropped.", "quantifier": "all numbers of proxies and all interleavings of calls on proxies and on the shared allocator", "why_tests_cant": "histories over several cooperating allocators", "anchors": ["src/sync.rs: LocalBlinkAlloc, SyncBlinkAlloc::local", "src/arena/local.rs: reset_leak"]}
{"id": "C27", "title": "Local proxies remember the largest chunk", "statement": "The chunk size a new proxy starts with is at least the capacity of the last chunk of every proxy dropped or reset before, and never decreases, under every interleaving of the updates.", "quantifier": "all histories of creating, resetting and dropping proxies", "why_tests_cant": "histories", "anchors": ["src/sync.rs: update_max_local_alloc, local, Drop for LocalBlinkAlloc"]}
{"id": "C28", "title": "Resetting the SyncBlinkAlloc reclaims proxy memory", "statement": "Resetting or dropping a proxy never frees or double-frees memory of the shared allocator; the shared reset afterwards gives back all of its chunks but the last exactly once.", "quantifier": "all histories of proxies and shared resets", "why_tests_cant": "histories", "anchors": ["src/sync.rs: LocalBlinkAlloc::reset, reset_unchecked, Drop", "src/arena/local.rs: reset_leak"]}
{"id": "C29", "title": "BlinkAllocCache: an allocator is handed out at most once per push", "statement": "For any number of threads pushing and popping concurrently, no BlinkAlloc instance is returned by two pops without a push in between, and pop only returns instances that were pushed.", "quantifier": "all schedules, all numbers of threads and operations", "why_tests_cant": "schedules around the non-atomic gap between taking an index and reading the slot", "anchors": ["src/cache.rs: BlinkAllocCache::{pop,push,flush}"]}
{"id": "C30", "title": "BlinkAllocCache: nothing is lost and pop answers None only when empty", "statement": "The cache behaves like a linearizable FIFO queue: at the moment a pop returning None takes effect every pushed instance has been claimed, and instances pushed and not yet popped are still in the cache; every call ends after at most five steps of its own thread, and whenever a call is in progress some thread can move.", "quantifier": "all schedules", "why_tests_cant": "schedules", "anchors": ["src/cache.rs: pop, push, flush"]}
{"id": "C31", "title": "BlinkAllocCache: the pop counter cannot wrap around into valid slots", "statement": "However many times pop is called on an exhausted cache, the index counter never wraps past usize::MAX (for fewer than 2^63 threads), so an already emptied slot is never read again.", "quantifier": "all schedules with fewer than 2^63 threads, unboundedly many pops", "why_tests_cant": "needs 2^63 operations", "anchors": ["src/cache.rs: prevent_overflow"]}
{"id": "C32", "title": "BlinkAllocCache: dropping the cache releases the cached allocators", "statement": "When a cache is dropped, the chunks of the allocators stored in it are given back to the underlying allocator.", "quantifier": "all cache contents", "why_tests_cant": "leaks are not observable by ordinary assertions", "anchors": ["src/cache.rs: Inner (ManuallyDrop, no Drop impl)"]}
{"id": "C33", "title": "Emplaced values are dropped exactly once, newest first", "statement": "Every value emplaced with dropping enabled is dropped exactly once, by the next reset / drop_all / drop of the Blink; values emplaced later are dropped earlier; elements of one slice are dropped in slice order.", "quantifier": "all histories of emplacing and resetting", "why_tests_cant": "histories of any length", "anchors": ["src/drop_list.rs: DropList::{add,reset}, Drops::drop, drop_from_item", "src/blink.rs: Blink::{reset,drop_all}, Drop for Blink"]}
{"id": "C34", "title": "A panicking destructor never causes a second drop", "statement": "If the destructor of an emplaced value panics during reset, no value is ever dropped twice, neither by the unwinding nor by any later reset or drop of the Blink.", "quantifier": "all positions of the panic, all histories after it", "why_tests_cant": "all crash points", "anchors": ["src/drop_list.rs: DropList::reset (root.take)"]}
{"id": "C35", "title": "Emplaced values stay intact until reset", "statement": "The reference returned by put/emplace/copy_slice/from_iter keeps reading the emplaced value, at the same address, until reset, whatever else is emplaced, fails to be emplaced or is deallocated meanwhile (unless the owner writes through the reference).", "quantifier": "all histories between emplacement and reset", "why_tests_cant": "histories", "anchors": ["src/blink.rs: _try_emplace*, put, copy_slice"]}
{"id": "C36", "title": "try_ variants give the value back on allocation failure", "statement": "If memory cannot be obtained, try_value / try_with return the value / closure unchanged without running it, and a later reset drops nothing for this attempt; on success they return Ok.", "quantifier": "all allocator states and refusal patterns", "why_tests_cant": "all refusal points", "anchors": ["src/blink.rs: _try_emplace, _try_emplace_drop, _try_emplace_no_drop"]}
{"id": "C37", "title": "Fallible initialisation writes only inside its own allocation", "statement": "with_fallible / try_with_fallible never write outside the memory allocated for the value, whether the closure succeeds or fails; on closure failure the error is returned and nothing is dropped later.", "quantifier": "all value types T and error types E (sizes, alignments, drop glue), both drop modes", "why_tests_cant": "out-of-bounds writes inside a chunk are silent", "anchors": ["src/blink.rs: _try_emplace_no_drop (Layout::new::<T>() versus EmplaceSlot<T, G>), _try_emplace_drop"]}
{"id": "C38", "title": "from_iter collects exactly the yielded items in order", "statement": "The slice returned by from_iter / collect_to_blink holds exactly the items the iterator yielded, in order, whatever (possibly wrong) size hints the iterator reports and however the memory had to be grown.", "quantifier": "all iterators (including ones with wrong hints and ones that resume after returning None), all element sizes, all allocator states", "why_tests_cant": "hints, growth pattern and resume behaviour are adversarial", "anchors": ["src/blink.rs: _try_emplace_drop_from_iter, _try_emplace_no_drop_from_iter, size_hint_and_one"]}
{"id": "C39", "title": "from_iter accounts for every item on failure and on panic", "statement": "If memory runs out or the iterator panics, every item taken from the iterator is in exactly one place: in the returned slice / registered for drop on reset, or handed back to the caller; none is dropped twice or lost.", "quantifier": "all failure points and panic points, all iterators", "why_tests_cant": "all crash points", "anchors": ["src/blink.rs: Guard::{fill,flush,drop}"]}
{"id": "C40", "title": "No-drop emplacement never drops", "statement": "Values emplaced with put_no_drop / emplace_no_drop are never dropped by the Blink.", "quantifier": "all histories, all value types", "why_tests_cant": "histories", "anchors": ["src/blink.rs: _try_emplace (no_drop), _try_emplace_from_iter"]}
{"id": "C41", "title": "emplace_shared drops values on reset", "statement": "Documentation of emplace_shared: 'Still allows emplaced values to be dropped on reset.'", "quantifier": "all values emplaced through emplace_shared", "why_tests_cant": "needs all types and histories; refutable by one", "anchors": ["src/blink.rs: Blink::emplace_shared"]}
{"id": "C42", "title": "Zero-sized items from iterators are dropped exactly once", "statement": "Collecting an iterator of zero-sized items with destructors drops each item exactly once in total (with dropping) or never (no-drop), and an empty iterator is fine.", "quantifier": "all iterators of zero-sized items", "why_tests_cant": "counts are unbounded", "anchors": ["src/blink.rs: saturating_drain_iter, zero-size branches", "src/drop_list.rs: init_slice (debug_assert_ne)"]}
{"id": "C43", "title": "Draining zero-sized items counts them, saturating at usize::MAX", "statement": "saturating_drain_iter returns the number of items taken when lower size hints are honest, never exceeds usize::MAX and stops there.", "quantifier": "all iterators with honest lower bounds", "why_tests_cant": "needs usize::MAX items", "anchors": ["src/blink.rs: saturating_drain_iter"]}
{"id": "C44", "title": "Values, slices and drop records agree on where elements are", "statement": "The address at which an emplaced value or slice is written, the address the caller gets, and the address the type-erased destructor later uses are the same, for every alignment.", "quantifier": "all element sizes and alignments", "why_tests_cant": "over-aligned types are rarely tested", "anchors": ["src/drop_list.rs: DropItem (repr(C)), init_slice, drop_from_item"]}
{"id": "C45", "title": "copy_slice and copy_str copy exactly", "statement": "The returned slice has the same length and contents as the source and is disjoint from every other live block; the source is unchanged.", "quantifier": "all slices and allocator states", "why_tests_cant": "all contents and states", "anchors": ["src/blink.rs: _try_copy_slice"]}
{"id": "C46", "title": "A Blink over a shared allocator reference does not reset it", "statement": "reset on Blink<&BlinkAlloc> drops the emplaced values but leaves the allocator and all blocks allocated from it intact.", "quantifier": "all histories", "why_tests_cant": "histories", "anchors": ["src/api.rs: BlinkAllocator for &A", "src/blink.rs: Blink::reset"]}
{"id": "C47", "title": "SendBlink carries no pending drops", "statement": "SendBlink::new drops every emplaced value before the wrapper exists, so nothing emplaced on the old thread is dropped later on another thread.", "quantifier": "all histories before the wrapping", "why_tests_cant": "histories", "anchors": ["src/blink.rs: SendBlink::new"]}
{"id": "C48", "title": "Global allocator in direct mode forwards faithfully", "statement": "In direct mode alloc/alloc_zeroed/dealloc/realloc behave as the underlying allocator does, and every call made to it respects that allocator's documented preconditions (grow only to larger, shrink only to smaller layouts).", "quantifier": "all calls and sizes", "why_tests_cant": "an underlying allocator that tolerates the wrong call hides the violation", "anchors": ["src/global/local.rs: State::resize", "src/global/sync.rs: State::resize"]}
{"id": "C49", "title": "Global allocator in blink mode is a correct GlobalAlloc", "statement": "In blink mode every history of alloc/alloc_zeroed/realloc/dealloc yields disjoint, aligned, long enough blocks, realloc keeps contents, and a null result means the old block is untouched. Null is answered only if the underlying allocator refused a request made for this call, a size computation overflowed, or realloc was asked for something that is no layout.", "quantifier": "all histories in blink mode", "why_tests_cant": "histories", "anchors": ["src/global/local.rs: GlobalAlloc for UnsafeGlobalBlinkAlloc", "src/global/sync.rs: GlobalAlloc for GlobalBlinkAlloc"]}
{"id": "C50", "title": "The debug allocation counter equals the number of outstanding blink-mode blocks", "statement": "Under contract-respecting use (blocks are deallocated in the mode they were allocated in), the counter checked by reset/direct_mode equals the number of blink-mode blocks not yet deallocated, so those calls abort exactly if some block is outstanding.", "quantifier": "all histories with mode switches", "why_tests_cant": "histories", "anchors": ["src/global/local.rs: allocations", "src/global/sync.rs: allocations"]}
{"id": "C51", "title": "Switching modes loses no memory", "statement": "direct_mode resets the blink part (all but one chunk given back) and never touches blocks allocated in direct mode; blink_mode leaves everything in place.", "quantifier": "all histories", "why_tests_cant": "histories", "anchors": ["src/global/local.rs: blink_mode, direct_mode, reset", "src/global/sync.rs: same"]}
{"id": "C52", "title": "The allocator's own metadata cannot be corrupted by owners writing to their blocks", "statement": "Owners may write arbitrary bytes to every byte of every block they own at any time; the allocator still behaves correctly, because its metadata (which lies in the same chunks) never overlaps a live block.", "quantifier": "all histories with arbitrary writes interleaved", "why_tests_cant": "arbitrary writes at arbitrary times", "anchors": ["src/arena/mod.rs: ChunkHeader (in-memory header at chunk start)"]}
{"id": "C53", "title": "Behaviour does not depend on block contents", "statement": "Results of allocator calls (addresses, failures, requests to the underlying allocator) do not depend on what owners wrote into their blocks.", "quantifier": "all pairs of histories that differ only in written contents", "why_tests_cant": "a two-run property", "anchors": ["src/arena/mod.rs", "src/local.rs"]}
{"id": "C54", "title": "into_inner gives nothing back and touches nothing", "statement": "into_inner returns the underlying allocator without returning any chunk to it (documented leak); after reset_final it leaks nothing.", "quantifier": "all histories", "why_tests_cant": "histories", "anchors": ["src/local.rs: into_inner", "src/sync.rs: into_inner"]}
{"id": "C55", "title": "References handed out by a Blink are disjoint, aligned and backed by memory", "statement": "At any time, all references and slices handed out since the last reset, and all blocks allocated directly from the same allocator, are pairwise disjoint, aligned for their type, and lie inside memory currently held from the underlying allocator.", "quantifier": "all histories of emplacing, collecting, copying, direct allocation, resetting and dropping, including re-entrant use from closures and iterators", "why_tests_cant": "all histories and all types", "anchors": ["src/blink.rs: _try_emplace*, _try_copy_slice, uninit", "src/drop_list.rs: DropItem"]}
{"id": "C56", "title": "No undefined behaviour and no failed assertion in Blink", "statement": "Every action of user code on a Blink (outside the uses shown broken by C37, C38 and C42) goes through without undefined behaviour: no access outside live allocations, no misaligned access, no use of an invalid drop record, no failed debug assertion.", "quantifier": "all histories, types, destructor panics, iterators and closures, and all answers of the underlying allocator that honour its contract", "why_tests_cant": "absence of undefined behaviour in all executions", "anchors": ["src/blink.rs", "src/drop_list.rs"]}
{"id": "C57", "title": "Resetting an owning Blink resets its allocator, after the destructors", "statement": "Blink::reset on a Blink that owns its allocator first runs all destructors and then resets the allocator; if a destructor panics the allocator is not reset, so memory that values still occupy is never recycled by the unwinding.", "quantifier": "all histories, all positions of the panic", "why_tests_cant": "all crash points", "anchors": ["src/blink.rs: Blink::reset"]}
{"id": "C58", "title": "Every constructor yields a state the other properties start from", "statement": "A BlinkAlloc, SyncBlinkAlloc, UnsafeGlobalBlinkAlloc, GlobalBlinkAlloc or Blink made by any of its constructors holds no chunk, has asked nothing of the underlying allocator and satisfies every condition that the histories of the other properties begin with.", "quantifier": "all worlds, chunk sizes, types and destructors", "why_tests_cant": "links every other claim to the public constructors; all initial worlds", "anchors": ["src/local.rs: BlinkAlloc::new, with_chunk_size_in", "src/sync.rs: SyncBlinkAlloc::new, with_chunk_size_in", "src/global/local.rs: new", "src/global/sync.rs: new", "src/blink.rs: Blink::new_in"]}
{"id": "C59", "title": "Resetting a SyncBlinkAlloc gives back exactly all chunks but the newest", "statement": "After any concurrent history in which no call is in progress, reset and reset_unchecked give back, each once and with its own layout, all chunks except the newest; reset_final gives back all. Whatever the schedule, only blocks that are held are ever given back.", "quantifier": "all histories of any number of threads, all schedules", "why_tests_cant": "all interleavings", "anchors": ["src/arena/sync.rs: reset, reset_unchecked, reset_leak", "src/arena/mod.rs: reset"]}
{"id": "C60", "title": "A concurrent allocation fails only for a reason", "statement": "A call of a thread answers Err only if, between its call and its return, the underlying allocator refused a request this thread made for this very call, or the chunk size computation left the range of usize.", "quantifier": "all histories of any number of threads, all schedules, all answers of the underlying allocator", "why_tests_cant": "all interleavings", "anchors": ["src/arena/sync.rs: alloc, resize", "src/arena/mod.rs: alloc_slow, alloc_chunk"]}
{"id": "C61", "title": "A chunk is requested only when the current one has no room (threads)", "statement": "A thread asks the underlying allocator for a chunk only if at that moment the current chunk has no room for what its call asks for.", "quantifier": "all histories of any number of threads, all schedules", "why_tests_cant": "needs a particular interleaving", "anchors": ["src/arena/sync.rs: alloc, alloc_slow"]}
{"id": "C62", "title": "Shrinking the block at the tip frees its tail", "statement": "README: when done on the tip of allocation, shrink also frees the memory for reuse.", "quantifier": "all histories, all blocks at the tip", "why_tests_cant": "all histories", "anchors": ["README.md:31-34", "src/arena/mod.rs: ChunkHeader::resize"]}
{"id": "C63", "title": "Deallocating the block at the tip makes its memory available again", "statement": "Deallocating the block that ends at the cursor moves the cursor back to its start, for one thread or many.", "quantifier": "all histories, all blocks at the tip, all schedules", "why_tests_cant": "all histories", "anchors": ["src/arena/mod.rs: ChunkHeader::dealloc"]}
{"id": "C64", "title": "Memory held by a BlinkAlloc is linear in the work between resets", "statement": "Whatever the underlying allocator answers and however many resets there are, the total size asked for of all memory held at any moment is at most 5 times the largest cost (sizes plus worst padding) of the calls between two resets, plus the minimal chunk size, plus 16520; and no single request exceeds twice that cost plus the minimal chunk size plus 16488.", "quantifier": "all histories with any number of resets, all answers of the underlying allocator", "why_tests_cant": "unbounded histories", "anchors": ["src/arena/mod.rs: alloc_slow, alloc_chunk, reset"]}
{"id": "C65", "title": "Memory held by a SyncBlinkAlloc is linear in the work", "statement": "The bound of C64 on the memory held, for threads that share a SyncBlinkAlloc.", "quantifier": "all histories of any number of threads, all schedules", "why_tests_cant": "needs a particular interleaving of many threads", "anchors": ["src/arena/sync.rs: alloc, alloc_slow", "src/arena/mod.rs: alloc_slow"]}
{"id": "C66", "title": "reset_unchecked may race with allocate", "statement": "SyncBlinkAlloc::reset_unchecked called while other threads are anywhere inside allocate waits exactly as long as somebody holds the lock, then gives back all chunks but the newest; nothing faults, the calls it overtook finish, and the blocks obtained by calls that start afterwards are aligned, in held memory, pairwise disjoint and untouched by others. (A block from an allocate that overlaps the reset may lie in memory carved before it; its caller cannot tell and may not use it.)", "quantifier": "all histories of any number of threads, all schedules, all placements of resets among the steps of allocate", "why_tests_cant": "needs a reset in the window between dropping the read lock and taking the write lock", "anchors": ["src/sync.rs: reset_unchecked", "src/arena/sync.rs: reset_unchecked, alloc, alloc_slow"]}
{"id": "C67", "title": "Dropping a Blink gives back its allocator's memory", "statement": "Through the whole life of a Blink the blocks held from the underlying allocator are exactly those obtained and not given back, each given back once with a fitting layout. Dropping a Blink that owns its allocator gives back every block, even if a destructor of an emplaced value panics; dropping one over a borrowed allocator leaves the allocator as it is.", "quantifier": "all histories of all Blink operations, all types, iterators, closures, destructors, all underlying allocators", "why_tests_cant": "needs a panicking destructor during the drop of the Blink and an allocator that checks every layout", "anchors": ["src/blink.rs: Drop for Blink", "src/local.rs: Drop for BlinkAlloc", "src/drop_list.rs: reset"]}
{"id": "C68", "title": "from_iter asks its iterator a bounded number of times", "statement": "Emplacer::from_iter and try_from_iter terminate for every iterator that yields finitely many items, whatever its size hints: while the call is waiting, the iterator has answered (size_hint, next or nth) at most 3k + 2 times if it yielded k items. It holds also for iterators that yield items after None.", "quantifier": "all iterators, all size hints, all item types including zero-sized ones, all states of the Blink", "why_tests_cant": "a non-terminating case may depend on size hints and capacity of the block", "anchors": ["src/blink.rs: _try_emplace_drop_from_iter, _try_emplace_no_drop_from_iter, saturating_drain_iter, fill"]}
{"id": "C69", "title": "A proxy asks the shared allocator only when its own chunk is full, and fails only if the shared allocator does", "statement": "allocate through a LocalBlinkAlloc whose newest chunk has room for the layout succeeds at once, at the first aligned address of the room, without calling the shared or the underlying allocator; without room it makes exactly one request to the shared allocator, large enough for the layout and bounded by hint, recorded capacity and layout. The answer of the shared allocator decides: a refusal becomes an error and leaves the proxy as it was, a block becomes the new chunk and the layout is placed right behind its header. resize shrinks and grows in place, moves within the chunk if there is room, and else asks in the same way. reset and reset_unchecked keep the newest chunk and make all of it available; deallocate, reset and drop always succeed without calling anybody.", "quantifier": "all reachable states of one shared allocator with any number of proxies and direct users, all schedules, all layouts up to 2^61 bytes", "why_tests_cant": "a proxy that fails or asks needlessly in rare alignments, or loses room on reset, only wastes memory", "anchors": ["src/sync.rs: LocalBlinkAlloc::allocate, resize, deallocate, reset, reset_unchecked, Drop", "src/arena/local.rs", "src/arena/mod.rs: ChunkHeader::alloc, alloc_slow, ChunkHeader::resize, resize_slow, reset, reset_leak"]}
{"id": "C70", "title": "Threads inside the shared allocator never race", "statement": "A thread inside SyncBlinkAlloc accesses memory only while it holds the lock, shared or exclusive. If one thread can write a byte in its next step and another thread can read or write the same byte in its next step, that byte belongs to the cursor of the current chunk, which is accessed atomically. No thread inside the allocator accesses a block the callers own; a block given to grow, shrink or deallocate is accessed by no other thread before that call is about to return, and the call itself does not write to it. In chunk headers only the cursor of the newest chunk is written.", "quantifier": "all schedules of any number of threads, all histories, all underlying allocators, all outcomes of relaxed loads and weak exchanges, all bytes", "why_tests_cant": "a race shows only under particular schedules; 'accesses' is about every value the byte could have", "anchors": ["src/arena/sync.rs: ArenaSync::alloc, resize, dealloc", "src/arena/mod.rs: ChunkHeader::alloc, resize, dealloc, alloc_slow, resize_slow"]}
{"id": "C71", "title": "No data races on the memory of a shared allocator", "statement": "In every history of threads using a SyncBlinkAlloc, conflicting accesses to a byte of memory the allocator holds are ordered by happens-before, unless both are atomic accesses of a cursor. Happens-before consists of program order, the lock, and the synchronisation the callers do to hand over the allocator and its blocks; the orderings of the atomic accesses are not needed. The same holds for the pointer to the newest chunk, which the lock guards: what is done under a shared lock counts as a read of it, what is done under an exclusive lock or by a reset as a write. When a call returns a block, everything ever done to its bytes has happened before, by whatever thread; so have all accesses to a chunk when it is given back to the underlying allocator. Every history of the allocator can be completed by synchronisation of the callers.", "quantifier": "all schedules of any number of threads, all histories with any synchronisation of the callers that keeps to ownership, all underlying allocators, all outcomes of relaxed loads and weak exchanges, all bytes", "why_tests_cant": "happens-before is invisible to a test; a missing edge misbehaves only on weakly ordered hardware under rare schedules", "anchors": ["src/arena/sync.rs: ArenaSync::alloc, resize, dealloc, reset, reset_unchecked", "src/arena/mod.rs: ChunkHeader::alloc, resize, dealloc, alloc_slow, resize_slow, reset"]}
{"id": "C72", "title": "Calls through proxies get on", "statement": "A call of a LocalBlinkAlloc always starts without waiting. While calls of the shared allocator or of its proxies are being executed, somebody can move; whoever holds the lock of the shared allocator can move, and is executing a call. A thread executing allocate or resize of a proxy finishes within ten steps if nobody else holds the lock and it runs alone, however large the block and however many chunks there are; reset_unchecked finishes after finitely many, direct calls as without proxies; only a broken answer of the underlying allocator prevents it (or, in debug builds, the assertion a fresh proxy fails when its first request has size zero). Nobody inside the shared allocator accesses a block anybody holds, and threads inside race only for the atomic cursor of the current chunk, on behalf of proxies or not.", "quantifier": "all reachable states of one shared allocator with any number of proxies and direct users, all schedules, all underlying allocators", "why_tests_cant": "deadlock and unbounded retry need particular interleavings", "anchors": ["src/sync.rs: LocalBlinkAlloc", "src/arena/sync.rs", "src/arena/local.rs", "src/arena/mod.rs: alloc_slow, resize_slow, reset"]}
{"id": "C73", "title": "reset_unchecked of a proxy gives back exactly its older chunks", "statement": "LocalBlinkAlloc::reset_unchecked gives all chunks but the newest back to the shared allocator: it calls deallocate once for each chunk recorded behind the newest in the chunk headers when the call started, newest to oldest, with the address and full length of the chunk, the next call only after the previous one returned, and it returns only when all are given back. Nothing that happens in the meantime, at the shared allocator, at other proxies or in blocks, changes which chunks these are. Without older chunks it returns at once. The chunks recorded are exactly the blocks with which the shared allocator answered waiting calls of this proxy since it was created or last reset, and the one chunk it kept then; no other step of anybody adds or removes one.", "quantifier": "all reachable states of one shared allocator with any number of proxies and direct users, all schedules, any number of chunks", "why_tests_cant": "a skipped chunk is an invisible leak; a wrong length or a chain overwritten by a concurrent thread misbehaves much later", "anchors": ["src/sync.rs: LocalBlinkAlloc::reset_unchecked", "src/arena/local.rs", "src/arena/mod.rs: reset, dealloc_chunk"]}
{"id": "C74", "title": "Chunks of a proxy grow", "statement": "A LocalBlinkAlloc keeps the chunk size it was created with for as long as it lives. When its allocate or resize needs another chunk it asks the shared allocator for: the larger of that chunk size and the requested size if it has no chunk; otherwise the larger of that chunk size and the capacity of all its chunks but the newest, plus the requested size (at least 64); plus header and alignment, rounded up to a power of two below 16 KiB and to a multiple of 16 KiB above. So no chunk is smaller than the chunk size, each chunk but the oldest has at least 64 bytes more than all chunks older than its predecessor together, and a proxy with k chunks has capacity at least 64 (fib(k+1) - 1). With C27: what a proxy had as its last chunk when it was dropped or reset bounds from below every chunk of every proxy created with knowledge of that.", "quantifier": "all reachable states of one shared allocator with any number of proxies and direct users, all schedules, all sizes", "why_tests_cant": "too small chunks only cost time: more requests, contention on the shared allocator; no test notices without counting all requests over all sizes", "anchors": ["src/sync.rs: LocalBlinkAlloc, SyncBlinkAlloc::local", "src/arena/mod.rs: alloc_slow, alloc_chunk, reset_leak", "src/arena/local.rs"]}
{"id": "C75", "title": "A proxy behaves like a BlinkAlloc of its own", "statement": "Whatever happens at the shared allocator, at other proxies and in blocks, the calls of a LocalBlinkAlloc and their responses, from its creation on, are those of a BlinkAlloc created with the same chunk size whose underlying allocator answers requests for chunks as the shared allocator answered the proxy's. At any time the two have the same root and chunk size, the same chunks recorded in the headers, the same position in the newest chunk, the same blocks handed out with the same contents, and have made the same number of requests; while reset_unchecked gives chunks back, the proxy is as the BlinkAlloc after its reset. Such a BlinkAlloc always exists, so whatever holds of the calls in all histories of BlinkAllocs holds of the calls of all proxies, including dropped ones.", "quantifier": "all histories of one shared allocator with any number of proxies and direct users, all schedules, all proxies, all underlying allocators", "why_tests_cant": "equality of two systems over all interleavings with others; a difference may depend on what other threads did to the shared allocator meanwhile", "anchors": ["src/sync.rs: LocalBlinkAlloc", "src/local.rs: BlinkAlloc", "src/arena/local.rs", "src/arena/mod.rs: alloc_slow, resize_slow, reset, reset_leak"]}
{"id": "C76", "title": "Proxies race with nobody", "statement": "At every moment of every history with proxies and direct users: what a LocalBlinkAlloc does itself concerns only bytes of its own chunks; neither a proxy nor anybody inside the shared allocator touches a block in anybody's hands, except that a resize reads the block it was given, and none of them writes to any such block. If one identity could write a byte in its next step and another one could access it in its next step, both are inside the shared allocator and the byte belongs to the cursor of the shared allocator's current chunk, which the code accesses atomically.", "quantifier": "all histories of one shared allocator with any number of proxies and direct users, all schedules, all bytes of memory", "why_tests_cant": "absence of races over all interleavings; a race need not show in the outcome of any run", "anchors": ["src/sync.rs: LocalBlinkAlloc", "src/arena/local.rs", "src/arena/sync.rs"]}
{"id": "C77", "title": "reset_unchecked of a shared allocator with proxies", "statement": "Full statements, per the documentation of SyncBlinkAlloc::reset_unchecked, which only asks that memory allocated before is not used afterwards: when no call is in progress, after reset_unchecked every proxy can still be dropped; and all blocks handed out from then on, directly or through proxies that existed before, are disjoint. Both are false. What holds: a proxy can be dropped exactly if it had no chunk or its newest chunk lies in the block that the shared allocator keeps, otherwise the drop reads memory given back to the underlying allocator; and if no proxy has a chunk, the reset is harmless: all later histories keep blocks disjoint and inside held memory, and no step faults.", "quantifier": "all reachable states of one shared allocator with any number of proxies and direct users in which no call is in progress, all later histories", "why_tests_cant": "which block a proxy's chunk lies in depends on all other users; reading a freed header usually goes unnoticed", "anchors": ["src/sync.rs: SyncBlinkAlloc::reset_unchecked, Drop for LocalBlinkAlloc", "src/arena/sync.rs: reset_unchecked", "src/arena/local.rs: last_chunk_size, reset_leak"]}
{"id": "C78", "title": "No data races with proxies", "statement": "In the sense of the memory model (conflicting accesses, not both atomic, are ordered by happens-before), with any number of proxies and direct users: if callers synchronise their own accesses to blocks as ownership demands, and whoever creates a proxy knows of the shared allocator's creation or last reset, then no access of the shared allocator, of a proxy (which uses neither atomics nor locks on its chunks), of callers to their blocks, or of a reset races with any other, neither on memory nor on the shared allocator's pointer to its newest chunk. When a block is handed out, directly or by a proxy, all earlier accesses to its bytes happen before; only resets of the shared allocator give memory back to the underlying allocator, and then all accesses to it happen before.", "quantifier": "all histories of one shared allocator with any number of proxies and direct users, all schedules, all ways in which callers synchronise, all bytes of memory held", "why_tests_cant": "happens-before over all interleavings; a missing edge need not show in any run", "anchors": ["src/sync.rs: LocalBlinkAlloc, SyncBlinkAlloc", "src/arena/local.rs", "src/arena/sync.rs", "src/arena/mod.rs: alloc_slow, resize_slow, reset, reset_leak"]}
{"id": "C79", "title": "Global allocator and its proxies at the same time", "statement": "A GlobalBlinkAlloc is used through GlobalAlloc in blink mode by any number of threads, and through any number of proxies made by local() (in either mode), at the same time. Seen from its SyncBlinkAlloc this is a legal history of a SyncBlinkAlloc with proxies, so everything proved for those (C26 to C29, C66 to C78) carries over. All blocks in the program's hands are pairwise disjoint, aligned, long enough and in memory held from the underlying allocator; no step changes a byte of a block except the owner's store, or a reset its owner asked for; alloc_zeroed yields zeros and realloc keeps contents, whatever proxies do meanwhile; no legal action faults; there is no deadlock. The debug counter counts exactly the blocks obtained through GlobalAlloc, and reset and direct_mode panic in a debug build exactly if there are any; blocks of proxies go unnoticed.", "quantifier": "all histories of one global allocator with any number of threads and proxies, all schedules, all answers of the underlying allocator; GlobalAlloc called in blink mode; requests through proxies up to 2^61 bytes", "why_tests_cant": "interleavings of three kinds of users over all sizes; a block shared by mistake is only noticed if both owners write", "anchors": ["src/global/sync.rs: GlobalBlinkAlloc::local, GlobalAlloc for GlobalBlinkAlloc, reset, direct_mode, blink_mode", "src/sync.rs: LocalBlinkAlloc, SyncBlinkAlloc"]}
{"id": "C80", "title": "realloc of a null pointer is alloc", "statement": "The global allocators handle realloc of a null pointer by allocating. Such a call should be alloc: the same answer and effects, and in a debug build the block counted, so that reset notices it. (False of the code: the block is not counted; reset may then pass its assertion while a block is outstanding, or, threaded, panic although none is. True: everything but the counter.)", "quantifier": "all reachable states of a global allocator in both modes, all layouts and sizes, all answers of the underlying allocator", "why_tests_cant": "the missing count only shows in debug builds, after a particular mix of calls", "anchors": ["src/global/local.rs: GlobalAlloc::realloc, dealloc, reset", "src/global/sync.rs: GlobalAlloc::realloc, dealloc, reset"]}
{"id": "C81", "title": "reset of a global allocator while threads are inside calls", "statement": "The documentation of GlobalBlinkAlloc::reset asks that previously allocated memory is not used any more, not for external synchronisation, and a debug build asserts that nothing is outstanding. Hence in a debug build a block returned after a successful reset should not be handed out a second time. (False of the code: a thread that has its block but has not counted it yet is not noticed. True: when reset succeeds in a debug build, no block whose call has returned is outstanding and none was handed over to a call in progress.)", "quantifier": "all histories of a threaded global allocator followed by a reset at any moment, fewer than 2^64 threads and blocks together", "why_tests_cant": "the window is a few instructions between leaving the SyncBlinkAlloc and counting", "anchors": ["src/global/sync.rs: reset, GlobalAlloc::alloc"]}
{"id": "C82", "title": "Blink over any allocator", "statement": "Blink<A> is generic: for every A that implements BlinkAllocator and honours the contract of Allocator (blocks handed out are fresh and at least as large and as aligned as asked for; grow keeps the bytes of the old layout; reset may give back everything or, like &BlinkAlloc, nothing), every legal use of Blink goes through without undefined behaviour, only calls A within that contract, keeps references apart and leaves blocks of others alone, slices collected from an iterator hold exactly the items yielded, and a reset or drop of a Blink that owns A gives back every block. (False of the code in two corners: from_iter calls grow with a smaller layout when an iterator goes on after None, and the drop variant of from_iter loses items when A hands out more than it was asked for. True otherwise.)", "quantifier": "all allocators that honour the contract, all histories of all Blink operations, all types, iterators, closures and destructors", "why_tests_cant": "the crate only ships allocators that answer with exactly the size asked for and that tolerate a grow to a smaller layout", "anchors": ["src/api.rs: BlinkAllocator", "src/blink.rs: Emplace::from_iter, _try_emplace_drop, _try_emplace_no_drop, Blink::reset"]}
{"id": "C83", "title": "Blink keeps no block it does not need", "statement": "Over every allocator A that honours its contract, and as long as user code does not panic and does not have values dropped whose blocks the allocator keeps, the blocks of A in use never outnumber those of others plus one per reference user code holds, one per block it asked A for directly and one per call that waits for user code. So a closure that fails, an iterator that yields nothing and an emplacement for which there is no memory give back what they took, and a slice that is moved while it grows leaves nothing behind.", "quantifier": "all allocators that honour the contract, all histories of Blink operations without panics, all types, iterators and closures", "why_tests_cant": "over BlinkAlloc a block that is not given back cannot be told from the arena's usual slack; tests would need an instrumented allocator and every way a call can end, nested in every other", "anchors": ["src/blink.rs: _try_emplace_drop, _try_emplace_no_drop (error paths)", "src/blink.rs: Guard::flush, fill"]}
{"id": "C84", "title": "The allocators of this crate keep to the documentation of Allocator, threads included", "statement": "Every history of calls of a BlinkAlloc is one that the documentation of core::alloc::Allocator allows call by call: blocks are non-null, aligned, long enough, inside the address space and share no byte with any block in use; contents are kept by every call, moved by grow and shrink, zero where asked for; a refused call changes nothing. The same holds for the calls of each proxy (LocalBlinkAlloc) of a SyncBlinkAlloc. And a SyncBlinkAlloc is linearizable: every history of any number of threads, interleaved at every atomic step and every copied byte, is a history of an allocator whose calls happen at one single moment between call and return, each as the documentation allows.", "quantifier": "all histories, all numbers of threads, all interleavings, all underlying allocators", "why_tests_cant": "linearizability speaks about every interleaving of every history; a test sees a few schedules and cannot search for the missing moment", "anchors": ["src/sync.rs: SyncBlinkAlloc::allocate, resize, deallocate", "src/arena/sync.rs: ArenaSync::alloc_fast, resize_fast, alloc_slow, dealloc, reset", "src/local.rs: impl Allocator for &BlinkAlloc", "src/sync.rs: LocalBlinkAlloc"]}
{"id": "C85", "title": "Other users of the underlying allocator make no difference", "statement": "While others obtain blocks from the same underlying allocator, are refused some, give them back and store into them at any moment, every history of a BlinkAlloc, of a SyncBlinkAlloc shared by threads, and of its proxies, is a history of one that has an underlying allocator to itself that answers the same: same calls and responses, same blocks, same contents, same requests. No legal call faults unless the underlying allocator gives memory it must not give; blocks of others are neither changed nor given back; no byte of an owned block belongs to others or is changed by them.", "quantifier": "all histories, all interleavings with any number of other users, all underlying allocators", "why_tests_cant": "the other users are arbitrary: they reuse memory this allocator gave back at any moment and overwrite it; a test has a few fixed neighbours", "anchors": ["src/arena/mod.rs: alloc_chunk, dealloc_chunk, reset, reset_leak", "src/local.rs: BlinkAlloc", "src/sync.rs: SyncBlinkAlloc, LocalBlinkAlloc"]}
{"id": "C86", "title": "Global allocator in both modes, with proxies, beside other users", "statement": "While threads call a GlobalBlinkAlloc in direct and in blink mode, modes are switched, proxies made by local() work in either mode, and others use the underlying allocator, at the same time: all blocks in the hands of the program are pairwise disjoint, aligned, long enough, inside memory obtained and not given back (by a direct call or by the SyncBlinkAlloc) and no byte of them belongs to others; nobody but the owner changes them; realloc keeps contents and alloc_zeroed yields zeros in either mode; a direct call is passed on once, as it is; no step faults unless the underlying allocator breaks its contract, except realloc to another size in direct mode (C48), which always does; nobody waits forever; the debug counter counts exactly the blocks of blink mode. The memory obtained and not given back is exactly what the SyncBlinkAlloc, direct calls and others hold. reset and direct_mode, with nobody inside a call, panic exactly if this is a debug build and a block of blink mode is outstanding, and otherwise give back all chunks but the newest, touching neither direct blocks nor memory of others; dropping the global allocator gives back exactly the memory of the SyncBlinkAlloc. What happens in blink mode and through proxies is a history of C79 of an allocator that has the underlying allocator to itself.", "quantifier": "all histories, all numbers of threads and proxies, all interleavings with other users, all mode switches, all underlying allocators", "why_tests_cant": "the property is about every interleaving of four kinds of users of one underlying allocator; tests use one mode and one kind at a time", "anchors": ["src/global/sync.rs: impl GlobalAlloc for GlobalBlinkAlloc", "src/global/sync.rs: local, blink_mode, direct_mode, reset", "src/sync.rs: LocalBlinkAlloc"]}
{"id": "C87", "title": "from_iter grows its buffer geometrically and in proportion", "statement": "While Blink's from_iter (in every variant, for items that are not zero-sized) collects the items of an iterator, it asks for a size hint, and hence the allocator for a larger buffer, only logarithmically often: when it asked H >= 3 times, the iterator had yielded at least 9 * 2^(H-2) items, provided it yields nothing after None and never more than its upper bounds; lower bounds may be wrong. And every request made of the allocator is in proportion to the number n of items the iterator has: at most 24 bytes, one alignment and 2n+15 items, provided the lower bounds are true; the upper bounds may be wrong and the iterator may yield items after None.", "quantifier": "all reachable states, all iterators (any number of items, any hints within the stated conditions), all item types, all allocators", "why_tests_cant": "amortised cost and memory use concern arbitrarily long iterators with arbitrary hints; tests count nothing", "anchors": ["src/blink.rs: _try_emplace_drop_from_iter, _try_emplace_no_drop_from_iter, Guard::fill", "src/blink.rs:1435 FASTER_START", "src/blink.rs:1438-1449 size_hint_and_one"]}
{"id": "C88", "title": "The allocator assumed for Blink over any allocator is exactly one that keeps to the documentation", "statement": "Blink<A> accepts any A; the properties about it (C82, C83) speak of an allocator that gives any fresh block, moves on every grow and shrink as it likes and may answer with more than was asked for. That allocator is neither stronger nor weaker than the documentation of core::alloc::Allocator: every history of calls and answers the documentation allows (for blocks with bytes, beside blocks of others) is one of its histories, in which the callers' bytes are the same or less is known about them and the others' blocks stay as they are; and every one of its histories is allowed by the documentation. So the allocators of this crate are among them: every history of a BlinkAlloc is one of its histories.", "quantifier": "all histories of legal calls of all allocators that keep to the documentation", "why_tests_cant": "a test uses one allocator; that the assumption about A is no stronger than its documentation concerns all allocators there could be", "anchors": ["src/api.rs: BlinkAllocator", "src/blink.rs: impl Blink<A> where A: BlinkAllocator", "src/local.rs:293 impl Allocator for BlinkAlloc"]}
{"id": "C89", "title": "Users sharing an allocator each see an allocator of their own, as documented", "statement": "A BlinkAlloc is shared by reference, a SyncBlinkAlloc by threads, in particular by several Blinks. If no user touches the blocks of another and nobody resets the allocator itself while another has blocks or is inside a call (reset of a shared reference does nothing, its caller only gives up their blocks), the calls and stores of each user, taken alone, are a history the documentation of core::alloc::Allocator allows, as if no one else were there: for a BlinkAlloc with calls of users in any order; for a SyncBlinkAlloc with threads of all users interleaved at every atomic step and copied byte (the threads of one user see a linearizable allocator; a user with one thread sees a sequential one). The user's blocks are the same there, with the same contents. Blocks also lie apart from memory others hold from the underlying allocator. No step of anybody reaches undefined behaviour or fails an assertion. So each such history, and the calls of each LocalBlinkAlloc, is a history of the allocator assumed for Blink over any allocator (C82, C83, C88).", "quantifier": "all histories, all divisions of calls, threads and blocks between users, all interleavings, all underlying allocators", "why_tests_cant": "that no interleaving of other users can be noticed concerns all programs of all other users; tests run one user, or threads that do not check what they see against a specification", "anchors": ["src/local.rs:293 impl Allocator for BlinkAlloc", "src/sync.rs:359 impl Allocator for SyncBlinkAlloc", "src/sync.rs:570 impl Allocator for LocalBlinkAlloc", "src/api.rs:46 impl BlinkAllocator for &A"]}
{"id": "C90", "title": "from_iter collects in place when the chunk has room", "statement": "When items (that are not zero-sized) are collected from an iterator of n items into a slice in a Blink on a BlinkAlloc, and the current chunk has room for the list record, alignment and 2n+15 items (n+8 if the upper bounds of the iterator are tight, as those of a filter that keeps everything), then nothing is asked of the underlying allocator and the collection does not run out of memory: the buffer is put at the end of the used part of the chunk and every later round grows it in place. In a Blink whose arena is empty, if the first block given by the underlying allocator is large enough for n+8 items and the upper bounds are tight, the whole call makes at most that one request, and fails only if it is refused. The iterator yields nothing after None, its lower bounds are true, and it does not use the Blink.", "quantifier": "all reachable states of the Blink, all item types that are not zero-sized, all iterators as described, all underlying allocators", "why_tests_cant": "test_bad_iter collects 2000 numbers with one iterator in one fresh arena; that no sequence of size hints makes the buffer move needs all of them", "anchors": ["src/blink.rs:404 _try_emplace_drop_from_iter", "src/blink.rs:605 _try_emplace_no_drop_from_iter", "src/blink.rs:1438 size_hint_and_one", "src/tests.rs:28 test_bad_iter"]}
{"id": "C91", "title": "Zeroed calls of a shared allocator, threads included", "statement": "Threads share a SyncBlinkAlloc and also call allocate_zeroed and grow_zeroed (default methods of Allocator, which call allocate and deallocate and store zeros and copied bytes outside the lock). Whatever the interleaving, down to single bytes: when allocate_zeroed returns a block, all of it is zero, it is aligned, long enough and apart from every owned block, and it fails only where allocate fails; when grow_zeroed returns a block, it begins with the old contents as they were at the call and is zero from there to its end, and when it fails, which it does only where allocate fails, the old block with its contents is still the caller's; the only further call it makes is deallocate, of that block with its layout. Owned blocks never overlap, lie in memory held from the underlying allocator, and are changed by nobody but their owner; no step reaches undefined behaviour or fails an assertion; a thread not in a call can make one, one zeroing or copying is never held up, and one running alone finishes its call. The state of the allocator is always one that calls of its other methods lead to, so what is proved for those holds too.", "quantifier": "all schedules of any number of threads, all legal mixes of calls, all layouts, all underlying allocators", "why_tests_cant": "the tests of the crate never call the zeroed methods, let alone from several threads; interference between single bytes and other threads' calls needs all interleavings", "anchors": ["src/sync.rs:359 impl Allocator for SyncBlinkAlloc", "src/sync.rs:394 impl Allocator for &mut SyncBlinkAlloc", "src/sync.rs:232 allocate", "src/sync.rs:282 deallocate"]}
{"id": "C92", "title": "A SyncBlinkAlloc is linearizable with all methods of Allocator, zeroed ones included", "statement": "Threads share a SyncBlinkAlloc and call allocate, grow, shrink, deallocate, allocate_zeroed and grow_zeroed, and reset it when none is inside a call. Although the zeroed calls are several calls of the allocator with unlocked stores in between, every history is a history of an allocator whose calls each happen at one moment between call and return, as the documentation of Allocator allows: the block is aligned, long enough and apart from every block in use at that moment; allocate_zeroed gives a block that is zero throughout; grow_zeroed gives a block with the old contents followed by zeros and takes the old block out of use; a refused call changes nothing. The blocks in the hands of the threads are in use there with the same contents, and they are all that is in use when no thread is inside a call.", "quantifier": "all schedules of any number of threads, all legal mixes of calls, all layouts, all underlying allocators", "why_tests_cant": "linearizability is about all interleavings; tests see a few schedules and the tests of the crate call none of the zeroed methods", "anchors": ["src/sync.rs:359 impl Allocator for SyncBlinkAlloc", "src/sync.rs:394 impl Allocator for &mut SyncBlinkAlloc", "src/sync.rs:232 allocate", "src/sync.rs:254 resize", "src/sync.rs:282 deallocate"]}
{"id": "C93", "title": "Zeroed calls through proxies of a shared allocator", "statement": "Any number of LocalBlinkAlloc proxies are used from their threads, beside direct users of the SyncBlinkAlloc, and allocate_zeroed and grow_zeroed are called through them (default methods of Allocator over the proxy's own allocate and deallocate; the proxy may wait for the shared allocator in the middle). Whatever the interleaving, down to single bytes: a block returned by allocate_zeroed is zero throughout, aligned, long enough, and has no byte in common with a block anybody holds; one returned by grow_zeroed begins with the old contents as they were at the call and is zero from there to its end; either fails only where allocate of the proxy fails, and then the old block with its contents is still the caller's. Blocks of direct users and of proxies never overlap, lie in memory held from the underlying allocator, and are changed by nobody but their owner or a reset or drop of their proxy; no step reaches undefined behaviour; a zeroed call starts without waiting and never fails at once, and finishes if its thread runs alone while nobody else holds the lock. The state of allocator and proxies is always one that calls of the other methods lead to, so what is proved for those holds too.", "quantifier": "all schedules of any number of proxies and direct users, all legal mixes of calls, all layouts up to 2^61 bytes, all underlying allocators", "why_tests_cant": "the tests of the crate never call the zeroed methods of a proxy; interference between single bytes, other proxies' chunks and direct calls needs all interleavings", "anchors": ["src/sync.rs:570 impl Allocator for LocalBlinkAlloc", "src/sync.rs:605 impl Allocator for &mut LocalBlinkAlloc", "src/sync.rs:476 allocate", "src/sync.rs:529 deallocate"]}
{"id": "C94", "title": "A proxy with zeroed calls is a documented allocator", "statement": "Any number of LocalBlinkAlloc proxies and direct users share a SyncBlinkAlloc; through the proxies any mix of allocate, allocate_zeroed, grow, grow_zeroed, shrink, deallocate, reset and reset_unchecked is called. What the callers of one proxy see of their own calls, in order, is a history the documentation of Allocator (and of reset) allows for an allocator of their own, whatever everybody else does meanwhile, also in the middle of their calls: every returned block is aligned, long enough, inside the address space and apart from the blocks they hold; zeroed calls return zeros; grown and shrunk blocks begin with the old contents at the moment of the call; a refused call leaves the blocks they hold with their contents. As long as the proxy exists and is not being reset, the callers hold exactly the blocks that history leaves them with, and find in them what it put there.", "quantifier": "all schedules of any number of proxies and direct users, all legal mixes of calls, all layouts up to 2^61 bytes, all underlying allocators", "why_tests_cant": "zeroed calls of proxies consist of several steps between which everybody else runs; that each proxy nevertheless looks like an allocator of its own needs a simulation over all interleavings", "anchors": ["src/sync.rs:570 impl Allocator for LocalBlinkAlloc", "src/sync.rs:605 impl Allocator for &mut LocalBlinkAlloc", "src/sync.rs:476 allocate", "src/sync.rs:542 reset"]}
{"id": "C95", "title": "A warm shared allocator does not touch the underlying allocator, whatever the schedule", "statement": "A SyncBlinkAlloc is reset (reset, or reset_unchecked while nobody is inside) and keeps a chunk. Then any number of threads allocate, grow, shrink and deallocate, in any interleaving, with relaxed loads returning old values and weak exchanges failing spuriously. As long as the sizes plus worst-case paddings of all calls started since the reset fit into the kept chunk: the underlying allocator is asked for nothing and gets nothing back, no call fails, nobody ever takes the write lock, no thread inside a call ever has to wait for another one, and nothing faults whatever the underlying allocator would answer.", "quantifier": "all reachable states, all schedules of any number of threads, all legal calls whose costs fit, all kept chunks, all outcomes of relaxed loads and weak exchanges", "why_tests_cant": "several threads each hold an outdated view of the cursor and a request that is not yet served; that the room suffices for all of them needs an account of what every thread may still take, over all interleavings", "anchors": ["src/arena/sync.rs:50 alloc_fast", "src/arena/sync.rs:78 resize_fast", "src/arena/mod.rs:286 ChunkHeader::alloc", "src/arena/mod.rs:376 ChunkHeader::resize", "src/arena/mod.rs:535 reset", "src/sync.rs:298 reset", "src/sync.rs:329 reset_unchecked"]}
{"id": "C96", "title": "A warm proxy never waits for the shared allocator, whatever others do", "statement": "A LocalBlinkAlloc has a chunk and is not executing a call. As long as the sizes plus worst-case paddings of its calls between two of its resets fit into the room the chunk had (after a reset: into the whole newest chunk), every one of its calls comes back at once and succeeds, and the shared allocator and the underlying one are not called for it. This holds for any number of rounds separated by reset, while other proxies and direct users of the shared allocator, including the proxy's own thread, do anything they are allowed to, and the proxy keeps its chunk.", "quantifier": "all reachable states, all numbers of proxies and threads, all schedules, all legal calls whose costs per round fit, any number of rounds", "why_tests_cant": "the room of a proxy is recorded in memory obtained from the shared allocator; that nobody else, under any interleaving, ever changes that record needs the separation invariant of the whole system", "anchors": ["src/sync.rs:476 LocalBlinkAlloc::allocate", "src/sync.rs:498 LocalBlinkAlloc::resize", "src/sync.rs:529 LocalBlinkAlloc::deallocate", "src/sync.rs:542 LocalBlinkAlloc::reset", "src/arena/mod.rs:286 ChunkHeader::alloc", "src/arena/mod.rs:535 reset"]}
