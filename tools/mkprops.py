#!/usr/bin/env python3
"""Writes /verif/properties.jsonl (kept as a script so the list stays easy to edit)."""
import json
P=[]
def p(title, statement, quantifier, why, anchors):
    P.append(dict(id="C%02d"%(len(P)+1), title=title, statement=statement, quantifier=quantifier, why_tests_cant=why, anchors=anchors))
A="src/arena/mod.rs"; L="src/local.rs"; S="src/sync.rs"; B="src/blink.rs"; D="src/drop_list.rs"; C="src/cache.rs"; GL="src/global/local.rs"; GS="src/global/sync.rs"; API="src/api.rs"; AL="src/arena/local.rs"; AS="src/arena/sync.rs"

# 1
p("Live allocations never overlap",
  "At every point of every history of allocate / allocate_zeroed / resize / deallocate / reset / reset_final calls on one BlinkAlloc, the byte ranges of any two allocations that the caller still owns are disjoint.",
  "all finite histories of API calls that respect the documented pointer contracts, all layouts, all chunk sizes, all behaviours of the underlying allocator allowed by the Allocator contract (including refusals and over-long blocks)",
  "overlap depends on the whole history (which chunk is current, where the bump position is, what was resized in place); tests sample a few histories on one underlying allocator",
  [A+": ChunkHeader::alloc, ChunkHeader::resize, alloc_slow, resize_slow, dealloc, reset", L+": BlinkAlloc::{allocate,resize,deallocate,reset,reset_final}"])
# 2
p("Every returned block satisfies its layout and lies in owned memory",
  "Every successful allocate/resize returns a block whose address is a multiple of the requested alignment, whose length is at least the requested size, and which lies entirely inside memory obtained from the underlying allocator and not yet given back; it stays inside such memory until it is deallocated or the allocator is reset.",
  "all histories, layouts (including zero size and alignments larger than a chunk), chunk sizes and underlying allocators",
  "alignment padding and end-of-chunk boundaries depend on the concrete addresses the underlying allocator picks",
  [A+": ChunkHeader::alloc, init_chunk, alloc_slow", L+": BlinkAlloc::allocate, BlinkAlloc::resize"])
# 3
p("No contract-respecting history reaches undefined behaviour inside the allocator",
  "No call executes one of the operations that would be undefined or that a debug build would abort on: integer overflow, pointer arithmetic leaving the chunk, reading allocator metadata that is not intact or already freed, the unchecked unwrap of the first allocation from a fresh chunk, overlapping copy_nonoverlapping, debug assertions of the arena, and the loop that frees chunks terminates.",
  "all histories, layouts and lawful underlying allocators; addresses are 64-bit machine words",
  "the unchecked unwrap relies on an arithmetic argument over all sizes, alignments and start addresses; address-space edge cases cannot be produced in tests",
  [A+": alloc_slow (unwrap_unchecked), ChunkHeader::alloc (debug_assert!), layout_sum, dealloc_chunk, reset", AL+": ArenaLocal"])
# 4
p("resize preserves contents",
  "A successful resize/grow/shrink returns a block whose first min(old size, new size) bytes equal the bytes of the old block at the time of the call.",
  "all histories, all block contents, all size/alignment changes, all placements (in place, same chunk, new chunk)",
  "which path is taken depends on history; a copy of the wrong length only shows for particular sizes and contents",
  [A+": ChunkHeader::resize, resize_slow", L+": BlinkAlloc::resize, Allocator::grow, Allocator::shrink"])
# 5
p("The allocator never writes into memory it has handed out",
  "No allocator call changes a byte of a live allocation, other than allocate_zeroed zeroing and resize copying into the block that very call returns.",
  "all histories, all contents of all live blocks",
  "the allocator keeps its own metadata inside the same memory; only a global invariant excludes that a metadata write hits some user block in some history",
  [A+": init_chunk (ptr::write), ChunkHeader::reset, cursor updates"])
# 6
p("Failed allocations leave everything as it was",
  "If allocate or resize returns Err, no live allocation is lost, moved or changed, the old block of a failed resize is still owned by the caller, and the allocator's later behaviour is the same as if the failed call had not been made (apart from the refused request the underlying allocator saw).",
  "all histories, all refusal patterns of the underlying allocator, all layouts including those overflowing the size computation",
  "requires failing the underlying allocator at every possible point of every history",
  [A+": alloc_slow, resize_slow", L+": BlinkAlloc::allocate, BlinkAlloc::resize"])
# 7
p("Shrink never moves and never fails when the pointer is already aligned",
  "api.rs promises: Allocator::shrink always succeeds and never moves memory when ptr is already aligned to new_layout.align().",
  "all live blocks, all smaller layouts whose alignment divides the block's address, all allocator states",
  "addresses that happen to be over-aligned depend on the underlying allocator and the history",
  [API+": BlinkAllocator doc", A+": ChunkHeader::resize"])
# 8
p("Growing the most recent allocation happens in place",
  "If a block is the last one allocated in the current chunk and the chunk has room, resize to a larger size (alignment not increased) keeps the address, does not touch the underlying allocator, and exactly the additional bytes are consumed.",
  "all histories ending with such a block, all new sizes up to the remaining room",
  "the boundary (exactly filling the chunk versus one byte more) and all history shapes",
  [A+": ChunkHeader::resize (cursor == old_end)", "README.md: fast allocation grows"])
# 9
p("Deallocate never disturbs anything",
  "deallocate of an owned block changes nothing observable except that the block is no longer owned: every later call returns exactly what it would have returned without the deallocate, and no other live block changes.",
  "all histories, all owned blocks (including zero-sized, in old chunks, most recent), all later histories",
  "a wrong bump adjustment only shows for particular later allocations",
  [A+": ChunkHeader::dealloc, dealloc", L+": BlinkAlloc::deallocate"])
# 10
p("reset gives back every chunk but the newest and keeps that one",
  "After reset on a BlinkAlloc that holds at least one chunk, exactly one chunk is still held from the underlying allocator, namely the one obtained last; all others have been given back; a BlinkAlloc holding none still holds none.",
  "all histories before the reset",
  "number and order of chunks is unbounded",
  [A+": reset, ChunkHeader::reset", L+": BlinkAlloc::reset"])
# 11
p("No leak: reset_final and drop give back everything",
  "After reset_final, and after dropping the BlinkAlloc, the set of blocks held from the underlying allocator is exactly what it was before the BlinkAlloc was created.",
  "all histories, including ones with refused requests",
  "leaks depend on history (failed slow paths, resets with several chunks)",
  [A+": reset (keep_last = false), dealloc_chunk", L+": reset_final, Drop for BlinkAlloc"])
# 12
p("Every chunk is freed once, with a fitting layout",
  "Each deallocate call made to the underlying allocator names a block currently held from it, with the alignment it was requested with and a size between the requested size and the length the underlying allocator reported; no block is given back twice.",
  "all histories and all over-allocating underlying allocators",
  "the size is recomputed from a stored end pointer; a mismatch only shows with allocators that return longer blocks",
  [A+": dealloc_chunk, alloc_chunk"])
# 13
p("A warm allocator does not touch the underlying allocator",
  "After a reset that kept a chunk of capacity n, any sequence of allocations whose total of (size + align - 1) is at most n succeeds without any call to the underlying allocator.",
  "all kept chunks, all allocation sequences within the bound",
  "all sequences of layouts within the bound",
  [A+": ChunkHeader::alloc, reset", L+": BlinkAlloc doc 'Last chunk will be reused'"])
# 14
p("Steady workloads converge to a single chunk",
  "The documentation says that with steady memory usage one chunk is sufficient for all allocations between resets after a few iterations, i.e. repeating the same work between resets eventually stops calling the underlying allocator.",
  "all workloads repeated forever, all initial chunk sizes",
  "a statement about infinitely many iterations of every workload",
  [L+": BlinkAlloc::reset doc", A+": alloc_slow (cumulative_size), reset", "README.md: Design"])
# 15
p("A new chunk is larger than the exhausted one",
  "Documentation: when a chunk is exhausted a new larger chunk is allocated.",
  "all histories that exhaust a chunk",
  "depends on the sequence of chunk sizes produced by every history",
  [L+": BlinkAlloc doc", A+": alloc_slow"])
# 16
p("Requests to the underlying allocator are valid layouts",
  "Every layout passed to the underlying allocator is valid: its alignment is a power of two and its size rounded up to the alignment does not exceed isize::MAX.",
  "all chunk sizes passed to with_chunk_size, all requested layouts, all histories",
  "needs sizes near isize::MAX for which no real allocation succeeds",
  [A+": alloc_chunk (from_size_align_unchecked), alloc_slow"])
# 17
p("allocate_zeroed returns zeroed memory whatever the memory held before",
  "Every byte of the block returned by a successful allocate_zeroed is zero, including when the arena reuses memory that earlier allocations had written before a reset.",
  "all histories and all previous contents",
  "reuse after reset with arbitrary prior contents",
  [L+": allocate_zeroed (Allocator default method)", GL+": State::allocate_zeroed"])
# 18
p("Allocation only fails for a reason",
  "allocate returns Err only if the underlying allocator refused a chunk request made by that very call or the chunk size computation exceeds usize; in particular it never fails while the current chunk has room, and it makes at most one request to the underlying allocator per call.",
  "all histories, layouts and underlying allocators",
  "all combinations of fill level, size and refusal",
  [A+": alloc_slow", L+": BlinkAlloc::allocate"])
# 19
p("Bump waste is bounded",
  "An allocation served from the current chunk starts less than align bytes after the end of the previous allocation from that chunk, so no more than align-1 bytes are lost per allocation and blocks come out in increasing address order.",
  "all histories and layouts",
  "all alignments and bump positions",
  [A+": ChunkHeader::alloc"])
# 20
p("The number of chunks grows at most logarithmically",
  "Without resets, after k chunks have been obtained the total capacity is at least a Fibonacci-like exponential in k, so serving n bytes needs O(log n) requests to the underlying allocator.",
  "all histories without reset, all layouts",
  "asymptotic statement over unboundedly many chunks",
  [A+": alloc_slow, init_chunk (cumulative_size)"])
# 21
p("Alignment arithmetic is exact on machine words",
  "align_up(v, a) is the least multiple of a that is >= v and is None exactly if the computation exceeds usize; align_down(v, a) is the greatest multiple <= v; is_aligned_to decides divisibility, for every power of two a.",
  "all 64-bit values and all powers of two",
  "2^64 x 64 inputs",
  [A+": align_up, align_down, is_aligned_to, layout_sum"])
# 22
p("SyncBlinkAlloc: no overlap under any schedule",
  "If any number of threads call allocate/resize/deallocate on one SyncBlinkAlloc concurrently, at every moment all blocks that have been returned and are still owned are pairwise disjoint, aligned, long enough and inside memory currently held from the underlying allocator.",
  "all numbers of threads, all interleavings of their atomic steps (including spurious compare_exchange_weak failures), all histories",
  "schedules cannot be enumerated by tests",
  [AS+": ArenaSync::{alloc_fast,alloc_slow,resize_fast,resize_slow,dealloc}", A+": ChunkHeader::{alloc,resize,dealloc}", S+": SyncBlinkAlloc"])
# 23
p("SyncBlinkAlloc: contents survive concurrent activity",
  "A resize on one thread yields a block holding the old contents, and no allocator activity of any thread changes a byte of a block owned by someone else, whatever other threads do meanwhile.",
  "all schedules, all contents, copies interleaved byte by byte with other threads' steps",
  "as above",
  [AS+": resize_fast, resize_slow", A+": ChunkHeader::resize"])
# 24
p("SyncBlinkAlloc: lock discipline and progress",
  "A thread changes which chunk is current only while no other thread is inside the allocator; a thread's allocation attempt fails to commit only because another thread committed in between or spuriously; a thread that is inside and is scheduled alone finishes; the allocator never deadlocks.",
  "all schedules and numbers of threads",
  "schedules",
  [AS+": RwLock read/write usage", A+": compare_exchange_weak loop"])
# 25
p("SyncBlinkAlloc agrees with BlinkAlloc when used by one thread",
  "Executed without interleaving, every call on SyncBlinkAlloc returns the same block and makes the same requests to the underlying allocator as the call on a BlinkAlloc in the same state, so all single-threaded properties carry over.",
  "all states and calls",
  "all histories",
  [AS, AL, A+": with_cursor!"])
# 26
p("Local proxies never hand out overlapping memory",
  "Blocks obtained through any number of LocalBlinkAlloc proxies of one SyncBlinkAlloc, and blocks obtained from the SyncBlinkAlloc directly, are pairwise disjoint and lie in memory the SyncBlinkAlloc holds from its underlying allocator, even after some proxies were reset or dropped.",
  "all numbers of proxies and all interleavings of calls on proxies and on the shared allocator",
  "histories over several cooperating allocators",
  [S+": LocalBlinkAlloc, SyncBlinkAlloc::local", AL+": reset_leak"])
# 27
p("Local proxies remember the largest chunk",
  "The chunk size a new proxy starts with is at least the capacity of the last chunk of every proxy dropped or reset before, and never decreases, under every interleaving of the updates.",
  "all histories of creating, resetting and dropping proxies",
  "histories",
  [S+": update_max_local_alloc, local, Drop for LocalBlinkAlloc"])
# 28
p("Resetting the SyncBlinkAlloc reclaims proxy memory",
  "Resetting or dropping a proxy never frees or double-frees memory of the shared allocator; the shared reset afterwards gives back all of its chunks but the last exactly once.",
  "all histories of proxies and shared resets",
  "histories",
  [S+": LocalBlinkAlloc::reset, reset_unchecked, Drop", AL+": reset_leak"])
# 29
p("BlinkAllocCache: an allocator is handed out at most once per push",
  "For any number of threads pushing and popping concurrently, no BlinkAlloc instance is returned by two pops without a push in between, and pop only returns instances that were pushed.",
  "all schedules, all numbers of threads and operations",
  "schedules around the non-atomic gap between taking an index and reading the slot",
  [C+": BlinkAllocCache::{pop,push,flush}"])
# 30
p("BlinkAllocCache: nothing is lost and pop answers None only when empty",
  "The cache behaves like a linearizable FIFO queue: at the moment a pop returning None takes effect every pushed instance has been claimed, and instances pushed and not yet popped are still in the cache; every call ends after at most five steps of its own thread, and whenever a call is in progress some thread can move.",
  "all schedules",
  "schedules",
  [C+": pop, push, flush"])
# 31
p("BlinkAllocCache: the pop counter cannot wrap around into valid slots",
  "However many times pop is called on an exhausted cache, the index counter never wraps past usize::MAX (for fewer than 2^63 threads), so an already emptied slot is never read again.",
  "all schedules with fewer than 2^63 threads, unboundedly many pops",
  "needs 2^63 operations",
  [C+": prevent_overflow"])
# 32
p("BlinkAllocCache: dropping the cache releases the cached allocators",
  "When a cache is dropped, the chunks of the allocators stored in it are given back to the underlying allocator.",
  "all cache contents",
  "leaks are not observable by ordinary assertions",
  [C+": Inner (ManuallyDrop, no Drop impl)"])
# 33
p("Emplaced values are dropped exactly once, newest first",
  "Every value emplaced with dropping enabled is dropped exactly once, by the next reset / drop_all / drop of the Blink; values emplaced later are dropped earlier; elements of one slice are dropped in slice order.",
  "all histories of emplacing and resetting",
  "histories of any length",
  [D+": DropList::{add,reset}, Drops::drop, drop_from_item", B+": Blink::{reset,drop_all}, Drop for Blink"])
# 34
p("A panicking destructor never causes a second drop",
  "If the destructor of an emplaced value panics during reset, no value is ever dropped twice, neither by the unwinding nor by any later reset or drop of the Blink.",
  "all positions of the panic, all histories after it",
  "all crash points",
  [D+": DropList::reset (root.take)"])
# 35
p("Emplaced values stay intact until reset",
  "The reference returned by put/emplace/copy_slice/from_iter keeps reading the emplaced value, at the same address, until reset, whatever else is emplaced, fails to be emplaced or is deallocated meanwhile (unless the owner writes through the reference).",
  "all histories between emplacement and reset",
  "histories",
  [B+": _try_emplace*, put, copy_slice"])
# 36
p("try_ variants give the value back on allocation failure",
  "If memory cannot be obtained, try_value / try_with return the value / closure unchanged without running it, and a later reset drops nothing for this attempt; on success they return Ok.",
  "all allocator states and refusal patterns",
  "all refusal points",
  [B+": _try_emplace, _try_emplace_drop, _try_emplace_no_drop"])
# 37
p("Fallible initialisation writes only inside its own allocation",
  "with_fallible / try_with_fallible never write outside the memory allocated for the value, whether the closure succeeds or fails; on closure failure the error is returned and nothing is dropped later.",
  "all value types T and error types E (sizes, alignments, drop glue), both drop modes",
  "out-of-bounds writes inside a chunk are silent",
  [B+": _try_emplace_no_drop (Layout::new::<T>() versus EmplaceSlot<T, G>), _try_emplace_drop"])
# 38
p("from_iter collects exactly the yielded items in order",
  "The slice returned by from_iter / collect_to_blink holds exactly the items the iterator yielded, in order, whatever (possibly wrong) size hints the iterator reports and however the memory had to be grown.",
  "all iterators (including ones with wrong hints and ones that resume after returning None), all element sizes, all allocator states",
  "hints, growth pattern and resume behaviour are adversarial",
  [B+": _try_emplace_drop_from_iter, _try_emplace_no_drop_from_iter, size_hint_and_one"])
# 39
p("from_iter accounts for every item on failure and on panic",
  "If memory runs out or the iterator panics, every item taken from the iterator is in exactly one place: in the returned slice / registered for drop on reset, or handed back to the caller; none is dropped twice or lost.",
  "all failure points and panic points, all iterators",
  "all crash points",
  [B+": Guard::{fill,flush,drop}"])
# 40
p("No-drop emplacement never drops",
  "Values emplaced with put_no_drop / emplace_no_drop are never dropped by the Blink.",
  "all histories, all value types",
  "histories",
  [B+": _try_emplace (no_drop), _try_emplace_from_iter"])
# 41
p("emplace_shared drops values on reset",
  "Documentation of emplace_shared: 'Still allows emplaced values to be dropped on reset.'",
  "all values emplaced through emplace_shared",
  "needs all types and histories; refutable by one",
  [B+": Blink::emplace_shared"])
# 42
p("Zero-sized items from iterators are dropped exactly once",
  "Collecting an iterator of zero-sized items with destructors drops each item exactly once in total (with dropping) or never (no-drop), and an empty iterator is fine.",
  "all iterators of zero-sized items",
  "counts are unbounded",
  [B+": saturating_drain_iter, zero-size branches", D+": init_slice (debug_assert_ne)"])
# 43
p("Draining zero-sized items counts them, saturating at usize::MAX",
  "saturating_drain_iter returns the number of items taken when lower size hints are honest, never exceeds usize::MAX and stops there.",
  "all iterators with honest lower bounds",
  "needs usize::MAX items",
  [B+": saturating_drain_iter"])
# 44
p("Values, slices and drop records agree on where elements are",
  "The address at which an emplaced value or slice is written, the address the caller gets, and the address the type-erased destructor later uses are the same, for every alignment.",
  "all element sizes and alignments",
  "over-aligned types are rarely tested",
  [D+": DropItem (repr(C)), init_slice, drop_from_item"])
# 45
p("copy_slice and copy_str copy exactly",
  "The returned slice has the same length and contents as the source and is disjoint from every other live block; the source is unchanged.",
  "all slices and allocator states",
  "all contents and states",
  [B+": _try_copy_slice"])
# 46
p("A Blink over a shared allocator reference does not reset it",
  "reset on Blink<&BlinkAlloc> drops the emplaced values but leaves the allocator and all blocks allocated from it intact.",
  "all histories",
  "histories",
  [API+": BlinkAllocator for &A", B+": Blink::reset"])
# 47
p("SendBlink carries no pending drops",
  "SendBlink::new drops every emplaced value before the wrapper exists, so nothing emplaced on the old thread is dropped later on another thread.",
  "all histories before the wrapping",
  "histories",
  [B+": SendBlink::new"])
# 48
p("Global allocator in direct mode forwards faithfully",
  "In direct mode alloc/alloc_zeroed/dealloc/realloc behave as the underlying allocator does, and every call made to it respects that allocator's documented preconditions (grow only to larger, shrink only to smaller layouts).",
  "all calls and sizes",
  "an underlying allocator that tolerates the wrong call hides the violation",
  [GL+": State::resize", GS+": State::resize"])
# 49
p("Global allocator in blink mode is a correct GlobalAlloc",
  "In blink mode every history of alloc/alloc_zeroed/realloc/dealloc yields disjoint, aligned, long enough blocks, realloc keeps contents, and a null result means the old block is untouched.",
  "all histories in blink mode",
  "histories",
  [GL+": GlobalAlloc for UnsafeGlobalBlinkAlloc", GS+": GlobalAlloc for GlobalBlinkAlloc"])
# 50
p("The debug allocation counter equals the number of outstanding blink-mode blocks",
  "Under contract-respecting use (blocks are deallocated in the mode they were allocated in), the counter checked by reset/direct_mode equals the number of blink-mode blocks not yet deallocated, so those calls abort exactly if some block is outstanding.",
  "all histories with mode switches",
  "histories",
  [GL+": allocations", GS+": allocations"])
# 51
p("Switching modes loses no memory",
  "direct_mode resets the blink part (all but one chunk given back) and never touches blocks allocated in direct mode; blink_mode leaves everything in place.",
  "all histories",
  "histories",
  [GL+": blink_mode, direct_mode, reset", GS+": same"])
# 52
p("The allocator's own metadata cannot be corrupted by owners writing to their blocks",
  "Owners may write arbitrary bytes to every byte of every block they own at any time; the allocator still behaves correctly, because its metadata (which lies in the same chunks) never overlaps a live block.",
  "all histories with arbitrary writes interleaved",
  "arbitrary writes at arbitrary times",
  [A+": ChunkHeader (in-memory header at chunk start)"])
# 53
p("Behaviour does not depend on block contents",
  "Results of allocator calls (addresses, failures, requests to the underlying allocator) do not depend on what owners wrote into their blocks.",
  "all pairs of histories that differ only in written contents",
  "a two-run property",
  [A, L])
# 54
p("into_inner gives nothing back and touches nothing",
  "into_inner returns the underlying allocator without returning any chunk to it (documented leak); after reset_final it leaks nothing.",
  "all histories",
  "histories",
  [L+": into_inner", S+": into_inner"])
# properties beyond this list were appended to the file directly: keep them
F="/verif/properties.jsonl"
rest=[json.loads(l) for l in open(F)][len(P):]
with open(F,"w") as f:
    for x in P+rest: f.write(json.dumps(x,ensure_ascii=False)+"\n")
print(len(P),"+",len(rest))
