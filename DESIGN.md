# Design: a Lean 4 model of blink-alloc and what is proved about it

The plan was written before the proofs (first version in the git history); this is the current state.

## 1. What has to be trusted

* **Lean's kernel** (Lean 4.33.0) and its compilation. Everything is checked by the kernel: no `sorry`, `admit`,
  `native_decide`, `bv_decide`, no axioms of our own, no Mathlib import (core library only). Concrete witnesses are evaluated
  with `decide +kernel`, i.e. by the kernel itself.
* **Axioms**: every property theorem depends on at most `propext`, `Classical.choice`, `Quot.sound`. `AXIOMS.md` lists them
  per theorem (written by `tools/axioms.py` from `#print axioms`).
* **The model** (`lean/Verif/Model`, about 2400 lines): that it says what the Rust code does. Each definition cites the lines
  it models; section 3 lists what is modelled and what is simplified, section 4 what is left out.
* **The statements** (`lean/Verif/Props`) and the vocabulary they use (`lean/Verif/Spec`). The vocabulary does not use
  proofs' helpers; legal histories are spelled out as predicates (`Legal`, `SLegal`, `PLegal`, `CLegal`, `BLegal`, `GLegal`,
  `GSLegal`), and for each there are concrete runs shown to satisfy them (`Spec/*Exec.lean` give executable versions that
  are proved sound, and the `example`s beside the theorems evaluate them).

The invariants and lemmas in `lean/Verif/Proofs` need not be trusted or read.

## 2. Layout

* `lean/Verif/Model/*`  the model, executable, function by function.
* `lean/Verif/Spec/*`   what a client does, what it owns, legal histories, event logs; executable checkers (`*Exec`).
* `lean/Verif/Proofs/*` invariants of all histories/schedules, by induction, and lemmas.
* `lean/Verif/Props/*`  the property theorems, each with concrete instances of its hypotheses, and refutations.
* `properties.jsonl`, `MANIFEST.json` (written by `tools/mkmanifest.py`), `AXIOMS.md`, `seeded/LOG.jsonl` (mutation tests),
  `tools/coverage.py` (which code lines the model cites).

## 3. What is modelled, and how

### 3.1 Machine (`Model/Base.lean`, `Model/Arith.lean`)

* 64-bit target. `usize` values are naturals; `checked_add` is explicit; plain `+`, `-` that would overflow are a fault.
  `&` and `!` in the alignment functions act on `BitVec 64`; `next_power_of_two` is a doubling loop, characterised by a
  theorem (`nextPow2_spec`).
* Memory is a map from addresses to symbolic bytes: uninitialised, a raw byte, byte *i* of a stored word, byte *i* of a
  stored value. Chunk headers live in that memory and are read and written word by word, as in the code; the model has no
  separate list of chunks. Loading a word that is not intact, or any access outside memory currently held from the
  underlying allocator, is a fault.
* The underlying allocator is an arbitrary oracle. For each request it refuses or answers with a block; an answer violating
  the `Allocator` contract (not fresh, misaligned, too short, wrapping, null) stops the run with the separate fault `env`.
  Theorems speak about every run that does not stop that way, hence about every contract-respecting allocator.
  Blocks without bytes may lie anywhere, also inside other blocks (`freshOk`). In the histories others hold a fixed set of blocks; C85 removes this restriction
  (`Spec/Env.lean`: others obtain blocks, give them back, store into them and use up answers between any two steps).
* Faults: `ub` (undefined behaviour, `unwrap_unchecked`, range conditions of `ptr.add`/`offset_from`, overlapping
  `copy_nonoverlapping`, …), `dbg` (failed debug assertion or overflow check), `env`. `World.debug` selects build type;
  all theorems are for both unless they say otherwise. "No `ub`, no `dbg`" are theorems (C03, C22, C26, C29, C49, C56).

### 3.2 `src/arena/mod.rs`, `src/arena/local.rs`, `src/local.rs` (`Model/Arena.lean`, `Model/Local.lean`)

`ChunkHeader` (cursor, end, prev, cumulative at offsets 0, 8, 16, 24; 32 bytes), `alloc_chunk`, `dealloc_chunk`, `init_chunk`,
`cap`, `alloc`, `resize`, `reset`, `dealloc`, `alloc_slow`, `resize_slow`, `reset`, `reset_leak`, `ArenaLocal`, `BlinkAlloc`
including `Drop`, `into_inner`, `reset`, `reset_final` and the `Allocator` impl (`allocate`, `allocate_zeroed`, `grow`, `grow_zeroed`, `shrink`,
`deallocate`). Simplifications: `debug_assert!(align.is_power_of_two())` (mod.rs:23,30,37) is not checked (a `Layout` has a
power of two alignment; the histories assume it); the reset loop carries fuel, the number of blocks held, and running out is
a fault (so termination is part of "no fault"); `allocate_zeroed`/`grow_zeroed` are the default methods of
`allocator_api2`. Debug builds: minimal chunk size between 1 and 2^62 and addresses below 2^62 (`DbgOK`; see D13).

### 3.3 `src/arena/sync.rs`, `src/sync.rs` (`Model/Sync.lean`)

Small-step interleaving of arbitrarily many threads, at the granularity of lock operations, atomic accesses of the cursor,
and single copied bytes. The `RwLock` is abstract (set of readers, optional writer). Relaxed loads return *any* value the
cursor held since the chunk became current or was last reset; compare-exchanges act on the newest value (as read-modify-write
operations do); weak ones may fail spuriously. Interleaving semantics for everything but the cursor is justified by C70: no two
threads access any other byte at the same time, one of them writing, and by C71: conflicting accesses are ordered by
happens-before (`Spec/HB.lean`). The same holds for the field
`Inner::root` (C71_root), which is a location of its own. The edges used there are program order, the lock (a writer sees all sections that are over, a reader
the exclusive ones) and the callers' own synchronisation, which must respect ownership (`HB.Duty`). Memory newly obtained from
the underlying allocator is taken to be ordered after its former uses. The `Acquire`/`Release` of the cursor exchanges are not used:
they would matter if `dealloc` ever lowered the cursor (D1), for then a block could pass from one thread to another through the cursor alone. `alloc_slow`
under the write lock is one step (nobody else can touch the arena then; owners' accesses to their own blocks commute with it).
Dropping the guard and returning are one step. This matters only for `reset_unchecked` racing with `allocate` (C66): there a call
that overlaps the reset is treated as not giving its caller a usable block, whichever side of the reset it falls on. Everywhere else
resets are exclusive.
`Model/SyncZero.lean` adds the default methods `allocate_zeroed` and `grow_zeroed`: a thread executes them around calls of `allocate` and `deallocate`,
byte by byte and holding no lock (C91).
`Model/ProxyZero.lean` does the same for proxies (C93): there `self.allocate` may wait for the shared allocator, `self.deallocate` is one step, and
direct calls are the plain ones.

### 3.4 `LocalBlinkAlloc` (`Model/Proxy.lean`)

Proxies (src/sync.rs) act under identities; their own work between two calls to the shared allocator is one step, and those
calls interleave as in 3.3. `max_local_alloc` is a relaxed atomic with full modification history and per-thread coherence
views; `sync t u` steps are the synchronisation edges. Release and debug builds; restricted to sizes and addresses below 2^61
(the check of `from_size_align_unchecked` is explicit, and C26_huge_request_faults shows that some bound is needed); the shared
allocator is not reset while proxies live (the borrow checker; see D15). That a proxy's own work may
count as one step is justified by C76: nobody else can access a byte it writes, or write one it accesses, at that moment; and by C78: all
conflicting accesses are ordered by happens-before (`Spec/ProxyHB.lean`). When the shared allocator answers a proxy, its return and what the proxy
does next are two events there.

### 3.5 `src/cache.rs` (`Model/Cache.lean`)

Steps at the granularity of the `RwLock`, the atomic counter and accesses to the cells. Allocators are identities. The counter
`fetch_add` wraps; `T` threads are bounded by 2^63 (C31). `Vec::push` at capacity overflow stops the program. Dropping
`ManuallyDrop` cells does nothing (C32).

### 3.6 `src/blink.rs`, `src/drop_list.rs`, `src/api.rs` (`Model/Blink.lean`)

Types are entries of a table (size, alignment, whether they need dropping); values are symbolic; closures, iterators and
destructors are arbitrary: what a closure or iterator does next (return, fail, panic, yield, lie about `size_hint`, call back into the
same `Blink`) is chosen by the history. Waiting calls form a stack of frames, so re-entrancy is covered. The drop list lives
in memory, three words per record. Allocators: owned `BlinkAlloc`, `&mut`, shared `&`, and `AKind.any`: any
type of which only the contract of `Allocator` and `BlinkAllocator` is known. The latter is the oracle of section 3.1 itself, so it refuses and
moves blocks as it likes; it may tell the true length of a block or only the length asked for (`exact`), own its memory or share it (`keeps`), and serve others at the same time
(`others`); calls outside its contract are faults. That this is what the documentation says, no more and no less, is C88; that it covers shared `BlinkAlloc`s and `SyncBlinkAlloc`s is C89. Simplifications: destructors touch only the bytes of their own value, may panic,
but do not call back into the `Blink` (it is mutably borrowed while they run); the drop list loop carries fuel = number of
records. `BLegal` excludes the uses in which the code misbehaves, each refuted separately: C37, C38, C42, C43.

### 3.7 `src/global/local.rs`, `src/global/sync.rs` (`Model/Global.lean`, `Model/GlobalSync.lean`)

Both global allocators with both modes, the debug counter, `GlobalAlloc` methods, mode switches, `reset`, drop. Direct calls are
logged and answered by the oracle. The threaded one interleaves as in 3.3; direct calls are atomic; mode switches and
resets are exclusive, as their safety sections demand (see D19 for `reset`). `Model/GlobalProxy.lean` joins the threaded one with
`Model/Proxy.lean`: proxies made by `local()` around the same `SyncBlinkAlloc`; a thread is inside a call of the one or of the other.
C79 uses it in blink mode, C86 in both modes and beside other users of the underlying allocator (`Spec/GlobalBoth.lean`).

### 3.8 Coverage

`tools/coverage.py` counts 1516 of 1871 code lines as cited by a model definition. Uncited: `use` lists, trait declarations, impl headers and bounds,
forwarding `const fn new` with the default allocator, `Send`/`Sync` impls, `tests.rs`, `lib.rs`, `oom.rs`.

## 4. What is not modelled

* `lib.rs` macros and feature switches, `oom.rs` (diverges), `tests.rs`; `nightly`/`no_std` variants.
* The borrow checker, lifetimes, `Send`/`Sync`; whatever safe Rust forbids is excluded from legal histories.
* Weak memory beyond relaxed reads of outdated values described above: synchronisation of *client data* handed from thread
  to thread is the client's affair; `parking_lot` and its fairness; lock poisoning.
* 32-bit targets, performance, real time. Pointer provenance (addresses are numbers; the code keeps provenance by deriving pointers from the chunk).
* Panics while allocating (`handle_alloc_error` aborts), destructors that leak or abort the process.
* C70, C71, C76 and C78 define accesses by what can be observed of a step; a store of exactly the value read from the same place in the same
  step would count as a read only (mutant R12). The code has no such store.

## 5. Disagreements between code and documentation found

Each is a theorem about the model (name in brackets) unless marked otherwise.

* **D1** `ChunkHeader::dealloc` (arena/mod.rs:439-456) exchanges the arguments: it compares the cursor with `ptr` and would set it
  to `ptr + size`. Deallocation never reclaims anything [C63_full_false, C09].
* **D2** `_try_emplace_no_drop` (blink.rs:353) allocates `Layout::new::<T>()` and then writes a whole `Result<T, ManuallyDrop<G>>` there:
  out-of-bounds write when the `Result` is larger [C37_full_false].
* **D3** `emplace_shared` (blink.rs:1315-1318) sets `no_drop: true` although documented to drop on reset [C41_full_false].
* **D4** the drop variant of `from_iter` loses elements of non-fused iterators [C38_full_false, C39_full_false].
* **D5** zero-sized items from iterators are drained (and dropped) and dropped again on reset; an empty one fails a debug assertion
  [C40_full_false, C42_full_false, C42_empty_debug].
* **D6** `State::resize` in direct mode calls `grow` for shrinking and `shrink` for growing (global/local.rs:54, global/sync.rs same
  place): every size-changing `realloc` breaks the contract of the underlying allocator [C48_realloc_always_wrong].
* **D7** `alloc_chunk` can build a `Layout` larger than `isize::MAX` [C16_full_false].
* **D8** a new chunk need not be larger than the exhausted one, and a steady workload need not converge to one chunk
  [C15_full_false, C14_full_false].
* **D9** shrinking with raised alignment moves, or fails, although the pointer is aligned: the code compares layouts, its
  documentation says pointers (arena/mod.rs:344-349, 367) [C07_full_false].
* **D10** `BlinkAllocCache` has no `Drop` and leaks [C32_full_false]; its `push_array` is never filled (reading).
* **D11** `saturating_drain_iter` (blink.rs:1452) overflows above `usize::MAX`, and undercounts for lying lower bounds [C43_full_false].
* **D12** `unsafe impl Send for Blink` (blink.rs:213) sends pending drops of non-`Send` values (reading; `SendBlink` is the sound way, C47).
* **D13** debug builds: chunk size 0 and a zero-sized first request fail `debug_assert!(len > size_of::<Self>())`
  [C03_debug_zero_chunk_size].
* **D14** the threaded `alloc_slow` does not look at the current chunk again after taking the write lock: racing threads each add a
  chunk, each larger than the last [C61_full_false]; 30 threads asking for 8 bytes request 1,988,888,576 bytes [C65_race].
  This race is the only cause: in histories in which no thread makes a request when another made one since it was called, the bounds
  of C64 and the claim of C61 hold for any interleaving [C65_footprint_partial, C65_request_partial, C65_bound_partial, C65_chunks_partial, C61_lone_partial].
* **D15** after `shared.reset_unchecked()`, whose documentation does not mention proxies, dropping a proxy that lived before may read a freed header, and
  allocating through it hands out memory that the shared allocator hands out as well [C77_drop_full_false, C77_fresh_full_false].
* **D16** "new proxies start with the largest chunk seen" holds only with synchronisation [C27_unsynchronised_false].
* **D17** `_try_emplace_drop` relies on `Layout` of a `DropItem` growing with its value (`ReOK` in `Spec/Blink.lean`; true of Rust layouts).
* **D18** `realloc` of a null pointer in blink mode allocates without counting [C80_full_false]; `reset` may then pass its assertion with a block
  outstanding [C80_unnoticed], or, as the threaded counter wraps, panic with none outstanding [C80_threads_false_alarm].
* **D19** `GlobalBlinkAlloc::reset` does not demand external synchronisation in its documentation, and its counter check is not atomic with allocations in
  flight: a block is handed out twice in a debug build that passed the check [C81_full_false].
* **D20** README lines 31-34: shrinking at the tip "frees the memory for reuse"; it does not [C62_full_false].
* **D21** `max_local_alloc` starts at 0: in debug builds a fresh proxy whose first request is zero-sized fails the assertion of D13 (C26_debug_empty_chunk; C26_no_ub: nothing else fails).
* **D22** blocks of `local()` proxies are not counted: the debug assertion of `reset`/`direct_mode` ("Not everything was deallocated",
  global/sync.rs:250-254) passes while proxies hold blocks, which are then handed out again [C79_panics_iff, C79_reset_unnoticed].
* **D23** `Blink<A>` with an `A` other than the crate's: when an iterator yields an item after `None`, the no-drop variant of `from_iter` may call `A::grow`
  with a smaller layout than the block has (blink.rs:680, 756-764), against the safety section of `Allocator::grow` [C82_full_false]. The crate's allocators tolerate it.
* **D24** the drop variant of `from_iter` fills a block longer than asked for to its end (blink.rs:521-523, 540) but passes the layout asked for to `grow`
  (508), which need not keep what lies behind it: items are lost [C82_slices_full_false]. The crate's allocators never answer with more.

## 6. Properties

"partial" means that the full statement (kept as a definition `Cxx_full`) is false of the code, which is proved as
`Cxx_full_false`, and that the `_partial` theorems prove what remains true.

<!-- table -->
| id | property | status | module in `Verif/Props` |
|----|----------|--------|------|
| C01 | Live allocations never overlap | proved | Local |
| C02 | Every returned block satisfies its layout and lies in owned memory | proved | Local |
| C03 | No contract-respecting history reaches undefined behaviour inside the allocator | proved | Local |
| C04 | resize preserves contents | proved | Local |
| C05 | The allocator never writes into memory it has handed out | proved | Local |
| C06 | Failed allocations leave everything as it was | proved | Local, Indep |
| C07 | Shrink never moves and never fails when the pointer is already aligned | partial | Room |
| C08 | Growing the most recent allocation happens in place | proved | Room |
| C09 | Deallocate never disturbs anything | proved | Local |
| C10 | reset gives back every chunk but the newest and keeps that one | proved | Local |
| C11 | No leak: reset_final and drop give back everything | proved | Local |
| C12 | Every chunk is freed once, with a fitting layout | proved | Local |
| C13 | A warm allocator does not touch the underlying allocator | proved | Room |
| C14 | Steady workloads converge to a single chunk | partial | Growth |
| C15 | A new chunk is larger than the exhausted one | partial | Growth |
| C16 | Requests to the underlying allocator are valid layouts | partial | Growth |
| C17 | allocate_zeroed returns zeroed memory whatever the memory held before | proved | Local |
| C18 | Allocation only fails for a reason | proved | Room |
| C19 | Bump waste is bounded | proved | Room |
| C20 | The number of chunks grows at most logarithmically | proved | Growth |
| C21 | Alignment arithmetic is exact on machine words | proved | Indep |
| C22 | SyncBlinkAlloc: no overlap under any schedule | proved | Sync |
| C23 | SyncBlinkAlloc: contents survive concurrent activity | proved | Sync |
| C24 | SyncBlinkAlloc: lock discipline and progress | proved | Sync |
| C25 | SyncBlinkAlloc agrees with BlinkAlloc when used by one thread | proved | Sync |
| C26 | Local proxies never hand out overlapping memory | proved | Proxy |
| C27 | Local proxies remember the largest chunk | proved | Proxy |
| C28 | Resetting the SyncBlinkAlloc reclaims proxy memory | proved | Proxy |
| C29 | BlinkAllocCache: an allocator is handed out at most once per push | proved | Cache |
| C30 | BlinkAllocCache: nothing is lost and pop answers None only when empty | proved | Cache, CacheProgress |
| C31 | BlinkAllocCache: the pop counter cannot wrap around into valid slots | proved | Cache |
| C32 | BlinkAllocCache: dropping the cache releases the cached allocators | partial | Cache |
| C33 | Emplaced values are dropped exactly once, newest first | proved | Blink |
| C34 | A panicking destructor never causes a second drop | proved | Blink |
| C35 | Emplaced values stay intact until reset | proved | Blink |
| C36 | try_ variants give the value back on allocation failure | proved | Blink |
| C37 | Fallible initialisation writes only inside its own allocation | partial | Blink |
| C38 | from_iter collects exactly the yielded items in order | partial | BlinkIter |
| C39 | from_iter accounts for every item on failure and on panic | partial | BlinkIter |
| C40 | No-drop emplacement never drops | partial | Blink |
| C41 | emplace_shared drops values on reset | partial | Blink |
| C42 | Zero-sized items from iterators are dropped exactly once | partial | BlinkIter |
| C43 | Draining zero-sized items counts them, saturating at usize::MAX | partial | BlinkIter |
| C44 | Values, slices and drop records agree on where elements are | proved | Blink |
| C45 | copy_slice and copy_str copy exactly | proved | Blink |
| C46 | A Blink over a shared allocator reference does not reset it | proved | Blink |
| C47 | SendBlink carries no pending drops | proved | Blink |
| C48 | Global allocator in direct mode forwards faithfully | partial | Global, GlobalSync |
| C49 | Global allocator in blink mode is a correct GlobalAlloc | proved | Global, GlobalSync, GlobalSyncMore |
| C50 | The debug allocation counter equals the number of outstanding blink-mode blocks | proved | Global, GlobalSync |
| C51 | Switching modes loses no memory | proved | Global, GlobalSync |
| C52 | The allocator's own metadata cannot be corrupted by owners writing to their blocks | proved | Indep |
| C53 | Behaviour does not depend on block contents | proved | Indep |
| C54 | into_inner gives nothing back and touches nothing | proved | Indep, SyncMore |
| C55 | References handed out by a Blink are disjoint, aligned and backed by memory | proved | Blink |
| C56 | No undefined behaviour and no failed assertion in Blink | proved | Blink |
| C57 | Resetting an owning Blink resets its allocator, after the destructors | proved | Blink, BlinkEnd |
| C58 | Every constructor yields a state the other properties start from | proved | Start |
| C59 | Resetting a SyncBlinkAlloc gives back exactly all chunks but the newest | proved | SyncMore |
| C60 | A concurrent allocation fails only for a reason | proved | SyncMore |
| C61 | A chunk is requested only when the current one has no room (threads) | partial | SyncMore, SyncFootprint |
| C62 | Shrinking the block at the tip frees its tail | partial | Reuse |
| C63 | Deallocating the block at the tip makes its memory available again | partial | Reuse |
| C64 | Memory held by a BlinkAlloc is linear in the work between resets | proved | Footprint |
| C65 | Memory held by a SyncBlinkAlloc is linear in the work | partial | Footprint, SyncFootprint |
| C66 | reset_unchecked may race with allocate | proved | SyncRace |
| C67 | Dropping a Blink gives back its allocator's memory | proved | BlinkEnd |
| C68 | from_iter asks its iterator a bounded number of times | proved | BlinkEnd |
| C69 | A proxy asks the shared allocator only when its own chunk is full, and fails only if the shared allocator does | proved | ProxyRoom |
| C70 | Threads inside the shared allocator never race | proved | SyncDRF |
| C71 | No data races on the memory of a shared allocator | proved | SyncHB |
| C72 | Calls through proxies get on | proved | ProxyProgress |
| C73 | reset_unchecked of a proxy gives back exactly its older chunks | proved | ProxyReset |
| C74 | Chunks of a proxy grow | proved | ProxyGrowth |
| C75 | A proxy behaves like a BlinkAlloc of its own | proved | ProxyRefine |
| C76 | Proxies race with nobody | proved | ProxyDRF |
| C77 | reset_unchecked of a shared allocator with proxies | partial | ProxyShared |
| C78 | No data races with proxies | proved | ProxyHB |
| C79 | Global allocator and its proxies at the same time | proved | GlobalProxy |
| C80 | realloc of a null pointer is alloc | partial | GlobalEdge |
| C81 | reset of a global allocator while threads are inside calls | partial | GlobalEdge |
| C82 | Blink over any allocator | partial | BlinkAny |
| C83 | Blink keeps no block it does not need | proved | BlinkAny |
| C84 | The allocators of this crate keep to the documentation of Allocator, threads included | proved | Contract |
| C85 | Other users of the underlying allocator make no difference | proved | Env |
| C86 | Global allocator in both modes, with proxies, beside other users | proved | GlobalBoth, GlobalReset |
| C87 | from_iter grows its buffer geometrically and in proportion | proved | BlinkGrow |
| C88 | The allocator assumed for Blink over any allocator is exactly one that keeps to the documentation | proved | AnyContract |
| C89 | Users sharing an allocator each see an allocator of their own, as documented | proved | Shared |
| C90 | from_iter collects in place when the chunk has room | proved | IterRoom |
| C91 | Zeroed calls of a shared allocator, threads included | proved | SyncZero |
| C92 | A SyncBlinkAlloc is linearizable with all methods of Allocator, zeroed ones included | proved | ZeroContract |
| C93 | Zeroed calls through proxies of a shared allocator | proved | ProxyZero |
| C94 | A proxy with zeroed calls is a documented allocator | proved | ProxyZeroContract |
| C95 | A warm shared allocator does not touch the underlying allocator, whatever the schedule | proved | SyncWarm |
| C96 | A warm proxy never waits for the shared allocator, whatever others do | proved | ProxyWarm |
<!-- /table -->

## 7. How the proofs go

* C01–C21, C52–C54, C58, C62–C64: one inductive invariant of all histories of a `BlinkAlloc` (`Proofs/Step.lean`): the chunks
  reachable in memory from the root are exactly the blocks held, headers are intact, live blocks lie between base and cursor, pairwise disjoint.
* C22–C25, C59–C61, C65, C66: an invariant of all schedules (`Proofs/SyncStep.lean`); C25 by simulation with the sequential model. The positive part of
  C65 (`Props/SyncFootprint.lean`): as C64, with the cost of calls that have not taken their space yet set aside.
* C26–C28: invariant of all schedules of proxies (`Proofs/ProxyStep.lean`) plus a history argument for `max_local_alloc`.
* C29–C32: invariant plus linearisation to a queue (`Proofs/CacheRun.lean`). Progress: a rank of program counters that every step lowers (`Props/CacheProgress.lean`).
* C33–C47, C55–C57, C67: invariant over frames and drop list (`Proofs/BlinkStep.lean`), lifted from the arena by `Proofs/Lift.lean`.
* C82: the invariant of C33–C47 over `KindInv` (`Proofs/KindInv.lean`), which is the arena's invariant for `BlinkAlloc` and `AnyInv`
  (`Proofs/AnyAlloc.lean`: each client block is a block of the allocator, others' blocks are untouched) for any other allocator. So all theorems about `Blink` that do not speak about `BlinkAlloc`
  hold for both; witnesses by computation.
* C83: blocks in use are counted through every function of `Blink` (`Proofs/BlinkLeak.lean`).
* C84: the documentation of `Allocator` is an automaton of its own (`Spec/Contract.lean`: `AbsStep`, and `LinRun` for threads). `BlinkAlloc`: from C01, C02, C04, C05, C17.
  `SyncBlinkAlloc`: forward simulation (`Proofs/Contract.lean`); a call takes effect at the step after which its answer is fixed: the successful exchange when it
  suffices, the write section of `alloc_slow`, or the last copied byte. Blocks lent to running calls stay in use until then. Proxies: from C75.
* C85: each function of the arena does the same in two worlds that agree on the blocks held by this allocator (`RelM`, `Proofs/Env.lean`); histories by induction, with the
  invariants of C03, C22, C26 saying that the run without others does not fault (`Proofs/EnvRun.lean`). Others use up answers: a history depends only on the answers
  given in it (`Proofs/Ora.lean`), so the run without others gets an underlying allocator whose answers are those this allocator got.
* C68: a rank of the waiting call that every answer without an item lowers (`Props/BlinkEnd.lean`).
* C69: the cores of the fast paths (`Proofs/ProxyArena.lean`) on the chunks given by the invariant of C26 (`Props/ProxyRoom.lean`).
* C72: identities inside a proxy's call are inside a call of the shared allocator, so C24 applies; giving back a chunk shortens the list of chunks to be
  given back (`Proofs/ProxyProg.lean`). C73: the invariant of C26 knows this list; no step touches these chunks, and each step of the invariant also says how the list of chunks of each proxy changes (`PS.chunksAfter`, `Props/ProxyReset.lean`).
  C74: by induction over the history, with C73 saying how the list of chunks changes and the invariant of C26 how large the request was that
  the shared allocator answers (`Props/ProxyGrowth.lean`).
  C75: simulation. A `BlinkAlloc` whose chunks are those of the proxy follows every step (`Proofs/ProxyTwin.lean`, `Proofs/ProxyRefine.lean`); stores into blocks of the
  proxy are followed by stores, everything else leaves the chunks of the proxy alone. Equality of memory is carried along for
  the bodies of chunks (`SameBody`, `Proofs/Twin.lean`); headers agree because both describe the same chunks.
* C70: `Proofs/Blind.lean` shows for each step that it commutes with putting another byte anywhere outside its footprint,
  `Proofs/Keeps.lean` that it writes only inside a smaller one; the invariant of C22 places the footprints (`Props/SyncDRF.lean`).
* C76: the same for proxies (`Proofs/ProxyBlind.lean`); the invariant of C26 says that chunks of different proxies are different blocks of the
  shared allocator, so that C70's footprints apply to them (`Props/ProxyDRF.lean`).
* C77: the invariant of C26 says where chunks of proxies lie; the reset keeps the used part of the kept block and gives the others back. Witnesses by computation.
* C71: an invariant about the events known to threads and lock (`Proofs/HBStep.lean`): all non-atomic accesses to headers are known to whoever holds
  the lock, and so are all accesses to free room; accesses to a lent block are known to the thread working on it. `Inner::root` has an invariant of its own
  (`Proofs/HBRoot.lean`, `ProxyHBRoot.lean`): all writes of it are known to whoever holds the lock, all reads are by readers inside, released to the next writer, or known likewise.
* C78: the part of C71's invariant about the shared allocator itself (`Proofs/HBCore.lean`), and for each proxy: all accesses to bytes of its chunks are known to
  it, except callers' own accesses to blocks they hold (`Proofs/ProxyHB.lean`, `ProxyHBOwn.lean`, `ProxyHBBack.lean`, `ProxyHBRun.lean`).
* C48–C51: invariants over mode switches (`Proofs/GlobalStep.lean`, `Proofs/GlobalSyncStep.lean`).
* C79: every step of the joint system is a step of a `SyncBlinkAlloc` with proxies, in which blocks of the global allocator are direct blocks
  (`Proofs/GlobalProxyStep.lean`, `GlobalProxyRun.lean`); so the invariant of C26 applies. C80, C81: by computation, and from C50.
* C86: a direct call is, for the `SyncBlinkAlloc` and its proxies, something that another user of the underlying allocator does. So blink mode and proxies follow a run of C79 that has the underlying
  allocator to itself, with the method of C85 (`Proofs/GlobalRel.lean`, `GlobalBoth.lean`); for direct calls everything else is others' memory, and the invariant of C48–C51 for a global allocator
  without `SyncBlinkAlloc` applies (`Proofs/GlobalBare.lean`). `Proofs/GlobalBothRun.lean` joins the two.
  `Props/GlobalReset.lean` adds who holds what, `reset`, `direct_mode` and dropping; these hold of C59's arena in the world it has to itself and are carried over by the same relation.
* C53: two runs in lock step (`Proofs/Sim.lean`).
* C87: the state of the waiting call against the answers given so far: the buffer has doubled with every `size_hint`, or the last upper bound says that it
  will not be filled; and the count in the guard is at most the number of items yielded (`Props/BlinkGrow.lean`).
* C88: the answers in a documented history become the oracle of the assumed allocator; the two states are related by "same blocks, same bytes where bytes are
  known" (`Props/AnyContract.lean`). The converse uses the invariant of C82 (`Proofs/AnyAlloc.lean`, `Proofs/KindInv.lean`).
* C89: the blocks of all users, those given up and those in use, are the blocks of one history (`LShared.inv`, `Book.Union`); the steps of others keep the
  simulation of C84 restricted to the user's part of the book (`AbsSim.other`, `Proofs/Shared.lean`); for a user with one thread the documented call is
  appended when it returns (`OneStage`, `Props/Shared.lean`).
* C90: an invariant of the waiting call (`InPlace`): the buffer ends where the room of the current chunk begins (`Place.tip`), and its size is that of
  the items taken so far when the next `size_hint` is asked. Needs the iterator to be fused: after `None` the buffer may be larger than its items,
  and a later round of the no-drop variant may ask for less than the buffer has.
* C91: the system with default methods follows a run of the system without (`ZInv`): a block a default method works on is there an owned block of the
  calling thread, so the `Parts` of the inner book are what callers own and what their default methods hold; storing zeros and copied bytes are
  owners' stores. Progress: phases of the call, then steps left in the phase (`ZInv.advance`).
* C92: the simulation of C84 for the calls threads make directly (`ZSim.sim`, over the part `M` of the inner book that leaves out what zeroed calls do),
  in which the old block of a `grow_zeroed` is an owned block until everything is copied and the new block one from then on. `allocate_zeroed`, and
  any failure, happens at the returning step; a successful `grow_zeroed` when it calls `deallocate` (`Proofs/ZeroContract.lean`).
* C93: as C91, over the system with proxies (`ZPInv`): a block a default method works on is there a block obtained through the proxy, and every step of a
  default method is a legal store or a legal `deallocate` there, so C26, C69 and C72 apply.
* C94: a simulation (`ZPSim`) between one proxy's calls and `AbsStep`, by induction over the run: the memory of the documented allocator is the real one after
  each call of the proxy; between them C93's frame keeps the callers' blocks, and their stores become `write` steps. Freshness of a returned block is C93's
  separation and memory claims in the state after the return; contents of a resized block come from the step in which it returns (`PEff.copied`), those of
  a `grow_zeroed` from `ZPInv` (`Proofs/ProxyZeroContract.lean`).
* C95: an account of the kept chunk (`WarmAt`): cursor plus what the threads of any finite set may still take is at most header plus costs so far. A step of
  one thread moves room from what it may still take to the cursor, a call adds its cost. A thread that saw an old cursor value saw a smaller one
  (`SReach.readOK'`), so it finds room too; hence nobody leaves the fast path (`Proofs/SyncWarm.lean`).
* C96: while a proxy rests, a step of anybody else leaves its record and the header bytes of its chunks alone (`PReach.others`, from the `kept` part of the step
  lemma of C26 and the separation of headers from owned blocks for stores); its own calls are served by C69, each taking at most size plus padding. `reset` goes
  back to the start of the chunk, which is not after where the history began, so the bound holds for every round (`pworst`).

## 8. Mutation tests

`seeded/LOG.jsonl` has one line per attempt: the definition edited in a scratch copy, the claim that becomes false, the theorems that
no longer prove, and what was tightened when nothing failed. Since an edit usually breaks some lemma of an invariant first, lines whose id
ends in `s` record a second check, of the statements alone: the edited model is compiled and run on random legal histories, and the
conclusions of the property theorems are evaluated on the way; `failed` then lists theorems whose statement is false of the edited model.
