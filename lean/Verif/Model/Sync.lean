import Verif.Model.Local
/-
  `SyncBlinkAlloc` (src/sync.rs) over `ArenaSync` (src/arena/sync.rs, with src/arena/mod.rs:121-160 for the cursor) as a system of threads that interleave at the
  granularity of lock operations, atomic accesses to the cursor and single copied bytes.

  * Threads are natural numbers; there is no bound on how many are active.
  * `parking_lot::RwLock` is modelled by who holds it (`readers`, `writer`).
  * A relaxed load of the cursor (and the value a failed exchange reports) may be any value the cursor had since the
    current chunk became current or was reset (`seen`), not just the newest one. Exchanges act on the newest value.
    `compare_exchange_weak` may fail spuriously.
  * The code running under the write lock (`alloc_slow`) is one step: nobody else can be inside, and the owners of other
    blocks touch only their own bytes.
-/
namespace Blink

/-- The calls a thread can make through `&SyncBlinkAlloc` (src/sync.rs:232-291; the `Allocator` impls at
src/sync.rs:359-392 and 394-432 forward to them). -/
inductive Call where
  | allocate (l : Layout)
  | resize (ptr : Nat) (old new : Layout)
  | deallocate (ptr size : Nat)
deriving DecidableEq, Repr

/-- What a run of `ChunkHeader::alloc` is for: `alloc_fast` / `alloc_slow` (src/arena/sync.rs:50-75) or the reallocating
part of `resize_fast` / `resize_slow` (src/arena/sync.rs:78-111, src/arena/mod.rs:410-422). -/
inductive Job where
  | alloc (l : Layout)
  | resize (ptr : Nat) (old new : Layout)
deriving DecidableEq, Repr

/-- The layout to be allocated: `layout` at src/arena/sync.rs:54, `new_layout` at src/arena/mod.rs:411. -/
def Job.layout : Job → Layout
  | .alloc l => l
  | .resize _ _ new => new

/-- Where a thread is in src/sync.rs:232-291. Comments give the next thing it does. -/
inductive Pc where
  /-- Outside the allocator. -/
  | idle
  /-- Take the read lock (src/arena/sync.rs:51, 84, 115). -/
  | rd (c : Call)
  /-- Holding the read lock, in `ChunkHeader::alloc`: load the cursor (src/arena/mod.rs:286). -/
  | load (chunk : Nat) (j : Job)
  /-- Holding the read lock: one round of the loop at src/arena/mod.rs:288-340, having read `cursor`. -/
  | cas (chunk : Nat) (j : Job) (cursor : Nat)
  /-- Holding the read lock, in `ChunkHeader::resize`: load the cursor (src/arena/mod.rs:376). -/
  | rload (chunk ptr : Nat) (old new : Layout)
  /-- Holding the read lock: grow in place, having read `cursor` equal to the old end (src/arena/mod.rs:377-404). -/
  | rcas (chunk ptr : Nat) (old new : Layout) (cursor : Nat)
  /-- Holding the read lock, in `ChunkHeader::dealloc`: the exchange (src/arena/mod.rs:439-456). -/
  | free (chunk ptr size : Nat)
  /-- The fast path answered `None`: drop the read guard (end of src/arena/sync.rs:50-58, 78-90). -/
  | unlockSlow (j : Job)
  /-- Take the write lock (src/arena/sync.rs:66, 100). -/
  | wr (j : Job)
  /-- Holding the write lock: `alloc_slow` (src/arena/sync.rs:69, and src/arena/mod.rs:510 from `resize_slow`). -/
  | slow (j : Job)
  /-- Holding a lock (`write` says which), `k` bytes are copied: `copy_nonoverlapping` at src/arena/mod.rs:415 and 511. -/
  | copy (write : Bool) (ptr : Nat) (old new : Layout) (s : Slice) (k : Nat)
  /-- Drop the guard (`write` says of which lock) and return. -/
  | ret (write : Bool) (r : Resp)
deriving DecidableEq, Repr

/-- src/sync.rs:100-104 `SyncBlinkAlloc` with src/arena/sync.rs:5-16 `Inner`, the lock, the values a relaxed load may
return, and the program counters of all threads. -/
structure SS where
  w        : World
  root     : Nat
  minChunk : Nat
  readers  : List Nat
  writer   : Option Nat
  seen     : List Nat
  pcs      : Nat → Pc

/-- src/sync.rs:175-181 `with_chunk_size_in` (src/arena/sync.rs:40-46) in the world `w`; no thread is inside. -/
def SS.withChunkSize (n : Nat) (w : World) : SS := ⟨w, 0, n, [], none, [], fun _ => .idle⟩

/-- src/sync.rs:155-161 `new_in` (src/arena/sync.rs:30-36), which src/sync.rs:124-132 `default` and 141-142 `new` call. -/
def SS.new (w : World) : SS := SS.withChunkSize CHUNK_START_SIZE w

/-- Move thread `t` (no counterpart in the source: program counter bookkeeping). -/
def SS.setPc (s : SS) (t : Nat) (pc : Pc) : SS := { s with pcs := fun u => if u = t then pc else s.pcs u }

/-- How one step's nondeterminism is resolved: which value a relaxed load returns, and whether a weak exchange fails
spuriously (no counterpart in the source: memory model). -/
structure Choice where
  idx      : Nat
  spurious : Bool
deriving DecidableEq, Repr

/-- A relaxed load of the cursor (`me.cursor.load(Ordering::Relaxed)`, src/arena/mod.rs:286 and 376), or the value a
failed exchange reports (src/arena/mod.rs:316). -/
def loadRelaxed (chunk : Nat) (seen : List Nat) (ch : Choice) : M Nat := do
  let cur ← loadCursor chunk
  pure ((cur :: seen).getD ch.idx cur)

/-- What happens right after the read lock was taken: src/arena/sync.rs:53-58 for `alloc_fast`, 86-90 for `resize_fast`
with the first tests of `ChunkHeader::resize` (src/arena/mod.rs:366-370), 115 with src/arena/mod.rs:521-530 for `dealloc`. -/
def enter (root : Nat) : Call → Pc
  | .allocate l => if root = 0 then .unlockSlow (.alloc l) else .load root (.alloc l)
  | .resize p old new =>
    if root = 0 then .unlockSlow (.resize p old new)
    else if new.align ≤ old.align then
      if new.size ≤ old.size then .ret false (.block ⟨p, old.size⟩) else .rload root p old new
    else .load root (.resize p old new)
  | .deallocate p n => if root = 0 then .ret false .unit else .free root p n

/-- What happens after `ChunkHeader::alloc` or `alloc_slow` returned a block: return it, or start copying
(src/arena/mod.rs:413-420 and 511-517). `copy_nonoverlapping` needs the two ranges to be disjoint. -/
def gotBlock (write : Bool) (j : Job) (s : Slice) : M Pc :=
  match j with
  | .alloc _ => pure (.ret write (.block s))
  | .resize p old new => do
    let n := min new.size old.size
    require (n = 0 ∨ p + n ≤ s.addr ∨ s.addr + n ≤ p) "copy_nonoverlapping: overlap"
    pure (.copy write p old new s 0)

/-- One byte of `copy_nonoverlapping` (src/arena/mod.rs:415-419, 511-515). -/
def copyByte (src dst : Nat) : M Unit := fun w =>
  if w.accessible src 1 = true ∧ w.accessible dst 1 = true then
    .ok ((), { w with mem := setBytes w.mem dst 1 (fun _ => w.mem src) })
  else .error (.ub "invalid copy_nonoverlapping")

/-- The next step of thread `t`; `none` if it cannot move (waiting for the lock, or idle). On the last step of a call
the response is delivered (src/sync.rs:232-291). The lines modelled are given at each constructor of `Pc`. -/
def goStep (s : SS) (t : Nat) (ch : Choice) : Except Fault (Option (Option Resp × SS)) :=
  match s.pcs t with
  | .idle => pure none
  | .rd c =>
    if s.writer = none then
      pure (some (none, { s with readers := t :: s.readers }.setPc t (enter s.root c)))
    else pure none
  | .load chunk j => do
    let (cursor, w) ← loadRelaxed chunk s.seen ch s.w
    pure (some (none, { s with w := w }.setPc t (.cas chunk j cursor)))
  | .cas chunk j cursor => do
    let (e, w) ← loadEnd chunk s.w
    let (b, w) ← tryBump cursor e j.layout w
    match b with
    | none => pure (some (none, { s with w := w }.setPc t (.unlockSlow j)))
    | some (aligned, next) => do
      let (cur, w) ← loadCursor chunk w
      if cur = cursor ∧ ch.spurious = false then do
        let ((), w) ← storeWord chunk next w
        let (len, w) ← subU next aligned w
        let ((), w) ← dassert (j.layout.size ≤ len) "len >= layout.size()" w
        let ((), w) ← dassert (aligned % j.layout.align = 0) "aligned_addr % layout.align() == 0" w
        let (pc, w) ← gotBlock false j ⟨aligned, len⟩ w
        pure (some (none, { s with w := w, seen := cursor :: s.seen }.setPc t pc))
      else do
        let (u, w) ← loadRelaxed chunk s.seen ch w
        pure (some (none, { s with w := w }.setPc t (.cas chunk j u)))
  | .rload chunk p old new => do
    let (oldEnd, w) ← addU p old.size s.w
    let (cursor, w) ← loadRelaxed chunk s.seen ch w
    if cursor = oldEnd then pure (some (none, { s with w := w }.setPc t (.rcas chunk p old new cursor)))
    else pure (some (none, { s with w := w }.setPc t (.load chunk (.resize p old new))))
  | .rcas chunk p old new cursor =>
    match checkedAdd p new.size with
    | none => pure (some (none, s.setPc t (.unlockSlow (.resize p old new))))
    | some next => do
      let (e, w) ← loadEnd chunk s.w
      if e < next then pure (some (none, { s with w := w }.setPc t (.unlockSlow (.resize p old new))))
      else do
        let (ok, w) ← cellCas chunk cursor next w
        if ok then do
          let (len, w) ← subU next p w
          let ((), w) ← dassert (new.size ≤ len) "len >= new_layout.size()" w
          pure (some (none, { s with w := w, seen := cursor :: s.seen }.setPc t (.ret false (.block ⟨p, len⟩))))
        else pure (some (none, { s with w := w }.setPc t (.load chunk (.resize p old new))))
  | .free chunk p n => do
    let (new, w) ← addU p n s.w
    let (ok, w) ← cellCas chunk p new w
    pure (some (none, { s with w := w, seen := if ok then p :: s.seen else s.seen }.setPc t (.ret false .unit)))
  | .unlockSlow j => pure (some (none, { s with readers := s.readers.erase t }.setPc t (.wr j)))
  | .wr j =>
    if s.writer = none ∧ s.readers = [] then
      pure (some (none, { s with writer := some t }.setPc t (.slow j)))
    else pure none
  | .slow j => do
    let ((r, root), w) ← allocSlow s.root s.minChunk j.layout s.w
    match r with
    | none => pure (some (none, { s with w := w, root := root, seen := [] }.setPc t (.ret true .err)))
    | some b => do
      let (pc, w) ← gotBlock true j b w
      pure (some (none, { s with w := w, root := root, seen := [] }.setPc t pc))
  | .copy write p old new b k =>
    if k < min new.size old.size then do
      let ((), w) ← copyByte (p + k) (b.addr + k) s.w
      pure (some (none, { s with w := w }.setPc t (.copy write p old new b (k + 1))))
    else pure (some (none, s.setPc t (.ret write (.block b))))
  | .ret write r =>
    if write then pure (some (some r, { s with writer := none }.setPc t .idle))
    else pure (some (some r, { s with readers := s.readers.erase t }.setPc t .idle))

/-- What can happen next: a thread starts a call (src/sync.rs:232-291), a thread inside a call makes a step, the owner of a block stores a byte,
or somebody with exclusive access resets the allocator. -/
inductive Act where
  | call (t : Nat) (c : Call)
  | go (t : Nat) (ch : Choice)
  | write (addr : Nat) (b : Byte)
  /-- `reset` (src/sync.rs:298-304). -/
  | reset
  /-- `reset_unchecked` (src/sync.rs:329-335). -/
  | resetUnchecked
  /-- `reset_final` (src/sync.rs:308-314) or `Drop for SyncBlinkAlloc` (107-113). -/
  | resetFinal
deriving DecidableEq, Repr

/-- src/arena/mod.rs:535-559 `reset` applied to the root of the `ArenaSync`, as called at src/arena/sync.rs:119-133. -/
def resetStep (s : SS) (keepLast : Bool) : Except Fault (Option (Option Resp × SS)) := do
  let (root, w) ← arenaReset s.root keepLast s.w
  pure (some (none, { s with w := w, root := root, seen := [] }))

/-- One step of the whole system; `none` if the action is not possible now. `reset` and `reset_final` take `&mut self` and go
past the lock (`get_mut`, src/arena/sync.rs:119-127), `reset_unchecked` has to wait for it (130-133) and releases it at once. -/
def sstep (s : SS) : Act → Except Fault (Option (Option Resp × SS))
  | .call t c => if s.pcs t = .idle then pure (some (none, s.setPc t (.rd c))) else pure none
  | .go t ch => goStep s t ch
  | .write x b => pure (some (none, { s with w := { s.w with mem := setBytes s.w.mem x 1 (fun _ => b) } }))
  | .reset => resetStep s true
  | .resetUnchecked => if s.writer = none ∧ s.readers = [] then resetStep s true else pure none
  | .resetFinal => resetStep s false

/-- What happens to a `SyncBlinkAlloc` whose scope ends: `Drop for SyncBlinkAlloc` (src/sync.rs:107-113) runs and then
`Drop for ArenaSync` (src/arena/sync.rs:18-26), unless the value was wrapped in `ManuallyDrop`. -/
def SS.scopeEnd (s : SS) (manuallyDrop : Bool) : Except Fault World :=
  if manuallyDrop then pure s.w else do
    match ← sstep s .resetFinal with
    | none => .error (.ub "not possible")
    | some (_, s) => do
      let ((), w) ← dassert (s.root = 0) "Owner must reset `ArenaSync` with `keep_last` set to `false` before drop" s.w
      pure w

/-- src/sync.rs:344-347 `into_inner`: wraps itself in `ManuallyDrop` and reads the allocator out (`inner`, src/sync.rs:165-166,
only borrows it). -/
def SS.intoInner (s : SS) : Except Fault World := s.scopeEnd true

end Blink
