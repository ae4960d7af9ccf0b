import Verif.Model.Arith
/-
  The arena shared by `ArenaLocal` and `ArenaSync` (macro `with_cursor!`, src/arena/mod.rs:171-579), in its
  single-threaded reading. `NonNull<ChunkHeader>` is an address, `Option<NonNull<ChunkHeader>>` an address with 0 for
  `None` (the niche Rust uses). Headers live in memory and are loaded and stored word by word.
-/
namespace Blink

/-! Field offsets of `ChunkHeader` (src/arena/mod.rs:173-179): cursor 0, end 8, prev 16, cumulative_size 24. -/

/-- `me.cursor.load(..)` (src/arena/mod.rs:286; for `Cell` 77-80, with 71-75 `new` and the trait at 49-69). -/
def loadCursor (chunk : Nat) : M Nat := loadWord chunk
/-- `me.end` (src/arena/mod.rs:308, 176). -/
def loadEnd (chunk : Nat) : M Nat := loadWord (chunk + 8)
/-- `prev` (src/arena/mod.rs:177, 206). -/
def loadPrev (chunk : Nat) : M Nat := loadWord (chunk + 16)
/-- `cumulative_size` (src/arena/mod.rs:178, 467). -/
def loadCum (chunk : Nat) : M Nat := loadWord (chunk + 24)

/-- src/arena/mod.rs:275-279 `cap` (with 260-262 `base` and 269-273 `offset_from_end`). -/
def chunkCap (chunk : Nat) : M Nat := do
  let e ← loadEnd chunk
  let base ← addU chunk HDR_SIZE
  subU e base

/-- src/arena/mod.rs:225-257 `init_chunk`. -/
def initChunk (slice : Slice) (prev : Nat) : M Nat := do
  dassert (isAlignedTo slice.addr HDR_ALIGN = true) "init_chunk: misaligned"
  dassert (HDR_SIZE < slice.len) "init_chunk: len > size_of::<Self>()"
  let e ← addU slice.addr slice.len
  let base ← addU slice.addr HDR_SIZE
  let cumulative ← (if prev = 0 then pure 0 else do
    let cap ← chunkCap prev
    let cum ← loadCum prev
    addU cap cum)
  storeWord slice.addr base
  storeWord (slice.addr + 8) e
  storeWord (slice.addr + 16) prev
  storeWord (slice.addr + 24) cumulative
  pure slice.addr

/-- src/arena/mod.rs:183-198 `alloc_chunk`. `none` is `Err(AllocError)`. -/
def allocChunk (size prev : Nat) : M (Option Nat) := do
  match alignUp size HDR_ALIGN with
  | none => pure none
  | some size =>
    match ← baseAlloc ⟨size, HDR_ALIGN⟩ with
    | none => pure none
    | some slice => do
      let c ← initChunk slice prev
      pure (some c)

/-- src/arena/mod.rs:201-216 `dealloc_chunk`. -/
def deallocChunk (chunk : Nat) : M Nat := do
  let prev ← loadPrev chunk
  let e ← loadEnd chunk
  let size ← subU e chunk
  baseDealloc chunk ⟨size, HDR_ALIGN⟩
  pure prev

/-- The computation of one round of the allocation loop, src/arena/mod.rs:289-314: from the loaded cursor and the chunk
end to the aligned address and the new cursor, or `none` if the layout does not fit. -/
def tryBump (cursor e : Nat) (l : Layout) : M (Option (Nat × Nat)) := do
  let sum ← layoutSum l
  match checkedAdd cursor sum with
  | none => pure none
  | some unaligned => do
    let t ← subU unaligned l.size
    let aligned := alignDown t l.align
    dassert (cursor ≤ aligned) "aligned_addr addr must not be less than cursor"
    dassert (aligned - cursor < l.align) "Cannot waste space more than alignment size"
    let next ← addU aligned l.size
    if e < next then pure none
    else do
      -- `cursor.add(aligned_addr - cursor_addr)` and `aligned.add(layout.size())` stay in the chunk
      require (cursor ≤ aligned ∧ next ≤ e) "pointer arithmetic leaves the chunk"
      pure (some (aligned, next))

/-- src/arena/mod.rs:104-118 `Cell::compare_exchange_weak`: unconditional store, debug-asserting the old value. -/
def cellCasWeak (a old new : Nat) : M Unit := do
  let cur ← loadWord a
  dassert (old = cur) "Must be used only in loop where `old` is last loaded value"
  storeWord a new

/-- src/arena/mod.rs:88-101 `Cell::compare_exchange`. -/
def cellCas (a old new : Nat) : M Bool := do
  let cur ← loadWord a
  if old = cur then do
    storeWord a new
    pure true
  else pure false

/-- src/arena/mod.rs:283-341 `ChunkHeader::alloc` for `Cell`: the weak exchange never fails, so the loop runs once. -/
def chunkAlloc (chunk : Nat) (l : Layout) : M (Option Slice) := do
  let cursor ← loadCursor chunk
  let e ← loadEnd chunk
  match ← tryBump cursor e l with
  | none => pure none
  | some (aligned, next) => do
    cellCasWeak chunk cursor next
    let len ← subU next aligned
    dassert (l.size ≤ len) "len >= layout.size()"
    dassert (aligned % l.align = 0) "aligned_addr % layout.align() == 0"
    pure (some ⟨aligned, len⟩)

/-- src/arena/mod.rs:410-422: the reallocating tail of `ChunkHeader::resize`. -/
def chunkRealloc (chunk ptr : Nat) (old new : Layout) : M (Option Slice) := do
  match ← chunkAlloc chunk new with
  | none => pure none
  | some s => do
    copyNonoverlapping ptr s.addr (min new.size old.size)
    pure (some s)

/-- src/arena/mod.rs:356-423 `ChunkHeader::resize` for `Cell`. -/
def chunkResize (chunk ptr : Nat) (old new : Layout) : M (Option Slice) := do
  if new.align ≤ old.align then
    if new.size ≤ old.size then
      pure (some ⟨ptr, old.size⟩)
    else do
      let oldEnd ← addU ptr old.size
      let cursor ← loadCursor chunk
      if cursor = oldEnd then
        match checkedAdd ptr new.size with
        | none => pure none
        | some next => do
          let e ← loadEnd chunk
          if e < next then pure none
          else do
            let ok ← cellCas chunk cursor next
            if ok then do
              let len ← subU next ptr
              dassert (new.size ≤ len) "len >= new_layout.size()"
              pure (some ⟨ptr, len⟩)
            else chunkRealloc chunk ptr old new
      else chunkRealloc chunk ptr old new
  else chunkRealloc chunk ptr old new

/-- src/arena/mod.rs:427-433 `ChunkHeader::reset` (`me.cursor.set` is src/arena/mod.rs:82-85, and 132-135 for `AtomicPtr`). Returns the taken `prev`. -/
def chunkReset (chunk : Nat) : M Nat := do
  let e ← loadEnd chunk
  let cap ← chunkCap chunk
  let base ← subU e cap
  storeWord chunk base
  storeWord (chunk + 24) 0
  let prev ← loadPrev chunk
  storeWord (chunk + 16) 0
  pure prev

/-- src/arena/mod.rs:439-456 `ChunkHeader::dealloc` for `Cell`: one exchange of `ptr` (!) for `ptr + size`. -/
def chunkDealloc (chunk ptr size : Nat) : M Unit := do
  let new ← addU ptr size
  let _ ← cellCas chunk ptr new
  pure ()

/-- src/arena/mod.rs:466-489: the size of the next chunk, before `alloc_chunk` rounds it up to the header alignment.
`rootCum` is the root chunk's `cumulative_size` if there is a root. `none` is `Err(AllocError)`. -/
def slowChunkSize (rootCum : Option Nat) (chunkSize : Nat) (l : Layout) : Option Nat := do
  let cs ← match rootCum with
    | some cum => checkedAdd (max chunkSize cum) (max l.size CHUNK_MIN_GROW_STEP)
    | none => some (max chunkSize l.size)
  let cs ← if HDR_ALIGN < l.align then checkedAdd cs l.align else some cs
  let cs ← checkedAdd cs HDR_SIZE
  if cs < CHUNK_POWER_OF_TWO_THRESHOLD then some (nextPow2 cs)
  else some ((alignUp cs CHUNK_POWER_OF_TWO_THRESHOLD).getD cs)

/-- src/arena/mod.rs:460-499 `alloc_slow`. Takes the root cell's value and returns its new value. -/
def allocSlow (root chunkSize : Nat) (l : Layout) : M (Option Slice × Nat) := do
  let rootCum ← (if root = 0 then pure none else do
    let c ← loadCum root
    pure (some c))
  match slowChunkSize rootCum chunkSize l with
  | none => pure (none, root)
  | some cs => do
    dassert (cs % HDR_ALIGN = 0) "chunk_size % align_of::<ChunkHeader>() == 0"
    match ← allocChunk cs root with
    | none => pure (none, root)
    | some newChunk => do
      match ← chunkAlloc newChunk l with
      | none => ub "unwrap_unchecked on None"
      | some s => pure (some s, newChunk)

/-- src/arena/mod.rs:502-518 `resize_slow`. -/
def resizeSlow (root chunkSize ptr : Nat) (old new : Layout) : M (Option Slice × Nat) := do
  match ← allocSlow root chunkSize new with
  | (none, root') => pure (none, root')
  | (some s, root') => do
    copyNonoverlapping ptr s.addr (min new.size old.size)
    pure (some s, root')

/-- src/arena/mod.rs:521-530 `dealloc`. -/
def arenaDealloc (root ptr size : Nat) : M Unit :=
  if root = 0 then pure () else chunkDealloc root ptr size

/-- src/arena/mod.rs:554-558: the loop giving back a chain of chunks. The loop is run with a budget of iterations;
running out of it is a fault, so "no fault" includes termination. -/
def freeChain : Nat → Nat → M Unit
  | _, 0 => pure ()
  | 0, _ + 1 => ub "reset loop does not terminate"
  | fuel + 1, chunk + 1 => do
    let prev ← deallocChunk (chunk + 1)
    freeChain fuel prev

/-- Number of blocks held: a bound for the number of chunks that can be given back by the loop at src/arena/mod.rs:554-558 (no
counterpart in the source: iteration budget). -/
def heldCount : M Nat := fun w => .ok (w.held.length, w)

/-- src/arena/mod.rs:535-559 `reset`. Returns the new value of the root cell. -/
def arenaReset (root : Nat) (keepLast : Bool) : M Nat := do
  if keepLast then
    if root = 0 then pure root
    else do
      let prev ← chunkReset root
      let n ← heldCount
      freeChain n prev
      pure root
  else do
    let n ← heldCount
    freeChain n root
    pure 0

/-- src/arena/mod.rs:563-577 `reset_leak`. -/
def arenaResetLeak (root : Nat) (keepLast : Bool) : M Nat := do
  if keepLast then
    if root = 0 then pure root
    else do
      let _ ← chunkReset root
      pure root
  else pure 0

end Blink
