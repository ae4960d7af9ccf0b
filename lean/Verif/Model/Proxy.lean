import Verif.Model.Sync
/-
  `LocalBlinkAlloc` (src/sync.rs:444-653): thread-local proxies of one `SyncBlinkAlloc`. A proxy is an `ArenaLocal` whose
  underlying allocator is the shared `SyncBlinkAlloc`: its chunks are blocks of the shared allocator.

  * The shared allocator is the system of threads of `Model.Sync`. Proxy `i` makes its calls to the shared allocator under the
    identity `i` (a thread using several proxies acts under several identities; `sync` orders them).
  * What a proxy does between two calls to the shared allocator is one step: it only touches the proxy and the proxy's own
    chunks. The calls to the shared allocator interleave with everything else, step by step.
  * `max_local_alloc` is accessed with `Relaxed` ordering: a load returns any value of the history of the variable that is
    not older than what the loading identity is known to have seen (coherence); `sync t u` is any synchronisation between the
    two (fork, join, channel), after which `u` knows what `t` knew.
-/
namespace Blink

/-- Where a proxy (src/sync.rs:451-454) is: outside, or waiting for the shared allocator. -/
inductive PPc where
  /-- Outside the proxy. -/
  | idle
  /-- In `allocate`, inside the call at src/arena/mod.rs:196 made for `alloc_slow` (src/arena/local.rs:62-68). -/
  | alloc (l : Layout)
  /-- In `resize`, inside the call at src/arena/mod.rs:196 made for `resize_slow` (src/arena/local.rs:84-99). -/
  | resize (ptr : Nat) (old new : Layout)
  /-- In `reset_unchecked`, inside the call at src/arena/mod.rs:214; `next` is the chunk to give back after this one. -/
  | chain (next : Nat)
deriving DecidableEq, Repr

/-- src/sync.rs:451-454 `LocalBlinkAlloc`: the arena (the reference to the shared allocator is implicit) and the place in
the code. -/
structure Proxy where
  a  : BA
  pc : PPc
deriving DecidableEq, Repr

/-- src/sync.rs:100-104 `SyncBlinkAlloc` with all its proxies: arena (`s`), the values `max_local_alloc` had (newest first),
the newest of them each identity is known to have seen, and the proxies that exist. -/
structure PS where
  s    : SS
  hist : List Nat
  view : Nat → Nat
  px   : Nat → Option Proxy

/-- A new `SyncBlinkAlloc` without proxies: src/sync.rs:155-161 `new_in`, 175-181 `with_chunk_size_in`; `max_local_alloc` is 0. -/
def PS.withChunkSize (n : Nat) (w : World) : PS := ⟨SS.withChunkSize n w, [0], fun _ => 0, fun _ => none⟩

/-- Change one proxy (no counterpart in the source: bookkeeping). -/
def PS.setPx (ps : PS) (i : Nat) (p : Option Proxy) : PS := { ps with px := fun u => if u = i then p else ps.px u }

/-- Change what one identity has seen (no counterpart in the source: memory model). -/
def PS.setView (ps : PS) (i v : Nat) : PS := { ps with view := fun u => if u = i then v else ps.view u }

/-- src/sync.rs:353-356 `update_max_local_alloc`, executed by `t`. -/
def PS.fetchMax (ps : PS) (t v : Nat) : PS :=
  { ps with hist := max (ps.hist.headD 0) v :: ps.hist }.setView t (max (ps.hist.headD 0) v)

/-- First half of `alloc_slow` and `alloc_chunk`: src/arena/mod.rs:466-491 and 188-195, up to the layout passed to the
underlying allocator. `Layout::from_size_align_unchecked` (src/arena/mod.rs:195) requires a size that is at most `isize::MAX` when
rounded up. `none` is `Err(AllocError)`. -/
def chunkRequest (root chunkSize : Nat) (l : Layout) : M (Option Nat) := do
  let rootCum ← (if root = 0 then pure none else do
    let c ← loadCum root
    pure (some c))
  match slowChunkSize rootCum chunkSize l with
  | none => pure none
  | some cs => do
    dassert (cs % HDR_ALIGN = 0) "chunk_size % align_of::<ChunkHeader>() == 0"
    match alignUp cs HDR_ALIGN with
    | none => pure none
    | some size => do
      require (size + HDR_ALIGN ≤ ISIZE) "from_size_align_unchecked"
      pure (some size)

/-- The contents of a block just obtained are unspecified (documentation of `Allocator::allocate`, which is what `slice` at
src/arena/mod.rs:196 comes from), hence `uninit`. -/
def markUninit (slice : Slice) : M Unit := fun w =>
  .ok ((), { w with mem := setBytes w.mem slice.addr slice.len (fun _ => .uninit) })

/-- Second half of `alloc_chunk` and `alloc_slow`: src/arena/mod.rs:197 and 492-498. The new root is the address of the block. -/
def newChunkAlloc (root : Nat) (slice : Slice) (l : Layout) : M Slice := do
  markUninit slice
  let c ← initChunk slice root
  match ← chunkAlloc c l with
  | none => ub "unwrap_unchecked on None"
  | some s => pure s

/-- What can happen (src/sync.rs:221-226, 353-356, 457-567): something at the shared allocator (including the steps of calls that proxies made to it, and stores of
the owners of blocks), or a call to a proxy, or an access to `max_local_alloc`, or a synchronisation. -/
inductive PAct where
  | shared (a : Act)
  /-- `SyncBlinkAlloc::local` (src/sync.rs:221-226); `k` says which value the relaxed load returns. -/
  | spawn (i k : Nat)
  /-- `LocalBlinkAlloc::allocate` (src/sync.rs:476-483). -/
  | allocate (i : Nat) (l : Layout)
  /-- `LocalBlinkAlloc::resize` (src/sync.rs:498-515). -/
  | resize (i ptr : Nat) (old new : Layout)
  /-- `LocalBlinkAlloc::deallocate` (src/sync.rs:529-535). -/
  | deallocate (i ptr size : Nat)
  /-- `LocalBlinkAlloc::reset` (src/sync.rs:542-546). -/
  | reset (i : Nat)
  /-- `LocalBlinkAlloc::reset_unchecked` (src/sync.rs:561-567). -/
  | resetUnchecked (i : Nat)
  /-- `Drop for LocalBlinkAlloc` (src/sync.rs:457-466). -/
  | drop (i : Nat)
  /-- `SyncBlinkAlloc::update_max_local_alloc` (src/sync.rs:353-356) called by the user. -/
  | updateMax (t v : Nat)
  /-- Some synchronisation after which `u` knows what `t` knew (no counterpart in the source). -/
  | sync (t u : Nat)
deriving DecidableEq, Repr

/-- Result of a step: `none` if it is not possible now, else a response if a call came back, and the new state (no counterpart in the
source: bookkeeping). -/
abbrev PRes := Except Fault (Option (Option Resp × PS))

/-- Proxy `i` starts call `c` of the shared allocator and waits in `pc` (src/arena/mod.rs:196 and 214, with the allocator of
the proxy's arena being the shared one, src/sync.rs:482, 513, 565). -/
def PS.ask (ps : PS) (i : Nat) (a : BA) (w : World) (c : Call) (pc : PPc) : PRes :=
  if ps.s.pcs i = .idle then
    pure (some (none, { ps with s := { ps.s with w := w }.setPc i (.rd c) }.setPx i (some ⟨a, pc⟩)))
  else pure none

/-- Proxy `i` returns `r` to its caller (no counterpart in the source: bookkeeping). -/
def PS.answer (ps : PS) (i : Nat) (a : BA) (w : World) (r : Resp) : PRes :=
  pure (some (some r, { ps with s := { ps.s with w := w } }.setPx i (some ⟨a, .idle⟩)))

/-- The loop of `reset` (src/arena/mod.rs:554-558) reaching `chunk`: `dealloc_chunk` (201-216) up to the call of the shared
`deallocate`, or the end of the loop. -/
def PS.freeNext (ps : PS) (i : Nat) (a : BA) (chunk : Nat) (w : World) : PRes :=
  if chunk = 0 then ps.answer i a w .unit
  else do
    let (prev, w) ← loadPrev chunk w
    let (e, w) ← loadEnd chunk w
    let (size, w) ← subU e chunk w
    ps.ask i a w (.deallocate chunk size) (.chain prev)

/-- The shared allocator answered proxy `i`, which waited in `pc`: the rest of src/arena/mod.rs:460-499 for `allocate`, of 502-518
for `resize`, the next round of 554-558 for `reset_unchecked`. -/
def PS.resume (ps : PS) (i : Nat) (a : BA) (r : Resp) : PPc → PRes
  | .alloc l =>
    match r with
    | .block sl => do
      let (b, w) ← newChunkAlloc a.root sl l ps.s.w
      ps.answer i { a with root := sl.addr } w (.block b)
    | _ => ps.answer i a ps.s.w .err
  | .resize p old new =>
    match r with
    | .block sl => do
      let (b, w) ← newChunkAlloc a.root sl new ps.s.w
      let ((), w) ← copyNonoverlapping p b.addr (min new.size old.size) w
      ps.answer i { a with root := sl.addr } w (.block b)
    | _ => ps.answer i a ps.s.w .err
  | .chain next => ps.freeNext i a next ps.s.w
  | .idle => pure none

/-- One step of the shared allocator with all its proxies (src/sync.rs:221-226, 353-356, 457-567; the lines are given at `PAct`). -/
def pstep (ps : PS) : PAct → PRes
  | .shared (.go t ch) => do
    match ← sstep ps.s (.go t ch) with
    | none => pure none
    | some (none, s') => pure (some (none, { ps with s := s' }))
    | some (some r, s') =>
      match ps.px t with
      | some p =>
        if p.pc = .idle then pure (some (some r, { ps with s := s' }))
        else PS.resume { ps with s := s' } t p.a r p.pc
      | none => pure (some (some r, { ps with s := s' }))
  | .shared a => do
    match ← sstep ps.s a with
    | none => pure none
    | some (r, s') => pure (some (r, { ps with s := s' }))
  | .spawn i k =>
    match ps.px i with
    | some _ => pure none
    | none =>
      let v := ps.hist.getD k (ps.hist.headD 0)
      if ps.view i ≤ v then pure (some (none, (ps.setView i v).setPx i (some ⟨BA.withChunkSize v, .idle⟩)))
      else pure none
  | .allocate i l =>
    match ps.px i with
    | some ⟨a, .idle⟩ => do
      let (r, w) ← a.allocFast l ps.s.w
      match r with
      | some b => ps.answer i a w (.block b)
      | none => do
        let (q, w) ← chunkRequest a.root a.minChunk l w
        match q with
        | none => ps.answer i a w .err
        | some size => ps.ask i a w (.allocate ⟨size, HDR_ALIGN⟩) (.alloc l)
    | _ => pure none
  | .resize i p old new =>
    match ps.px i with
    | some ⟨a, .idle⟩ => do
      let (r, w) ← a.resizeFast p old new ps.s.w
      match r with
      | some b => ps.answer i a w (.block b)
      | none => do
        let (q, w) ← chunkRequest a.root a.minChunk new w
        match q with
        | none => ps.answer i a w .err
        | some size => ps.ask i a w (.allocate ⟨size, HDR_ALIGN⟩) (.resize p old new)
    | _ => pure none
  | .deallocate i p n =>
    match ps.px i with
    | some ⟨a, .idle⟩ => do
      let ((), w) ← a.deallocate p n ps.s.w
      ps.answer i a w .unit
    | _ => pure none
  | .reset i =>
    match ps.px i with
    | some ⟨a, .idle⟩ => do
      let (c, w) ← a.lastChunkSize ps.s.w
      let (root, w) ← arenaResetLeak a.root true w
      (ps.fetchMax i c).answer i { a with root := root } w .unit
    | _ => pure none
  | .resetUnchecked i =>
    match ps.px i with
    | some ⟨a, .idle⟩ =>
      if a.root = 0 then ps.answer i a ps.s.w .unit
      else do
        let (prev, w) ← chunkReset a.root ps.s.w
        ps.freeNext i a prev w
    | _ => pure none
  | .drop i =>
    match ps.px i with
    | some ⟨a, .idle⟩ => do
      let (c, w) ← a.lastChunkSize ps.s.w
      let (root, w) ← arenaResetLeak a.root false w
      let ((), w) ← dassert (root = 0) "Owner must reset `ArenaLocal` with `keep_last` set to `false` before drop" w
      pure (some (some .unit, { ps.fetchMax i c with s := { ps.s with w := w } }.setPx i none))
    | _ => pure none
  | .updateMax t v => pure (some (none, ps.fetchMax t v))
  | .sync t u => pure (some (none, ps.setView u (max (ps.view u) (ps.view t))))

end Blink
