import Verif.Model.Global
import Verif.Model.Sync
/-
  `GlobalBlinkAlloc` (src/global/sync.rs): a `SyncBlinkAlloc` that can be bypassed, used by any number of threads.

  * Calls of the `SyncBlinkAlloc` interleave as in Verif/Model/Sync.lean.
  * A call of the underlying allocator that bypasses the `SyncBlinkAlloc` is one step: that allocator is the environment.
  * `enabled` is a plain `bool` behind an `UnsafeCell`; the contract of `blink_mode` and `direct_mode` excludes changing it while
    another thread is inside a call. It is read at the beginning and (in debug builds) at the end of a call.
  * Proxies made by `local()` (src/global/sync.rs:338-340) are added in `Model.GlobalProxy`.
-/
namespace Blink

/-- The calls of `GlobalAlloc` (src/global/sync.rs:343-408). -/
inductive GCall where
  | alloc (l : Layout)
  | allocZeroed (l : Layout)
  | dealloc (p : Nat) (l : Layout)
  | realloc (p : Nat) (l : Layout) (newSize : Nat)
deriving DecidableEq, Repr

/-- Where a thread is in src/global/sync.rs:343-408. Comments give the next thing it does. -/
inductive GPc where
  /-- Outside the allocator. -/
  | idle
  /-- Inside the `SyncBlinkAlloc` on behalf of `c` (src/global/sync.rs:23, 34, 50, 65). -/
  | blink (c : GCall)
  /-- Call the underlying allocator on behalf of `c` (src/global/sync.rs:26, 37, 53-57, 68). -/
  | direct (c : GCall)
  /-- In the default `Allocator::allocate_zeroed` (src/global/sync.rs:34; `SyncBlinkAlloc` does not override it), which fills the
  whole block with zeros: `k` bytes are done. -/
  | zero (l : Layout) (s : Slice) (k : Nat)
  /-- `State` answered `r` to `c`: count (in debug builds) and return (src/global/sync.rs:350-357, 365-370, 376-383, 403-406). -/
  | fin (c : GCall) (r : Resp)
deriving DecidableEq, Repr

/-- src/global/sync.rs:90-94 `GlobalBlinkAlloc` with `State` (src/global/sync.rs:14-17), the world (in `s`) and the program counters. `allocations`
exists in debug builds only; the model keeps it at 0 in release builds. Calls made to the underlying allocator on behalf of the
`SyncBlinkAlloc` are logged in `s.w.log`, those made directly in `dlog`. -/
structure GSS where
  s           : SS
  dlog        : List BaseEvent
  enabled     : Bool
  allocations : Nat
  pcs         : Nat → GPc

/-- src/global/sync.rs:200-209 `with_chunk_size_in` (142-143 `with_chunk_size` calls it) in the world `w`. -/
def GSS.withChunkSize (n : Nat) (w : World) : GSS := ⟨SS.withChunkSize n w, [], false, 0, fun _ => .idle⟩

/-- src/global/sync.rs:169-178 `new_in` (119-120 `new` calls it) in the world `w`. -/
def GSS.new (w : World) : GSS := ⟨SS.new w, [], false, 0, fun _ => .idle⟩

/-- Move thread `t` (no counterpart in the source: program counter bookkeeping). -/
def GSS.setPc (g : GSS) (t : Nat) (pc : GPc) : GSS := { g with pcs := fun u => if u = t then pc else g.pcs u }

/-- A call of the underlying allocator that bypasses the `SyncBlinkAlloc` (`self.blink.inner()`, src/global/sync.rs:26, 37, 54-56,
68). -/
def GSS.bypass {α} (g : GSS) (x : M α) : Except Fault (α × GSS) := do
  let (a, w) ← x { g.s.w with log := g.dlog }
  pure (a, { g with s := { g.s with w := { w with log := g.s.w.log } }, dlog := w.log })

/-- Thread `t` enters the `SyncBlinkAlloc` (src/global/sync.rs:23, 34, 50, 65). -/
def GSS.enter (g : GSS) (t : Nat) (c : GCall) (i : Call) : Except Fault (Option (Option GResp × GSS)) := do
  match ← sstep g.s (.call t i) with
  | none => pure none
  | some (_, s) => pure (some (none, { g with s := s }.setPc t (.blink c)))

/-- The beginning of a call, up to where `State` decides by the mode (src/global/sync.rs:349 with 21-22; 363-364 with 63-64; 375 with
32-33; 394-401 with 49). -/
def GSS.begin (g : GSS) (t : Nat) (c : GCall) : Except Fault (Option (Option GResp × GSS)) :=
  match c with
  | .alloc l =>
    if g.enabled then g.enter t c (.allocate l) else pure (some (none, g.setPc t (.direct c)))
  | .allocZeroed l =>
    if g.enabled then g.enter t c (.allocate l) else pure (some (none, g.setPc t (.direct c)))
  | .dealloc p l =>
    if p = 0 then .error (.ub "NonNull::new_unchecked(null)")
    else if g.enabled then g.enter t c (.deallocate p l.size) else pure (some (none, g.setPc t (.direct c)))
  | .realloc p l n =>
    match layoutFrom n l.align with
    | none => pure (some (none, g.setPc t (.fin c .err)))
    | some new =>
      if g.enabled then g.enter t c (if p = 0 then .allocate new else .resize p l new)
      else pure (some (none, g.setPc t (.direct c)))

/-- The call of the underlying allocator in direct mode (`State`, src/global/sync.rs:24-27; 35-38; 43-60; 66-69). Note which of `grow` and
`shrink` is called when. -/
def baseFor : GCall → M Resp
  | .alloc l => do pure (.ofOption (← baseAlloc l))
  | .allocZeroed l => do pure (.ofOption (← baseAllocZeroed l))
  | .dealloc p l => do
    baseDealloc p l
    pure .unit
  | .realloc p l n =>
    if p = 0 then do pure (.ofOption (← baseAlloc ⟨n, l.align⟩))
    else if n ≤ l.size then do pure (.ofOption (← baseResize true p l ⟨n, l.align⟩))
    else do pure (.ofOption (← baseResize false p l ⟨n, l.align⟩))

/-- What a call returns: nothing for `dealloc`, else a pointer (src/global/sync.rs:355-357, 381-383, 403-406). -/
def GCall.resp : GCall → Resp → GResp
  | .dealloc _ _, _ => .unit
  | _, r => .ofResp r

/-- The counter after the call: src/global/sync.rs:351-354 and 377-380 (`fetch_add`), 365-370 (`fetch_sub`); both wrap around. `realloc`
does not count. -/
def GSS.counted (g : GSS) (c : GCall) (r : Resp) : Nat :=
  if g.s.w.debug = true ∧ g.enabled = true then
    match c, r with
    | .alloc _, .block _ => (g.allocations + 1) % USIZE
    | .allocZeroed _, .block _ => (g.allocations + 1) % USIZE
    | .dealloc _ _, _ => (g.allocations + (USIZE - 1)) % USIZE
    | _, _ => g.allocations
  else g.allocations

/-- The next step of thread `t` inside a call; `none` if it cannot move. The lines modelled are given at each constructor of
`GPc` (src/global/sync.rs:343-408). A direct call returns in the same step: what is left to do then concerns only the thread itself. -/
def ggo (g : GSS) (t : Nat) (ch : Choice) : Except Fault (Option (Option GResp × GSS)) :=
  match g.pcs t with
  | .idle => pure none
  | .blink c => do
    match ← goStep g.s t ch with
    | none => pure none
    | some (none, s) => pure (some (none, { g with s := s }))
    | some (some r, s) =>
      match c, r with
      | .allocZeroed l, .block b => pure (some (none, { g with s := s }.setPc t (.zero l b 0)))
      | _, _ => pure (some (none, { g with s := s }.setPc t (.fin c r)))
  | .direct c => do
    let (r, g) ← g.bypass (baseFor c)
    pure (some (some (c.resp r), { g with allocations := g.counted c r }.setPc t .idle))
  | .zero l b k =>
    if k < b.len then
      if g.s.w.accessible (b.addr + k) 1 = true then do
        match ← sstep g.s (.write (b.addr + k) (.raw 0)) with
        | none => pure none
        | some (_, s) => pure (some (none, { g with s := s }.setPc t (.zero l b (k + 1))))
      else .error (.ub "invalid write_bytes")
    else pure (some (none, g.setPc t (.fin (.allocZeroed l) (.block b))))
  | .fin c r => pure (some (some (c.resp r), { g with allocations := g.counted c r }.setPc t .idle))

/-- What can happen next: a thread starts a call, a thread inside a call makes a step, the owner of a block stores a byte, or
somebody calls `reset`, `blink_mode` or `direct_mode` (src/global/sync.rs:247-295). -/
inductive GAct where
  | call (t : Nat) (c : GCall)
  | go (t : Nat) (ch : Choice)
  | write (addr : Nat) (b : Byte)
  | reset
  | blinkMode
  | directMode
deriving DecidableEq, Repr

/-- src/global/sync.rs:247-258 `reset`: in a debug build everything allocated in blink mode must have been deallocated; then
`reset_unchecked`, which waits for the lock. -/
def GSS.reset (g : GSS) : Except Fault (Option (Option GResp × GSS)) :=
  if g.s.w.debug = true ∧ g.allocations ≠ 0 then pure (some (some .panicked, g)) else do
    match ← sstep g.s .resetUnchecked with
    | none => pure none
    | some (_, s) => pure (some (some .unit, { g with s := s }))

/-- One step of the whole system (src/global/sync.rs:247-408); `none` if the action is not possible now. -/
def gsstep (g : GSS) : GAct → Except Fault (Option (Option GResp × GSS))
  | .call t c => if g.pcs t = .idle then g.begin t c else pure none
  | .go t ch => ggo g t ch
  | .write x b => do
    match ← sstep g.s (.write x b) with
    | none => pure none
    | some (_, s) => pure (some (some .unit, { g with s := s }))
  | .reset => g.reset
  -- src/global/sync.rs:274-276
  | .blinkMode => pure (some (some .unit, { g with enabled := true }))
  -- src/global/sync.rs:292-295
  | .directMode => do
    match ← g.reset with
    | some (some .unit, g) => pure (some (some .unit, { g with enabled := false }))
    | x => pure x

/-- What happens when a `GlobalBlinkAlloc` goes out of scope: its `SyncBlinkAlloc` is dropped (src/sync.rs:107-113); there is no
`Drop` of its own. -/
def GSS.drop (g : GSS) : Except Fault (Option GSS) := do
  match ← sstep g.s .resetFinal with
  | none => pure none
  | some (_, s) => pure (some { g with s := s })

end Blink
