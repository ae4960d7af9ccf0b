import Verif.Model.Arena
/-
  `ArenaLocal` (src/arena/local.rs) and `BlinkAlloc` (src/local.rs).
-/
namespace Blink

/-- src/local.rs:87-90 `BlinkAlloc` with src/arena/local.rs:3-9 `ArenaLocal`: root chunk (0 = none) and minimal
chunk size. The underlying allocator (`inner`, src/local.rs:157-158) is part of the `World`. -/
structure BA where
  root     : Nat
  minChunk : Nat
deriving DecidableEq, Repr

/-- src/local.rs:148-153 `new_in`, src/arena/local.rs:26-31; src/local.rs:107-115 `default` and 124-125 `new` call it. -/
def BA.new : BA := ⟨0, CHUNK_START_SIZE⟩

/-- src/local.rs:167-172 `with_chunk_size_in`, src/arena/local.rs:34-39; src/local.rs:133-135 `with_chunk_size` calls it. -/
def BA.withChunkSize (n : Nat) : BA := ⟨0, n⟩

/-- src/arena/local.rs:43-51 `last_chunk_size`. -/
def BA.lastChunkSize (a : BA) : M Nat := if a.root = 0 then pure 0 else chunkCap a.root

/-- src/arena/local.rs:54-59 `alloc_fast`. -/
def BA.allocFast (a : BA) (l : Layout) : M (Option Slice) :=
  if a.root = 0 then pure none else chunkAlloc a.root l

/-- src/local.rs:178-185 `BlinkAlloc::allocate` (src/arena/local.rs:62-68 `alloc_slow`). `none` is `Err(AllocError)`. -/
def BA.allocate (a : BA) (l : Layout) : M (Option Slice × BA) := do
  match ← a.allocFast l with
  | some s => pure (some s, a)
  | none => do
    let (r, root) ← allocSlow a.root a.minChunk l
    pure (r, { a with root := root })

/-- src/arena/local.rs:71-81 `resize_fast`. -/
def BA.resizeFast (a : BA) (ptr : Nat) (old new : Layout) : M (Option Slice) :=
  if a.root = 0 then pure none else chunkResize a.root ptr old new

/-- src/local.rs:200-217 `BlinkAlloc::resize` (src/arena/local.rs:84-99 `resize_slow`); `Allocator::grow` and
`Allocator::shrink` forward to it (src/local.rs:303-320). -/
def BA.resize (a : BA) (ptr : Nat) (old new : Layout) : M (Option Slice × BA) := do
  match ← a.resizeFast ptr old new with
  | some s => pure (some s, a)
  | none => do
    let (r, root) ← resizeSlow a.root a.minChunk ptr old new
    pure (r, { a with root := root })

/-- src/local.rs:231-237 `BlinkAlloc::deallocate` (src/arena/local.rs:102-104). -/
def BA.deallocate (a : BA) (ptr size : Nat) : M Unit := arenaDealloc a.root ptr size

/-- src/local.rs:244-250 `BlinkAlloc::reset` and 275-281 `reset_unchecked` (src/arena/local.rs:107-114). -/
def BA.reset (a : BA) : M BA := do
  let r ← arenaReset a.root true
  pure { a with root := r }

/-- src/local.rs:254-260 `BlinkAlloc::reset_final`, and the body of `Drop for BlinkAlloc` (src/local.rs:98-104). -/
def BA.resetFinal (a : BA) : M BA := do
  let r ← arenaReset a.root false
  pure { a with root := r }

/-- `Allocator::allocate_zeroed`: the default method of `allocator_api2::alloc::Allocator` (not overridden for
`BlinkAlloc`; the `&mut` impl forwards to it, src/local.rs:338-340): allocate, then zero the whole block. -/
def BA.allocateZeroed (a : BA) (l : Layout) : M (Option Slice × BA) := do
  match ← a.allocate l with
  | (none, a') => pure (none, a')
  | (some s, a') => do
    writeZeros s.addr s.len
    pure (some s, a')

/-- `Allocator::grow_zeroed`: the default method of `allocator_api2::alloc::Allocator` (not overridden in src/local.rs:293-366): allocate
zeroed, copy the old contents, deallocate the old block. -/
def BA.growZeroed (a : BA) (ptr : Nat) (old new : Layout) : M (Option Slice × BA) := do
  dassert (old.size ≤ new.size) "grow_zeroed: new_layout.size() >= old_layout.size()"
  match ← a.allocateZeroed new with
  | (none, a') => pure (none, a')
  | (some s, a') => do
    copyNonoverlapping ptr s.addr old.size
    a'.deallocate ptr old.size
    pure (some s, a')

/-- What happens to a `BlinkAlloc` whose scope ends: `Drop for BlinkAlloc` (src/local.rs:93-105) runs and then
`Drop for ArenaLocal` (src/arena/local.rs:14-22), unless the value was wrapped in `ManuallyDrop`. -/
def BA.scopeEnd (a : BA) (manuallyDrop : Bool) : M Unit :=
  if manuallyDrop then pure () else do
    let a ← a.resetFinal
    dassert (a.root = 0) "Owner must reset `ArenaLocal` with `keep_last` set to `false` before drop"

/-- src/local.rs:287-290 `into_inner`: wraps itself in `ManuallyDrop` and reads the allocator out. -/
def BA.intoInner (a : BA) : M Unit := a.scopeEnd true

/-! ### The API as a transition system -/

/-- A `BlinkAlloc` (src/local.rs:87-90) together with the rest of the world. -/
structure St where
  w : World
  a : BA

/-- API calls on one `BlinkAlloc` (src/local.rs:178-281; the `Allocator` impls at
src/local.rs:293-325 and 328-366 forward to them), plus `write`: the owner of a block storing a byte into it. `drop`ping the allocator
is `resetFinal`. `resize` also stands for `Allocator::grow` and `Allocator::shrink`. -/
inductive Op where
  | allocate (l : Layout)
  | allocateZeroed (l : Layout)
  | resize (ptr : Nat) (old new : Layout)
  | growZeroed (ptr : Nat) (old new : Layout)
  | deallocate (ptr size : Nat)
  | reset
  | resetFinal
  | write (addr : Nat) (b : Byte)
deriving DecidableEq, Repr

/-- What a call returns: nothing, a block, or `Err(AllocError)` (src/local.rs:178, 205, 231). -/
inductive Resp where
  | unit
  | block (s : Slice)
  | err
deriving DecidableEq, Repr

/-- `Ok(block)` or `Err(AllocError)` (src/local.rs:178, 205). -/
def Resp.ofOption : Option Slice → Resp
  | some s => .block s
  | none => .err

/-- One API call (src/local.rs:178-281). The lines modelled are given at the functions called; `write` has no counterpart in the source. -/
def step (s : St) : Op → Except Fault (Resp × St)
  | .allocate l => do
    let ((r, a), w) ← s.a.allocate l s.w
    pure (.ofOption r, ⟨w, a⟩)
  | .allocateZeroed l => do
    let ((r, a), w) ← s.a.allocateZeroed l s.w
    pure (.ofOption r, ⟨w, a⟩)
  | .resize p old new => do
    let ((r, a), w) ← s.a.resize p old new s.w
    pure (.ofOption r, ⟨w, a⟩)
  | .growZeroed p old new => do
    let ((r, a), w) ← s.a.growZeroed p old new s.w
    pure (.ofOption r, ⟨w, a⟩)
  | .deallocate p n => do
    let ((), w) ← s.a.deallocate p n s.w
    pure (.unit, ⟨w, s.a⟩)
  | .reset => do
    let (a, w) ← s.a.reset s.w
    pure (.unit, ⟨w, a⟩)
  | .resetFinal => do
    let (a, w) ← s.a.resetFinal s.w
    pure (.unit, ⟨w, a⟩)
  | .write x b =>
    pure (.unit, ⟨{ s.w with mem := setBytes s.w.mem x 1 (fun _ => b) }, s.a⟩)

end Blink
