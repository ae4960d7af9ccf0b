import Verif.Model.Local
/-
  `UnsafeGlobalBlinkAlloc` (src/global/local.rs): a `BlinkAlloc` that can be bypassed.
-/
namespace Blink

/-- `A::allocate_zeroed` on the underlying allocator (called at src/global/local.rs:37): a fresh block full of zeros. -/
def baseAllocZeroed (l : Layout) : M (Option Slice) := do
  match ← baseAlloc l with
  | none => pure none
  | some s => do
    writeZeros s.addr s.len
    pure (some s)

/-- `A::grow` (`grow = true`) and `A::shrink` on the underlying allocator (called at src/global/local.rs:54-56). Violating
the documented preconditions is undefined behaviour: the block must be held, the old layout must fit it, and the new size must
not be smaller (`grow`) or larger (`shrink`) than the old one. Otherwise the allocator refuses and changes nothing, or
answers with a block that may overlap the old one, and that starts with the old contents; the old block is gone then. The
log shows this as giving back the old block and obtaining the new one. -/
def baseResize (grow : Bool) (p : Nat) (old new : Layout) : M (Option Slice) := fun w =>
  match w.held.find? (fun b => b.fits p old) with
  | none => .error (.ub "grow/shrink of a block that is not held or does not fit")
  | some b =>
    if grow = true ∧ new.size < old.size then .error (.ub "grow to a smaller layout")
    else if grow = false ∧ old.size < new.size then .error (.ub "shrink to a larger layout")
    else match w.oracle w.calls with
      | none => .ok (none, { w with calls := w.calls + 1, log := .refused new :: w.log })
      | some s =>
        if freshOk { w with held := w.held.erase b } new s then
          .ok (some s, { w with
            calls := w.calls + 1
            log   := .alloc new s :: .dealloc p old :: w.log
            held  := ⟨s.addr, s.len, new⟩ :: w.held.erase b
            mem   := setBytes (setBytes w.mem b.addr b.len (fun _ => .uninit)) s.addr s.len
              (fun i => if i < min old.size new.size then w.mem (p + i) else .uninit) })
        else .error (.env new s)

/-- src/global/local.rs:74-80 `UnsafeGlobalBlinkAlloc` with `State` (src/global/local.rs:14-17), and the world. `allocations` exists in debug builds
only; the model keeps it at 0 in release builds. Calls made to the underlying allocator on behalf of the `BlinkAlloc` are
logged in `w.log`, those made directly in `dlog`. -/
structure GS where
  w           : World
  dlog        : List BaseEvent
  a           : BA
  enabled     : Bool
  allocations : Nat

/-- src/global/local.rs:227-236 `with_chunk_size_in` (149-150 `with_chunk_size` calls it) in the world `w`. -/
def GS.withChunkSize (n : Nat) (w : World) : GS := ⟨w, [], BA.withChunkSize n, false, 0⟩

/-- src/global/local.rs:186-195 `new_in` (116-117 `new` calls it) in the world `w`. -/
def GS.new (w : World) : GS := ⟨w, [], BA.new, false, 0⟩

/-- A call of the underlying allocator that bypasses the `BlinkAlloc` (`self.blink.inner()`, src/global/local.rs:26, 37, 54-56,
68). -/
def GS.direct {α} (g : GS) (x : M α) : Except Fault (α × GS) := do
  let (a, w) ← x { g.w with log := g.dlog }
  pure (a, { g with w := { w with log := g.w.log }, dlog := w.log })

/-- A call of the `BlinkAlloc` (`self.blink`, src/global/local.rs:23, 34, 50, 65, 280). -/
def GS.inner (g : GS) (op : Op) : Except Fault (Resp × GS) := do
  let (r, s) ← step ⟨g.w, g.a⟩ op
  pure (r, { g with w := s.w, a := s.a })

/-- src/global/local.rs:21-29 `State::allocate`. -/
def GS.allocate (g : GS) (l : Layout) : Except Fault (Resp × GS) :=
  if g.enabled then g.inner (.allocate l) else do
    let (r, g) ← g.direct (baseAlloc l)
    pure (.ofOption r, g)

/-- src/global/local.rs:32-40 `State::allocate_zeroed`. -/
def GS.allocateZeroed (g : GS) (l : Layout) : Except Fault (Resp × GS) :=
  if g.enabled then g.inner (.allocateZeroed l) else do
    let (r, g) ← g.direct (baseAllocZeroed l)
    pure (.ofOption r, g)

/-- src/global/local.rs:43-60 `State::resize`. Note which of `grow` and `shrink` is called when. -/
def GS.resize (g : GS) (p : Nat) (old new : Layout) : Except Fault (Resp × GS) :=
  if g.enabled then g.inner (.resize p old new) else do
    let (r, g) ← g.direct (if new.size ≤ old.size then baseResize true p old new else baseResize false p old new)
    pure (.ofOption r, g)

/-- src/global/local.rs:63-71 `State::deallocate`. -/
def GS.deallocate (g : GS) (p : Nat) (l : Layout) : Except Fault GS :=
  if g.enabled then do
    let (_, g) ← g.inner (.deallocate p l.size)
    pure g
  else do
    let (_, g) ← g.direct (baseDealloc p l)
    pure g

/-- The calls: `GlobalAlloc` (src/global/local.rs:320-385), `reset`, `blink_mode`, `direct_mode` (274-318), and `write`: the
owner of a block storing a byte into it. -/
inductive GOp where
  | alloc (l : Layout)
  | allocZeroed (l : Layout)
  | dealloc (p : Nat) (l : Layout)
  | realloc (p : Nat) (l : Layout) (newSize : Nat)
  | reset
  | blinkMode
  | directMode
  | write (addr : Nat) (b : Byte)
deriving DecidableEq, Repr

/-- What a call returns (src/global/local.rs:326, 340, 351, 370; 274, 297, 315): nothing, a pointer (0 is null), or it panics
(the `assert_eq!` at 277). -/
inductive GResp where
  | unit
  | ptr (p : Nat)
  | panicked
deriving DecidableEq, Repr

/-- The `Ok` and `Err` arms of `alloc` and `alloc_zeroed` (src/global/local.rs:327-336, 352-361): in a debug build the
allocations made in blink mode are counted. `Cell<u64>` addition panics on overflow, here a fault. -/
def GS.granted (g : GS) : Resp → Except Fault (GResp × GS)
  | .block s =>
    if g.w.debug = true ∧ g.enabled = true then
      if g.allocations + 1 < USIZE then pure (.ptr s.addr, { g with allocations := g.allocations + 1 })
      else .error (.dbg "attempt to add with overflow")
    else pure (.ptr s.addr, g)
  | _ => pure (.ptr 0, g)

/-- src/global/local.rs:380-383: the end of `realloc`. -/
def GResp.ofResp : Resp → GResp
  | .block s => .ptr s.addr
  | _ => .ptr 0

/-- `Layout::from_size_align` for an alignment taken from a `Layout` (src/global/local.rs:371): fails if the size is too
large. -/
def layoutFrom (n align : Nat) : Option Layout := if n + align ≤ ISIZE then some ⟨n, align⟩ else none

/-- src/global/local.rs:274-281 `reset`: in a debug build everything allocated in blink mode must have been deallocated. -/
def GS.reset (g : GS) : Except Fault (GResp × GS) :=
  if g.w.debug = true ∧ g.allocations ≠ 0 then pure (.panicked, g) else do
    let (_, g) ← g.inner .reset
    pure (.unit, g)

/-- One call (src/global/local.rs:274-385); the lines modelled are given case by case. -/
def gstep (g : GS) : GOp → Except Fault (GResp × GS)
  -- src/global/local.rs:326-337
  | .alloc l => do
    let (r, g) ← g.allocate l
    g.granted r
  -- src/global/local.rs:351-362
  | .allocZeroed l => do
    let (r, g) ← g.allocateZeroed l
    g.granted r
  -- src/global/local.rs:340-348; `NonNull::new_unchecked(ptr)` needs a non-null pointer; `saturating_sub`
  | .dealloc p l =>
    if p = 0 then .error (.ub "NonNull::new_unchecked(null)") else do
      let g ← g.deallocate p l
      if g.w.debug = true ∧ g.enabled = true then pure (.unit, { g with allocations := g.allocations - 1 })
      else pure (.unit, g)
  -- src/global/local.rs:365-384
  | .realloc p l n =>
    match layoutFrom n l.align with
    | none => pure (.ptr 0, g)
    | some new =>
      if p = 0 then do
        let (r, g) ← g.allocate new
        pure (.ofResp r, g)
      else do
        let (r, g) ← g.resize p l new
        pure (.ofResp r, g)
  | .reset => g.reset
  -- src/global/local.rs:297-299
  | .blinkMode => pure (.unit, { g with enabled := true })
  -- src/global/local.rs:315-318
  | .directMode => do
    match ← g.reset with
    | (.unit, g) => pure (.unit, { g with enabled := false })
    | (r, g) => pure (r, g)
  | .write x b => pure (.unit, { g with w := { g.w with mem := setBytes g.w.mem x 1 (fun _ => b) } })

/-- What happens when an `UnsafeGlobalBlinkAlloc` goes out of scope: its `BlinkAlloc` is dropped (src/local.rs:93-105); there
is no `Drop` of its own. -/
def GS.drop (g : GS) : Except Fault GS := do
  let (_, g) ← g.inner .resetFinal
  pure g

end Blink
