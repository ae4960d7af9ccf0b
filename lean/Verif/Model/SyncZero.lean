import Verif.Model.Sync
/-
  `allocate_zeroed` and `grow_zeroed` of `SyncBlinkAlloc`. Its `impl Allocator` (src/sync.rs:359-392) overrides neither, and the one for
  `&mut SyncBlinkAlloc` (394-432) forwards the first (404-406), so both are the default methods of `allocator_api2::alloc::Allocator`:

      allocate_zeroed(layout):   ptr = self.allocate(layout)?; write_bytes(ptr, 0, ptr.len()); Ok(ptr)
      grow_zeroed(ptr, old, new): debug_assert!(new.size() >= old.size()); new_ptr = self.allocate_zeroed(new)?;
                                  copy_nonoverlapping(ptr, new_ptr, old.size()); self.deallocate(ptr, old); Ok(new_ptr)

  They run in the calling thread between and after calls of `allocate` (src/sync.rs:232-243) and `deallocate` (282-291), holding no
  lock; other threads may do anything between any two bytes written.
-/
namespace Blink

/-- A call of one of the two default methods (reached through src/sync.rs:359-432). -/
inductive ZJob where
  | zeroed (l : Layout)
  | growZeroed (ptr : Nat) (old new : Layout)
deriving DecidableEq, Repr

/-- The layout passed to `self.allocate` (src/sync.rs:364-366). -/
def ZJob.layout : ZJob → Layout
  | .zeroed l => l
  | .growZeroed _ _ new => new

/-- Where a thread is in a default method (library code reached through src/sync.rs:359-432). -/
inductive ZPc where
  /-- In none. -/
  | off
  /-- Inside `self.allocate(layout)`. -/
  | alloc (j : ZJob)
  /-- In `write_bytes`, having zeroed `k` bytes. -/
  | zero (j : ZJob) (b : Slice) (k : Nat)
  /-- In `copy_nonoverlapping`, having copied `k` bytes. -/
  | copy (ptr : Nat) (old new : Layout) (b : Slice) (k : Nat)
  /-- Inside `self.deallocate(ptr, old_layout)`. -/
  | free (ptr : Nat) (old new : Layout) (b : Slice)
deriving DecidableEq, Repr

/-- A `SyncBlinkAlloc` (src/sync.rs:100-104) with the threads inside its methods and inside the default methods. -/
structure ZSS where
  s    : SS
  zpcs : Nat → ZPc

/-- Nobody is in a default method (src/sync.rs:155-181). -/
def ZSS.start (s : SS) : ZSS := ⟨s, fun _ => .off⟩

/-- Move thread `t` (no counterpart in the source: program counter bookkeeping). -/
def ZSS.setZ (z : ZSS) (t : Nat) (pc : ZPc) : ZSS := { z with zpcs := fun u => if u = t then pc else z.zpcs u }

/-- What can happen next: what could happen before (a call of a method of `SyncBlinkAlloc`, a step in one, a store of an owner, a reset), a
call of a default method, or a step in one (src/sync.rs:359-432). -/
inductive ZAct where
  | base (a : Act)
  | zcall (t : Nat) (j : ZJob)
  | zgo (t : Nat)
deriving DecidableEq, Repr

/-- Result of a step: `none` if it is not possible now (no counterpart in the source: bookkeeping). -/
abbrev ZRes := Except Fault (Option (Option Resp × ZSS))

/-- One byte of `write_bytes(0, len)` in the default `allocate_zeroed` (library; reached from src/sync.rs:404-406). -/
def zeroByte (x : Nat) : M Unit := fun w =>
  if w.accessible x 1 = true then .ok ((), { w with mem := setBytes w.mem x 1 (fun _ => .raw 0) })
  else .error (.ub "invalid write_bytes")

/-- Thread `t` makes a call of the methods at src/sync.rs:232-291 and is then at `pc` in the default method. -/
def ZSS.inner (z : ZSS) (t : Nat) (c : Call) (pc : ZPc) : ZRes := do
  match ← sstep z.s (.call t c) with
  | none => pure none
  | some (_, s) => pure (some (none, { z with s := s }.setZ t pc))

/-- A call of the methods at src/sync.rs:232-291 made by thread `t` came back: to the default method it is in, if it is in one. -/
def ZSS.back (z : ZSS) (t : Nat) (r : Resp) : Option Resp × ZSS :=
  match z.zpcs t, r with
  | .alloc j, .block b => (none, z.setZ t (.zero j b 0))
  | .alloc _, r => (some r, z.setZ t .off)
  | .free _ _ _ b, _ => (some (.block b), z.setZ t .off)
  | _, r => (some r, z)

/-- The next step of thread `t` in a default method, outside the methods of `SyncBlinkAlloc` (library code reached through
src/sync.rs:359-432; the lines modelled are given at each constructor of `ZPc`). -/
def zgoStep (z : ZSS) (t : Nat) : ZRes :=
  match z.zpcs t with
  | .zero j b k =>
    if k < b.len then do
      let ((), w) ← zeroByte (b.addr + k) z.s.w
      pure (some (none, { z with s := { z.s with w := w } }.setZ t (.zero j b (k + 1))))
    else
      match j with
      | .zeroed _ => pure (some (some (.block b), z.setZ t .off))
      | .growZeroed p old new => do
        let ((), _) ← require (old.size = 0 ∨ p + old.size ≤ b.addr ∨ b.addr + old.size ≤ p) "copy_nonoverlapping: overlap" z.s.w
        pure (some (none, z.setZ t (.copy p old new b 0)))
  | .copy p old new b k =>
    if k < old.size then do
      let ((), w) ← copyByte (p + k) (b.addr + k) z.s.w
      pure (some (none, { z with s := { z.s with w := w } }.setZ t (.copy p old new b (k + 1))))
    else z.inner t (.deallocate p old.size) (.free p old new b)
  | _ => pure none

/-- One step of the whole system. A thread in a default method makes no other call. -/
def zstep (z : ZSS) : ZAct → ZRes
  | .base (.call t c) => if z.zpcs t = .off then z.inner t c .off else pure none
  | .base (.go t ch) => do
    match ← sstep z.s (.go t ch) with
    | none => pure none
    | some (none, s) => pure (some (none, { z with s := s }))
    | some (some r, s) => pure (some (ZSS.back { z with s := s } t r))
  | .base a => do
    match ← sstep z.s a with
    | none => pure none
    | some (r, s) => pure (some (r, { z with s := s }))
  | .zcall t j =>
    if z.zpcs t = .off then
      match j with
      | .zeroed l => z.inner t (.allocate l) (.alloc j)
      | .growZeroed _ old new => do
        let ((), _) ← dassert (old.size ≤ new.size) "grow_zeroed: new_layout.size() >= old_layout.size()" z.s.w
        z.inner t (.allocate new) (.alloc j)
    else pure none
  | .zgo t => zgoStep z t

end Blink
