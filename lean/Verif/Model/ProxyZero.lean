import Verif.Model.Proxy
import Verif.Model.SyncZero
/-
  `allocate_zeroed` and `grow_zeroed` of `LocalBlinkAlloc`. Its `impl Allocator` (src/sync.rs:570-603) overrides neither, and the one for
  `&mut LocalBlinkAlloc` (605-643) forwards the first (614-617), so both are the default methods of `allocator_api2::alloc::Allocator` (their
  text is quoted in `Model/SyncZero.lean`), over the proxy's own `allocate` (src/sync.rs:476-483) and `deallocate` (529-535). They run in the
  thread that uses the proxy; everybody else may do anything while the proxy waits for the shared allocator, and between any two bytes written.
  The two calls made directly to the shared allocator are `Model/SyncZero.lean`; here direct calls are the plain ones.
-/
namespace Blink

/-- A `SyncBlinkAlloc` with its proxies (src/sync.rs:100-104, 451-454), and where in the default methods of each proxy its thread is. The place `ZPc.free` is
not used: `deallocate` of a proxy does not wait for anything. -/
structure ZPS where
  p    : PS
  zpcs : Nat → ZPc

/-- Nobody is in a default method (src/sync.rs:155-181). -/
def ZPS.start (p : PS) : ZPS := ⟨p, fun _ => .off⟩

/-- Move the thread using proxy `i` (no counterpart in the source: program counter bookkeeping). -/
def ZPS.setZ (z : ZPS) (i : Nat) (pc : ZPc) : ZPS := { z with zpcs := fun u => if u = i then pc else z.zpcs u }

/-- What can happen next: what could happen before, a call of a default method of proxy `i`, or a step in one (src/sync.rs:457-643). -/
inductive ZPAct where
  | base (a : PAct)
  | zcall (i : Nat) (j : ZJob)
  | zgo (i : Nat)
deriving DecidableEq, Repr

/-- Result of a step: `none` if it is not possible now (no counterpart in the source: bookkeeping). -/
abbrev ZPRes := Except Fault (Option (Option Resp × ZPS))

/-- The identity whose code makes the call (src/sync.rs:232-291 and 457-567): the thread is not in a default method then. -/
def PAct.maker : PAct → Option Nat
  | .shared (.call t _) => some t
  | .allocate i _ => some i
  | .resize i _ _ _ => some i
  | .deallocate i _ _ => some i
  | .reset i => some i
  | .resetUnchecked i => some i
  | .drop i => some i
  | _ => none

/-- Whoever makes the call is in no default method (a thread executes one thing at a time: src/sync.rs:444-454, proxies are not `Sync`). -/
def ZPS.may (z : ZPS) (a : PAct) : Bool :=
  match a.maker with
  | some i => decide (z.zpcs i = .off)
  | none => true

/-- `self.allocate(layout)?` (src/sync.rs:476-483) of the default `allocate_zeroed` has led to `p`: still waiting for the shared allocator, or a block, which is to be zeroed
now, or an error, which is passed on. -/
def ZPS.got (z : ZPS) (i : Nat) (j : ZJob) (p : PS) : Option Resp → Option Resp × ZPS
  | none => (none, { z with p := p }.setZ i (.alloc j))
  | some (.block b) => (none, { z with p := p }.setZ i (.zero j b 0))
  | some _ => (some .err, { z with p := p }.setZ i .off)

/-- The default method the action goes on with: the one whose `self.allocate` (src/sync.rs:476-483) waits for the shared allocator. -/
def ZPS.inside (z : ZPS) : PAct → Option (Nat × ZJob)
  | .shared (.go t _) =>
    match z.zpcs t with
    | .alloc j => some (t, j)
    | _ => none
  | _ => none

/-- The next step of the thread using proxy `i` in a default method, outside the proxy's own methods (library code reached through
src/sync.rs:570-643; the lines modelled are given at each constructor of `ZPc`), up to and including `self.deallocate` (529-535). -/
def zpgoStep (z : ZPS) (i : Nat) : ZPRes :=
  match z.zpcs i with
  | .zero j b k =>
    if k < b.len then do
      let ((), w) ← zeroByte (b.addr + k) z.p.s.w
      pure (some (none, { z with p := { z.p with s := { z.p.s with w := w } } }.setZ i (.zero j b (k + 1))))
    else
      match j with
      | .zeroed _ => pure (some (some (.block b), z.setZ i .off))
      | .growZeroed p old new => do
        let ((), _) ← require (old.size = 0 ∨ p + old.size ≤ b.addr ∨ b.addr + old.size ≤ p) "copy_nonoverlapping: overlap" z.p.s.w
        pure (some (none, z.setZ i (.copy p old new b 0)))
  | .copy p old new b k =>
    if k < old.size then do
      let ((), w) ← copyByte (p + k) (b.addr + k) z.p.s.w
      pure (some (none, { z with p := { z.p with s := { z.p.s with w := w } } }.setZ i (.copy p old new b (k + 1))))
    else do
      match ← pstep z.p (.deallocate i p old.size) with
      | none => pure none
      | some (_, p) => pure (some (some (.block b), { z with p := p }.setZ i .off))
  | _ => pure none

/-- One step of the whole system (src/sync.rs:221-226, 353-356, 457-643). A thread in a default method makes no other call. -/
def zpstep (z : ZPS) : ZPAct → ZPRes
  | .base a =>
    if z.may a then do
      match ← pstep z.p a with
      | none => pure none
      | some (r, p) =>
        match z.inside a with
        | some (i, j) => pure (some (z.got i j p r))
        | none => pure (some (r, { z with p := p }))
    else pure none
  | .zcall i j =>
    if z.zpcs i = .off then do
      let ((), _) ← (match j with
        | .zeroed _ => (pure () : M Unit)
        | .growZeroed _ old new => dassert (old.size ≤ new.size) "grow_zeroed: new_layout.size() >= old_layout.size()") z.p.s.w
      match ← pstep z.p (.allocate i j.layout) with
      | none => pure none
      | some (r, p) => pure (some (z.got i j p r))
    else pure none
  | .zgo i => zpgoStep z i

end Blink
