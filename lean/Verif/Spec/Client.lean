import Verif.Model.Local
import Verif.Spec.World
import Verif.Spec.BaseLog
/-
  Specification vocabulary: what the callers of one allocator own, which calls they may make, and histories.
  Everything here is phrased in terms of calls and responses only.
-/
namespace Blink

/-- A block some caller owns: the address and length it was given and the layout it asked for. -/
structure Owned where
  addr  : Nat
  len   : Nat
  size  : Nat
  align : Nat
deriving DecidableEq, Repr

/-- Byte `x` belongs to the block. -/
def Owned.Has (b : Owned) (x : Nat) : Prop := b.addr ≤ x ∧ x < b.addr + b.len

/-- Two blocks have no byte in common. -/
def Owned.Apart (b c : Owned) : Prop := ∀ x, ¬ (b.Has x ∧ c.Has x)

/-- `Allocator` documentation, "memory fitting": the layout `l` fits the block at `p`. -/
def Owned.Fits (b : Owned) (p : Nat) (l : Layout) : Prop :=
  b.addr = p ∧ b.align = l.align ∧ b.size ≤ l.size ∧ l.size ≤ b.len

/-- The block a successful request for `l` yields. -/
def Owned.of (s : Slice) (l : Layout) : Owned := ⟨s.addr, s.len, l.size, l.align⟩

/-- The documented contract of each call for callers owning the blocks `L`. -/
inductive Legal (L : List Owned) : Op → Prop
  | allocate {l} (h : l.Valid) : Legal L (.allocate l)
  | allocateZeroed {l} (h : l.Valid) : Legal L (.allocateZeroed l)
  | resize {b p old new} (hb : b ∈ L) (hf : b.Fits p old) (h : new.Valid) : Legal L (.resize p old new)
  | growZeroed {b p old new} (hb : b ∈ L) (hf : b.Fits p old) (h : new.Valid) (hs : old.size ≤ new.size) :
      Legal L (.growZeroed p old new)
  | deallocate {b p n} (hb : b ∈ L) (hf : b.addr = p ∧ b.size ≤ n ∧ n ≤ b.len) : Legal L (.deallocate p n)
  | reset : Legal L .reset
  | resetFinal : Legal L .resetFinal
  | write {b x v} (hb : b ∈ L) (hx : b.Has x) : Legal L (.write x v)

/-- What the callers own after a call with a given response. -/
inductive After (L : List Owned) : Op → Resp → List Owned → Prop
  | allocOk {l s} : After L (.allocate l) (.block s) (Owned.of s l :: L)
  | allocErr {l} : After L (.allocate l) .err L
  | zeroedOk {l s} : After L (.allocateZeroed l) (.block s) (Owned.of s l :: L)
  | zeroedErr {l} : After L (.allocateZeroed l) .err L
  | resizeOk {b p old new s} (hb : b ∈ L) (hf : b.Fits p old) :
      After L (.resize p old new) (.block s) (Owned.of s new :: L.erase b)
  | resizeErr {p old new} : After L (.resize p old new) .err L
  | growZeroedOk {b p old new s} (hb : b ∈ L) (hf : b.Fits p old) :
      After L (.growZeroed p old new) (.block s) (Owned.of s new :: L.erase b)
  | growZeroedErr {p old new} : After L (.growZeroed p old new) .err L
  | deallocate {b p n} (hb : b ∈ L) (hf : b.addr = p ∧ b.size ≤ n ∧ n ≤ b.len) : After L (.deallocate p n) .unit (L.erase b)
  | reset : After L .reset .unit []
  | resetFinal : After L .resetFinal .unit []
  | write {x v} : After L (.write x v) .unit L

/-- A history of legal calls from a state in which the callers own `L`. The list records calls and responses, oldest first. -/
inductive Run (s0 : St) (L0 : List Owned) : List (Op × Resp) → St → List Owned → Prop
  | nil : Run s0 L0 [] s0 L0
  | snoc {tr s L op r s' L'} (h : Run s0 L0 tr s L) (hl : Legal L op) (hs : step s op = .ok (r, s')) (ha : After L op r L') :
      Run s0 L0 (tr ++ [(op, r)]) s' L'

/-- A freshly created allocator: no chunk yet, arbitrary minimal chunk size `m`, in a sane world in which others may
already hold blocks of the underlying allocator. -/
structure Start (s : St) : Prop where
  root : s.a.root = 0
  world : HeldOK s.w
  dbg : DbgOK s.w s.a.minChunk
  log : s.w.log = []

/-- `s` is reachable from the fresh state `s0` by a history of legal calls after which the callers own `L`. -/
def Reach (s0 s : St) (L : List Owned) : Prop := Start s0 ∧ ∃ tr, Run s0 [] tr s L

end Blink

namespace Blink

/-- The unused part `[pos, end)` of the current chunk, as recorded in the chunk's header. -/
def St.room (s : St) : Option (Nat × Nat) :=
  if s.a.root = 0 then none
  else match decodeWord s.w.mem s.a.root, decodeWord s.w.mem (s.a.root + 8) with
    | some p, some e => some (p, e)
    | _, _ => none

end Blink

namespace Blink

/-- Space a call may at most take from the current chunk: the requested size plus the worst possible padding. -/
def Op.cost : Op → Nat
  | .allocate l => l.size + l.align - 1
  | .allocateZeroed l => l.size + l.align - 1
  | .resize _ _ new => new.size + new.align - 1
  | .growZeroed _ _ new => new.size + new.align - 1
  | _ => 0

/-- Total cost of the calls of a history. -/
def costOf (tr : List (Op × Resp)) : Nat := (tr.map (fun x => x.1.cost)).sum

/-- The call is neither `reset` nor `reset_final`. -/
def Op.NoReset (op : Op) : Prop := op ≠ .reset ∧ op ≠ .resetFinal

/-- Cost since the last reset, and the largest cost between two resets so far, after one more call. -/
def roundStep (p : Nat × Nat) (x : Op × Resp) : Nat × Nat :=
  match x.1 with
  | .reset => (0, p.2)
  | .resetFinal => (0, p.2)
  | op => (p.1 + op.cost, max p.2 (p.1 + op.cost))

/-- The largest total cost of the calls between two consecutive resets of a history (or before the first, or after the last);
here `reset_final` counts as a reset too. -/
def peakRound (tr : List (Op × Resp)) : Nat := (tr.foldl roundStep (0, 0)).2

/-- Sum of the sizes that were asked for. -/
def totalReq (bs : List BaseBlk) : Nat := (bs.map (·.req.size)).sum

/-- Between `s` and `s'` nothing was asked of, or given back to, the underlying allocator. -/
def Quiet (s s' : St) : Prop := s'.w.calls = s.w.calls ∧ s'.w.log = s.w.log ∧ s'.w.held = s.w.held

/-- The layout a call asks for. -/
def Op.layout? : Op → Option Layout
  | .allocate l => some l
  | .allocateZeroed l => some l
  | .resize _ _ new => some new
  | .growZeroed _ _ new => some new
  | _ => none

/-- Number of requests the underlying allocator granted. -/
def grants : List BaseEvent → Nat
  | [] => 0
  | .alloc _ _ :: t => grants t + 1
  | _ :: t => grants t

/-- Cost of the calls since the last `reset`, and the largest such value ever reached. -/
def segment (p : Nat × Nat) (x : Op × Resp) : Nat × Nat :=
  let cur := if x.1 = .reset then 0 else p.1 + x.1.cost
  (cur, max p.2 cur)

/-- The largest cost of the calls made between two consecutive resets. -/
def peakCost (tr : List (Op × Resp)) : Nat := (tr.foldl segment (0, 0)).2

/-- Fibonacci numbers 0, 1, 1, 2, 3, 5, ... -/
def fib : Nat → Nat
  | 0 => 0
  | 1 => 1
  | n + 2 => fib n + fib (n + 1)

end Blink
