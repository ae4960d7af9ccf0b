import Verif.Model.Global
import Verif.Spec.Client
/-
  Specification vocabulary for a global allocator with two modes: what the program owns, which calls it may make (the
  contract of `core::alloc::GlobalAlloc` plus the documented rules on modes), histories.
  Phrased in terms of calls and responses only.
-/
namespace Blink

/-- The block a successful request for `l` yields in `GlobalAlloc`: a pointer to `l.size` bytes. -/
def granted (p : Nat) (l : Layout) : Owned := ⟨p, l.size, l.size, l.align⟩

/-- What the program knows: the mode it selected last, and the blocks it obtained in either mode and did not deallocate. -/
structure GBook where
  blinkMode : Bool
  blink     : List Owned
  direct    : List Owned

/-- A new global allocator is in direct mode; nothing is owned. -/
def GBook.empty : GBook := ⟨false, [], []⟩

/-- The blocks that were obtained in the current mode. -/
def GBook.cur (K : GBook) : List Owned := if K.blinkMode then K.blink else K.direct

/-- All blocks. -/
def GBook.all (K : GBook) : List Owned := K.blink ++ K.direct

/-- A block is obtained in the current mode. -/
def GBook.add (K : GBook) (b : Owned) : GBook :=
  if K.blinkMode then { K with blink := b :: K.blink } else { K with direct := b :: K.direct }

/-- A block obtained in the current mode is given up. -/
def GBook.del (K : GBook) (b : Owned) : GBook :=
  if K.blinkMode then { K with blink := K.blink.erase b } else { K with direct := K.direct.erase b }

/-- `b` is the block at `p`, obtained with layout `l`. -/
def Owned.Is (b : Owned) (p : Nat) (l : Layout) : Prop := b.addr = p ∧ b.size = l.size ∧ b.align = l.align

/-- The contract of `GlobalAlloc`: layouts are not empty; `dealloc` and `realloc` name a block obtained from this allocator, with
its layout. The contract of the modes: a block is deallocated or reallocated in the mode it was obtained in. -/
inductive GLegal (K : GBook) : GOp → Prop
  | alloc {l} (h : l.Valid) (hz : 0 < l.size) : GLegal K (.alloc l)
  | allocZeroed {l} (h : l.Valid) (hz : 0 < l.size) : GLegal K (.allocZeroed l)
  | dealloc {b p l} (hb : b ∈ K.cur) (hi : b.Is p l) : GLegal K (.dealloc p l)
  | realloc {b p l n} (hb : b ∈ K.cur) (hi : b.Is p l) (hz : 0 < n) : GLegal K (.realloc p l n)
  | reset : GLegal K .reset
  | blinkMode : GLegal K .blinkMode
  | directMode : GLegal K .directMode
  | write {b x v} (hb : b ∈ K.all) (hx : b.Has x) : GLegal K (.write x v)

/-- What the program knows after a call with a given response. -/
inductive GAfter (K : GBook) : GOp → GResp → GBook → Prop
  | allocOk {l p} (hp : p ≠ 0) : GAfter K (.alloc l) (.ptr p) (K.add (granted p l))
  | allocNull {l} : GAfter K (.alloc l) (.ptr 0) K
  | zeroedOk {l p} (hp : p ≠ 0) : GAfter K (.allocZeroed l) (.ptr p) (K.add (granted p l))
  | zeroedNull {l} : GAfter K (.allocZeroed l) (.ptr 0) K
  | dealloc {b p l} (hb : b ∈ K.cur) (hi : b.Is p l) : GAfter K (.dealloc p l) .unit (K.del b)
  | reallocOk {b p l n q} (hb : b ∈ K.cur) (hi : b.Is p l) (hq : q ≠ 0) :
      GAfter K (.realloc p l n) (.ptr q) ((K.del b).add (granted q ⟨n, l.align⟩))
  | reallocNull {p l n} : GAfter K (.realloc p l n) (.ptr 0) K
  | reset : GAfter K .reset .unit { K with blink := [] }
  | resetPanic : GAfter K .reset .panicked K
  | blinkMode : GAfter K .blinkMode .unit { K with blinkMode := true }
  | directMode : GAfter K .directMode .unit { K with blink := [], blinkMode := false }
  | directPanic : GAfter K .directMode .panicked K
  | write {x v} : GAfter K (.write x v) .unit K

/-- After this call with this response, the program does not own `b` any longer. -/
def GivesUp (K : GBook) : GOp → GResp → Owned → Prop
  | .dealloc p _, _, b => b.addr = p
  | .realloc p _ _, .ptr q, b => q ≠ 0 ∧ b.addr = p
  | .reset, .unit, b => b ∈ K.blink
  | .directMode, .unit, b => b ∈ K.blink
  | _, _, _ => False

/-- Fault `e` in call `op` is the underlying allocator's: it answered a request with a block that violates the `Allocator`
contract. In `grow` and `shrink` the new block may overlap the old one. -/
def GBad (g : GS) (op : GOp) (e : Fault) : Prop :=
  match op with
  | .realloc p l _ =>
    BadAnswer (if g.enabled then g.w else { g.w with held := g.w.held.eraseP (fun b => b.fits p l) }) e
  | _ => BadAnswer g.w e

/-- The call was passed on to the underlying allocator, as it is: the same layout, once, and its answer is returned. Nothing else
was asked of the underlying allocator (newest event first in `dlog`; `w.log` is the log of the `BlinkAlloc`). -/
def Forwarded (op : GOp) (r : GResp) (g g' : GS) : Prop :=
  g'.a = g.a ∧ g'.w.log = g.w.log ∧
  match op with
  | .alloc l | .allocZeroed l =>
    (g.w.oracle g.w.calls = none ∧ r = .ptr 0 ∧ g'.dlog = .refused l :: g.dlog) ∨
    ∃ s, g.w.oracle g.w.calls = some s ∧ s.addr ≠ 0 ∧ r = .ptr s.addr ∧ g'.dlog = .alloc l s :: g.dlog
  | .dealloc p l => r = .unit ∧ g'.dlog = .dealloc p l :: g.dlog
  | .realloc p l n =>
    (g.w.oracle g.w.calls = none ∧ r = .ptr 0 ∧ g'.dlog = .refused ⟨n, l.align⟩ :: g.dlog) ∨
    ∃ s, g.w.oracle g.w.calls = some s ∧ s.addr ≠ 0 ∧ r = .ptr s.addr ∧
      g'.dlog = .alloc ⟨n, l.align⟩ s :: .dealloc p l :: g.dlog
  | _ => True

/-- A history of legal calls. -/
inductive GRun (g0 : GS) (K0 : GBook) : List (GOp × GResp) → GS → GBook → Prop
  | nil : GRun g0 K0 [] g0 K0
  | snoc {tr g K op r g' K'} (h : GRun g0 K0 tr g K) (hl : GLegal K op) (hs : gstep g op = .ok (r, g')) (ha : GAfter K op r K') :
      GRun g0 K0 (tr ++ [(op, r)]) g' K'

/-- A freshly created global allocator (src/global/local.rs:186-195 `new_in`, 227-236 `with_chunk_size_in`) in a sane world. -/
structure GStart (g : GS) : Prop where
  enabled : g.enabled = false
  zero : g.allocations = 0
  blink : Start ⟨g.w, g.a⟩
  dlog : g.dlog = []

/-- `g` is reachable from the fresh `g0` by a history of legal calls; the program's book is `K`. -/
def GReach (g0 g : GS) (K : GBook) : Prop := GStart g0 ∧ ∃ tr, GRun g0 GBook.empty tr g K

end Blink
