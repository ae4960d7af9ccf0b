import Verif.Model.GlobalSync
import Verif.Spec.Global
import Verif.Spec.Sync
/-
  Specification vocabulary for several threads using one global allocator with two modes: who owns what, which calls are legal,
  histories. Phrased in terms of calls and responses only, except that memory is looked at when a call starts.
-/
namespace Blink

/-- What the program knows: its mode and blocks (see `GBook`), for every thread the call it is executing together with the block
it handed over to that call, and the contents of memory at the moment that call was made. -/
structure GSBook extends GBook where
  busy : Nat → Option (GCall × Option Owned)
  snap : Nat → Nat → Byte

/-- Direct mode, nothing owned, nobody inside. -/
def GSBook.empty : GSBook := ⟨GBook.empty, fun _ => none, fun _ _ => .uninit⟩

/-- The contract of `GlobalAlloc` and of the modes (see `GLegal`). A thread makes one call at a time; whoever resets or switches
modes has exclusive access. -/
inductive GSLegal (K : GSBook) : GAct → Prop
  | alloc {t l} (hb : K.busy t = none) (h : l.Valid) (hz : 0 < l.size) : GSLegal K (.call t (.alloc l))
  | allocZeroed {t l} (hb : K.busy t = none) (h : l.Valid) (hz : 0 < l.size) : GSLegal K (.call t (.allocZeroed l))
  | dealloc {t b p l} (hb : K.busy t = none) (ho : b ∈ K.cur) (hi : b.Is p l) : GSLegal K (.call t (.dealloc p l))
  | realloc {t b p l n} (hb : K.busy t = none) (ho : b ∈ K.cur) (hi : b.Is p l) (hz : 0 < n) : GSLegal K (.call t (.realloc p l n))
  | go {t ch} : GSLegal K (.go t ch)
  | write {b x v} (ho : b ∈ K.all) (hx : b.Has x) : GSLegal K (.write x v)
  | reset (hq : ∀ t, K.busy t = none) : GSLegal K .reset
  | blinkMode (hq : ∀ t, K.busy t = none) : GSLegal K .blinkMode
  | directMode (hq : ∀ t, K.busy t = none) : GSLegal K .directMode

/-- What the caller owns when a call comes back with a response. -/
def ggets : GCall → Option Owned → GResp → List Owned
  | .alloc l, _, .ptr p => if p = 0 then [] else [granted p l]
  | .allocZeroed l, _, .ptr p => if p = 0 then [] else [granted p l]
  | .realloc _ l n, some b, .ptr p => if p = 0 then [b] else [granted p ⟨n, l.align⟩]
  | _, _, _ => []

/-- Blocks are obtained in the current mode. -/
def GBook.addL (K : GBook) (bs : List Owned) : GBook :=
  if K.blinkMode then { K with blink := bs ++ K.blink } else { K with direct := bs ++ K.direct }

/-- How the book changes. `m` is the memory before the step. -/
inductive GSAfter (m : Nat → Byte) (K : GSBook) : GAct → Option GResp → GSBook → Prop
  | alloc {t l} : GSAfter m K (.call t (.alloc l)) none
      { K with busy := put K.busy t (some (.alloc l, none)), snap := put K.snap t m }
  | allocZeroed {t l} : GSAfter m K (.call t (.allocZeroed l)) none
      { K with busy := put K.busy t (some (.allocZeroed l, none)), snap := put K.snap t m }
  | dealloc {t b p l} (ho : b ∈ K.cur) (hi : b.Is p l) : GSAfter m K (.call t (.dealloc p l)) none
      { toGBook := K.del b, busy := put K.busy t (some (.dealloc p l, some b)), snap := put K.snap t m }
  | realloc {t b p l n} (ho : b ∈ K.cur) (hi : b.Is p l) : GSAfter m K (.call t (.realloc p l n)) none
      { toGBook := K.del b, busy := put K.busy t (some (.realloc p l n, some b)), snap := put K.snap t m }
  | inside {t ch} : GSAfter m K (.go t ch) none K
  | ret {t ch c ob r} (hb : K.busy t = some (c, ob)) : GSAfter m K (.go t ch) (some r)
      { K with toGBook := K.addL (ggets c ob r), busy := put K.busy t none }
  | write {x v} : GSAfter m K (.write x v) (some .unit) K
  | reset : GSAfter m K .reset (some .unit) { K with blink := [] }
  | resetPanic : GSAfter m K .reset (some .panicked) K
  | blinkMode : GSAfter m K .blinkMode (some .unit) { K with blinkMode := true }
  | directMode : GSAfter m K .directMode (some .unit) { K with blink := [], blinkMode := false }
  | directPanic : GSAfter m K .directMode (some .panicked) K

/-- A history of the whole system: any schedule of any number of threads. -/
inductive GSRun (g0 : GSS) (K0 : GSBook) : List (GAct × Option GResp) → GSS → GSBook → Prop
  | nil : GSRun g0 K0 [] g0 K0
  | snoc {tr g K a r g' K'} (h : GSRun g0 K0 tr g K) (hl : GSLegal K a) (hs : gsstep g a = .ok (some (r, g')))
      (ha : GSAfter g.s.w.mem K a r K') : GSRun g0 K0 (tr ++ [(a, r)]) g' K'

/-- A freshly created global allocator (src/global/sync.rs:169-178 `new_in`, 200-209 `with_chunk_size_in`) in a sane world. -/
structure GSStart (g : GSS) : Prop where
  enabled : g.enabled = false
  zero : g.allocations = 0
  blink : SStart g.s
  dlog : g.dlog = []
  pcs : ∀ t, g.pcs t = .idle

/-- `g` is reachable from the fresh `g0` by some history; the program's book is `K`. -/
def GSReach (g0 g : GSS) (K : GSBook) : Prop := GSStart g0 ∧ ∃ tr, GSRun g0 GSBook.empty tr g K

/-- Fault `e` in action `a` is the underlying allocator's: it answered a request with a block that violates the `Allocator`
contract. In `grow` and `shrink` the new block may overlap the old one. -/
def GSBad (g : GSS) (K : GSBook) (a : GAct) (e : Fault) : Prop :=
  BadAnswer g.s.w e ∨
  ∃ t ch p l n b, a = .go t ch ∧ K.blinkMode = false ∧ K.busy t = some (.realloc p l n, b) ∧
    BadAnswer { g.s.w with held := g.s.w.held.eraseP (fun b => b.fits p l) } e

/-- The step passes the call `c` on to the underlying allocator, as it is: the same layout, once, and its answer is returned. Nothing
else was asked of the underlying allocator (newest event first in `dlog`; `s.w.log` is the log of the `SyncBlinkAlloc`). -/
def SForwarded (c : GCall) (r : GResp) (g g' : GSS) : Prop :=
  g'.s.root = g.s.root ∧ g'.s.w.log = g.s.w.log ∧
  match c with
  | .alloc l | .allocZeroed l =>
    (g.s.w.oracle g.s.w.calls = none ∧ r = .ptr 0 ∧ g'.dlog = .refused l :: g.dlog) ∨
    ∃ s, g.s.w.oracle g.s.w.calls = some s ∧ s.addr ≠ 0 ∧ r = .ptr s.addr ∧ g'.dlog = .alloc l s :: g.dlog
  | .dealloc p l => r = .unit ∧ g'.dlog = .dealloc p l :: g.dlog
  | .realloc p l n =>
    (g.s.w.oracle g.s.w.calls = none ∧ r = .ptr 0 ∧ g'.dlog = .refused ⟨n, l.align⟩ :: g.dlog) ∨
    ∃ s, g.s.w.oracle g.s.w.calls = some s ∧ s.addr ≠ 0 ∧ r = .ptr s.addr ∧
      g'.dlog = .alloc ⟨n, l.align⟩ s :: .dealloc p l :: g.dlog

/-- Let thread `t` make up to `n` steps in a row, until its call returns. -/
def gsolo : Nat → GSS → Nat → Except Fault (Option (GResp × GSS))
  | 0, _, _ => .ok none
  | n + 1, g, t =>
    match ggo g t fresh with
    | .error e => .error e
    | .ok none => .ok none
    | .ok (some (some r, g')) => .ok (some (r, g'))
    | .ok (some (none, g')) => gsolo n g' t

end Blink
