import Verif.Spec.Proxy
import Verif.Spec.Touch
/-
  What it means for a step of the system with proxies to touch, or to write, a byte of memory (as in `Verif/Spec/Touch.lean`).
-/
namespace Blink

/-- The system with another byte at `x`. -/
def PS.poke (ps : PS) (x : Nat) (v : Byte) : PS := { ps with s := ps.s.poke x v }

/-- The outcome of a step, with another byte at `x`. -/
def ppokeRes (x : Nat) (v : Byte) : PRes → PRes
  | .ok (some (r, ps)) => .ok (some (r, ps.poke x v))
  | o => o

/-- The step reads or writes the byte at `x`: it makes a difference whether another byte is put there before the step or
after it. -/
def PTouches (ps : PS) (a : PAct) (x : Nat) : Prop := ∃ v, pstep (ps.poke x v) a ≠ ppokeRes x v (pstep ps a)

/-- The step writes the byte at `x`: some byte put there before the step is not there after it. -/
def PWrites (ps : PS) (a : PAct) (x : Nat) : Prop := ∃ v r ps', pstep (ps.poke x v) a = .ok (some (r, ps')) ∧ ps'.s.w.mem x ≠ v

/-- Who executes code of the allocator in this step: the caller of a proxy, or somebody inside the shared allocator. (Starting
a direct call, stores of owners, resets of the shared allocator and accesses to `max_local_alloc` are not in this list.) -/
def PAct.by_ : PAct → Option Nat
  | .shared (.go t _) => some t
  | a => a.proxy

end Blink
