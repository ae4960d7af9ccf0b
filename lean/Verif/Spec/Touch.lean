import Verif.Spec.Sync
/-
  What it means for a step to touch, or to write, a byte of memory, phrased by what can be observed of the step.
-/
namespace Blink

/-- The world with another byte at `x`. -/
def World.poke (w : World) (x : Nat) (v : Byte) : World := { w with mem := fun y => if y = x then v else w.mem y }

/-- The system with another byte at `x`. -/
def SS.poke (s : SS) (x : Nat) (v : Byte) : SS := { s with w := s.w.poke x v }

/-- The outcome of a step, with another byte at `x`. -/
def pokeRes (x : Nat) (v : Byte) : Except Fault (Option (Option Resp × SS)) → Except Fault (Option (Option Resp × SS))
  | .ok (some (r, s)) => .ok (some (r, s.poke x v))
  | o => o

/-- The step reads or writes the byte at `x`: it makes a difference whether another byte is put there before the step or
after it. -/
def Touches (s : SS) (a : Act) (x : Nat) : Prop := ∃ v, sstep (s.poke x v) a ≠ pokeRes x v (sstep s a)

/-- The step writes the byte at `x`: some byte put there before the step is not there after it. (A store of exactly what the same
step has read from there does not count; the steps of the model contain none.) -/
def Writes (s : SS) (a : Act) (x : Nat) : Prop := ∃ v r s', sstep (s.poke x v) a = .ok (some (r, s')) ∧ s'.w.mem x ≠ v

/-- The system with another pointer in `Inner::root` (src/arena/sync.rs:6). -/
def SS.reroot (s : SS) (v : Nat) : SS := { s with root := v }

/-- The outcome of a step, with another pointer in `Inner::root`. -/
def rerootRes (v : Nat) : Except Fault (Option (Option Resp × SS)) → Except Fault (Option (Option Resp × SS))
  | .ok (some (r, s)) => .ok (some (r, s.reroot v))
  | o => o

/-- The step reads or writes `Inner::root`. -/
def TouchesRoot (s : SS) (a : Act) : Prop := ∃ v, sstep (s.reroot v) a ≠ rerootRes v (sstep s a)

/-- The step writes `Inner::root`. -/
def WritesRoot (s : SS) (a : Act) : Prop := ∃ v r s', sstep (s.reroot v) a = .ok (some (r, s')) ∧ s'.root ≠ v

/-- `x` lies in memory held from the underlying allocator. -/
def World.Holds (w : World) (x : Nat) : Prop := ∃ B ∈ w.held, B.addr ≤ x ∧ x < B.addr + B.len

end Blink
