import Verif.Spec.Proxy
/-
  Vocabulary for the progress of calls through proxies.
-/
namespace Blink

/-- Identity `t` executes a call, of the shared allocator or of its proxy. -/
def PBook.Inside (K : PBook) (t : Nat) : Prop := K.direct.busy t ≠ none ∨ K.pbusy t ≠ none

/-- Let identity `t` make up to `n` undisturbed steps in a row, until its call returns. -/
def psolo : Nat → PS → Nat → Except Fault (Option (Resp × PS))
  | 0, _, _ => .ok none
  | n + 1, ps, t =>
    match pstep ps (.shared (.go t fresh)) with
    | .error e => .error e
    | .ok none => .ok none
    | .ok (some (some r, ps')) => .ok (some (r, ps'))
    | .ok (some (none, ps')) => psolo n ps' t

end Blink
