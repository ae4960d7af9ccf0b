import Verif.Model.ProxyZero
import Verif.Spec.Proxy
import Verif.Spec.SyncZero
/-
  Specification vocabulary for users of proxies who also call `allocate_zeroed` and `grow_zeroed`: as `Spec/Proxy.lean`, a zeroed call being one
  call with one response.
-/
namespace Blink

/-- What the callers know: what they knew before (`PBook`), and for every proxy the zeroed call being executed, the block handed over to it, and
the contents of memory at the moment it was made. -/
structure ZPBook where
  k     : PBook
  zbusy : Nat → Option (ZJob × Option Owned)
  snap  : Nat → Nat → Byte

/-- Nothing owned, nobody inside, no proxy. -/
def ZPBook.empty : ZPBook := ⟨PBook.empty, fun _ => none, fun _ _ => .uninit⟩

/-- The contract of each call (as `PLegal`; a thread executes one call at a time; for `grow_zeroed` the new layout may not be smaller). -/
inductive ZPLegal (K : ZPBook) : ZPAct → Prop
  | base {a} (h : PLegal K.k a) (hp : ∀ i, a.proxy = some i → K.zbusy i = none)
      (hc : ∀ t c, a = .shared (.call t c) → K.zbusy t = none) : ZPLegal K (.base a)
  | zeroed {i l} (h : K.k.Ready i) (hz : K.zbusy i = none) (hl : l.Modest) : ZPLegal K (.zcall i (.zeroed l))
  | growZeroed {i b p old new} (h : K.k.Ready i) (hz : K.zbusy i = none) (hb : b ∈ K.k.led i) (hf : b.Fits p old) (hl : new.Modest)
      (hs : old.size ≤ new.size) : ZPLegal K (.zcall i (.growZeroed p old new))
  | zgo {i} : ZPLegal K (.zgo i)

/-- The action is a step of identity `i`. -/
def ZPAct.Runs (a : ZPAct) (i : Nat) : Prop := a = .zgo i ∨ ∃ ch, a = .base (.shared (.go i ch))

/-- Proxy `i` is given a zeroed call together with the block `ob`, its caller keeping the blocks `left`; it comes back at once (`some r`) or not (`none`). `m` is the
memory before. -/
def ZPBook.enter (K : ZPBook) (m : Nat → Byte) (i : Nat) (left : List Owned) (j : ZJob) (ob : Option Owned) : Option Resp → ZPBook
  | some r => { K with k := { K.k with led := put K.k.led i (zgets (.zeroed j) ob r ++ left) } }
  | none => { k := { K.k with led := put K.k.led i left }, zbusy := put K.zbusy i (some (j, ob)), snap := put K.snap i m }

/-- How the book changes. `m` is the memory before the step. -/
inductive ZPAfter (m : Nat → Byte) (K : ZPBook) : ZPAct → Option Resp → ZPBook → Prop
  | base {a r k} (h : PAfter m K.k a r k) (hz : ∀ t ch, a = .shared (.go t ch) → K.zbusy t = none) : ZPAfter m K (.base a) r { K with k := k }
  | inside {a i} (ha : a.Runs i) (hb : K.zbusy i ≠ none) : ZPAfter m K a none K
  | ret {a i j ob r} (ha : a.Runs i) (hb : K.zbusy i = some (j, ob)) : ZPAfter m K a (some r)
      { K with k := { K.k with led := put K.k.led i (zgets (.zeroed j) ob r ++ K.k.led i) }, zbusy := put K.zbusy i none }
  | zeroed {i l r} : ZPAfter m K (.zcall i (.zeroed l)) r (K.enter m i (K.k.led i) (.zeroed l) none r)
  | growZeroed {i b p old new r} (hb : b ∈ K.k.led i) (hf : b.Fits p old) :
      ZPAfter m K (.zcall i (.growZeroed p old new)) r (K.enter m i ((K.k.led i).erase b) (.growZeroed p old new) (some b) r)

/-- A history of the whole system: any schedule, any number of proxies. -/
inductive ZPRun (z0 : ZPS) (K0 : ZPBook) : List (ZPAct × Option Resp) → ZPS → ZPBook → Prop
  | nil : ZPRun z0 K0 [] z0 K0
  | snoc {tr z K a r z' K'} (h : ZPRun z0 K0 tr z K) (hl : ZPLegal K a) (hs : zpstep z a = .ok (some (r, z')))
      (ha : ZPAfter z.p.s.w.mem K a r K') : ZPRun z0 K0 (tr ++ [(a, r)]) z' K'

/-- `z` is reachable from the fresh state `p0`, with book `K`. -/
def ZPReach (p0 : PS) (z : ZPS) (K : ZPBook) : Prop := PStart p0 ∧ ∃ tr, ZPRun (ZPS.start p0) ZPBook.empty tr z K

/-- Blocks obtained through proxy `i` and not given up, including one handed over to a call in progress. -/
def ZPBook.blocks (K : ZPBook) (i : Nat) : List Owned := ((K.zbusy i).bind (·.2)).toList ++ K.k.blocks i

/-- The step the thread using proxy `i` makes next, nothing failing spuriously. -/
def ZPS.nextOf (z : ZPS) (i : Nat) : ZPAct :=
  match z.zpcs i with
  | .zero .. => .zgo i
  | .copy .. => .zgo i
  | _ => .base (.shared (.go i fresh))

/-- Let the thread using proxy `i` make up to `n` steps in a row, until its call returns. -/
def zpsolo : Nat → ZPS → Nat → Except Fault (Option (Resp × ZPS))
  | 0, _, _ => .ok none
  | n + 1, z, i =>
    match zpstep z (z.nextOf i) with
    | .error e => .error e
    | .ok none => .ok none
    | .ok (some (some r, z')) => .ok (some (r, z'))
    | .ok (some (none, z')) => zpsolo n z' i

end Blink
