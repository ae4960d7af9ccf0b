import Verif.Model.SyncZero
import Verif.Spec.Sync
/-
  Specification vocabulary for threads that also call `allocate_zeroed` and `grow_zeroed` of a shared `SyncBlinkAlloc`: as `Spec/Sync.lean`, a
  zeroed call being one call with one response.
-/
namespace Blink

/-- A call as its caller sees it. -/
inductive ZCall where
  | plain (c : Call)
  | zeroed (j : ZJob)
deriving DecidableEq, Repr

/-- What the callers know: the blocks they own, for every thread the call it is executing together with the block it handed over to that
call, and the contents of memory at the moment a zeroed call was made. -/
structure ZBook where
  owned : List Owned
  busy  : Nat → Option (ZCall × Option Owned)
  snap  : Nat → Nat → Byte

/-- Nothing owned, nobody inside. -/
def ZBook.empty : ZBook := ⟨[], fun _ => none, fun _ _ => .uninit⟩

/-- The contract of each call (as `SLegal`; for `grow_zeroed` the new layout may not be smaller). -/
inductive ZLegal (K : ZBook) : ZAct → Prop
  | allocate {t l} (hb : K.busy t = none) (h : l.Valid) : ZLegal K (.base (.call t (.allocate l)))
  | resize {t b p old new} (hb : K.busy t = none) (ho : b ∈ K.owned) (hf : b.Fits p old) (h : new.Valid) :
      ZLegal K (.base (.call t (.resize p old new)))
  | deallocate {t b p n} (hb : K.busy t = none) (ho : b ∈ K.owned) (hf : b.addr = p ∧ b.size ≤ n ∧ n ≤ b.len) :
      ZLegal K (.base (.call t (.deallocate p n)))
  | go {t ch} : ZLegal K (.base (.go t ch))
  | write {b x v} (ho : b ∈ K.owned) (hx : b.Has x) : ZLegal K (.base (.write x v))
  | resets {a} (ha : a.resets = true) (h : ∀ t, K.busy t = none) : ZLegal K (.base a)
  | zeroed {t l} (hb : K.busy t = none) (h : l.Valid) : ZLegal K (.zcall t (.zeroed l))
  | growZeroed {t b p old new} (hb : K.busy t = none) (ho : b ∈ K.owned) (hf : b.Fits p old) (h : new.Valid) (hs : old.size ≤ new.size) :
      ZLegal K (.zcall t (.growZeroed p old new))
  | zgo {t} : ZLegal K (.zgo t)

/-- What the caller owns when a call comes back with a response. -/
def zgets : ZCall → Option Owned → Resp → List Owned
  | .plain c, ob, r => gets c ob r
  | .zeroed (.zeroed l), _, .block s => [Owned.of s l]
  | .zeroed (.growZeroed _ _ new), _, .block s => [Owned.of s new]
  | .zeroed (.growZeroed _ _ _), some b, .err => [b]
  | _, _, _ => []

/-- The thread whose step the action is. -/
def ZAct.runs : ZAct → Option Nat
  | .base (.go t _) => some t
  | .zgo t => some t
  | _ => none

/-- How the book changes. `m` is the memory before the step. -/
inductive ZAfter (m : Nat → Byte) (K : ZBook) : ZAct → Option Resp → ZBook → Prop
  | allocate {t l} : ZAfter m K (.base (.call t (.allocate l))) none { K with busy := put K.busy t (some (.plain (.allocate l), none)) }
  | resize {t b p old new} (ho : b ∈ K.owned) (hf : b.Fits p old) : ZAfter m K (.base (.call t (.resize p old new))) none
      { K with owned := K.owned.erase b, busy := put K.busy t (some (.plain (.resize p old new), some b)) }
  | deallocate {t b p n} (ho : b ∈ K.owned) (hf : b.addr = p ∧ b.size ≤ n ∧ n ≤ b.len) : ZAfter m K (.base (.call t (.deallocate p n))) none
      { K with owned := K.owned.erase b, busy := put K.busy t (some (.plain (.deallocate p n), some b)) }
  | zeroed {t l} : ZAfter m K (.zcall t (.zeroed l)) none
      { K with busy := put K.busy t (some (.zeroed (.zeroed l), none)), snap := put K.snap t m }
  | growZeroed {t b p old new} (ho : b ∈ K.owned) (hf : b.Fits p old) : ZAfter m K (.zcall t (.growZeroed p old new)) none
      { owned := K.owned.erase b, busy := put K.busy t (some (.zeroed (.growZeroed p old new), some b)), snap := put K.snap t m }
  | inside {a t} (ha : a.runs = some t) : ZAfter m K a none K
  | ret {a t c ob r} (ha : a.runs = some t) (hb : K.busy t = some (c, ob)) : ZAfter m K a (some r)
      { K with owned := zgets c ob r ++ K.owned, busy := put K.busy t none }
  | write {x v} : ZAfter m K (.base (.write x v)) none K
  | resets {a} (ha : a.resets = true) : ZAfter m K (.base a) none { K with owned := [] }

/-- A history of the whole system: any schedule of any number of threads. -/
inductive ZRun (z0 : ZSS) (K0 : ZBook) : List (ZAct × Option Resp) → ZSS → ZBook → Prop
  | nil : ZRun z0 K0 [] z0 K0
  | snoc {tr z K a r z' K'} (h : ZRun z0 K0 tr z K) (hl : ZLegal K a) (hs : zstep z a = .ok (some (r, z')))
      (ha : ZAfter z.s.w.mem K a r K') : ZRun z0 K0 (tr ++ [(a, r)]) z' K'

/-- `z` is reachable from the freshly created `s0` (src/sync.rs:155-181), with book `K`. -/
def ZReach (s0 : SS) (z : ZSS) (K : ZBook) : Prop := SStart s0 ∧ ∃ tr, ZRun (ZSS.start s0) ZBook.empty tr z K

/-- The step thread `t` makes next, nothing failing spuriously. -/
def ZSS.nextOf (z : ZSS) (t : Nat) : ZAct :=
  match z.zpcs t with
  | .zero .. => .zgo t
  | .copy .. => .zgo t
  | _ => .base (.go t fresh)

/-- Let thread `t` make up to `n` steps in a row, until its call returns. -/
def zsolo : Nat → ZSS → Nat → Except Fault (Option (Resp × ZSS))
  | 0, _, _ => .ok none
  | n + 1, z, t =>
    match zstep z (z.nextOf t) with
    | .error e => .error e
    | .ok none => .ok none
    | .ok (some (some r, z')) => .ok (some (r, z'))
    | .ok (some (none, z')) => zsolo n z' t

end Blink
