import Verif.Spec.SyncZero
import Verif.Spec.Contract
/-
  Specification vocabulary: threads that also call `allocate_zeroed` and `grow_zeroed`, using an allocator whose calls happen at one moment.
  As `LinRun` of `Spec/Contract.lean`, with all calls of the documentation.
-/
namespace Blink

/-- The call of the documentation. -/
def ZCall.op : ZCall → Op
  | .plain c => c.op
  | .zeroed (.zeroed l) => .allocateZeroed l
  | .zeroed (.growZeroed p old new) => .growZeroed p old new

/-- The call an action makes, and the thread making it. -/
def ZAct.calls : ZAct → Option (Nat × ZCall)
  | .base (.call t c) => some (t, .plain c)
  | .zcall t j => some (t, .zeroed j)
  | _ => none

/-- A thread using an allocator whose calls happen at one moment: outside, having called, or having its answer. -/
inductive ZAbsThr where
  | idle
  | called (c : ZCall)
  | done (r : Resp)

/-- A history of threads using an allocator whose calls happen at one moment (`acts`) somewhere between call and return. What threads do
inside a call (`inside`) means nothing here. -/
inductive ZLinRun (σ0 : AbsState) : List (ZAct × Option Resp) → AbsState → (Nat → ZAbsThr) → Prop
  | nil : ZLinRun σ0 [] σ0 (fun _ => .idle)
  | call {tr σ T a t c} (h : ZLinRun σ0 tr σ T) (ha : a.calls = some (t, c)) (ht : T t = .idle) :
      ZLinRun σ0 (tr ++ [(a, none)]) σ (put T t (.called c))
  | acts {tr σ T t c r σ'} (h : ZLinRun σ0 tr σ T) (ht : T t = .called c) (hs : AbsStep σ c.op r σ') : ZLinRun σ0 tr σ' (put T t (.done r))
  | inside {tr σ T a t} (h : ZLinRun σ0 tr σ T) (ha : a.runs = some t) : ZLinRun σ0 (tr ++ [(a, none)]) σ T
  | ret {tr σ T a t r} (h : ZLinRun σ0 tr σ T) (ha : a.runs = some t) (ht : T t = .done r) :
      ZLinRun σ0 (tr ++ [(a, some r)]) σ (put T t .idle)
  | write {tr σ T x v σ'} (h : ZLinRun σ0 tr σ T) (hs : AbsStep σ (.write x v) .unit σ') : ZLinRun σ0 (tr ++ [(.base (.write x v), none)]) σ' T
  | reset {tr σ T a σ'} (h : ZLinRun σ0 tr σ T) (ha : a.resets = true) (hq : ∀ t, T t = .idle) (hs : AbsStep σ .reset .unit σ') :
      ZLinRun σ0 (tr ++ [(.base a, none)]) σ' T

end Blink
