import Verif.Spec.GlobalProxy
import Verif.Spec.Env
/-
  A `GlobalBlinkAlloc` used through `GlobalAlloc` in both modes and through proxies made by `local()`: as `Spec/GlobalProxy.lean`, with
  the calls of `GlobalAlloc` made in direct mode, also while proxies exist and are in use.
-/
namespace Blink

/-- The contract of each call. -/
inductive GDLegal (K : GPBook) : GPAct → Prop
  | covered {a} (h : GPLegal K a) : GDLegal K a
  | direct {t c} (h : GSLegal K.toGSBook (.call t c)) (hm : K.blinkMode = false) (hp : K.pbusy t = none) : GDLegal K (.glob (.call t c))

/-- A history of the whole system: any schedule, any number of threads and proxies, both modes, other users of the underlying allocator.
They hold the blocks `O0` in the beginning and `O` in the end. -/
inductive GDRun (x0 : GPS) (K0 : GPBook) (O0 : List BaseBlk) : List (GPAct × Option GPResp) → GPS → GPBook → List BaseBlk → Prop
  | nil : GDRun x0 K0 O0 [] x0 K0 O0
  | snoc {tr x K O a r x' K'} (h : GDRun x0 K0 O0 tr x K O) (hl : GDLegal K a) (hs : gpstep x a = .ok (some (r, x')))
      (ha : GPAfter x.g.s.w.mem K a r K') : GDRun x0 K0 O0 (tr ++ [(a, r)]) x' K' O
  | env {tr x K O O' w'} (h : GDRun x0 K0 O0 tr x K O) (he : EnvStep O x.g.s.w O' w') :
      GDRun x0 K0 O0 tr { x with g := { x.g with s := { x.g.s with w := w' } } } K O'

/-- `x` is reachable from the fresh `x0` by some history; the program's book is `K`; others hold the blocks `O`. -/
def GDReach (x0 x : GPS) (K : GPBook) (O : List BaseBlk) : Prop := GPStart x0 ∧ ∃ tr, GDRun x0 GPBook.empty x0.g.s.w.held tr x K O

/-- Something done to or by the global allocator itself that may be a direct call, or a store into a block obtained by one. -/
inductive GAct.MayBypass : GAct → Prop
  | call {t c} : GAct.MayBypass (.call t c)
  | go {t ch} : GAct.MayBypass (.go t ch)
  | write {x v} : GAct.MayBypass (.write x v)

/-- `tr'` is `tr` with some direct calls and stores left out. -/
inductive Less : List (GPAct × Option GPResp) → List (GPAct × Option GPResp) → Prop
  | nil : Less [] []
  | keep {tr tr' e} (h : Less tr tr') : Less (tr ++ [e]) (tr' ++ [e])
  | skip {tr tr' a r} (h : Less tr tr') (ha : a.MayBypass) : Less (tr ++ [(.glob a, r)]) tr'

/-- The fresh global allocator with an underlying allocator of its own, which gives the answers `o`. -/
def GPS.alone (x : GPS) (o : Nat → Option Slice) : GPS := { x with g := { x.g with s := { x.g.s with w := x.g.s.w.alone o } } }

/-- Fault `e` in the step `a` is the underlying allocator's: its answer breaks the contract of `Allocator`, or lies in memory it has given
away already. Or it is the assertion described at `PS.EmptyChunk`, in a debug build, on behalf of a proxy. -/
def GDExcuse (x : GPS) (K : GPBook) (a : GPAct) (e : Fault) : Prop :=
  (∃ l sl, e = .env l sl ∧ Hits x.g.s.w.held sl) ∨ (∃ a', a = .proxy a' ∧ x.ps.EmptyChunk a' e) ∨ BadAnswer x.g.s.w e ∨
  ∃ ga, a = .glob ga ∧ GSBad x.g K.toGSBook ga e

/-- The two books say the same, apart from what was done directly: the second knows nothing of blocks obtained directly or of calls in
direct mode. -/
structure SameBlink (K K1 : GPBook) : Prop where
  mode : K1.blinkMode = K.blinkMode
  blink : K1.blink = K.blink
  direct : K1.direct = []
  live : K1.live = K.live
  led : K1.led = K.led
  pbusy : K1.pbusy = K.pbusy
  busy : K1.busy = if K.blinkMode then K.busy else fun _ => none
  snap : K.blinkMode = true → ∀ t c b, K.busy t = some (c, some b) → ∀ x, b.Has x → K1.snap t x = K.snap t x

end Blink
