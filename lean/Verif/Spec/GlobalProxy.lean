import Verif.Model.GlobalProxy
import Verif.Spec.GlobalSync
import Verif.Spec.Proxy
/-
  Specification vocabulary for a `GlobalBlinkAlloc` used through `GlobalAlloc` and through proxies made by `local()`: who owns what,
  which calls are legal, histories. Phrased in terms of calls and responses only.
-/
namespace Blink

/-- What the program knows: the book of those who call the global allocator (see `GSBook`), which proxies exist, the blocks obtained
through each of them, and the call each of them is executing together with the block handed over to it (see `PBook`). -/
structure GPBook extends GSBook where
  live  : Nat → Bool
  led   : Nat → List Owned
  pbusy : Nat → Option (PCall × Option Owned)

/-- Direct mode, nothing owned, nobody inside, no proxy. -/
def GPBook.empty : GPBook := ⟨GSBook.empty, fun _ => false, fun _ => [], fun _ => none⟩

/-- What concerns proxies only. -/
def GPBook.px (K : GPBook) : PBook := ⟨Book.empty, K.live, K.led, K.pbusy⟩

/-- Blocks obtained through proxy `i` and not given up, including the one a `resize` in progress was given. -/
def GPBook.blocks (K : GPBook) (i : Nat) : List Owned := K.px.blocks i

/-- Something done to or by a proxy. (`update_max_local_alloc` of the `SyncBlinkAlloc` cannot be reached from outside.) -/
def PAct.atProxy : PAct → Bool
  | .shared (.go _ _) => true
  | .shared _ => false
  | .updateMax _ _ => false
  | _ => true

/-- The contract of each call. `GlobalAlloc` is called in blink mode (in direct mode it has nothing to do with the `SyncBlinkAlloc`;
those calls are not covered here). Whoever resets or leaves blink mode has exclusive access, and there are no proxies ("Proxies and
allocations are dropped", src/global/sync.rs:333). `local()` and the calls of proxies are allowed in either mode. -/
inductive GPLegal (K : GPBook) : GPAct → Prop
  | call {t c} (h : GSLegal K.toGSBook (.call t c)) (hm : K.blinkMode = true) (hp : K.pbusy t = none) : GPLegal K (.glob (.call t c))
  | go {t ch} : GPLegal K (.glob (.go t ch))
  | write {x v} (h : GSLegal K.toGSBook (.write x v)) : GPLegal K (.glob (.write x v))
  | pwrite {i b x v} (hb : b ∈ K.led i) (hx : b.Has x) : GPLegal K (.glob (.write x v))
  | reset (h : GSLegal K.toGSBook .reset) (hn : ∀ i, K.live i = false) : GPLegal K (.glob .reset)
  | blinkMode (h : GSLegal K.toGSBook .blinkMode) : GPLegal K (.glob .blinkMode)
  | directMode (h : GSLegal K.toGSBook .directMode) (hn : ∀ i, K.live i = false) : GPLegal K (.glob .directMode)
  | proxy {a} (ha : a.atProxy = true) (h : PLegal K.px a) (hb : ∀ i, a.proxy = some i → K.busy i = none) : GPLegal K (.proxy a)

/-- How the book changes. `m` is the memory before the step. -/
inductive GPAfter (m : Nat → Byte) (K : GPBook) : GPAct → Option GPResp → GPBook → Prop
  | glob {a r G} (h : GSAfter m K.toGSBook a r G) : GPAfter m K (.glob a) (r.map .glob) { K with toGSBook := G }
  | proxy {a r P} (h : PAfter m K.px a r P) : GPAfter m K (.proxy a) (r.map .proxy)
      { K with live := P.live, led := P.led, pbusy := P.pbusy }

/-- A history of the whole system: any schedule, any number of threads and proxies. -/
inductive GPRun (x0 : GPS) (K0 : GPBook) : List (GPAct × Option GPResp) → GPS → GPBook → Prop
  | nil : GPRun x0 K0 [] x0 K0
  | snoc {tr x K a r x' K'} (h : GPRun x0 K0 tr x K) (hl : GPLegal K a) (hs : gpstep x a = .ok (some (r, x')))
      (ha : GPAfter x.g.s.w.mem K a r K') : GPRun x0 K0 (tr ++ [(a, r)]) x' K'

/-- The step `a` of the global allocator is, seen from its `SyncBlinkAlloc`, the step `a'`: a call begins; a step inside a call, or a store
of zeros into a block just obtained; a store of the owner of a block; a reset. -/
inductive GAct.Inner : GAct → Act → Prop
  | call {t c i} : GAct.Inner (.call t c) (.call t i)
  | go {t ch} : GAct.Inner (.go t ch) (.go t ch)
  | zero {t ch x} : GAct.Inner (.go t ch) (.write x (.raw 0))
  | write {x v} : GAct.Inner (.write x v) (.write x v)
  | reset : GAct.Inner .reset .resetUnchecked
  | directMode : GAct.Inner .directMode .resetUnchecked

/-- The history `tr` of the whole, seen from the `SyncBlinkAlloc` and its proxies, is `trp`: what happens at proxies is the same; a step at
the global allocator is one of the `SyncBlinkAlloc` used directly, or none. -/
inductive Shadow : List (GPAct × Option GPResp) → List (PAct × Option Resp) → Prop
  | nil : Shadow [] []
  | silent {tr trp a r} (h : Shadow tr trp) : Shadow (tr ++ [(.glob a, r)]) trp
  | glob {tr trp a r a' r'} (h : Shadow tr trp) (hi : GAct.Inner a a') : Shadow (tr ++ [(.glob a, r)]) (trp ++ [(.shared a', r')])
  | proxy {tr trp a r} (h : Shadow tr trp) : Shadow (tr ++ [(.proxy a, r.map .proxy)]) (trp ++ [(a, r)])

/-- A freshly created global allocator (src/global/sync.rs:169-178, 200-209) in a sane world with addresses below 2^61, without
proxies. -/
structure GPStart (x : GPS) : Prop where
  glob : GSStart x.g
  top : x.g.s.w.top ≤ HUGE
  hist : x.hist = [0]
  view : ∀ t, x.view t = 0
  px : ∀ i, x.px i = none

/-- `x` is reachable from the fresh `x0` by some history; the program's book is `K`. -/
def GPReach (x0 x : GPS) (K : GPBook) : Prop := GPStart x0 ∧ ∃ tr, GPRun x0 GPBook.empty tr x K

/-- Carry out a list of actions, legal or not, and collect the responses. -/
def gpsteps (x : GPS) : List GPAct → Option (List (Option GPResp) × GPS)
  | [] => some ([], x)
  | a :: as =>
    match gpstep x a with
    | .ok (some (r, x')) => (gpsteps x' as).map fun y => (r :: y.1, y.2)
    | _ => none

end Blink
