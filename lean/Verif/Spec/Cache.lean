import Verif.Model.Cache
import Verif.Spec.Sync
/-
  Specification vocabulary for threads sharing a `BlinkAllocCache`: who owns which allocator, histories, and the atomic FIFO
  queue that the cache is compared with.
-/
namespace Blink

/-- What the callers know: the allocators they own, and the call every thread is executing. -/
structure CBook where
  out  : List Nat
  busy : Nat → Option CCall

/-- The contract: a thread makes one call at a time, and pushes only an allocator it owns (passing it moves it). There are
`T` threads. -/
inductive CLegal (T : Nat) (K : CBook) : CAct → Prop
  | pop {t} (ht : t < T) (hb : K.busy t = none) : CLegal T K (.call t .pop)
  | push {t b} (ht : t < T) (hb : K.busy t = none) (ho : b ∈ K.out) : CLegal T K (.call t (.push b))
  | go {t} : CLegal T K (.go t)

/-- How the book changes. -/
inductive CAfter (K : CBook) : CAct → Option CRet → CBook → Prop
  | pop {t} : CAfter K (.call t .pop) none { K with busy := put K.busy t (some .pop) }
  | push {t b} : CAfter K (.call t (.push b)) none { out := K.out.erase b, busy := put K.busy t (some (.push b)) }
  | inside {t} : CAfter K (.go t) none K
  | done {t} : CAfter K (.go t) (some .unit) { K with busy := put K.busy t none }
  | empty {t} : CAfter K (.go t) (some (.got none)) { K with busy := put K.busy t none }
  | got {t b} : CAfter K (.go t) (some (.got (some b))) { out := b :: K.out, busy := put K.busy t none }

/-- A history: any schedule of the `T` threads, starting with an empty cache and callers owning the allocators `U`. -/
inductive CRun (T : Nat) (U : List Nat) : List (CAct × Option CRet) → CS → CBook → Prop
  | nil : CRun T U [] CS.new ⟨U, fun _ => none⟩
  | snoc {tr s K a r s' K'} (h : CRun T U tr s K) (hl : CLegal T K a) (hs : cstep s a = .ok (some (r, s')))
      (ha : CAfter K a r K') : CRun T U (tr ++ [(a, r)]) s' K'

/-! ### The atomic queue -/

/-- Status of a thread with respect to an atomic object: no call, call made but not yet effective, call effective with a
result that is still to be delivered. -/
inductive QStat where
  | idle
  | called (c : CCall)
  | done (r : CRet)
deriving DecidableEq, Repr

/-- An atomic FIFO queue shared by threads. -/
structure Queue where
  items : List Nat
  stat  : Nat → QStat

/-- The queue before anything happened. -/
def Queue.init : Queue := ⟨[], fun _ => .idle⟩

/-- Steps of the atomic queue. A call takes effect in one indivisible step between its start and its end: `push` appends at
the back; `pop` removes the front, or finds the queue empty. The second argument is what the outside sees: the start of a call, its
end, or nothing. -/
inductive QStep : Queue → Option (CAct × Option CRet) → Queue → Prop
  | call {q t c} (h : q.stat t = .idle) : QStep q (some (.call t c, none)) { q with stat := put q.stat t (.called c) }
  | push {q t b} (h : q.stat t = .called (.push b)) :
      QStep q none { items := q.items ++ [b], stat := put q.stat t (.done .unit) }
  | pop {q t b l} (h : q.stat t = .called .pop) (hq : q.items = b :: l) :
      QStep q none { items := l, stat := put q.stat t (.done (.got (some b))) }
  | none {q t} (h : q.stat t = .called .pop) (hq : q.items = []) :
      QStep q none { q with stat := put q.stat t (.done (.got none)) }
  | ret {q t r} (h : q.stat t = .done r) : QStep q (some (.go t, some r)) { q with stat := put q.stat t .idle }

/-- Histories of the atomic queue, recording what the outside sees. -/
inductive QRun : List (CAct × Option CRet) → Queue → Prop
  | nil : QRun [] Queue.init
  | quiet {tr q q'} (h : QRun tr q) (hs : QStep q none q') : QRun tr q'
  | seen {tr q q' e} (h : QRun tr q) (hs : QStep q (some e) q') : QRun (tr ++ [e]) q'

/-- What the outside sees of a history: calls and returns. -/
def visible (tr : List (CAct × Option CRet)) : List (CAct × Option CRet) :=
  tr.filter fun e => match e with
    | (.call _ _, _) => true
    | (.go _, some _) => true
    | (.go _, none) => false

/-- How often a history pushes the allocator `b`. -/
def pushes (b : Nat) (tr : List (CAct × Option CRet)) : Nat :=
  tr.countP fun e => match e.1 with
    | .call _ (.push c) => decide (c = b)
    | _ => false

/-- How often a `pop` in the history returned the allocator `b`. -/
def pops (b : Nat) (tr : List (CAct × Option CRet)) : Nat :=
  tr.countP fun e => decide (e.2 = some (.got (some b)))

end Blink
