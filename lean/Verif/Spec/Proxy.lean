import Verif.Model.Proxy
import Verif.Spec.Sync
/-
  Specification vocabulary for one `SyncBlinkAlloc` used directly and through any number of `LocalBlinkAlloc` proxies.
  Phrased in terms of calls and responses.
-/
namespace Blink

/-- The calls of a proxy that may have to wait for the shared allocator. -/
inductive PCall where
  | allocate (l : Layout)
  | resize (ptr : Nat) (old new : Layout)
  | resetUnchecked
deriving DecidableEq, Repr

/-- What the callers know: the book of those who use the shared allocator directly, which proxies exist, the blocks obtained
through each of them, and the call each of them is executing together with the block handed over to it. -/
structure PBook where
  direct : Book
  live   : Nat → Bool
  led    : Nat → List Owned
  pbusy  : Nat → Option (PCall × Option Owned)

/-- Nothing owned, nobody inside, no proxy. -/
def PBook.empty : PBook := ⟨Book.empty, fun _ => false, fun _ => [], fun _ => none⟩

/-- Proxy `i` exists and is not executing a call, nor does its thread execute one of the shared allocator. -/
def PBook.Ready (K : PBook) (i : Nat) : Prop := K.live i = true ∧ K.pbusy i = none ∧ K.direct.busy i = none

/-- Largest request allowed through a proxy, and largest hint. Beyond, `alloc_chunk` builds an invalid `Layout`
(`C26_huge_request_faults`). -/
def HUGE : Nat := 2305843009213693952   -- 2^61

/-- A layout that may be asked for through a proxy. -/
def Layout.Modest (l : Layout) : Prop := l.Valid ∧ l.size + l.align ≤ HUGE

/-- The action resets the shared allocator. -/
def Act.isReset (a : Act) : Prop := a = .reset ∨ a = .resetUnchecked ∨ a = .resetFinal

/-- The contract of each call. The shared allocator is only reset when there is no proxy (they borrow it). -/
inductive PLegal (K : PBook) : PAct → Prop
  | call {t c} (h : SLegal K.direct (.call t c)) (hp : K.pbusy t = none) : PLegal K (.shared (.call t c))
  | go {t ch} : PLegal K (.shared (.go t ch))
  | write {x v} (h : SLegal K.direct (.write x v)) : PLegal K (.shared (.write x v))
  | pwrite {i b x v} (hb : b ∈ K.led i) (hx : b.Has x) : PLegal K (.shared (.write x v))
  | sreset {a} (ha : a.isReset) (h : SLegal K.direct a) (hn : ∀ i, K.live i = false) : PLegal K (.shared a)
  | spawn {i k} (h : K.live i = false) : PLegal K (.spawn i k)
  | allocate {i l} (h : K.Ready i) (hl : l.Modest) : PLegal K (.allocate i l)
  | resize {i b p old new} (h : K.Ready i) (hb : b ∈ K.led i) (hf : b.Fits p old) (hl : new.Modest) :
      PLegal K (.resize i p old new)
  | deallocate {i b p n} (h : K.Ready i) (hb : b ∈ K.led i) (hf : b.addr = p ∧ b.size ≤ n ∧ n ≤ b.len) :
      PLegal K (.deallocate i p n)
  | reset {i} (h : K.Ready i) : PLegal K (.reset i)
  | resetUnchecked {i} (h : K.Ready i) : PLegal K (.resetUnchecked i)
  | drop {i} (h : K.Ready i) : PLegal K (.drop i)
  | updateMax {t v} (h : v ≤ HUGE) : PLegal K (.updateMax t v)
  | sync {t u} : PLegal K (.sync t u)

/-- The proxy an action is a call of. -/
def PAct.proxy : PAct → Option Nat
  | .allocate i _ => some i
  | .resize i _ _ _ => some i
  | .deallocate i _ _ => some i
  | .reset i => some i
  | .resetUnchecked i => some i
  | .drop i => some i
  | _ => none

/-- What the caller of a proxy gets when its call comes back with a response. -/
def pgets : PCall → Option Owned → Resp → List Owned
  | .allocate l, _, .block s => [Owned.of s l]
  | .resize _ _ new, _, .block s => [Owned.of s new]
  | .resize _ _ _, some b, .err => [b]
  | _, _, _ => []

/-- The book when proxy `i` is given call `c` together with the blocks `left` it keeps and `ob`, and comes back at once (`some r`) or has
to wait (`none`). -/
def PBook.enter (K : PBook) (i : Nat) (left : List Owned) (c : PCall) (ob : Option Owned) : Option Resp → PBook
  | some r => { K with led := put K.led i (pgets c ob r ++ left) }
  | none => { K with led := put K.led i left, pbusy := put K.pbusy i (some (c, ob)) }

/-- How the book changes. `m` is the memory before the step. -/
inductive PAfter (m : Nat → Byte) (K : PBook) : PAct → Option Resp → PBook → Prop
  | direct {a r D} (h : SAfter m K.direct a r D) (hr : r = none ∨ ∀ t ch, a = .go t ch → K.pbusy t = none) :
      PAfter m K (.shared a) r { K with direct := D }
  | back {t ch c ob r} (hb : K.pbusy t = some (c, ob)) : PAfter m K (.shared (.go t ch)) (some r)
      { K with led := put K.led t (pgets c ob r ++ K.led t), pbusy := put K.pbusy t none }
  | spawn {i k} : PAfter m K (.spawn i k) none { K with live := put K.live i true }
  | allocate {i l r} : PAfter m K (.allocate i l) r (K.enter i (K.led i) (.allocate l) none r)
  | resize {i b p old new r} (hb : b ∈ K.led i) (hf : b.Fits p old) :
      PAfter m K (.resize i p old new) r (K.enter i ((K.led i).erase b) (.resize p old new) (some b) r)
  | deallocate {i b p n} (hb : b ∈ K.led i) (hf : b.addr = p ∧ b.size ≤ n ∧ n ≤ b.len) :
      PAfter m K (.deallocate i p n) (some .unit) { K with led := put K.led i ((K.led i).erase b) }
  | reset {i} : PAfter m K (.reset i) (some .unit) { K with led := put K.led i [] }
  | resetUnchecked {i r} : PAfter m K (.resetUnchecked i) r (K.enter i [] .resetUnchecked none r)
  | drop {i} : PAfter m K (.drop i) (some .unit) { K with live := put K.live i false, led := put K.led i [] }
  | updateMax {t v} : PAfter m K (.updateMax t v) none K
  | sync {t u} : PAfter m K (.sync t u) none K

/-- A history of the whole system: any schedule, any number of proxies. -/
inductive PRun (s0 : PS) (K0 : PBook) : List (PAct × Option Resp) → PS → PBook → Prop
  | nil : PRun s0 K0 [] s0 K0
  | snoc {tr s K a r s' K'} (h : PRun s0 K0 tr s K) (hl : PLegal K a) (hs : pstep s a = .ok (some (r, s')))
      (ha : PAfter s.s.w.mem K a r K') : PRun s0 K0 (tr ++ [(a, r)]) s' K'

/-- A freshly created `SyncBlinkAlloc` (src/sync.rs:155-161, 175-181) in a sane world with addresses
below 2^61, without proxies. -/
structure PStart (ps : PS) : Prop where
  shared : SStart ps.s
  top : ps.s.w.top ≤ HUGE
  hist : ps.hist = [0]
  view : ∀ t, ps.view t = 0
  px : ∀ i, ps.px i = none

/-- The step ends in the failure of `debug_assert!(len > size_of::<Self>())` (src/arena/mod.rs:232), in a debug build: a proxy created
when `max_local_alloc` was 0 (src/sync.rs:223), asked for zero bytes before anything else, was given a chunk of 32 bytes for it, all
taken by the header. -/
def PS.EmptyChunk (ps : PS) (a : PAct) (e : Fault) : Prop :=
  ps.s.w.debug = true ∧ e = .dbg "init_chunk: len > size_of::<Self>()" ∧
  ∃ i ch l, a = .shared (.go i ch) ∧ ps.px i = some ⟨⟨0, 0⟩, .alloc l⟩ ∧ l.size = 0 ∧ l.align ≤ 8

/-- The chunks of proxy `j`, newest first, each with address and length, after action `a` in state `ps`, if they were `L` before: the
block the shared allocator answers with becomes the newest chunk (src/arena/mod.rs:460-532), resets keep the newest (src/sync.rs:542-567, src/arena/mod.rs:535-579). -/
def PS.chunksAfter (ps : PS) (a : PAct) (j : Nat) (L : List (Nat × Nat)) : List (Nat × Nat) :=
  match a with
  | .reset i | .resetUnchecked i => if j = i then L.take 1 else L
  | .drop i => if j = i then [] else L
  | .shared (.go i ch) =>
    if j = i then
      match sstep ps.s (.go i ch), (ps.px i).map Proxy.pc with
      | .ok (some (some (.block b), _)), some (.alloc _) => (b.addr, b.len) :: L
      | .ok (some (some (.block b), _)), some (.resize _ _ _) => (b.addr, b.len) :: L
      | _, _ => L
    else L
  | _ => L

/-- `ps` is reachable from the fresh state `p0`, with book `K`. -/
def PReach (p0 ps : PS) (K : PBook) : Prop := PStart p0 ∧ ∃ tr, PRun p0 PBook.empty tr ps K

/-- After the history, identity `j` is known to have seen what `i` had seen before it. -/
inductive Knows : List (PAct × Option Resp) → Nat → Nat → Prop
  | self {i} : Knows [] i i
  | keep {tr i j x} (h : Knows tr i j) : Knows (tr ++ [x]) i j
  | sync {tr i t u r} (h : Knows tr i t) : Knows (tr ++ [(.sync t u, r)]) i u

/-- Capacity of the newest chunk of proxy `i`, 0 if it has none: the distance from the end of the header to the end recorded
in the header. -/
def PS.lastCap (ps : PS) (i : Nat) : Nat :=
  match ps.px i with
  | none => 0
  | some p => if p.a.root = 0 then 0 else (decodeWord ps.s.w.mem (p.a.root + 8)).getD 0 - (p.a.root + 32)

/-- Blocks obtained through proxy `i` and not given up, including the one a `resize` in progress was given. -/
def PBook.blocks (K : PBook) (i : Nat) : List Owned := ((K.pbusy i).bind (·.2)).toList ++ K.led i

/-- In the history, no call that proxy `i` is waiting in comes back. -/
def NotBack (i : Nat) (tr : List (PAct × Option Resp)) : Prop := ∀ ch r, (PAct.shared (.go i ch), some r) ∉ tr

end Blink
