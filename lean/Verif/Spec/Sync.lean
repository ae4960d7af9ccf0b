import Verif.Model.Sync
import Verif.Spec.Client
/-
  Specification vocabulary for several threads sharing one `SyncBlinkAlloc`: who owns what, which calls are legal, histories.
  Phrased in terms of calls and responses only, except that memory is looked at when a call starts.
-/
namespace Blink

/-- What the callers know: the blocks they own, for every thread the call it is executing together with the block it
handed over to that call, and the contents of memory at the moment that call was made. -/
structure Book where
  owned : List Owned
  busy  : Nat → Option (Call × Option Owned)
  snap  : Nat → Nat → Byte

/-- Nothing owned, nobody inside. -/
def Book.empty : Book := ⟨[], fun _ => none, fun _ _ => .uninit⟩

/-- Change one entry of a table. -/
def put {α} (f : Nat → α) (t : Nat) (a : α) : Nat → α := fun u => if u = t then a else f u

/-- The contract of each call. A thread makes one call at a time; whoever resets has exclusive access (for
`reset_unchecked` this is the caller's promise). -/
inductive SLegal (K : Book) : Act → Prop
  | allocate {t l} (hb : K.busy t = none) (h : l.Valid) : SLegal K (.call t (.allocate l))
  | resize {t b p old new} (hb : K.busy t = none) (ho : b ∈ K.owned) (hf : b.Fits p old) (h : new.Valid) :
      SLegal K (.call t (.resize p old new))
  | deallocate {t b p n} (hb : K.busy t = none) (ho : b ∈ K.owned) (hf : b.addr = p ∧ b.size ≤ n ∧ n ≤ b.len) :
      SLegal K (.call t (.deallocate p n))
  | go {t ch} : SLegal K (.go t ch)
  | write {b x v} (ho : b ∈ K.owned) (hx : b.Has x) : SLegal K (.write x v)
  | reset (h : ∀ t, K.busy t = none) : SLegal K .reset
  | resetUnchecked (h : ∀ t, K.busy t = none) : SLegal K .resetUnchecked
  | resetFinal (h : ∀ t, K.busy t = none) : SLegal K .resetFinal

/-- Actions that take the owned blocks away. -/
def Act.resets : Act → Bool
  | .reset | .resetUnchecked | .resetFinal => true
  | _ => false

/-- What the caller owns when a call comes back with a response. -/
def gets : Call → Option Owned → Resp → List Owned
  | .allocate l, _, .block s => [Owned.of s l]
  | .resize _ _ new, _, .block s => [Owned.of s new]
  | .resize _ _ _, some b, .err => [b]
  | _, _, _ => []

/-- How the book changes. `m` is the memory before the step. -/
inductive SAfter (m : Nat → Byte) (K : Book) : Act → Option Resp → Book → Prop
  | allocate {t l} : SAfter m K (.call t (.allocate l)) none
      { K with busy := put K.busy t (some (.allocate l, none)), snap := put K.snap t m }
  | resize {t b p old new} (ho : b ∈ K.owned) (hf : b.Fits p old) : SAfter m K (.call t (.resize p old new)) none
      { owned := K.owned.erase b, busy := put K.busy t (some (.resize p old new, some b)), snap := put K.snap t m }
  | deallocate {t b p n} (ho : b ∈ K.owned) (hf : b.addr = p ∧ b.size ≤ n ∧ n ≤ b.len) :
      SAfter m K (.call t (.deallocate p n)) none
      { owned := K.owned.erase b, busy := put K.busy t (some (.deallocate p n, some b)), snap := put K.snap t m }
  | inside {t ch} : SAfter m K (.go t ch) none K
  | ret {t ch c ob r} (hb : K.busy t = some (c, ob)) : SAfter m K (.go t ch) (some r)
      { K with owned := gets c ob r ++ K.owned, busy := put K.busy t none }
  | write {x v} : SAfter m K (.write x v) none K
  | reset : SAfter m K .reset none { K with owned := [] }
  | resetUnchecked : SAfter m K .resetUnchecked none { K with owned := [] }
  | resetFinal : SAfter m K .resetFinal none { K with owned := [] }

/-- A history of the whole system: any schedule of any number of threads. -/
inductive SRun (s0 : SS) (K0 : Book) : List (Act × Option Resp) → SS → Book → Prop
  | nil : SRun s0 K0 [] s0 K0
  | snoc {tr s K a r s' K'} (h : SRun s0 K0 tr s K) (hl : SLegal K a) (hs : sstep s a = .ok (some (r, s')))
      (ha : SAfter s.w.mem K a r K') : SRun s0 K0 (tr ++ [(a, r)]) s' K'

/-- A freshly created `SyncBlinkAlloc` (src/sync.rs:155-161, 175-181) in a sane world. -/
structure SStart (s : SS) : Prop where
  root : s.root = 0
  readers : s.readers = []
  writer : s.writer = none
  seen : s.seen = []
  pcs : ∀ t, s.pcs t = .idle
  world : HeldOK s.w
  dbg : DbgOK s.w s.minChunk
  log : s.w.log = []

/-- `s` is reachable from the fresh state `s0`, with book `K`. -/
def SReach (s0 s : SS) (K : Book) : Prop := SStart s0 ∧ ∃ tr, SRun s0 Book.empty tr s K

/-- The layout of the block a call asks for. -/
def Call.wants : Call → Option Layout
  | .allocate l => some l
  | .resize _ _ new => some new
  | .deallocate .. => none

/-- Space a step may at most take from the current chunk, as `Op.cost`: only calls count. -/
def Act.cost : Act → Nat
  | .call _ (.allocate l) => l.size + l.align - 1
  | .call _ (.resize _ _ new) => new.size + new.align - 1
  | _ => 0

/-- Total cost of the calls of a history of threads. -/
def scostOf (tr : List (Act × Option Resp)) : Nat := (tr.map (fun x => x.1.cost)).sum

/-! ### Undisturbed execution -/

/-- The newest value is read and the exchange does not fail spuriously. -/
def fresh : Choice := ⟨0, false⟩

/-- Most bytes a call may have to copy. -/
def Call.bytes : Call → Nat
  | .resize _ old new => min new.size old.size
  | _ => 0

/-- The value of the cursor of the current chunk, as stored in memory. -/
def SS.cursor (s : SS) : Option Nat := decodeWord s.w.mem s.root


/-- Nobody but `t` holds the lock. -/
def SS.Free (s : SS) (t : Nat) : Prop := (∀ u ∈ s.readers, u = t) ∧ (∀ u, s.writer = some u → u = t)

/-- Let thread `t` make up to `n` steps in a row, until its call returns. -/
def solo : Nat → SS → Nat → Except Fault (Option (Resp × SS))
  | 0, _, _ => .ok none
  | n + 1, s, t =>
    match goStep s t fresh with
    | .error e => .error e
    | .ok none => .ok none
    | .ok (some (some r, s')) => .ok (some (r, s'))
    | .ok (some (none, s')) => solo n s' t

/-- The call on `BlinkAlloc` that corresponds to a call on `SyncBlinkAlloc`. -/
def Call.op : Call → Op
  | .allocate l => .allocate l
  | .resize p old new => .resize p old new
  | .deallocate p n => .deallocate p n

/-- The `BlinkAlloc` in the same state: same chunks, same minimal chunk size, same memory and underlying allocator. -/
def SS.toLocal (s : SS) : St := ⟨s.w, ⟨s.root, s.minChunk⟩⟩

/-- The current chunk, if there is one, has no place left for `l` (unless that place would end beyond the address space). -/
def SS.NoRoom (s : SS) (l : Layout) : Prop :=
  ∀ pos e, s.toLocal.room = some (pos, e) → ∀ q, pos ≤ q → q % l.align = 0 → q + l.size ≤ e → USIZE < pos + l.size + l.align

/-- A history in which every call is executed without interleaving, by whichever thread: calls, stores of the owners, and
resets, with the bookkeeping used for `BlinkAlloc`. -/
inductive CallRun (s0 : SS) : List (Op × Resp) → SS → List Owned → Prop
  | nil : CallRun s0 [] s0 []
  | call {tr s L t c s1 n r s' L'} (h : CallRun s0 tr s L) (hl : Legal L (Call.op c))
      (hc : sstep s (.call t c) = .ok (some (none, s1))) (hs : solo n s1 t = .ok (some (r, s'))) (ha : After L c.op r L') :
      CallRun s0 (tr ++ [(c.op, r)]) s' L'
  | write {tr s L x v s'} (h : CallRun s0 tr s L) (hl : Legal L (.write x v)) (hs : sstep s (.write x v) = .ok (some (none, s'))) :
      CallRun s0 (tr ++ [(.write x v, .unit)]) s' L
  | reset {tr s L s'} (h : CallRun s0 tr s L) (hs : sstep s .reset = .ok (some (none, s'))) :
      CallRun s0 (tr ++ [(.reset, .unit)]) s' []
  | resetUnchecked {tr s L s'} (h : CallRun s0 tr s L) (hs : sstep s .resetUnchecked = .ok (some (none, s'))) :
      CallRun s0 (tr ++ [(.reset, .unit)]) s' []
  | resetFinal {tr s L s'} (h : CallRun s0 tr s L) (hs : sstep s .resetFinal = .ok (some (none, s'))) :
      CallRun s0 (tr ++ [(.resetFinal, .unit)]) s' []

end Blink
