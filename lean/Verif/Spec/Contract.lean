import Verif.Spec.Sync
/-
  Specification vocabulary: the documented behaviour of an `Allocator`, as its callers see it, and what it means that threads use one
  as if their calls happened one at a time. Nothing here mentions chunks, cursors or locks.
-/
namespace Blink

/-- What the callers of an allocator know: the blocks in their hands and the contents of memory. -/
structure AbsState where
  owned : List Owned
  mem   : Nat → Byte

/-- The blocks `L` have the same contents in both memories. -/
def SameOn (L : List Owned) (m m' : Nat → Byte) : Prop := ∀ b ∈ L, ∀ x, b.Has x → m' x = m x

/-- The block `s` may answer a request for `l` while the blocks `L` are in use: not null, aligned, long enough, inside the address space,
no byte in common with any of them. -/
structure FreshFor (L : List Owned) (l : Layout) (s : Slice) : Prop where
  pos : 0 < s.addr
  aligned : s.addr % l.align = 0
  size : l.size ≤ s.len
  space : s.addr + s.len ≤ USIZE
  apart : ∀ b ∈ L, b.Apart (Owned.of s l)

/-- Calls that ask for memory, and may be refused. -/
def Op.requests : Op → Bool
  | .allocate _ | .allocateZeroed _ | .resize .. | .growZeroed .. => true
  | _ => false

/-- The documentation of `core::alloc::Allocator` (and of `reset`), call by call: what may be answered, which blocks are in use afterwards,
and which contents are kept. `write` is the owner of a block storing a byte. -/
inductive AbsStep : AbsState → Op → Resp → AbsState → Prop
  | allocate {σ l s m} (hf : FreshFor σ.owned l s) (hk : SameOn σ.owned σ.mem m) :
      AbsStep σ (.allocate l) (.block s) ⟨Owned.of s l :: σ.owned, m⟩
  | allocateZeroed {σ l s m} (hf : FreshFor σ.owned l s) (hk : SameOn σ.owned σ.mem m) (hz : ∀ i, i < s.len → m (s.addr + i) = .raw 0) :
      AbsStep σ (.allocateZeroed l) (.block s) ⟨Owned.of s l :: σ.owned, m⟩
  | resize {σ b p old new s m} (hb : b ∈ σ.owned) (hp : b.Fits p old) (hf : FreshFor (σ.owned.erase b) new s)
      (hk : SameOn (σ.owned.erase b) σ.mem m) (hc : ∀ i, i < min old.size new.size → m (s.addr + i) = σ.mem (p + i)) :
      AbsStep σ (.resize p old new) (.block s) ⟨Owned.of s new :: σ.owned.erase b, m⟩
  | growZeroed {σ b p old new s m} (hb : b ∈ σ.owned) (hp : b.Fits p old) (hf : FreshFor (σ.owned.erase b) new s)
      (hk : SameOn (σ.owned.erase b) σ.mem m) (hc : ∀ i, i < old.size → m (s.addr + i) = σ.mem (p + i))
      (hz : ∀ i, old.size ≤ i → i < s.len → m (s.addr + i) = .raw 0) :
      AbsStep σ (.growZeroed p old new) (.block s) ⟨Owned.of s new :: σ.owned.erase b, m⟩
  | refused {σ op m} (hop : op.requests = true) (hk : SameOn σ.owned σ.mem m) : AbsStep σ op .err ⟨σ.owned, m⟩
  | deallocate {σ b p n m} (hb : b ∈ σ.owned) (hp : b.addr = p ∧ b.size ≤ n ∧ n ≤ b.len) (hk : SameOn (σ.owned.erase b) σ.mem m) :
      AbsStep σ (.deallocate p n) .unit ⟨σ.owned.erase b, m⟩
  | reset {σ m} : AbsStep σ .reset .unit ⟨[], m⟩
  | resetFinal {σ m} : AbsStep σ .resetFinal .unit ⟨[], m⟩
  | write {σ b x v m} (hb : b ∈ σ.owned) (hx : b.Has x) (hv : m x = v) (hk : ∀ c ∈ σ.owned, ∀ y, c.Has y → y ≠ x → m y = σ.mem y) :
      AbsStep σ (.write x v) .unit ⟨σ.owned, m⟩

/-- A history of calls and responses the documentation allows. -/
inductive AbsRun (σ0 : AbsState) : List (Op × Resp) → AbsState → Prop
  | nil : AbsRun σ0 [] σ0
  | snoc {tr σ op r σ'} (h : AbsRun σ0 tr σ) (hs : AbsStep σ op r σ') : AbsRun σ0 (tr ++ [(op, r)]) σ'

/-- A thread using an allocator whose calls happen at one moment: outside, having called, or having its answer. -/
inductive AbsThr where
  | idle
  | called (c : Call)
  | done (r : Resp)

/-- A history of threads using an allocator whose calls happen at one moment (`acts`) somewhere between call and return. The recorded
actions are those of a history of `SyncBlinkAlloc`; what threads do inside a call (`inside`) means nothing here. -/
inductive LinRun (σ0 : AbsState) : List (Act × Option Resp) → AbsState → (Nat → AbsThr) → Prop
  | nil : LinRun σ0 [] σ0 (fun _ => .idle)
  | call {tr σ T t c} (h : LinRun σ0 tr σ T) (ht : T t = .idle) : LinRun σ0 (tr ++ [(.call t c, none)]) σ (put T t (.called c))
  | acts {tr σ T t c r σ'} (h : LinRun σ0 tr σ T) (ht : T t = .called c) (hs : AbsStep σ c.op r σ') : LinRun σ0 tr σ' (put T t (.done r))
  | inside {tr σ T t ch} (h : LinRun σ0 tr σ T) : LinRun σ0 (tr ++ [(.go t ch, none)]) σ T
  | ret {tr σ T t ch r} (h : LinRun σ0 tr σ T) (ht : T t = .done r) : LinRun σ0 (tr ++ [(.go t ch, some r)]) σ (put T t .idle)
  | write {tr σ T x v σ'} (h : LinRun σ0 tr σ T) (hs : AbsStep σ (.write x v) .unit σ') : LinRun σ0 (tr ++ [(.write x v, none)]) σ' T
  | reset {tr σ T a σ'} (h : LinRun σ0 tr σ T) (ha : a.resets = true) (hq : ∀ t, T t = .idle) (hs : AbsStep σ .reset .unit σ') :
      LinRun σ0 (tr ++ [(a, none)]) σ' T

end Blink
