/-
  Machine model shared by all parts: 64-bit words, layouts, symbolic memory, the underlying
  allocator as an oracle, and the fault monad.
-/
namespace Blink

/-- Number of `usize` values on the modelled 64-bit target (e.g. src/arena/mod.rs:22). -/
notation "USIZE" => (18446744073709551616 : Nat)   -- 2^64
/-- `isize::MAX + 1` (src/cache.rs:161; the bound on layouts assumed at src/arena/mod.rs:195). -/
notation "ISIZE" => (9223372036854775808 : Nat)    -- 2^63

/-- `core::alloc::Layout` (used throughout, e.g. src/arena/mod.rs:7). -/
structure Layout where
  size  : Nat
  align : Nat
deriving DecidableEq, Repr, Inhabited

/-- The documented invariant of `core::alloc::Layout`: the alignment is a power of two and the size,
rounded up to the alignment, does not exceed `isize::MAX` (library; what `from_size_align_unchecked` at src/arena/mod.rs:195 requires). -/
def Layout.Valid (l : Layout) : Prop :=
  (∃ k, l.align = 2 ^ k) ∧ l.size + l.align ≤ ISIZE

/-- `NonNull<[u8]>`: address and length (e.g. src/arena/mod.rs:196, src/local.rs:178). -/
structure Slice where
  addr : Nat
  len  : Nat
deriving DecidableEq, Repr, Inhabited

/-- One byte of symbolic memory. `word w i` is byte `i` of a stored 64-bit word `w`, `obj v i` is byte `i` of
a stored user value with identity `v`, `raw b` an ordinary byte, `uninit` uninitialised or freed memory.
Simplification: words and values are kept whole instead of being split into raw bits, so reading back a word
requires that all its bytes are still the ones stored together (no counterpart in the source: memory). -/
inductive Byte where
  | uninit
  | raw (b : UInt8)
  | word (w : Nat) (i : Nat)
  | obj (v : Nat) (i : Nat)
deriving DecidableEq, Repr, Inhabited

/-- Why a run stopped. `ub`: the code did something undefined (or overflowed); `dbg`: a `debug_assert!` of the
code failed in a debug build; `env`: the underlying allocator broke the `Allocator` contract, so nothing
more is claimed about the run. `dbg` models the `debug_assert!`s, e.g. src/arena/mod.rs:231-232; the others have no counterpart in the
source. -/
inductive Fault where
  | ub  (why : String)
  | dbg (why : String)
  | env (req : Layout) (answer : Slice)
deriving DecidableEq, Repr

/-- A block currently held from the underlying allocator, with the layout it was requested with (obtained at src/arena/mod.rs:196, given
back at 214). -/
structure BaseBlk where
  addr : Nat
  len  : Nat
  req  : Layout
deriving DecidableEq, Repr, Inhabited

/-- A call made to the underlying allocator (src/arena/mod.rs:196, 214; src/global/local.rs:26-68). -/
inductive BaseEvent where
  | alloc (l : Layout) (s : Slice)
  | refused (l : Layout)
  | dealloc (addr : Nat) (l : Layout)
deriving DecidableEq, Repr

/-- Everything outside the Rust structs: memory, the underlying allocator (the type parameter `A`, src/local.rs:87-90) and a log of the calls
made to it.

* `oracle n` is the answer of the underlying allocator to the `n`-th request made to it: refusal or a block. The
  model is deterministic, so quantifying over all oracles covers every adaptive allocator.
* `held` are the blocks held from it at the moment.
* `top` bounds the address space, `debug` says whether debug assertions are compiled in. -/
structure World where
  mem    : Nat → Byte
  held   : List BaseBlk
  oracle : Nat → Option Slice
  calls  : Nat
  log    : List BaseEvent
  top    : Nat
  debug  : Bool

/-- State and fault monad of the model (no counterpart in the source: sequencing). -/
def M (α : Type) : Type := World → Except Fault (α × World)

namespace M
/-- Do nothing (no counterpart in the source: sequencing). -/
@[inline] protected def pure {α} (a : α) : M α := fun w => .ok (a, w)
/-- One after the other (no counterpart in the source: sequencing). -/
@[inline] protected def bind {α β} (x : M α) (f : α → M β) : M β := fun w =>
  match x w with
  | .ok (a, w') => f a w'
  | .error e => .error e
instance : Monad M where
  pure := M.pure
  bind := M.bind
end M

/-- Undefined behaviour, e.g. `unwrap_unchecked` on `None` (src/arena/mod.rs:495). -/
def ub {α} (why : String) : M α := fun _ => .error (.ub why)

/-- A condition whose violation is undefined behaviour: the safety sections of library functions, e.g. of `ptr.add`
(src/arena/mod.rs:289-341) and `from_size_align_unchecked` (195). -/
def require (p : Prop) [Decidable p] (why : String) : M Unit := fun w =>
  if p then .ok ((), w) else .error (.ub why)

/-- `debug_assert!`: checked only if debug assertions are compiled in (src/arena/mod.rs:231-232, 297-304, 328, 398; src/arena/local.rs:17). -/
def dassert (p : Prop) [Decidable p] (why : String) : M Unit := fun w =>
  if w.debug = true ∧ ¬ p then .error (.dbg why) else .ok ((), w)

/-- Plain `a + b` on `usize`; overflow is a fault (e.g. src/arena/mod.rs:46). -/
def addU (a b : Nat) : M Nat := fun w =>
  if a + b < USIZE then .ok (a + b, w) else .error (.ub "add overflow")

/-- Plain `a - b` on `usize`; underflow is a fault (e.g. src/arena/mod.rs:24, 45). -/
def subU (a b : Nat) : M Nat := fun w =>
  if b ≤ a then .ok (a - b, w) else .error (.ub "sub overflow")

/-- `usize::checked_add` (src/arena/mod.rs:32, 293, 378, 469, 476, 479). -/
def checkedAdd (a b : Nat) : Option Nat := if a + b < USIZE then some (a + b) else none

/-! ### Memory -/

/-- Replace `n` bytes starting at `a` (no counterpart in the source: memory). -/
def setBytes (m : Nat → Byte) (a n : Nat) (f : Nat → Byte) : Nat → Byte := fun x =>
  if a ≤ x ∧ x < a + n then f (x - a) else m x

/-- Are the `n` bytes at `a` inside one block held from the underlying allocator (no counterpart in the source: validity of pointers)? -/
def World.accessible (w : World) (a n : Nat) : Bool :=
  w.held.any fun b => decide (b.addr ≤ a) && decide (a + n ≤ b.addr + b.len)

/-- The 64-bit word stored at `a`, if one is intact there (no counterpart in the source: memory). -/
def decodeWord (m : Nat → Byte) (a : Nat) : Option Nat :=
  match m a with
  | .word v _ => if (List.range 8).all (fun i => m (a + i) == .word v i) then some v else none
  | _ => none

/-- Aligned 64-bit load: reading a field of `ChunkHeader` (src/arena/mod.rs:173-179) or of the drop list (src/drop_list.rs:13-40). -/
def loadWord (a : Nat) : M Nat := fun w =>
  if a % 8 = 0 ∧ w.accessible a 8 = true then
    match decodeWord w.mem a with
    | some v => .ok (v, w)
    | none => .error (.ub "load of something that is not an intact word")
  else .error (.ub "invalid load")

/-- Aligned 64-bit store: writing such a field. As `loadWord` (src/arena/mod.rs:173-179). -/
def storeWord (a v : Nat) : M Unit := fun w =>
  if a % 8 = 0 ∧ w.accessible a 8 = true then
    .ok ((), { w with mem := setBytes w.mem a 8 (fun i => .word v i) })
  else .error (.ub "invalid store")

/-- `core::ptr::copy_nonoverlapping(src, dst, n)` on bytes (src/arena/mod.rs:415, 511). -/
def copyNonoverlapping (src dst n : Nat) : M Unit := fun w =>
  if n = 0 ∨ (w.accessible src n = true ∧ w.accessible dst n = true ∧ (src + n ≤ dst ∨ dst + n ≤ src)) then
    .ok ((), { w with mem := setBytes w.mem dst n (fun i => w.mem (src + i)) })
  else .error (.ub "invalid copy_nonoverlapping")

/-- `ptr::write_bytes(0, n)` in the default `Allocator::allocate_zeroed` (library; reached from src/local.rs:338-340, src/global/local.rs:34). -/
def writeZeros (a n : Nat) : M Unit := fun w =>
  if n = 0 ∨ w.accessible a n = true then
    .ok ((), { w with mem := setBytes w.mem a n (fun _ => .raw 0) })
  else .error (.ub "invalid write_bytes")

/-! ### The underlying allocator -/

/-- The `Allocator` contract for a fresh block `s` answering a request `l`: not null, aligned, long enough, no longer
than `isize::MAX`, not wrapping around the address space, no byte in common with anything held (blocks without bytes may lie
anywhere). What src/arena/mod.rs:196-197 relies on. -/
def freshOk (w : World) (l : Layout) (s : Slice) : Bool :=
  decide (0 < s.addr) && decide (s.addr % l.align = 0) && decide (l.size ≤ s.len) && decide (s.len < ISIZE) &&
  decide (s.addr + s.len < w.top) &&
  w.held.all fun b => decide (s.len = 0 ∨ b.len = 0 ∨ s.addr + s.len ≤ b.addr ∨ b.addr + b.len ≤ s.addr)

/-- `allocator.allocate(layout)` on the underlying allocator (called at src/arena/mod.rs:196). -/
def baseAlloc (l : Layout) : M (Option Slice) := fun w =>
  match w.oracle w.calls with
  | none => .ok (none, { w with calls := w.calls + 1, log := .refused l :: w.log })
  | some s =>
    if freshOk w l s then
      .ok (some s, { w with
        calls := w.calls + 1
        log   := .alloc l s :: w.log
        held  := ⟨s.addr, s.len, l⟩ :: w.held
        mem   := setBytes w.mem s.addr s.len (fun _ => .uninit) })
    else .error (.env l s)

/-- Does `layout` fit the held block `b` (documented precondition of `Allocator::deallocate`, called at src/arena/mod.rs:214)? -/
def BaseBlk.fits (b : BaseBlk) (addr : Nat) (l : Layout) : Bool :=
  decide (b.addr = addr) && decide (b.req.align = l.align) && decide (b.req.size ≤ l.size) && decide (l.size ≤ b.len)

/-- `allocator.deallocate(ptr, layout)` on the underlying allocator (called at src/arena/mod.rs:214). Violating its
precondition is undefined behaviour; the freed bytes become `uninit`. -/
def baseDealloc (addr : Nat) (l : Layout) : M Unit := fun w =>
  match w.held.find? (fun b => b.fits addr l) with
  | some b => .ok ((), { w with
      held := w.held.erase b
      log  := .dealloc addr l :: w.log
      mem  := setBytes w.mem b.addr b.len (fun _ => .uninit) })
  | none => .error (.ub "deallocate of a block that is not held or does not fit")

end Blink
