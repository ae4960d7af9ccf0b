import Verif.Model.Base
/-
  Specification vocabulary about the world outside the allocator.
-/
namespace Blink

/-- Two blocks of the underlying allocator share no byte. -/
def BaseBlk.Disjoint (b c : BaseBlk) : Prop := b.len = 0 ∨ c.len = 0 ∨ b.addr + b.len ≤ c.addr ∨ c.addr + c.len ≤ b.addr

/-- The blocks held from the underlying allocator are what an `Allocator` may hand out: in the 64-bit address space,
not null, pairwise disjoint. -/
structure HeldOK (w : World) : Prop where
  top : w.top ≤ USIZE
  dis : w.held.Pairwise BaseBlk.Disjoint
  rng : ∀ b ∈ w.held, 0 < b.addr ∧ b.addr + b.len < w.top

/-- Extra assumptions for *debug builds only* (release builds need none): the minimal chunk size `m` is neither zero nor
above 2^62, and addresses stay below 2^62. Without them a `debug_assert!` of the code can fire (see `Props.C03`). -/
def DbgOK (w : World) (m : Nat) : Prop := w.debug = true → 0 < m ∧ m ≤ 4611686018427387904 ∧ w.top ≤ 4611686018427387904

/-- Fault `e` is the underlying allocator's: it answered the request recorded in `e` with a block that violates the
`Allocator` contract (not fresh, misaligned, too short or out of range). -/
def BadAnswer (w : World) (e : Fault) : Prop :=
  ∃ l sl, e = .env l sl ∧ w.oracle w.calls = some sl ∧ freshOk w l sl = false

end Blink
