import Verif.Spec.Contract
import Verif.Spec.Blink
/-
  Specification vocabulary: histories of the allocator of which nothing is known but its contract (`AKind.any`), and how much they have in common with
  histories the documentation of `Allocator` allows.
-/
namespace Blink

/-- Blocks given back or resized have at least one byte. (Blocks without bytes may share an address; a caller who gives one back does not say which.) -/
def Op.WithBytes : Op → Prop
  | .resize _ old _ => 0 < old.size
  | .growZeroed _ old _ => 0 < old.size
  | .deallocate _ n => 0 < n
  | _ => True

instance : DecidablePred Op.WithBytes := fun op => by cases op <;> simp only [Op.WithBytes] <;> infer_instance

/-- A history of legal calls of an allocator of kind `k`. -/
inductive AnyRun (k : AKind) (s0 : St) : List (Op × Resp) → St → List Owned → Prop
  | nil : AnyRun k s0 [] s0 []
  | snoc {tr s L op r s' L'} (h : AnyRun k s0 tr s L) (hl : Legal L op) (hz : op.WithBytes) (hs : k.step s op = .ok (r, s')) (ha : After L op r L') :
      AnyRun k s0 (tr ++ [(op, r)]) s' L'

/-- A history the documentation allows, of calls within their contract, answered with blocks shorter than `isize::MAX`, below `top`, and apart
from the blocks `F` of others. -/
inductive AbsWithin (top : Nat) (F : List BaseBlk) (σ0 : AbsState) : List (Op × Resp) → AbsState → Prop
  | nil : AbsWithin top F σ0 [] σ0
  | snoc {tr σ op r σ'} (h : AbsWithin top F σ0 tr σ) (hl : Legal σ.owned op) (hz : op.WithBytes) (hs : AbsStep σ op r σ')
      (hr : ∀ sl, r = .block sl → sl.len < ISIZE ∧ sl.addr + sl.len < top ∧
        ∀ f ∈ F, ∀ x, ¬ ((f.addr ≤ x ∧ x < f.addr + f.len) ∧ sl.addr ≤ x ∧ x < sl.addr + sl.len)) :
      AbsWithin top F σ0 (tr ++ [(op, r)]) σ'

/-- What an allocator answered to a request for memory. -/
def Resp.answer : Resp → Option Slice
  | .block s => some s
  | _ => none

/-- What the answers in a history of calls were, for those calls that ask for memory. -/
def answersIn : List (Op × Resp) → List (Option Slice)
  | [] => []
  | (op, r) :: t => (if op.requests = true then [r.answer] else []) ++ answersIn t

/-- The block as the allocator knows it. -/
def Owned.blk (b : Owned) : BaseBlk := ⟨b.addr, b.len, ⟨b.size, b.align⟩⟩

end Blink
