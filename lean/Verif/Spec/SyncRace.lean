import Verif.Spec.Sync
/-
  Histories of several threads sharing one `SyncBlinkAlloc` in which `reset_unchecked` (src/sync.rs:329-335) may be called while other
  threads are executing `allocate`. Whoever calls it promises that no block obtained before is used afterwards. A thread whose
  `allocate` overlaps a `reset_unchecked` cannot tell whether its block was carved before or after the reset, so it may not use it
  either. Phrased in terms of calls and responses only, except that memory is looked at when a call starts.
-/
namespace Blink

/-- A `Book` that also says for every thread whether a `reset_unchecked` happened during the call it is executing. -/
structure RBook extends Book where
  stale : Nat → Bool

/-- Nothing owned, nobody inside. -/
def RBook.empty : RBook := ⟨Book.empty, fun _ => false⟩

/-- The contract of each call: as before, but `reset_unchecked` only requires that no block is in the hands of a `resize` or
`deallocate` that is still executing. -/
inductive RLegal (R : RBook) : Act → Prop
  | other {a} (h : SLegal R.toBook a) : RLegal R a
  | race (h : ∀ t c b, R.busy t ≠ some (c, some b)) : RLegal R .resetUnchecked

/-- How the book changes. `m` is the memory before the step. -/
inductive RAfter (m : Nat → Byte) (R : RBook) : Act → Option Resp → RBook → Prop
  | other {a r K'} (h : SAfter m R.toBook a r K') (ha : a ≠ .resetUnchecked)
      (hs : ∀ t ch, a = .go t ch → r ≠ none → R.stale t = false) : RAfter m R a r ⟨K', R.stale⟩
  | lost {t ch c ob r} (hb : R.busy t = some (c, ob)) (hs : R.stale t = true) :
      RAfter m R (.go t ch) (some r) { R with busy := put R.busy t none, stale := put R.stale t false }
  | race : RAfter m R .resetUnchecked none { R with owned := [], stale := fun t => (R.busy t).isSome }

/-- A history of the whole system: any schedule of any number of threads. -/
inductive RRun (s0 : SS) (R0 : RBook) : List (Act × Option Resp) → SS → RBook → Prop
  | nil : RRun s0 R0 [] s0 R0
  | snoc {tr s R a r s' R'} (h : RRun s0 R0 tr s R) (hl : RLegal R a) (hs : sstep s a = .ok (some (r, s')))
      (ha : RAfter s.w.mem R a r R') : RRun s0 R0 (tr ++ [(a, r)]) s' R'

/-- `s` is reachable from the fresh state `s0`, with book `R`. -/
def RReach (s0 s : SS) (R : RBook) : Prop := SStart s0 ∧ ∃ tr, RRun s0 RBook.empty tr s R

end Blink
