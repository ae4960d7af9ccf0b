import Verif.Spec.AnyRun
/-
  Specification vocabulary: an allocator shared by one user (whose actions are marked `true`) and others (`false`). Nobody uses a block of somebody else.
-/
namespace Blink

/-- Calls after which no block is left. -/
def Op.resets : Op → Bool
  | .reset | .resetFinal => true
  | _ => false

/-- The user's part of a history. -/
def mineOf {α} (tr : List (Bool × α)) : List α := (tr.filter (·.1)).map (·.2)

/-- A `BlinkAlloc` in the hands of a user owning the blocks `L`, and of others owning the blocks `R`. Each call keeps to its contract as far as its
caller's own blocks are concerned. Nobody resets the allocator itself while somebody else has blocks. `reset` of a shared reference (src/api.rs:46-52) does
nothing, but means that its caller will not use the blocks any more (`forget`). -/
inductive LShared (s0 : St) : List (Bool × Op × Resp) → St → List Owned → List Owned → Prop
  | nil : LShared s0 [] s0 [] []
  | mine {tr s L R op r s' L'} (h : LShared s0 tr s L R) (hl : Legal L op) (hq : op.resets = true → R = []) (hs : step s op = .ok (r, s'))
      (ha : After L op r L') : LShared s0 (tr ++ [(true, op, r)]) s' L' R
  | others {tr s L R op r s' R'} (h : LShared s0 tr s L R) (hl : Legal R op) (hq : op.resets = true → L = []) (hs : step s op = .ok (r, s'))
      (ha : After R op r R') : LShared s0 (tr ++ [(false, op, r)]) s' L R'
  | forget {tr s L R} (h : LShared s0 tr s L R) : LShared s0 (tr ++ [(true, .reset, .unit)]) s [] R
  | othersForget {tr s L R} (h : LShared s0 tr s L R) : LShared s0 (tr ++ [(false, .reset, .unit)]) s L []

/-- Nothing owned, nobody inside. -/
def Book.Idle (K : Book) : Prop := K.owned = [] ∧ ∀ t, K.busy t = none

/-- A `SyncBlinkAlloc` in the hands of a user whose threads and blocks are in the book `M`, and of others, whose threads and blocks are in the book
`O`, at the same time. `forget` as before. -/
inductive SShared (s0 : SS) : List (Bool × Act × Option Resp) → SS → Book → Book → Prop
  | nil : SShared s0 [] s0 Book.empty Book.empty
  | mine {tr s M O a r s' M'} (h : SShared s0 tr s M O) (hl : SLegal M a) (hq : a.resets = true → O.Idle) (hs : sstep s a = .ok (some (r, s')))
      (ha : SAfter s.w.mem M a r M') : SShared s0 (tr ++ [(true, a, r)]) s' M' O
  | others {tr s M O a r s' O'} (h : SShared s0 tr s M O) (hl : SLegal O a) (hq : a.resets = true → M.Idle) (hs : sstep s a = .ok (some (r, s')))
      (ha : SAfter s.w.mem O a r O') : SShared s0 (tr ++ [(false, a, r)]) s' M O'
  | forget {tr s M O} (h : SShared s0 tr s M O) (hb : ∀ t, M.busy t = none) : SShared s0 (tr ++ [(true, .reset, none)]) s { M with owned := [] } O
  | othersForget {tr s M O} (h : SShared s0 tr s M O) (hb : ∀ t, O.busy t = none) :
      SShared s0 (tr ++ [(false, .reset, none)]) s M { O with owned := [] }

/-- The same with a user who makes one call at a time, from thread `t`, and stores into blocks between calls only. Recorded are that user's calls, with their
responses, and stores. -/
inductive SOne (s0 : SS) (t : Nat) : List (Op × Resp) → SS → Book → Book → Prop
  | nil : SOne s0 t [] s0 Book.empty Book.empty
  | call {tr s M O c s' M'} (h : SOne s0 t tr s M O) (hl : SLegal M (.call t c)) (hs : sstep s (.call t c) = .ok (some (none, s')))
      (ha : SAfter s.w.mem M (.call t c) none M') : SOne s0 t tr s' M' O
  | inside {tr s M O ch s'} (h : SOne s0 t tr s M O) (hs : sstep s (.go t ch) = .ok (some (none, s'))) : SOne s0 t tr s' M O
  | ret {tr s M O ch c ob r s'} (h : SOne s0 t tr s M O) (hb : M.busy t = some (c, ob)) (hs : sstep s (.go t ch) = .ok (some (some r, s'))) :
      SOne s0 t (tr ++ [(c.op, r)]) s' { M with owned := gets c ob r ++ M.owned, busy := put M.busy t none } O
  | write {tr s M O x v s'} (h : SOne s0 t tr s M O) (hb : M.busy t = none) (hl : SLegal M (.write x v))
      (hs : sstep s (.write x v) = .ok (some (none, s'))) : SOne s0 t (tr ++ [(.write x v, .unit)]) s' M O
  | reset {tr s M O a s'} (h : SOne s0 t tr s M O) (ha : a.resets = true) (hl : SLegal M a) (hq : O.Idle) (hs : sstep s a = .ok (some (none, s'))) :
      SOne s0 t (tr ++ [(.reset, .unit)]) s' { M with owned := [] } O
  | others {tr s M O a r s' O'} (h : SOne s0 t tr s M O) (hl : SLegal O a) (hq : a.resets = true → M.Idle) (hs : sstep s a = .ok (some (r, s')))
      (ha : SAfter s.w.mem O a r O') : SOne s0 t tr s' M O'
  | forget {tr s M O} (h : SOne s0 t tr s M O) (hb : M.busy t = none) : SOne s0 t (tr ++ [(.reset, .unit)]) s { M with owned := [] } O
  | othersForget {tr s M O} (h : SOne s0 t tr s M O) (hb : ∀ u, O.busy u = none) : SOne s0 t tr s M { O with owned := [] }

end Blink
