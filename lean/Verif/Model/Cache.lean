import Verif.Model.Local
/-
  `BlinkAllocCache` (src/cache.rs) as a system of threads that interleave at the granularity of lock operations, atomic
  accesses to the two counters, and accesses to single slots.

  * A cached `BlinkAlloc` is represented by its identity (a number); its own state is of no interest to the cache.
  * A slot is `some b` if it holds the live value `b` and `none` if the value was moved out (`ManuallyDrop::take`) or is not
    yet initialised (`MaybeUninit`); reading such a slot is a fault.
  * Counters are machine words: `fetch_add` wraps around.
  * All read-modify-writes and stores of one counter are totally ordered (coherence); the contents of slots are ordered by the
    lock.
-/
namespace Blink

/-- The calls on a cache: `pop` (src/cache.rs:72) and `push` (src/cache.rs:106). -/
inductive CCall where
  | pop
  | push (b : Nat)
deriving DecidableEq, Repr

/-- What the calls return: `()` (src/cache.rs:106) or `Option<BlinkAlloc>` (src/cache.rs:72). -/
inductive CRet where
  | unit
  | got (o : Option Nat)
deriving DecidableEq, Repr

/-- Where a thread is in src/cache.rs:72-152. Comments give the next thing it does. -/
inductive CPc where
  /-- Outside. -/
  | idle
  /-- `pop`: take the read lock and look whether `pop_array` is empty (src/cache.rs:73-75). -/
  | popRd
  /-- Holding the read lock: `next_pop.fetch_add(1)` (src/cache.rs:77-79). -/
  | popAdd
  /-- Holding the read lock: take the value out of slot `idx` (src/cache.rs:83-85). -/
  | popTake (idx : Nat)
  /-- Holding the read lock: `prevent_overflow` stores `pop_array.len()` in `next_pop` (src/cache.rs:88 with 155-163). -/
  | popStore
  /-- Holding the read lock: test `next_push.load() == 0` (src/cache.rs:91-93). -/
  | popCheck
  /-- Drop the read guard (src/cache.rs:95). -/
  | popUnlock
  /-- Take the write lock (src/cache.rs:96). -/
  | popWr
  /-- Holding the write lock: flush and `Vec::pop` (src/cache.rs:98-103). -/
  | popSlow
  /-- `push`: take the read lock and look whether `push_array` is empty (src/cache.rs:107-109). -/
  | pushRd (b : Nat)
  /-- Holding the read lock: `next_push.fetch_add(1)` (src/cache.rs:111-113). -/
  | pushAdd (b : Nat)
  /-- Holding the read lock: write slot `idx` (src/cache.rs:117-118). -/
  | pushWrite (b : Nat) (idx : Nat)
  /-- Holding the read lock: `prevent_overflow` stores `push_array.len()` in `next_push` (src/cache.rs:121 with 155-163). -/
  | pushStore (b : Nat)
  /-- Drop the read guard (src/cache.rs:124). -/
  | pushUnlock (b : Nat)
  /-- Take the write lock (src/cache.rs:125). -/
  | pushWr (b : Nat)
  /-- Holding the write lock: flush and `Vec::push` (src/cache.rs:127-131). -/
  | pushSlow (b : Nat)
  /-- Drop the guard (`write` says of which lock) and return. -/
  | ret (write : Bool) (r : CRet)
deriving DecidableEq, Repr

/-- src/cache.rs:14-26 `Inner`, 41-43 `BlinkAllocCache`: the two arrays and counters, the lock, and the threads. -/
structure CS where
  popArr   : List (Option Nat)
  nextPop  : Nat
  pushArr  : List (Option Nat)
  nextPush : Nat
  readers  : List Nat
  writer   : Option Nat
  pcs      : Nat → CPc

/-- src/cache.rs:59-68 `new` (and 45-52 `default`), no thread inside. -/
def CS.new : CS := ⟨[], 0, [], 0, [], none, fun _ => .idle⟩

/-- Move thread `t` (no counterpart in the source: program counter bookkeeping). -/
def CS.setPc (s : CS) (t : Nat) (pc : CPc) : CS := { s with pcs := fun u => if u = t then pc else s.pcs u }

/-- `AtomicUsize::fetch_add(1)` wraps around (src/cache.rs:77, 111). -/
def fetchAdd1 (n : Nat) : Nat := (n + 1) % USIZE

/-- `isize::MAX as usize` (src/cache.rs:161). -/
def ISIZE_MAX : Nat := ISIZE - 1

/-- `assume_init` on every drained cell (src/cache.rs:142-150). -/
def initAll (l : List (Option Nat)) : Except Fault (List (Option Nat)) :=
  if l.all (·.isSome) then .ok l else .error (.ub "assume_init of an uninitialised slot")

/-- src/cache.rs:134-152 `flush`: the initialised part of `push_array` replaces the used part of `pop_array`. Cells removed by
`splice` are `ManuallyDrop`, so nothing is dropped. -/
def CS.flush (s : CS) : Except Fault CS := do
  let pushed := min s.nextPush s.pushArr.length
  let popped := min s.nextPop s.popArr.length
  let moved ← initAll (s.pushArr.take pushed)
  pure { s with
    nextPush := 0
    nextPop := 0
    pushArr := s.pushArr.drop pushed
    popArr := moved ++ s.popArr.drop popped }

/-- The next step of thread `t`; `none` if it cannot move (waiting for the lock, idle, or the process was stopped by the
capacity check of `Vec::push`). On the last step of a call the result is delivered. The lines modelled are given at each
constructor of `CPc` (src/cache.rs:72-152). -/
def cgo (s : CS) (t : Nat) : Except Fault (Option (Option CRet × CS)) :=
  match s.pcs t with
  | .idle => pure none
  | .popRd =>
    if s.writer = none then
      pure (some (none, { s with readers := t :: s.readers }.setPc t (if s.popArr.isEmpty then .popCheck else .popAdd)))
    else pure none
  | .popAdd =>
    let idx := s.nextPop
    let pc := if idx < s.popArr.length then .popTake idx else if ISIZE_MAX ≤ idx then .popStore else .popCheck
    pure (some (none, { s with nextPop := fetchAdd1 idx }.setPc t pc))
  | .popTake idx =>
    match s.popArr[idx]? with
    | some (some b) => pure (some (none, { s with popArr := s.popArr.set idx none }.setPc t (.ret false (.got (some b)))))
    | some none => .error (.ub "the value in this slot was already moved out")
    | none => .error (.ub "index out of bounds")
  | .popStore => pure (some (none, { s with nextPop := s.popArr.length }.setPc t .popCheck))
  | .popCheck =>
    if s.nextPush = 0 then pure (some (none, s.setPc t (.ret false (.got none))))
    else pure (some (none, s.setPc t .popUnlock))
  | .popUnlock => pure (some (none, { s with readers := s.readers.erase t }.setPc t .popWr))
  | .popWr =>
    if s.writer = none ∧ s.readers = [] then pure (some (none, { s with writer := some t }.setPc t .popSlow)) else pure none
  | .popSlow => do
    let s ← s.flush
    match s.popArr.getLast? with
    | none => pure (some (none, s.setPc t (.ret true (.got none))))
    | some (some b) => pure (some (none, { s with popArr := s.popArr.dropLast }.setPc t (.ret true (.got (some b)))))
    | some none => .error (.ub "the value in this slot was already moved out")
  | .pushRd b =>
    if s.writer = none then
      pure (some (none, { s with readers := t :: s.readers }.setPc t (if s.pushArr.isEmpty then .pushUnlock b else .pushAdd b)))
    else pure none
  | .pushAdd b =>
    let idx := s.nextPush
    let pc := if idx < s.pushArr.length then .pushWrite b idx else if ISIZE_MAX ≤ idx then .pushStore b else .pushUnlock b
    pure (some (none, { s with nextPush := fetchAdd1 idx }.setPc t pc))
  | .pushWrite b idx =>
    if idx < s.pushArr.length then
      pure (some (none, { s with pushArr := s.pushArr.set idx (some b) }.setPc t (.ret false .unit)))
    else .error (.ub "index out of bounds")
  | .pushStore b => pure (some (none, { s with nextPush := s.pushArr.length }.setPc t (.pushUnlock b)))
  | .pushUnlock b => pure (some (none, { s with readers := s.readers.erase t }.setPc t (.pushWr b)))
  | .pushWr b =>
    if s.writer = none ∧ s.readers = [] then pure (some (none, { s with writer := some t }.setPc t (.pushSlow b)))
    else pure none
  | .pushSlow b => do
    let s ← s.flush
    -- `Vec::push` stops the process ("capacity overflow") long before the length reaches `isize::MAX`
    if s.popArr.length < ISIZE_MAX then
      pure (some (none, { s with popArr := s.popArr ++ [some b] }.setPc t (.ret true .unit)))
    else pure none
  | .ret write r =>
    if write then pure (some (some r, { s with writer := none }.setPc t .idle))
    else pure (some (some r, { s with readers := s.readers.erase t }.setPc t .idle))

/-- What can happen next: a thread starts a call (src/cache.rs:72, 106) or makes a step. -/
inductive CAct where
  | call (t : Nat) (c : CCall)
  | go (t : Nat)
deriving DecidableEq, Repr

/-- One step of the whole system; `none` if it is not possible now. Calls enter `pop` (src/cache.rs:72) or `push`
(src/cache.rs:106). -/
def cstep (s : CS) : CAct → Except Fault (Option (Option CRet × CS))
  | .call t c =>
    if s.pcs t = .idle then
      pure (some (none, s.setPc t (match c with | .pop => .popRd | .push b => .pushRd b)))
    else pure none
  | .go t => cgo s t

/-- Dropping a cell of `pop_array`: its type is `UnsafeCell<ManuallyDrop<BlinkAlloc<A>>>` (src/cache.rs:16), and dropping a
`ManuallyDrop` runs no destructor. -/
def dropCell (_ : BA) : M Unit := pure ()

/-- Dropping a cache holding the allocators `cells`. There is no `impl Drop` in src/cache.rs, so this is the drop glue of
`BlinkAllocCache` and `Inner` (src/cache.rs:14-26, 41-43): the cells are dropped one by one; the storage of the vectors is not
modelled, and `push_array` is empty. -/
def cacheDrop (cells : List BA) : M Unit := cells.forM dropCell

end Blink
