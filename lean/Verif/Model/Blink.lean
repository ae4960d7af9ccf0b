import Verif.Model.Global
/-
  `DropList` (src/drop_list.rs) and `Blink` (src/blink.rs) on top of `BlinkAlloc` or any other allocator.

  User code (closures given to `with`, iterators given to `from_iter`) may call the same `Blink` again before it returns,
  because all these methods take `&self`. The model is therefore a transition system with a stack of calls that are waiting
  for user code: a step is one call made by user code, or one return of user code into the topmost waiting call.

  Types. A generic instantiation is an entry of a table `types : Nat → RTy`; the function pointer `drop_from_item::<R>` is
  represented by the index of its entry. A value of type `T` with identity `v` is stored as the bytes `obj (2 * v) i`; an
  error value of identity `e` (the `Err` side of a `Result`) as bytes `obj (2 * e + 1) i`.
-/
namespace Blink

/-- What the compiler knows about one instantiation: the type `T` and `Result<T, ManuallyDrop<G>>` (src/blink.rs:30
`EmplaceType`). Simplification: a type is its size, alignment, whether it needs drop (src/blink.rs:397), whether
`Option<T>` has the layout of `T` (src/blink.rs:541), and a name for its destructor. -/
structure RTy where
  /-- which type `T` is: names the destructor -/
  tid : Nat
  tsize : Nat
  talign : Nat
  /-- `needs_drop::<T>()` -/
  drop : Bool
  /-- `Layout::new::<Option<T>>() == Layout::new::<T>()` -/
  niche : Bool
  /-- size and alignment of `Result<T, ManuallyDrop<G>>`, and the offset of the `T` of an `Ok` in it -/
  size : Nat
  align : Nat
  okOff : Nat
  /-- offset of a byte telling `Ok` from `Err`; `none` if `G` is uninhabited and `Err` cannot occur -/
  disc : Option Nat
deriving DecidableEq, Repr, Inhabited

/-- Compile-time rounding up to a multiple (`repr(C)` layout rule; src/drop_list.rs:35-39). -/
def up (n a : Nat) : Nat := (n + a - 1) / a * a

/-- `size_of::<Drops>()`: three words (src/drop_list.rs:13-22). Simplification: the fields are at the offsets 0 (count),
8 (drop) and 16 (next). -/
def DROPS_SIZE : Nat := 24
/-- `align_of::<Drops>()` (src/drop_list.rs:13-22). -/
def DROPS_ALIGN : Nat := 8

/-- src/drop_list.rs:35-39: offset of `value` in the `repr(C)` struct `DropItem<T>` for a `T` of the given alignment. -/
def valueOff (align : Nat) : Nat := up DROPS_SIZE align

/-- src/drop_list.rs:35-39: layout of `DropItem<T>` for a `T` of the given size and alignment. -/
def dropItem (size align : Nat) : Layout :=
  ⟨up (valueOff align + size) (max DROPS_ALIGN align), max DROPS_ALIGN align⟩

/-- `Layout::array::<T>(n)` (used at src/blink.rs:495 and 674). `none` is `Err(LayoutError)`. -/
def arrayLayout (size align n : Nat) : Option Layout :=
  if n * size + align ≤ ISIZE then some ⟨n * size, align⟩ else none

/-- `Layout::extend` (used at src/blink.rs:500): the layout of both together and the offset of the second. -/
def Layout.extend (a b : Layout) : Option (Layout × Nat) :=
  let off := up a.size b.align
  let al := max a.align b.align
  if off + b.size + al ≤ ISIZE then some (⟨off + b.size, al⟩, off) else none

/-- src/blink.rs:1435. -/
def FASTER_START : Nat := 8

/-- src/blink.rs:1438-1449 `size_hint_and_one`. -/
def sizeHintAndOne (lower : Nat) (upper : Option Nat) (count : Nat) : Option Nat := do
  let upper := match upper with
    | none => count
    | some u => min u count
  let h ← checkedAdd (max lower upper) 1
  checkedAdd count h

/-! ### Memory accesses -/

/-- What a closure produces: `Ok(v)` or `Err(e)` (src/blink.rs:907-924). -/
inductive Res where
  | ok (v : Nat)
  | err (e : Nat)
deriving DecidableEq, Repr

/-- Bytes of a stored `Result<T, ManuallyDrop<G>>` (src/blink.rs:821, 866, 916 `slot.write(..)`). Simplification: bytes of an
`Ok` outside the `T` are `raw 0`; the bytes of an `Err` are all bytes of the error value. -/
def slotByte (t : RTy) : Res → Nat → Byte
  | .ok v, i => if t.okOff ≤ i ∧ i < t.okOff + t.tsize then .obj (2 * v) (i - t.okOff) else .raw 0
  | .err e, i => .obj (2 * e + 1) i

/-- A write of `n` bytes to `a` through a pointer derived from the block `blk` (src/blink.rs:333, 369-370, 535, 554): it has to
be aligned and must not leave that block. -/
def writeIn (blk : Slice) (a n align : Nat) (f : Nat → Byte) : M Unit := fun w =>
  if a % align = 0 ∧ blk.addr ≤ a ∧ a + n ≤ blk.addr + blk.len ∧ (n = 0 ∨ w.accessible a n = true) then
    .ok ((), { w with mem := setBytes w.mem a n f })
  else .error (.ub "write outside the allocation")

/-- Reading the discriminant of the `Result` at `a` (src/blink.rs:335, 342, 372; also done by the drop glue called at
src/drop_list.rs:128): `none` for `Ok`, `some e` for `Err(e)`. -/
def slotGet (t : RTy) (a : Nat) : M (Option Nat) := fun w =>
  match t.disc with
  | none => .ok (none, w)
  | some d =>
    match w.mem (a + d) with
    | .uninit => .error (.ub "read of an uninitialised discriminant")
    | .obj c _ => if c % 2 = 1 then .ok (some (c / 2), w) else .ok (none, w)
    | _ => .ok (none, w)

/-- src/drop_list.rs:49-56, 69-76: `ptr::write` of a `Drops` record to the start of the item `blk`. -/
def initDrops (blk : Slice) (count fn : Nat) : M Unit := do
  require (DROPS_SIZE ≤ blk.len) "Drops record outside the allocation"
  storeWord blk.addr count
  storeWord (blk.addr + 8) fn
  storeWord (blk.addr + 16) 0

/-- The `n` bytes at `a`: what a destructor finds in the value it is given (src/drop_list.rs:128). -/
def bytesAt (m : Nat → Byte) (a n : Nat) : List Byte := (List.range n).map fun i => m (a + i)

/-! ### State -/

/-- What one run of a destructor does: it may panic, and it leaves some bytes in the value it was given. Simplification:
destructors touch nothing else the model knows of (src/drop_list.rs:128). -/
structure Dtor where
  panics : Bool
  leaves : Nat → Byte

/-- Destructor runs caused by the crate: on a value in the arena (src/drop_list.rs:128), or on a value that is still a local
variable of a function of src/blink.rs. -/
inductive DropEv where
  | item (tid addr : Nat) (bytes : List Byte)
  | loose (tid v : Nat)
deriving DecidableEq, Repr

/-- src/blink.rs:426-433, 623-629 `Guard`, without the references. `blk` is `ptr` together with the length of the block. -/
structure Guard where
  blk    : Option Slice
  count  : Nat
  cap    : Nat
  layout : Layout
deriving DecidableEq, Repr

/-- What `from_iter` for sized items waits for. `hint0`: the first `size_hint` (src/blink.rs:573, 741); `fill lim`: the `next`
for index `count < lim` in `fill` (src/blink.rs:540-558, 711-727); `one`: the `next` for one more item (src/blink.rs:581,
598, 749, 766); `hint x`: the `size_hint` of the loop, with `x` in `one_more` (src/blink.rs:588, 756). -/
inductive Phase where
  | hint0
  | fill (lim : Nat)
  | one
  | hint (x : Nat)
deriving DecidableEq, Repr

/-- What `saturating_drain_iter` waits for: `size_hint` (src/blink.rs:1455), `next` (1457), or `nth(lower - 1)` (1465). -/
inductive DPhase where
  | hint
  | next
  | nth (lower : Nat)
deriving DecidableEq, Repr

/-- A call of `Blink` waiting for user code. `nd` is `!needs_drop::<T>() || no_drop` (src/blink.rs:397, 788).
`init`: `_try_emplace_drop` / `_try_emplace_no_drop` running the closure (src/blink.rs:333, 370); `re` is the layout of
`Result<T, ManuallyDrop<E>>`. `iter`: `_try_emplace_(no_)drop_from_iter`. `drain`: the same for zero-sized items
(src/blink.rs:412-424, 613-621), with the item allocated for them in the drop variant. -/
inductive Frame where
  | init (r : Nat) (nd : Bool) (re : Layout) (blk : Slice)
  | iter (r : Nat) (nd : Bool) (g : Guard) (ph : Phase)
  | drain (r : Nat) (nd : Bool) (blk : Slice) (drained : Nat) (ph : DPhase)
deriving DecidableEq, Repr

/-- The allocator parameter `A` of `Blink<A>` (src/blink.rs:196): `BlinkAlloc`, `&mut BlinkAlloc` (src/api.rs:54-63), `&BlinkAlloc`
(src/api.rs:46-52), or any type of which nothing is known but that it implements `BlinkAllocator` (src/api.rs:22-44). The latter
is the allocator of the world itself: it may refuse every request and answer with any block its contract allows. `exact`: it
never says that a block is longer than asked for; `keeps`: its `reset` and `drop` do nothing (the `&A` of src/api.rs:46-52);
`others`: blocks that are not the `Blink`'s. -/
inductive AKind where
  | owned
  | refMut
  | shared
  | any (exact keeps : Bool) (others : List BaseBlk)
deriving DecidableEq, Repr

/-- Is nothing known of `A` (src/blink.rs:196)? -/
def AKind.isAny : AKind → Bool
  | .any .. => true
  | _ => false

/-- Do `reset` and `drop` of `A` leave its blocks alone (src/api.rs:46-52)? -/
def AKind.keeps : AKind → Bool
  | .shared => true
  | .any _ k _ => k
  | _ => false

/-- A `Blink` (src/blink.rs:196-199) with its allocator and surroundings: `root` is `DropList::root` (src/drop_list.rs:83-88;
0 is `None`); `adds` counts the calls of `DropList::add` and is only used to bound the loop of `DropList::reset`; `frames` are
the waiting calls, topmost first; `drops` is the log of destructor runs, newest first; `dtors n` is the behaviour of the
`n`-th of them; `over`: the `Blink` was dropped or the process aborted. -/
structure BState where
  s : St
  types : Nat → RTy
  kind : AKind
  root : Nat
  adds : Nat
  frames : List Frame
  drops : List DropEv
  dtors : Nat → Dtor
  over : Bool

/-- A new `Blink` (src/blink.rs:262-267 `new_in`, with src/drop_list.rs:90-95; 215-221 `default`, 238-239 `new`, 254-255 `with_chunk_size`
call it) over the allocator `a` in the world `w`. Which types there are and what their destructors do is up to user code. -/
def BState.new (w : World) (a : BA) (kind : AKind) (types : Nat → RTy) (dtors : Nat → Dtor) : BState :=
  ⟨⟨w, a⟩, types, kind, 0, 0, [], [], dtors, false⟩

/-- `Emplace` (src/blink.rs:799-811) made by src/blink.rs:1214-1220 `emplace`, src/blink.rs:1263-1269 `emplace_no_drop`,
src/blink.rs:1315-1321 `emplace_shared`, src/blink.rs:1373-1379 `emplace_unchecked`; src/blink.rs:1040-1053 `put` passes the flag of `emplace`, 1084-1097 `put_no_drop` that of `emplace_no_drop`. -/
inductive Emplacer where
  | emplace
  | noDrop
  | shared
  | unchecked
deriving DecidableEq, Repr

/-- The field `no_drop` the adaptor is created with: src/blink.rs:1217, 1266, 1318, 1376. -/
def Emplacer.noDrop? : Emplacer → Bool
  | .emplace => false
  | .noDrop => true
  | .shared => true
  | .unchecked => false

/-- User actions: calls of the API, and returns of user code into the topmost waiting call. `try_` and plain variants run the
same code and differ only in what they do after a failure (the plain ones diverge, src/blink.rs:846, 895, 946, 1000-1001). -/
inductive BOp where
  /-- `put`, `put_no_drop`, `Emplace::(try_)value` (src/blink.rs:816-851, 1040-1097) -/
  | value (e : Emplacer) (r : Nat) (re : Layout) (v : Nat)
  /-- `Emplace::(try_)with`, `(try_)with_fallible` (src/blink.rs:858-950) up to the call of the closure -/
  | with (e : Emplacer) (r : Nat) (re : Layout)
  /-- the closure returns -/
  | ret (res : Res)
  /-- the closure or iterator panics -/
  | panic
  /-- `Emplace::(try_)from_iter`, `collect_to_blink..` (src/blink.rs:92-163, 964-1006) up to the first use of the iterator -/
  | fromIter (e : Emplacer) (r : Nat)
  /-- `Iterator::size_hint` returns -/
  | hint (lower : Nat) (upper : Option Nat)
  /-- `Iterator::next` returns -/
  | next (x : Option Nat)
  /-- `Iterator::nth` returns -/
  | nth (x : Option Nat)
  /-- `(try_)copy_slice`, `(try_)copy_str` (src/blink.rs:1136-1181) of `n` elements at `src` -/
  | copySlice (src esize ealign n : Nat)
  /-- `(try_)uninit` (src/blink.rs:1103-1129) -/
  | uninit (l : Layout)
  /-- a call on the allocator itself, through `Blink::allocator` (src/blink.rs:271-273) or another shared reference -/
  | direct (op : Op)
  /-- the owner of a reference stores a byte -/
  | write (x : Nat) (b : Byte)
  /-- src/blink.rs:291-294 -/
  | reset
  /-- src/blink.rs:279-281 -/
  | dropAll
  /-- the `Blink` goes out of scope (src/blink.rs:202-207) -/
  | dropBlink
  /-- `SendBlink::new` (src/blink.rs:1418-1421) -/
  | send
deriving DecidableEq, Repr

/-- What a waiting call asks of user code: the result of the closure (src/blink.rs:333, 370), of `size_hint()` (573, 588), of
`next()` (540, 581, 598) or of `nth(k)` (1465). -/
inductive Ask where
  | closure
  | sizeHint
  | next
  | nth (k : Nat)
deriving DecidableEq, Repr

/-- What a waiting call waits for. `nth(lower - 1)` with `lower = 0` wraps around (src/blink.rs:1465). -/
def Frame.ask : Frame → Ask
  | .init .. => .closure
  | .iter _ _ _ .hint0 => .sizeHint
  | .iter _ _ _ (.fill _) => .next
  | .iter _ _ _ .one => .next
  | .iter _ _ _ (.hint _) => .sizeHint
  | .drain _ _ _ _ .hint => .sizeHint
  | .drain _ _ _ _ .next => .next
  | .drain _ _ _ _ (.nth lower) => .nth ((lower + USIZE - 1) % USIZE)

/-- What user code gets (the `CoerceFromMut` conversions at src/blink.rs:33-49 change only the type). `ref`: a reference to one value; `back`: memory could not be obtained, the value (or the closure) is
given back; `failed`: the closure's error; `wait`: user code is asked for something; `slice`, `iterErr`: results of
`try_from_iter`; `panicked`: the call unwinds, `reg` is the slice the guard registered for dropping while unwinding
(not visible to the caller, reported for the specification); `aborted`: panic while panicking. -/
inductive BResp where
  | unit
  | ref (a : Nat)
  | back (v : Option Nat)
  | failed (e : Nat)
  | wait (q : Ask)
  | slice (a n : Nat)
  | iterErr (a n : Nat) (x : Option Nat)
  | panicked (reg : Option (Nat × Nat))
  | aborted
  | direct (r : Resp)
deriving DecidableEq, Repr

/-- The length an allocator tells for a block of length `s.len` that answers a request for `l` (src/api.rs:22, super-trait
`Allocator`). -/
def trim (exact : Bool) (l : Layout) (s : Slice) : Slice := if exact = true then ⟨s.addr, l.size⟩ else s

/-- `BlinkAllocator::reset` (src/api.rs:43) of an allocator of which nothing is known: "potentially invalidating all allocations
made from this instance". All blocks but those of `others` are gone, with their contents. -/
def anyReset (others : List BaseBlk) : M Unit := fun w =>
  .ok ((), { w with
    held := others
    mem := fun x => if others.any (fun b => decide (b.addr ≤ x ∧ x < b.addr + b.len)) then w.mem x else .uninit })

/-- `deallocate` called by user code (src/api.rs:22, super-trait `Allocator`) with a layout of `n` bytes and the alignment of the
block at `p`. -/
def anyDealloc (p n : Nat) : M Unit := fun w =>
  match w.held.find? (fun b => b.fits p ⟨n, b.req.align⟩) with
  | some b => baseDealloc p ⟨n, b.req.align⟩ w
  | none => .error (.ub "deallocate of a block that is not held or does not fit")

/-- `Allocator::grow_zeroed` (src/api.rs:22, super-trait): the new bytes are zero. -/
def anyGrowZeroed (p : Nat) (old new : Layout) : M (Option Slice) := fun w =>
  match baseResize true p old new w with
  | .ok (some s, w') => .ok (some s, { w' with mem := setBytes w'.mem (s.addr + old.size) (s.len - old.size) (fun _ => .raw 0) })
  | r => r

/-- A memory access or a call of the world's allocator as a step of an allocator (no counterpart in the source). -/
def St.mem {α} (s : St) (x : M α) (f : α → Resp) : Except Fault (Resp × St) := do
  let (a, w) ← x s.w
  pure (f a, { s with w := w })

/-- The methods of an allocator of which nothing is known (src/api.rs:22-44 and the super-trait `Allocator`). `resize` stands for
`grow` or `shrink`, whichever takes such a new layout. -/
def anyStep (exact keeps : Bool) (others : List BaseBlk) (s : St) : Op → Except Fault (Resp × St)
  | .allocate l => s.mem (baseAlloc l) fun r => .ofOption (r.map (trim exact l))
  | .allocateZeroed l => s.mem (baseAllocZeroed l) fun r => .ofOption (r.map (trim exact l))
  | .resize p old new => s.mem (baseResize (decide (old.size ≤ new.size)) p old new) fun r => .ofOption (r.map (trim exact new))
  | .growZeroed p old new => s.mem (anyGrowZeroed p old new) fun r => .ofOption (r.map (trim exact new))
  | .deallocate p n => s.mem (anyDealloc p n) fun _ => .unit
  | .reset => if keeps = true then .ok (.unit, s) else s.mem (anyReset others) fun _ => .unit
  | .resetFinal => if keeps = true then .ok (.unit, s) else s.mem (anyReset others) fun _ => .unit
  | .write x v => step s (.write x v)

/-- A call of a method of `A` (src/blink.rs:196): of `BlinkAlloc` (src/local.rs:284-376) or of an allocator of which nothing is
known. -/
def AKind.step (k : AKind) (s : St) (op : Op) : Except Fault (Resp × St) :=
  match k with
  | .any exact keeps others => anyStep exact keeps others s op
  | _ => Blink.step s op

/-- `self.alloc.allocate(layout)` (src/blink.rs:310, 328, 361, 414, 507, 679, 1105): src/local.rs:297-299. -/
def BState.allocate (b : BState) (l : Layout) : Except Fault (Option Slice × BState) := do
  match ← b.kind.step b.s (.allocate l) with
  | (.block s, st) => pure (some s, { b with s := st })
  | (_, st) => pure (none, { b with s := st })

/-- `self.alloc.grow(ptr, old, new)` (src/blink.rs:508, 680): src/local.rs:313-320. Asking an allocator of which nothing is known to
grow a block to a smaller size is undefined behaviour. -/
def BState.grow (b : BState) (p : Nat) (old new : Layout) : Except Fault (Option Slice × BState) := do
  if b.kind.isAny = true ∧ new.size < old.size then .error (.ub "grow to a smaller layout")
  else
    match ← b.kind.step b.s (.resize p old new) with
    | (.block s, st) => pure (some s, { b with s := st })
    | (_, st) => pure (none, { b with s := st })

/-- `self.alloc.deallocate(ptr, layout)` (src/blink.rs:346, 377, 481, 660): src/local.rs:322-325. -/
def BState.dealloc (b : BState) (p : Nat) (l : Layout) : Except Fault BState :=
  match b.kind with
  | .any .. => do
    let ((), w) ← baseDealloc p l b.s.w
    pure { b with s := { b.s with w := w } }
  | _ => do
    let (_, st) ← step b.s (.deallocate p l.size)
    pure { b with s := st }

/-- A memory access of the code in the `Blink`'s world (no counterpart in the source: the lines are given at the accesses). -/
def BState.mem {α} (b : BState) (x : M α) : Except Fault (α × BState) := do
  let (a, w) ← x b.s.w
  pure (a, { b with s := { b.s with w := w } })

/-! ### `DropList` -/

/-- src/drop_list.rs:103-108 `DropList::add`. -/
def BState.add (b : BState) (item : Nat) : Except Fault BState := do
  let ((), b) ← b.mem (storeWord (item + 16) b.root)
  pure { b with root := item, adds := b.adds + 1 }

/-- One run of the destructor of `T` on the value at `a` (part of `drop_in_place`, src/drop_list.rs:128); says whether it
panicked. -/
def BState.dropAt (b : BState) (tid tsize a : Nat) : Except Fault (Bool × BState) :=
  if tsize = 0 ∨ b.s.w.accessible a tsize = true then
    let d := b.dtors b.drops.length
    .ok (d.panics, { b with
      drops := .item tid a (bytesAt b.s.w.mem a tsize) :: b.drops
      s := { b.s with w := { b.s.w with mem := setBytes b.s.w.mem a tsize d.leaves } } })
  else .error (.ub "drop_in_place of inaccessible memory")

/-- The destructor of `T` on a local variable holding `v`: `one_more` at src/blink.rs:572-603, `Some(_)` at 1456-1478 (values without
drop glue are forgotten silently); says whether it panicked. -/
def BState.dropLoose (b : BState) (t : RTy) (v : Nat) : Bool × BState :=
  if t.drop then ((b.dtors b.drops.length).panics, { b with drops := .loose t.tid v :: b.drops }) else (false, b)

/-- How a sequence of destructor runs (src/drop_list.rs:128) ended. -/
inductive DOut where
  | fine
  | panicked
  | aborted
deriving DecidableEq, Repr

/-- `drop_in_place::<[R]>` of `n` elements at `a` (src/drop_list.rs:128): the elements are dropped in order; if the destructor
of one panics the remaining ones are dropped nevertheless, and a second panic aborts the process. Each element is a
`Result<T, ManuallyDrop<G>>`, whose drop glue drops the `T` of an `Ok` and nothing else. `p`: has one panicked already? -/
def dropSlice (t : RTy) : (n a : Nat) → (p : Bool) → BState → Except Fault (DOut × BState)
  | 0, _, p, b => .ok (if p then .panicked else .fine, b)
  | n + 1, a, p, b => do
    let (e, b) ← b.mem (slotGet t a)
    match e with
    | some _ => dropSlice t n (a + t.size) p b
    | none => do
      let (q, b) ← b.dropAt t.tid t.tsize (a + t.okOff)
      if p = true ∧ q = true then pure (.aborted, b)
      else dropSlice t n (a + t.size) (p || q) b

/-- src/drop_list.rs:111-121 `DropList::reset` from item `item` on, with `Drops::drop` (src/drop_list.rs:24-32) and
`drop_from_item` (src/drop_list.rs:125-129). The
loop is run with a budget of iterations; running out of it is a fault, so "no fault" includes termination. -/
def dropLoop : (fuel item : Nat) → BState → Except Fault (DOut × BState)
  | _, 0, b => .ok (.fine, b)
  | 0, _ + 1, _ => .error (.ub "drop list does not end")
  | fuel + 1, item + 1, b => do
    let (count, b) ← b.mem (loadWord (item + 1))
    let (fn, b) ← b.mem (loadWord (item + 1 + 8))
    let (next, b) ← b.mem (loadWord (item + 1 + 16))
    let t := b.types fn
    let (o, b) ← dropSlice t count (item + 1 + valueOff t.align) false b
    match o with
    | .fine => dropLoop fuel next b
    | o => pure (o, b)

/-- src/drop_list.rs:111-121 `DropList::reset`: the root is taken out first. -/
def BState.dropList (b : BState) : Except Fault (DOut × BState) :=
  dropLoop b.adds b.root { b with root := 0 }

/-- src/drop_list.rs:60-79 `DropItem::<[T; 0]>::init_slice`: returns where the slice starts. -/
def BState.initSlice (b : BState) (r : Nat) (blk : Slice) (count : Nat) : Except Fault (Nat × BState) := do
  let ((), b) ← b.mem (dassert (count ≠ 0) "DropItem<[T]> should not be constructed with count 0")
  let ((), b) ← b.mem (initDrops blk count r)
  pure (blk.addr + (dropItem 0 (b.types r).align).size, b)

/-! ### Emplacing one value -/

/-- The layout allocated for one value: src/blink.rs:360 `Layout::new::<T>()` and 326
`Layout::new::<DropItem<Result<T, ManuallyDrop<E>>>>()`. -/
def emplaceLayout (t : RTy) (nd : Bool) (re : Layout) : Layout :=
  if nd then ⟨t.tsize, t.talign⟩ else dropItem re.size re.align

/-- src/blink.rs:397: is the no-drop code used? -/
def noDropPath (t : RTy) (e : Emplacer) : Bool := !t.drop || e.noDrop?

/-- src/blink.rs:319-381 after the closure returned `res`: `_try_emplace_no_drop` (370-380) and `_try_emplace_drop` (333-350,
with src/drop_list.rs:40-58 `init_value`). -/
def BState.finish (b : BState) (r : Nat) (nd : Bool) (re : Layout) (blk : Slice) (res : Res) :
    Except Fault (BResp × BState) := do
  let t := b.types r
  if nd then
    let ((), b) ← b.mem (writeIn blk blk.addr t.size t.align (slotByte t res))
    let (e, b) ← b.mem (slotGet t blk.addr)
    match e with
    | none => pure (.ref (blk.addr + t.okOff), b)
    | some e => do
      let b ← b.dealloc blk.addr (emplaceLayout t nd re)
      pure (.failed e, b)
  else
    let a := blk.addr + valueOff t.align
    let ((), b) ← b.mem (writeIn blk a t.size t.align (slotByte t res))
    let ((), b) ← b.mem (initDrops blk 1 r)
    let (e, b) ← b.mem (slotGet t a)
    match e with
    | none => do
      let b ← b.add blk.addr
      pure (.ref (a + t.okOff), b)
    | some e => do
      let b ← b.dealloc blk.addr (emplaceLayout t nd re)
      pure (.failed e, b)

/-! ### Emplacing the items of an iterator -/

/-- Offset of the array in the allocated block: src/blink.rs:527 `item_ptr.add(1)`, 698. -/
def arrOff (t : RTy) (nd : Bool) : Nat := if nd then 0 else (dropItem 0 t.align).size

/-- src/blink.rs:495-502, 674-676: the layout for `hint` items and the offset of the array in it. `none` is `Err(None)`. -/
def fillLayout (t : RTy) (nd : Bool) (hint : Nat) : Option (Layout × Nat) := do
  let array ← arrayLayout t.size t.align hint
  if nd then pure (array, 0) else (dropItem 0 t.align).extend array

/-- src/blink.rs:495-538, 674-709: `fill` up to its loop. `none`: it returned `Err`. -/
def BState.fillStart (b : BState) (r : Nat) (nd : Bool) (g : Guard) (hint : Nat) (oneMore : Option Nat) :
    Except Fault (Option Guard × BState) := do
  let t := b.types r
  match fillLayout t nd hint with
  | none => pure (none, b)
  | some (full, off) => do
    let ((), b) ← b.mem (dassert (off = arrOff t nd) "array_offset == size_of::<DropItem<[T; 0]>>()")
    let (res, b) ← match g.blk with
      | none => b.allocate full
      | some old => b.grow old.addr g.layout full
    match res with
    | none => pure (none, b)
    | some blk => do
      let ((), b) ← b.mem (dassert (full.size ≤ blk.len) "len == full_layout.size()")
      let cap := if full.size < blk.len then (blk.len - arrOff t nd) / t.size else hint
      let g : Guard := { g with blk := some blk, layout := full, cap := cap }
      match oneMore with
      | none => pure (some g, b)
      | some x => do
        let ((), b) ← b.mem (dassert (g.count < g.cap) "self.count < self.cap")
        let ((), b) ← b.mem (writeIn blk (blk.addr + arrOff t nd + g.count * t.size) t.size t.align (slotByte t (.ok x)))
        pure (some { g with count := g.count + 1 }, b)

/-- The loop of `fill` runs over `self.count..self.cap` (src/blink.rs:540) or `self.count..size_hint` (711). -/
def fillLimit (nd : Bool) (g : Guard) (hint : Nat) : Nat := if nd then hint else g.cap

/-- Where `from_iter` is after `fill` wrote up to index `count`: still in the loop (src/blink.rs:540, 711), or behind it (560-581,
729-749). -/
def fillPhase (count lim : Nat) : Phase := if count < lim then .fill lim else .one

/-- src/blink.rs:450-486 and 636-665 `Guard::flush`: the slice to return. -/
def BState.flush (b : BState) (r : Nat) (nd : Bool) (g : Guard) : Except Fault ((Nat × Nat) × BState) := do
  let t := b.types r
  match g.blk with
  | none => pure ((t.align, 0), b)
  | some blk =>
    if g.count ≠ 0 then
      if nd then pure ((blk.addr, g.count), b)
      else do
        let (a, b) ← b.initSlice r blk g.count
        let b ← b.add blk.addr
        pure ((a, g.count), b)
    else do
      let b ← b.dealloc blk.addr g.layout
      pure ((t.align, 0), b)

/-- The topmost call now waits for user code (no counterpart in the source: the lines are given at `Frame`). -/
def BState.wait (b : BState) (f : Frame) : Except Fault (BResp × BState) :=
  .ok (.wait f.ask, { b with frames := f :: b.frames })

/-- `size_hint` returned while sized items are collected: src/blink.rs:573-579, 588-596 and 741-747, 756-764. -/
def BState.iterHint (b : BState) (r : Nat) (nd : Bool) (g : Guard) (ph : Phase) (lower : Nat) (upper : Option Nat) :
    Except Fault (BResp × BState) := do
  match ph with
  | .hint0 =>
    if lower ≠ 0 then do
      let h := max lower FASTER_START
      match ← b.fillStart r nd g h none with
      | (some g, b) => b.wait (.iter r nd g (fillPhase g.count (fillLimit nd g h)))
      | (none, b) => do
        let ((a, n), b) ← b.flush r nd g
        pure (.iterErr a n none, b)
    else b.wait (.iter r nd g .one)
  | .hint x =>
    match sizeHintAndOne lower upper (max g.count FASTER_START) with
    | none => do
      let ((a, n), b) ← b.flush r nd g
      pure (.iterErr a n (some x), b)
    | some h => do
      match ← b.fillStart r nd g h (some x) with
      | (some g, b) => b.wait (.iter r nd g (fillPhase g.count (fillLimit nd g h)))
      | (none, b) => do
        let ((a, n), b) ← b.flush r nd g
        pure (.iterErr a n (some x), b)
  | _ => .error (.ub "no size_hint is pending")

/-- `next` returned while sized items are collected: src/blink.rs:540-558, 581-584, 598-601 and 711-727, 749-752, 766-769. -/
def BState.iterNext (b : BState) (r : Nat) (nd : Bool) (g : Guard) (ph : Phase) (x : Option Nat) :
    Except Fault (BResp × BState) := do
  let t := b.types r
  match ph with
  | .fill lim =>
    match g.blk with
    | none => .error (.ub "fill without a block")
    | some blk =>
      let a := blk.addr + arrOff t nd + g.count * t.size
      match x with
      | some v => do
        let ((), b) ← b.mem (writeIn blk a t.size t.align (slotByte t (.ok v)))
        b.wait (.iter r nd { g with count := g.count + 1 } (fillPhase (g.count + 1) lim))
      | none =>
        if t.niche then do
          let ((), b) ← b.mem (writeIn blk a t.size t.align (fun _ => .raw 0))
          b.wait (.iter r nd g .one)
        else b.wait (.iter r nd g .one)
  | .one =>
    match x with
    | none => do
      let ((a, n), b) ← b.flush r nd g
      pure (.slice a n, b)
    | some v => b.wait (.iter r nd g (.hint v))
  | _ => .error (.ub "no next is pending")

/-- The iterator panics while sized items are collected: `one_more` is dropped, then the guard, whose `Drop` flushes in the
drop variant (src/blink.rs:435-443); the no-drop guard has no `Drop`. -/
def BState.iterPanic (b : BState) (r : Nat) (nd : Bool) (g : Guard) (ph : Phase) : Except Fault (BResp × BState) := do
  let (p, b) := match ph with
    | .hint x => b.dropLoose (b.types r) x
    | _ => (false, b)
  if p then pure (.aborted, { b with over := true })
  else if nd then pure (.panicked none, b)
  else do
    let ((a, n), b) ← b.flush r nd g
    pure (.panicked (some (a, n)), b)

/-! ### Zero-sized items -/

/-- `saturating_drain_iter` returned `count`: src/blink.rs:420-423, 617-620. -/
def BState.drainDone (b : BState) (r : Nat) (nd : Bool) (blk : Slice) (count : Nat) : Except Fault (BResp × BState) := do
  if nd then pure (.slice (b.types r).align count, b)
  else do
    let (a, b) ← b.initSlice r blk count
    let b ← b.add blk.addr
    pure (.slice a count, b)

/-- `size_hint` returned in `saturating_drain_iter`: src/blink.rs:1452-1465. -/
def BState.drainHint (b : BState) (r : Nat) (nd : Bool) (blk : Slice) (drained lower : Nat) :
    Except Fault (BResp × BState) := do
  if lower = 0 then b.wait (.drain r nd blk drained .next)
  else do
    let lower := min lower (USIZE - 1 - drained)
    let ((), b) ← b.mem (dassert (lower ≠ 0) "attempt to subtract with overflow")
    b.wait (.drain r nd blk drained (.nth lower))

/-- `next` (`k = none`) or `nth(lower - 1)` (`k = some lower`) returned in `saturating_drain_iter`: src/blink.rs:1456-1478. The
item is dropped by the pattern `Some(_)`. In release builds `drained += 1` wraps around. -/
def BState.drainNext (b : BState) (r : Nat) (nd : Bool) (blk : Slice) (drained : Nat) (k : Option Nat) (x : Option Nat) :
    Except Fault (BResp × BState) := do
  match x with
  | none => b.drainDone r nd blk drained
  | some v =>
    let (p, b) := b.dropLoose (b.types r) v
    if p then pure (.panicked none, b)
    else
      match k with
      | none => do
        let ((), b) ← b.mem (dassert (drained + 1 < USIZE) "attempt to add with overflow")
        b.wait (.drain r nd blk ((drained + 1) % USIZE) .hint)
      | some lower =>
        if drained + lower = USIZE - 1 then b.drainDone r nd blk (USIZE - 1)
        else b.wait (.drain r nd blk (drained + lower) .hint)

/-! ### The API as a transition system -/

/-- src/blink.rs:388-402, 779-793 up to the first use of user code. -/
def BState.start (b : BState) : BOp → Except Fault (BResp × BState)
  | .value e r re v => do
    let t := b.types r
    let nd := noDropPath t e
    match ← b.allocate (emplaceLayout t nd re) with
    | (none, b) => pure (.back (some v), b)
    | (some blk, b) => b.finish r nd re blk (.ok v)
  | .with e r re => do
    let t := b.types r
    let nd := noDropPath t e
    match ← b.allocate (emplaceLayout t nd re) with
    | (none, b) => pure (.back none, b)
    | (some blk, b) => b.wait (.init r nd re blk)
  | .fromIter e r => do
    let t := b.types r
    let nd := noDropPath t e
    if t.size = 0 then
      if nd then b.wait (.drain r nd ⟨0, 0⟩ 0 .hint)
      else do
        match ← b.allocate (dropItem 0 t.align) with
        | (none, b) => pure (.iterErr t.align 0 none, b)
        | (some blk, b) => b.wait (.drain r nd blk 0 .hint)
    else b.wait (.iter r nd ⟨none, 0, 0, ⟨0, 1⟩⟩ .hint0)
  | _ => .error (.ub "not a call")

/-- User code returns (or panics) into the topmost waiting call (src/blink.rs); the lines are given at the functions called and at `Frame`. -/
def BState.resume (b : BState) (f : Frame) : BOp → Except Fault (BResp × BState)
  | .ret res =>
    match f with
    | .init r nd re blk => b.finish r nd re blk res
    | _ => .error (.ub "no closure is running")
  | .hint lower upper =>
    match f with
    | .iter r nd g ph => b.iterHint r nd g ph lower upper
    | .drain r nd blk drained .hint => b.drainHint r nd blk drained lower
    | _ => .error (.ub "no size_hint is pending")
  | .next x =>
    match f with
    | .iter r nd g ph => b.iterNext r nd g ph x
    | .drain r nd blk drained .next => b.drainNext r nd blk drained none x
    | _ => .error (.ub "no next is pending")
  | .nth x =>
    match f with
    | .drain r nd blk drained (.nth lower) => b.drainNext r nd blk drained (some lower) x
    | _ => .error (.ub "no nth is pending")
  | .panic =>
    match f with
    | .iter r nd g ph => b.iterPanic r nd g ph
    | _ => pure (.panicked none, b)
  | _ => .error (.ub "not a return")

/-- src/api.rs:46-63 and src/local.rs:368-376 `BlinkAllocator::reset`: nothing for `&A`. -/
def BState.resetAlloc (b : BState) : Except Fault BState :=
  match b.kind with
  | .shared => pure b
  | k => do
    let (_, st) ← k.step b.s .reset
    pure { b with s := st }

/-- Dropping the field `alloc: A` (src/blink.rs:198): `Drop for BlinkAlloc` (src/local.rs:93-105); references are not dropped. Of an
allocator of which nothing is known, all blocks are gone. -/
def BState.dropAlloc (b : BState) : Except Fault BState :=
  match b.kind with
  | .shared | .refMut => pure b
  | k => do
    let (_, st) ← k.step b.s .resetFinal
    pure { b with s := st }

/-- src/blink.rs:291-294 `Blink::reset`. If a destructor panics the allocator is not reset. -/
def BState.reset (b : BState) : Except Fault (BResp × BState) := do
  match ← b.dropList with
  | (.fine, b) => do
    let b ← b.resetAlloc
    pure (.unit, b)
  | (.panicked, b) => pure (.panicked none, b)
  | (.aborted, b) => pure (.aborted, { b with over := true })

/-- One user action (src/blink.rs). The lines modelled are given case by case or at the functions called. -/
def bstep (b : BState) : BOp → Except Fault (BResp × BState)
  -- src/blink.rs:301-317 `_try_copy_slice`
  | .copySlice src esize ealign n => do
    match ← b.allocate ⟨n * esize, ealign⟩ with
    | (none, b) => pure (.back none, b)
    | (some blk, b) => do
      let ((), b) ← b.mem (require (n * esize ≤ blk.len) "copy outside the allocation")
      let ((), b) ← b.mem (copyNonoverlapping src blk.addr (n * esize))
      pure (.slice blk.addr n, b)
  -- src/blink.rs:1103-1129
  | .uninit l => do
    match ← b.allocate l with
    | (none, b) => pure (.back none, b)
    | (some blk, b) => pure (.ref blk.addr, b)
  | .direct op => do
    let (r, st) ← b.kind.step b.s op
    pure (.direct r, { b with s := st })
  | .write x v => pure (.unit, { b with s := { b.s with w := { b.s.w with mem := setBytes b.s.w.mem x 1 (fun _ => v) } } })
  | .reset => b.reset
  -- src/blink.rs:1418-1421
  | .send => b.reset
  -- src/blink.rs:279-281
  | .dropAll => do
    match ← b.dropList with
    | (.fine, b) => pure (.unit, b)
    | (.panicked, b) => pure (.panicked none, b)
    | (.aborted, b) => pure (.aborted, { b with over := true })
  -- src/blink.rs:202-207; the fields are dropped even if a destructor panicked
  | .dropBlink => do
    match ← b.dropList with
    | (.fine, b) => do
      let b ← b.dropAlloc
      pure (.unit, { b with over := true })
    | (.panicked, b) => do
      let b ← b.dropAlloc
      pure (.panicked none, { b with over := true })
    | (.aborted, b) => pure (.aborted, { b with over := true })
  | .ret res =>
    match b.frames with
    | f :: fs => ({ b with frames := fs } : BState).resume f (.ret res)
    | [] => .error (.ub "nothing is pending")
  | .panic =>
    match b.frames with
    | f :: fs => ({ b with frames := fs } : BState).resume f .panic
    | [] => .error (.ub "nothing is pending")
  | .hint lower upper =>
    match b.frames with
    | f :: fs => ({ b with frames := fs } : BState).resume f (.hint lower upper)
    | [] => .error (.ub "nothing is pending")
  | .next x =>
    match b.frames with
    | f :: fs => ({ b with frames := fs } : BState).resume f (.next x)
    | [] => .error (.ub "nothing is pending")
  | .nth x =>
    match b.frames with
    | f :: fs => ({ b with frames := fs } : BState).resume f (.nth x)
    | [] => .error (.ub "nothing is pending")
  | op => b.start op

end Blink
