import Verif.Model.Blink
import Verif.Spec.Client
/-
  Specification vocabulary for `Blink`: what user code holds, which actions it may take, and histories. Phrased in terms of
  actions and responses only.
-/
namespace Blink

/-! ### Facts about types that rustc guarantees -/

/-- Facts about one instantiation: alignments are powers of two, sizes are multiples of them, the `T` of an `Ok` lies inside
the `Result`; if the error type is uninhabited the `Result` has the layout of `T`; no type exceeds `isize::MAX` bytes. -/
structure RTy.OK (t : RTy) : Prop where
  talign : ∃ k, t.talign = 2 ^ k
  align : ∃ k, t.align = 2 ^ k
  le : t.talign ≤ t.align
  tmul : t.tsize % t.talign = 0
  mul : t.size % t.align = 0
  okIn : t.okOff + t.tsize ≤ t.size
  okAl : t.okOff % t.talign = 0
  plain : t.disc = none → t.size = t.tsize ∧ t.align = t.talign ∧ t.okOff = 0
  disc : ∀ d, t.disc = some d → d < t.size
  item : (dropItem t.size t.align).Valid
  self : (Layout.mk t.tsize t.talign).Valid

/-- `re` can be the layout of `Result<T, ManuallyDrop<E>>`, where `E` contains `G` (src/blink.rs:326 allocates for `E`, the value
stored is a `Result<T, ManuallyDrop<G>>`): it is at least as large and aligned as that of `Result<T, ManuallyDrop<G>>`. -/
structure ReOK (t : RTy) (re : Layout) : Prop where
  pow : ∃ k, re.align = 2 ^ k
  size : t.size ≤ re.size
  align : t.align ≤ re.align
  item : (dropItem re.size re.align).Valid

/-! ### What user code holds -/

/-- A reference user code holds (or, after a panic, a slice the `Blink` keeps for dropping): `count` values of a type of the
given size and alignment at `addr`; `drop` says whether the `Blink` has to run the destructor `tid` on them. -/
structure Ref where
  tid   : Nat
  addr  : Nat
  size  : Nat
  align : Nat
  count : Nat
  drop  : Bool
deriving DecidableEq, Repr

/-- Byte `x` belongs to the values referred to. -/
def Ref.Has (r : Ref) (x : Nat) : Prop := r.addr ≤ x ∧ x < r.addr + r.count * r.size

/-- The destructor runs due for the values referred to, in slice order, with the contents `m` of memory. -/
def Ref.events (m : Nat → Byte) (r : Ref) : List DropEv :=
  (List.range r.count).map fun k => .item r.tid (r.addr + k * r.size) (bytesAt m (r.addr + k * r.size) r.size)

/-- The destructor runs due for all references (newest first). -/
def owed (m : Nat → Byte) (refs : List Ref) : List DropEv := (refs.filter (·.drop)).flatMap (Ref.events m)

/-- The values `vs`, each of `size` bytes, are stored one after the other from `a` on. -/
def Holds (m : Nat → Byte) (a size : Nat) (vs : List Nat) : Prop :=
  ∀ i (h : i < vs.length) j, j < size → m (a + i * size + j) = .obj (2 * vs[i]) j

/-- A call waiting for user code, as user code sees it: what it asks for, the type, whether the values are to be dropped, the
items its iterator has yielded, whether the iterator has returned `None` already, and how many (zero-sized) items it took. -/
structure FBook where
  ask   : Ask
  r     : Nat
  nd    : Bool
  got   : List Nat
  ended : Bool
  taken : Nat
deriving DecidableEq, Repr

/-- What user code holds: references (newest first), blocks obtained from the allocator directly, waiting calls. -/
structure BBook where
  refs   : List Ref
  direct : List Owned
  frames : List FBook
deriving DecidableEq, Repr

def BBook.push (bk : BBook) (r : Ref) : BBook := { bk with refs := r :: bk.refs }

/-- A reference to `n` values of type `T`. -/
def RTy.ref (t : RTy) (nd : Bool) (a n : Nat) : Ref := ⟨t.tid, a, t.tsize, t.talign, n, !nd⟩

/-- Values that will not be dropped: those of types without drop glue, and those emplaced by an adaptor that asks for it.
(`emplace_shared` is one of them, contrary to its documentation; see `C41_full_false`.) -/
def undropped (t : RTy) : Emplacer → Bool
  | .emplace | .unchecked => !t.drop
  | .noDrop | .shared => true

/-- A slice result; empty slices of sized items refer to nothing. -/
def BBook.pushSlice (bk : BBook) (t : RTy) (nd : Bool) (a n : Nat) : BBook :=
  if n = 0 ∧ t.tsize ≠ 0 then bk else bk.push (t.ref nd a n)

/-- Number of items an answer hands over. -/
def Option.given : Option Nat → Nat → Nat
  | some _, k => k
  | none, _ => 0

/-- A waiting call after user code answered it. -/
def FBook.tell (f : FBook) : BOp → FBook
  | .next x => { f with got := f.got ++ x.toList, ended := f.ended || x.isNone, taken := f.taken + Option.given x 1 }
  | .nth x =>
    match f.ask with
    | .nth k => { f with taken := f.taken + Option.given x (k + 1) }
    | _ => f
  | _ => f

/-- What user code holds when the call `f`, which was waiting on top of `bk`, goes on and responds. -/
def BBook.land (types : Nat → RTy) (bk : BBook) (f : FBook) : BResp → BBook
  | .wait q => { bk with frames := { f with ask := q } :: bk.frames }
  | .ref a => bk.push ((types f.r).ref f.nd a 1)
  | .slice a n => bk.pushSlice (types f.r) f.nd a n
  | .iterErr a n _ => bk.pushSlice (types f.r) f.nd a n
  | .panicked (some (a, n)) => bk.pushSlice (types f.r) f.nd a n
  | _ => bk

/-- What user code holds after an action answered by `resp`. -/
def bookAfter (types : Nat → RTy) (kind : AKind) (bk : BBook) (op : BOp) (resp : BResp) : BBook :=
  match op with
  | .value e r _ _ =>
    match resp with
    | .ref a => bk.push ((types r).ref (undropped (types r) e) a 1)
    | _ => bk
  | .with e r _ =>
    match resp with
    | .wait q => { bk with frames := ⟨q, r, undropped (types r) e, [], false, 0⟩ :: bk.frames }
    | _ => bk
  | .fromIter e r =>
    match resp with
    | .wait q => { bk with frames := ⟨q, r, undropped (types r) e, [], false, 0⟩ :: bk.frames }
    | _ => bk
  | .copySlice _ es ea _ =>
    match resp with
    | .slice a m => bk.push ⟨0, a, es, ea, m, false⟩
    | _ => bk
  | .uninit l =>
    match resp with
    | .ref a => bk.push ⟨0, a, l.size, l.align, 1, false⟩
    | _ => bk
  | .direct _ => bk
  | .write _ _ => bk
  | .reset | .send | .dropAll | .dropBlink =>
    { bk with refs := [], direct := if kind.keeps = true then bk.direct else [] }
  | .ret _ | .panic | .hint _ _ | .next _ | .nth _ =>
    match bk.frames with
    | [] => bk
    | f :: fs => ({ bk with frames := fs } : BBook).land types (f.tell op) resp

/-- The item a waiting `from_iter` has taken from the iterator but not stored yet. -/
def FBook.pending (f : FBook) : List Nat := if f.ask = .sizeHint then f.got.getLast?.toList else []

/-- Destructor run on the local variable `v`, if its type has drop glue. -/
def RTy.loose (t : RTy) (v : Nat) : List DropEv := if t.drop then [.loose t.tid v] else []

/-- Destructor runs on values that are not in the arena, when user code answers the waiting call `f`: zero-sized items are dropped
as soon as they are taken; an unwinding `from_iter` drops the item it has not stored. -/
def inFlight (types : Nat → RTy) (f : FBook) : BOp → List DropEv
  | .next (some v) => if (types f.r).tsize = 0 then (types f.r).loose v else []
  | .nth (some v) => if (types f.r).tsize = 0 then (types f.r).loose v else []
  | .panic => if (types f.r).tsize = 0 then [] else f.pending.flatMap (types f.r).loose
  | _ => []

/-- Destructor runs on values that are not in the arena, caused by the action `op`. -/
def looseDrops (types : Nat → RTy) (bk : BBook) (op : BOp) : List DropEv :=
  match bk.frames with
  | f :: _ => inFlight types f op
  | [] => []

/-! ### Legal actions -/

/-- A byte a value of a Rust type may contain as far as the drop glue is concerned: initialised, and not the representation of
an `Err`. -/
def Byte.plain : Byte → Bool
  | .uninit => false
  | .obj c _ => c % 2 = 0
  | _ => true

/-- `[a, a + n)` is memory user code may read: in a reference, in a block of the allocator it owns, or in a block `F` of
somebody else. -/
def Readable (F : List BaseBlk) (bk : BBook) (a n : Nat) : Prop :=
  n = 0 ∨ (∃ r ∈ bk.refs, r.addr ≤ a ∧ a + n ≤ r.addr + r.count * r.size) ∨
  (∃ o ∈ bk.direct, o.addr ≤ a ∧ a + n ≤ o.addr + o.len) ∨ (∃ f ∈ F, f.addr ≤ a ∧ a + n ≤ f.addr + f.len)

/-- What safe user code can do, minus two uses known to go wrong: returning from a closure in the no-drop variant when the `Result`
is larger than the `T` (`hfit`, see `C37_full_false`), and an iterator that goes on after `None` in the drop variant (`hfused`,
see `C38_full_false`); and in debug builds (`hz`), iterators of zero-sized items that are empty (drop variant, see `C42_empty_debug`)
or yield `usize::MAX - 2` items (the counter overflows). -/
inductive BLegal (types : Nat → RTy) (F : List BaseBlk) (dbg : Bool) (bk : BBook) : BOp → Prop
  | value {e r re v} (hd : (types r).disc = none) (hre : ReOK (types r) re) : BLegal types F dbg bk (.value e r re v)
  | with {e r re} (hre : ReOK (types r) re) : BLegal types F dbg bk (.with e r re)
  | ret {f fs res} (hf : bk.frames = f :: fs) (hq : f.ask = .closure)
      (he : ∀ e, res = .err e → (types f.r).disc ≠ none)
      (hfit : f.nd = true → (types f.r).size ≤ (types f.r).tsize ∧ (types f.r).align ≤ (types f.r).talign) : BLegal types F dbg bk (.ret res)
  | panic (hf : bk.frames ≠ []) : BLegal types F dbg bk .panic
  | fromIter {e r} (hp : (types r).disc = none) : BLegal types F dbg bk (.fromIter e r)
  | hint {f fs lower upper} (hf : bk.frames = f :: fs) (hq : f.ask = .sizeHint) (hl : lower < USIZE)
      (hu : ∀ u, upper = some u → u < USIZE) : BLegal types F dbg bk (.hint lower upper)
  | next {f fs x} (hf : bk.frames = f :: fs) (hq : f.ask = .next)
      (hfused : f.nd = false → f.ended = true → x = none)
      (hz : dbg = true → (types f.r).tsize = 0 → f.taken + 2 < USIZE ∧ (f.nd = false → x = none → f.taken ≠ 0)) :
      BLegal types F dbg bk (.next x)
  | nth {f fs k x} (hf : bk.frames = f :: fs) (hq : f.ask = .nth k)
      (hz : dbg = true → f.nd = false → x = none → f.taken ≠ 0) : BLegal types F dbg bk (.nth x)
  | copySlice {src es ea n} (hs : Readable F bk src (n * es)) (hl : (Layout.mk (n * es) ea).Valid) :
      BLegal types F dbg bk (.copySlice src es ea n)
  | uninit {l} (hl : l.Valid) : BLegal types F dbg bk (.uninit l)
  | direct {op} (h : Legal bk.direct op) (hn : op.NoReset) : BLegal types F dbg bk (.direct op)
  | write {r x v} (hr : r ∈ bk.refs) (hx : r.Has x) (hv : v.plain = true) : BLegal types F dbg bk (.write x v)
  | reset (hf : bk.frames = []) : BLegal types F dbg bk .reset
  | send (hf : bk.frames = []) : BLegal types F dbg bk .send
  | dropAll (hf : bk.frames = []) : BLegal types F dbg bk .dropAll
  | dropBlink (hf : bk.frames = []) : BLegal types F dbg bk .dropBlink

/-- What user code holds after an action. -/
inductive BAfter (types : Nat → RTy) (kind : AKind) (bk : BBook) : BOp → BResp → BBook → Prop
  | direct {op r L} (h : After bk.direct op r L) : BAfter types kind bk (.direct op) (.direct r) { bk with direct := L }
  | other {op resp} (h : ∀ o, op ≠ .direct o) : BAfter types kind bk op resp (bookAfter types kind bk op resp)

/-- What safe user code can do, including the uses `BLegal` leaves out. -/
def BSafe (types : Nat → RTy) (F : List BaseBlk) (dbg : Bool) (bk : BBook) (op : BOp) : Prop :=
  BLegal types F dbg bk op ∨ (∃ f fs res, op = .ret res ∧ bk.frames = f :: fs ∧ f.ask = .closure ∧ ∀ e, res = .err e → (types f.r).disc ≠ none) ∨
  (∃ f fs x, op = .next x ∧ bk.frames = f :: fs ∧ f.ask = .next) ∨
  (∃ f fs k x, op = .nth x ∧ bk.frames = f :: fs ∧ f.ask = .nth k)

/-! ### Histories -/

/-- Uses of a `Blink<A>` that go wrong with some allocator `A` of which nothing is known, though not with `BlinkAlloc`: iterators of
sized items that go on after `None` (see `C82_full_false`), and collecting items to be dropped if `A` may say that a block is longer
than asked for (see `C82_slices_full_false`). Direct calls giving back empty blocks are left out too: an address does not tell which
block is meant. -/
def AKind.Asks (k : AKind) (types : Nat → RTy) (bk : BBook) (op : BOp) : Prop :=
  ∀ exact keeps others, k = .any exact keeps others →
    match op with
    | .next x => ∀ f fs, bk.frames = f :: fs → (types f.r).tsize ≠ 0 → f.ended = true → x = none
    | .fromIter e r => exact = true ∨ undropped (types r) e = true ∨ (types r).tsize = 0
    | .direct (.resize _ old _) => 0 < old.size
    | .direct (.growZeroed _ old _) => 0 < old.size
    | .direct (.deallocate _ n) => 0 < n
    | _ => True

/-- The legal actions in a history starting with `b0`. -/
def BState.legal (b0 : BState) (bk : BBook) (op : BOp) : Prop :=
  BLegal b0.types b0.s.w.held b0.s.w.debug bk op ∧ b0.kind.Asks b0.types bk op

/-- The actions of safe code in a history starting with `b0`. -/
def BState.safe (b0 : BState) : BBook → BOp → Prop := BSafe b0.types b0.s.w.held b0.s.w.debug

/-- A history of actions allowed by `may`, from the state `b` in which user code holds `bk`. -/
inductive BSteps (b0 : BState) (may : BBook → BOp → Prop) (b : BState) (bk : BBook) :
    List (BOp × BResp) → BState → BBook → Prop
  | nil : BSteps b0 may b bk [] b bk
  | snoc {tr b1 bk1 op r b2 bk2} (h : BSteps b0 may b bk tr b1 bk1) (ho : b1.over = false) (hl : may bk1 op)
      (hs : bstep b1 op = .ok (r, b2)) (ha : BAfter b0.types b0.kind bk1 op r bk2) :
      BSteps b0 may b bk (tr ++ [(op, r)]) b2 bk2

/-- A fresh `Blink` over a fresh allocator. -/
structure BStart (b : BState) : Prop where
  alloc : b.kind.isAny = false → Start b.s
  world : HeldOK b.s.w
  others : ∀ exact keeps others, b.kind = .any exact keeps others → others = b.s.w.held
  types : ∀ r, (b.types r).OK
  root : b.root = 0
  frames : b.frames = []
  drops : b.drops = []
  adds : b.adds = 0
  over : b.over = false

/-- `b` is reachable from the fresh `b0` by a history of legal actions after which user code holds `bk`. -/
def BReach (b0 b : BState) (bk : BBook) : Prop := BStart b0 ∧ ∃ tr, BSteps b0 b0.legal b0 ⟨[], [], []⟩ tr b bk

/-- The same for the actions of safe code. -/
def BReachSafe (b0 b : BState) (bk : BBook) : Prop := BStart b0 ∧ ∃ tr, BSteps b0 b0.safe b0 ⟨[], [], []⟩ tr b bk

/-- References created by an action. -/
def made (types : Nat → RTy) (bk : BBook) (op : BOp) (resp : BResp) : List Ref :=
  (bookAfter types .owned { bk with refs := [] } op resp).refs

/-- One step of going through a history: what user code holds, and the references created so far. -/
def replay (types : Nat → RTy) (p : BBook × List Ref) (e : BOp × BResp) : BBook × List Ref :=
  (bookAfter types .owned p.1 e.1 e.2, made types p.1 e.1 e.2 ++ p.2)

/-- All references created in a history of a fresh `Blink`. -/
def everMade (types : Nat → RTy) (tr : List (BOp × BResp)) : List Ref := (tr.foldl (replay types) (⟨[], [], []⟩, [])).2

/-- Number of values of type `tid` to be dropped by the `Blink`. -/
def toDrop (tid : Nat) (refs : List Ref) : Nat := (refs.map fun r => if r.drop ∧ r.tid = tid then r.count else 0).sum

/-- Is this a destructor run on a value of type `tid` in the arena? -/
def DropEv.isItem (tid : Nat) : DropEv → Bool
  | .item t _ _ => t = tid
  | .loose _ _ => false

/-- Number of values of type `tid` in the arena whose destructor was run. -/
def didDrop (tid : Nat) (log : List DropEv) : Nat := (log.filter (DropEv.isItem tid)).length

/-- Is this a destructor run on a value of type `tid`, in the arena or not? -/
def DropEv.isRun (tid : Nat) : DropEv → Bool
  | .item t _ _ => t = tid
  | .loose t _ => t = tid

/-- Number of destructor runs on values of type `tid`. -/
def runs (tid : Nat) (log : List DropEv) : Nat := (log.filter (DropEv.isRun tid)).length

/-- Number of values of type `tid` that user code hands to the `Blink` by one action: the value to put, the result of a closure, an
item of an iterator. -/
def handedBy (types : Nat → RTy) (tid : Nat) (bk : BBook) : BOp → Nat
  | .value _ r _ _ => if (types r).tid = tid then 1 else 0
  | .ret (.ok _) | .next (some _) | .nth (some _) =>
    match bk.frames with
    | f :: _ => if (types f.r).tid = tid then 1 else 0
    | [] => 0
  | _ => 0

/-- Number of values of type `tid` handed to the `Blink` in a history, from `bk` on. -/
def handed (types : Nat → RTy) (tid : Nat) : BBook → List (BOp × BResp) → Nat
  | _, [] => 0
  | bk, e :: tr => handedBy types tid bk e.1 + handed types tid (bookAfter types .owned bk e.1 e.2) tr

/-- Actions that drop all emplaced values. -/
def BOp.drops : BOp → Prop
  | .reset | .send | .dropAll | .dropBlink => True
  | _ => False

end Blink
