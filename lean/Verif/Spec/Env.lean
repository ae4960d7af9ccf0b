import Verif.Spec.Proxy
/-
  Other users of the underlying allocator. The histories of `Spec/Client.lean`, `Spec/Sync.lean` and `Spec/Proxy.lean` let others hold blocks of the
  underlying allocator from the beginning. Here others also obtain blocks, give them back and store into them at any moment.
-/
namespace Blink

/-- Byte `x` belongs to the block. -/
def BaseBlk.Holds (b : BaseBlk) (x : Nat) : Prop := b.addr ≤ x ∧ x < b.addr + b.len

/-- Somebody else uses the underlying allocator. `O` and `O'` are the blocks of others before and after. Contents of memory newly obtained or given back are
arbitrary. A request of somebody else (refused or not) may use up the next answer (`ask`). -/
inductive EnvStep (O : List BaseBlk) (w : World) : List BaseBlk → World → Prop
  | take {b : BaseBlk} {m : Nat → Byte} (h0 : 0 < b.addr) (ht : b.addr + b.len < w.top) (hd : ∀ c ∈ w.held, b.Disjoint c)
      (hm : ∀ x, ¬ b.Holds x → m x = w.mem x) : EnvStep O w (b :: O) { w with held := b :: w.held, mem := m }
  | give {b : BaseBlk} {m : Nat → Byte} (hb : b ∈ O) (hm : ∀ x, ¬ b.Holds x → m x = w.mem x) :
      EnvStep O w (O.erase b) { w with held := w.held.erase b, mem := m }
  | write {b : BaseBlk} {m : Nat → Byte} (hb : b ∈ O) (hm : ∀ x, ¬ b.Holds x → m x = w.mem x) :
      EnvStep O w O { w with mem := m }
  | ask : EnvStep O w O { w with calls := w.calls + 1 }

/-- A history of one `BlinkAlloc` with steps of others in between. The list records the calls of this allocator. -/
inductive ERun (s0 : St) : List (Op × Resp) → St → List Owned → List BaseBlk → Prop
  | nil : ERun s0 [] s0 [] s0.w.held
  | snoc {tr s L O op r s' L'} (h : ERun s0 tr s L O) (hl : Legal L op) (hs : step s op = .ok (r, s')) (ha : After L op r L') :
      ERun s0 (tr ++ [(op, r)]) s' L' O
  | env {tr s L O O' w'} (h : ERun s0 tr s L O) (he : EnvStep O s.w O' w') : ERun s0 tr { s with w := w' } L O'

/-- A history of a `SyncBlinkAlloc` with steps of others in between. -/
inductive ESRun (s0 : SS) : List (Act × Option Resp) → SS → Book → List BaseBlk → Prop
  | nil : ESRun s0 [] s0 Book.empty s0.w.held
  | snoc {tr s K O a r s' K'} (h : ESRun s0 tr s K O) (hl : SLegal K a) (hs : sstep s a = .ok (some (r, s')))
      (ha : SAfter s.w.mem K a r K') : ESRun s0 (tr ++ [(a, r)]) s' K' O
  | env {tr s K O O' w'} (h : ESRun s0 tr s K O) (he : EnvStep O s.w O' w') : ESRun s0 tr { s with w := w' } K O'

/-- A history of a `SyncBlinkAlloc` and its proxies with steps of others in between. -/
inductive EPRun (p0 : PS) : List (PAct × Option Resp) → PS → PBook → List BaseBlk → Prop
  | nil : EPRun p0 [] p0 PBook.empty p0.s.w.held
  | snoc {tr ps K O a r ps' K'} (h : EPRun p0 tr ps K O) (hl : PLegal K a) (hs : pstep ps a = .ok (some (r, ps')))
      (ha : PAfter ps.s.w.mem K a r K') : EPRun p0 (tr ++ [(a, r)]) ps' K' O
  | env {tr ps K O O' w'} (h : EPRun p0 tr ps K O) (he : EnvStep O ps.s.w O' w') :
      EPRun p0 tr { ps with s := { ps.s with w := w' } } K O'

/-- The same world without the blocks of others, and with the answers `o` of the underlying allocator. -/
def World.alone (w : World) (o : Nat → Option Slice) : World := { w with held := [], oracle := o }

/-- `w` is the world `v` plus the blocks `O` of others: same memory in all blocks of `v`, same calls made, same answers to come. -/
structure Alongside (O : List BaseBlk) (w v : World) : Prop where
  held : w.held.Perm (v.held ++ O)
  mem : ∀ b ∈ v.held, ∀ x, b.Holds x → w.mem x = v.mem x
  next : ∀ k, w.oracle (w.calls + k) = v.oracle (v.calls + k)
  log : w.log = v.log
  top : w.top = v.top
  debug : w.debug = v.debug

/-- The answer `sl` lies in a block of others. -/
def Hits (O : List BaseBlk) (sl : Slice) : Prop := ∃ b ∈ O, ∃ x, b.Holds x ∧ sl.addr ≤ x ∧ x < sl.addr + sl.len

/-- The two books differ at most in what they remember of memory not handed over. -/
structure SameBook (K K1 : Book) : Prop where
  owned : K1.owned = K.owned
  busy : K1.busy = K.busy
  snap : ∀ t c b, K.busy t = some (c, some b) → ∀ x, b.Has x → K1.snap t x = K.snap t x

/-- The same for the book of a shared allocator with proxies. -/
structure SamePBook (K K1 : PBook) : Prop where
  direct : SameBook K.direct K1.direct
  live : K1.live = K.live
  led : K1.led = K.led
  pbusy : K1.pbusy = K.pbusy

end Blink
