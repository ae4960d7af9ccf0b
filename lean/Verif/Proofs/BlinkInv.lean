import Verif.Proofs.BlinkBase
import Verif.Proofs.KindInv
/-
  Invariant of a `Blink`.
-/
namespace Blink

/-- Ghost view of a reference: the block it lies in (none for slices of zero-sized values without record), and the index of its
type. -/
structure Item where
  ref : Ref
  blk : Option Owned
  rid : Nat

/-- The record at the start of the block `o` describes the values `r`. -/
structure DropOK (types : Nat → RTy) (m : Nat → Byte) (r : Ref) (rid : Nat) (o : Owned) : Prop where
  tid : r.tid = (types rid).tid
  size : r.size = (types rid).tsize
  addr : r.addr = o.addr + valueOff (types rid).align + (types rid).okOff
  one : (types rid).disc = none ∨ r.count = 1
  al : o.addr % 8 = 0
  pos : 0 < o.addr
  len : valueOff (types rid).align + r.count * (types rid).size ≤ o.len
  cnt : WordAt m o.addr r.count
  fn : WordAt m (o.addr + 8) rid
  disc : ∀ d, (types rid).disc = some d → (m (o.addr + valueOff (types rid).align + d)).plain = true

structure ItemOK (types : Nat → RTy) (m : Nat → Byte) (it : Item) : Prop where
  al : it.ref.addr % it.ref.align = 0
  inside : it.ref.count * it.ref.size = 0 ∨
    ∃ o, it.blk = some o ∧ o.addr ≤ it.ref.addr ∧ it.ref.addr + it.ref.count * it.ref.size ≤ o.addr + o.len
  dr : it.ref.drop = true → ∃ o, it.blk = some o ∧ DropOK types m it.ref it.rid o

/-- The records are linked from `root`. -/
def Chain (m : Nat → Byte) : Nat → List Item → Prop
  | root, [] => root = 0
  | root, it :: brest => ∃ o n, it.blk = some o ∧ root = o.addr ∧ 24 ≤ o.len ∧ WordAt m (o.addr + 16) n ∧ Chain m n brest

/-- The block a waiting call owns. -/
def Frame.own (types : Nat → RTy) : Frame → Option Owned
  | .init r nd re blk => some (Owned.of blk (emplaceLayout (types r) nd re))
  | .iter _ _ g _ => g.blk.map fun s => Owned.of s g.layout
  | .drain r nd blk _ _ => if nd then none else some (Owned.of blk (dropItem 0 (types r).align))

structure InitOK (types : Nat → RTy) (r : Nat) (nd : Bool) (re : Layout) (blk : Slice) (fb : FBook) : Prop where
  ask : fb.ask = .closure
  r_ : fb.r = r
  nd_ : fb.nd = nd
  re_ : ReOK (types r) re
  len : (emplaceLayout (types r) nd re).size ≤ blk.len

/-- Items taken from the iterator but not stored. -/
def Phase.extra : Phase → List Nat
  | .hint x => [x]
  | _ => []

def Phase.isFill : Phase → Bool
  | .fill _ => true
  | _ => false

/-- `k`: the allocator. -/
structure BlkOK (k : AKind) (t : RTy) (m : Nat → Byte) (nd : Bool) (g : Guard) (ph : Phase) (vs : List Nat) (ended : Bool)
    (blk : Slice) : Prop where
  al : g.layout.align = if nd then t.align else max 8 t.align
  pos : 0 < g.layout.size
  len : g.layout.size ≤ blk.len
  cnt : arrOff t nd + g.count * t.size ≤ g.layout.size
  lim : ∀ lim, ph = .fill lim → g.count < lim ∧ arrOff t nd + lim * t.size ≤ g.layout.size
  exact_ : nd = false → blk.len = g.layout.size
  full : (nd = false ∨ k.isAny = true) → ended = false → (∀ lim, ph = .fill lim → arrOff t nd + lim * t.size = g.layout.size) ∧
    (ph.isFill = false → arrOff t nd + g.count * t.size = g.layout.size)
  holds : Holds m (blk.addr + arrOff t nd) t.size vs

structure IterOK (k : AKind) (types : Nat → RTy) (m : Nat → Byte) (r : Nat) (nd : Bool) (g : Guard) (ph : Phase) (fb : FBook)
    (vs : List Nat) : Prop where
  ask : fb.ask = (Frame.iter r nd g ph).ask
  r_ : fb.r = r
  nd_ : fb.nd = nd
  plain : (types r).disc = none
  sz : 0 < (types r).size
  got : fb.got = vs ++ ph.extra
  cnt : vs.length = g.count
  none_ : g.blk = none → g.count = 0 ∧ ph.isFill = false
  some_ : ∀ blk, g.blk = some blk → BlkOK k (types r) m nd g ph vs fb.ended blk
  hint0 : ph = .hint0 → g.blk = none
  fused : (nd = false ∨ k.isAny = true) → fb.ended = true → ph = .one
  tells : nd = false → k.exact = true

structure DrainOK (types : Nat → RTy) (dbg : Bool) (r : Nat) (nd : Bool) (blk : Slice) (drained : Nat) (ph : DPhase)
    (fb : FBook) : Prop where
  ask : fb.ask = (Frame.drain r nd blk drained ph).ask
  r_ : fb.r = r
  nd_ : fb.nd = nd
  plain : (types r).disc = none
  sz : (types r).size = 0
  dbg_ : dbg = true → fb.taken + 1 < USIZE
  len : nd = false → (dropItem 0 (types r).align).size ≤ blk.len
  lt : drained < USIZE
  cnt : drained = fb.taken % USIZE
  nth : ∀ lower, ph = .nth lower → lower + drained < USIZE ∧ (dbg = true → lower ≠ 0)

def FrameOK (k : AKind) (types : Nat → RTy) (dbg : Bool) (m : Nat → Byte) (f : Frame) (fb : FBook) : Prop :=
  match f with
  | .init r nd re blk => InitOK types r nd re blk fb
  | .iter r nd g ph => ∃ vs, IterOK k types m r nd g ph fb vs
  | .drain r nd blk drained ph => DrainOK types dbg r nd blk drained ph fb

def FramesOK (k : AKind) (types : Nat → RTy) (dbg : Bool) (m : Nat → Byte) : List Frame → List FBook → Prop
  | [], [] => True
  | f :: fs, g :: gs => FrameOK k types dbg m f g ∧ FramesOK k types dbg m fs gs
  | _, _ => False

/-- Blocks owned by the `Blink` and its user. -/
def brest (b0 b : BState) (bk : BBook) (items : List Item) : List Owned :=
  items.filterMap (·.blk) ++ (b.frames.filterMap (Frame.own b0.types) ++ bk.direct)

/-- The invariant. `E`: blocks a running call holds at the moment; `K`: blocks that have not changed since memory was `m0`. -/
structure Wk (b0 b : BState) (bk : BBook) (cs : List Chunk) (items : List Item) (E K : List Owned) (m0 : Nat → Byte) :
    Prop where
  start : BStart b0
  types : b.types = b0.types
  kind : b.kind = b0.kind
  dtors : b.dtors = b0.dtors
  dbg : b.s.w.debug = b0.s.w.debug
  inv : KindInv b0.kind b0.s b.s cs (E ++ brest b0 b bk items)
  refs : bk.refs = items.map (·.ref)
  ok : ∀ it ∈ items, ItemOK b0.types b.s.w.mem it
  chain : Chain b.s.w.mem b.root (items.filter (·.ref.drop))
  adds : (items.filter (·.ref.drop)).length ≤ b.adds
  frames : FramesOK b0.kind b0.types b0.s.w.debug b.s.w.mem b.frames bk.frames
  kin : ∀ o ∈ K, o ∈ brest b0 b bk items
  keep : Keep K m0 b.s.w.mem

/-! ### Memory outside the blocks does not matter -/

theorem DropOK.congr {types m m' r rid o} (h : DropOK types m r rid o) (hw : ∀ k, (types k).OK)
    (hm : ∀ x, o.Has x → m' x = m x) : DropOK types m' r rid o := by
  have hv := (valueOff_facts (hw rid).align).1
  have hl := h.len
  refine { h with cnt := h.cnt.congr ?_, fn := h.fn.congr ?_, disc := ?_ }
  · intro x h1 h2; exact hm x ⟨by omega, by omega⟩
  · intro x h1 h2; exact hm x ⟨by omega, by omega⟩
  · intro d hd
    have hlt := (hw rid).disc d hd
    have hc : r.count = 1 := by
      rcases h.one with h1 | h1
      · rw [h1] at hd; cases hd
      · exact h1
    rw [hc, Nat.one_mul] at hl
    rw [hm _ ⟨by omega, by omega⟩]
    exact h.disc d hd

theorem ItemOK.congr {types m m' it} (h : ItemOK types m it) (hw : ∀ k, (types k).OK)
    (hm : ∀ o, it.blk = some o → ∀ x, o.Has x → m' x = m x) : ItemOK types m' it :=
  { h with dr := fun hd => let ⟨o, ho, h1⟩ := h.dr hd; ⟨o, ho, h1.congr hw (hm o ho)⟩ }

theorem Chain.congr {m m'} : ∀ {items : List Item} {root : Nat}, Chain m root items →
    (∀ it ∈ items, ∀ o, it.blk = some o → ∀ x, o.Has x → m' x = m x) → Chain m' root items
  | [], _, h, _ => h
  | it :: brest, _, ⟨o, n, h1, h2, h3, h4, h5⟩, hm =>
    ⟨o, n, h1, h2, h3, h4.congr fun x hx1 hx2 => hm it List.mem_cons_self o h1 x ⟨by omega, by omega⟩,
      h5.congr fun it' hit => hm it' (List.mem_cons_of_mem _ hit)⟩

theorem Holds.congr {m m' a size vs} (h : Holds m a size vs)
    (hm : ∀ x, a ≤ x → x < a + vs.length * size → m' x = m x) : Holds m' a size vs := by
  intro i hi j hj
  have h1 : i * size + size ≤ vs.length * size := by
    rw [← Nat.succ_mul]; exact Nat.mul_le_mul_right _ hi
  rw [hm _ (by omega) (by omega)]
  exact h i hi j hj

theorem FrameOK.congr {k types dbg m m' f fb} (h : FrameOK k types dbg m f fb)
    (hm : ∀ o, f.own types = some o → ∀ x, o.Has x → m' x = m x) : FrameOK k types dbg m' f fb := by
  cases f with
  | init => exact h
  | drain => exact h
  | iter r nd g ph =>
    obtain ⟨vs, h⟩ := h
    refine ⟨vs, { h with some_ := fun blk hb => ?_ }⟩
    have h1 := h.some_ blk hb
    refine { h1 with holds := h1.holds.congr fun x hx1 hx2 => ?_ }
    apply hm (Owned.of blk g.layout) (by simp [Frame.own, hb])
    have := h1.cnt
    have := h1.len
    have := h.cnt
    rw [h.cnt] at hx2
    exact ⟨by simp only [Owned.of]; omega, by simp only [Owned.of]; omega⟩

theorem FramesOK.congr {k types dbg m m'} : ∀ {fs : List Frame} {gs : List FBook}, FramesOK k types dbg m fs gs →
    Keep (fs.filterMap (Frame.own types)) m m' → FramesOK k types dbg m' fs gs
  | [], [], h, _ => h
  | f :: fs, g :: gs, ⟨h1, h2⟩, hm => by
    refine ⟨h1.congr fun o ho => hm o ?_, h2.congr (hm.sub fun o ho => ?_)⟩
    · rw [List.mem_filterMap]; exact ⟨f, List.mem_cons_self, ho⟩
    · rw [List.mem_filterMap] at *
      obtain ⟨f', hf', ho⟩ := ho
      exact ⟨f', List.mem_cons_of_mem _ hf', ho⟩
  | [], _ :: _, h, _ => h.elim
  | _ :: _, [], h, _ => h.elim

/-- The allocator moved on and the blocks of the `Blink` kept their contents. -/
theorem Wk.advance {b0 b bk cs items E K m0} (h : Wk b0 b bk cs items E K m0) {s' : St} {cs' : List Chunk} {E' : List Owned}
    (hi : KindInv b0.kind b0.s s' cs' (E' ++ brest b0 b bk items)) (hd : s'.w.debug = b.s.w.debug)
    (hk : Keep (brest b0 b bk items) b.s.w.mem s'.w.mem) :
    Wk b0 { b with s := s' } bk cs' items E' K m0 where
  start := h.start
  types := h.types
  kind := h.kind
  dtors := h.dtors
  dbg := hd.trans h.dbg
  inv := hi
  refs := h.refs
  ok := fun it hit => (h.ok it hit).congr h.start.types fun o ho => hk o (by
    refine List.mem_append_left _ (List.mem_filterMap.mpr ⟨it, hit, ho⟩))
  chain := h.chain.congr fun it hit o ho => hk o (by
    refine List.mem_append_left _ (List.mem_filterMap.mpr ⟨it, (List.mem_filter.mp hit).1, ho⟩))
  adds := h.adds
  frames := h.frames.congr (hk.sub fun o ho => List.mem_append_right _ (List.mem_append_left _ ho))
  kin := h.kin
  keep := h.keep.trans (hk.sub h.kin)

/-- Replace bytes of memory. -/
def BState.setM (b : BState) (a n : Nat) (f : Nat → Byte) : BState :=
  { b with s := { b.s with w := { b.s.w with mem := setBytes b.s.w.mem a n f } } }

theorem Wk.setM {b0 b bk cs items E K m0} {o : Owned} (h : Wk b0 b bk cs items (o :: E) K m0) {a n : Nat} {f : Nat → Byte}
    (ha : o.addr ≤ a) (hn : a + n ≤ o.addr + o.len) : Wk b0 (b.setM a n f) bk cs items (o :: E) K m0 :=
  h.advance (s' := { b.s with w := { b.s.w with mem := setBytes b.s.w.mem a n f } })
    (h.inv.setMem (List.mem_append_left _ List.mem_cons_self) ha hn) rfl
    ((h.inv.setMem_keep ha hn).sub fun _ ho => List.mem_append_right _ ho)

theorem Wk.acc {b0 b bk cs items E K m0} {o : Owned} (h : Wk b0 b bk cs items (o :: E) K m0) {a n : Nat}
    (ha : o.addr ≤ a) (hn : a + n ≤ o.addr + o.len) : b.s.w.accessible a n = true :=
  h.inv.acc (List.mem_append_left _ List.mem_cons_self) ha hn

theorem Wk.forget {b0 b bk cs items E K m0} {o : Owned} (h : Wk b0 b bk cs items (o :: E) K m0) :
    Wk b0 b bk cs items E K m0 :=
  { h with inv := h.inv.sublist (List.sublist_cons_self _ _) }

theorem Wk.al {b0 b bk cs items E K m0} {o : Owned} (h : Wk b0 b bk cs items (o :: E) K m0) {a : Nat}
    (ha : ∃ k, a = 2 ^ k) (hle : a ≤ o.align) : o.addr % a = 0 :=
  h.inv.align (List.mem_append_left _ List.mem_cons_self) ha hle

theorem Wk.pos {b0 b bk cs items E K m0} {o : Owned} (h : Wk b0 b bk cs items (o :: E) K m0) : 0 < o.addr :=
  h.inv.pos (List.mem_append_left _ List.mem_cons_self)

/-! ### Allocator calls -/

theorem Wk.allocate {b0 b bk cs items E K m0} (h : Wk b0 b bk cs items E K m0) {l : Layout} (hl : l.Valid) :
    (∃ e, BadAnswer b.s.w e ∧ b.allocate l = .error e) ∨
    ∃ o s' cs', b.allocate l = .ok (o, { b with s := s' }) ∧ (o = none → Wk b0 { b with s := s' } bk cs' items E K m0) ∧
      ∀ blk, o = some blk → Wk b0 { b with s := s' } bk cs' items (Owned.of blk l :: E) K m0 ∧ l.size ≤ blk.len ∧
        (b0.kind.exact = true → blk.len = l.size) := by
  rcases h.inv.allocate hl with ⟨e, hb, he⟩ | ⟨o, s', cs', he, hd, hk, h1, h2⟩
  · exact .inl ⟨e, hb, by unfold BState.allocate; rw [h.kind, ebind_err' he]⟩
  · right
    have hk' : Keep (brest b0 b bk items) b.s.w.mem s'.w.mem := hk.sub fun _ ho => List.mem_append_right _ ho
    refine ⟨o, s', cs', ?_, fun ho => h.advance (h1 ho) hd hk', fun blk ho => ⟨h.advance (h2 blk ho).1 hd hk', (h2 blk ho).2⟩⟩
    unfold BState.allocate
    rw [h.kind, ebind_ok' he]
    cases o <;> rfl

theorem Wk.grow {b0 b bk cs items E K m0} {o : Owned} (h : Wk b0 b bk cs items (o :: E) K m0) {p : Nat} {old new : Layout}
    (hf : o.Fits p old) (hl : new.Valid) (hp : 0 < old.size) (hg : b0.kind.isAny = true → old.size ≤ new.size) :
    (∃ e, BadAnswer b.s.w e ∧ b.grow p old new = .error e) ∨
    ∃ q s' cs', b.grow p old new = .ok (q, { b with s := s' }) ∧
      (q = none → Wk b0 { b with s := s' } bk cs' items (o :: E) K m0 ∧ Keep [o] b.s.w.mem s'.w.mem) ∧
      ∀ blk, q = some blk → Wk b0 { b with s := s' } bk cs' items (Owned.of blk new :: E) K m0 ∧ new.size ≤ blk.len ∧
        (b0.kind.exact = true → old.size ≤ new.size → blk.len = new.size) ∧
        ∀ i, i < min old.size new.size → s'.w.mem (blk.addr + i) = b.s.w.mem (p + i) := by
  have hng : ¬ (b.kind.isAny = true ∧ new.size < old.size) := by
    rw [h.kind]
    rintro ⟨h1, h2⟩
    have := hg h1
    omega
  rcases h.inv.resize hf hl hp with ⟨e, hb, he⟩ | ⟨q, s', cs', he, hd, hk, h1, h2⟩
  · exact .inl ⟨e, hb, by unfold BState.grow; rw [if_neg hng, h.kind, ebind_err' he]⟩
  · right
    have hk' : Keep (brest b0 b bk items) b.s.w.mem s'.w.mem :=
      hk.sub fun _ ho => List.mem_append_right _ ho
    refine ⟨q, s', cs', ?_, fun ho => ⟨h.advance (h1 ho).1 hd hk', (h1 ho).2⟩, fun blk ho =>
      ⟨h.advance (h2 blk ho).1 hd hk', (h2 blk ho).2⟩⟩
    unfold BState.grow
    rw [if_neg hng, h.kind, ebind_ok' he]
    cases q <;> rfl

theorem Wk.dealloc {b0 b bk cs items E K m0} {o : Owned} (h : Wk b0 b bk cs items (o :: E) K m0) {l : Layout}
    (hf : o.Fits o.addr l) (hp : 0 < l.size) :
    ∃ s' cs', b.dealloc o.addr l = .ok { b with s := s' } ∧ Wk b0 { b with s := s' } bk cs' items E K m0 := by
  have hi := h.inv
  have hkk := h.kind
  cases hi with
  | arena hk hi =>
    obtain ⟨s', cs', he, hw, hi'⟩ := hi.deallocate hf.2.2.1 hf.2.2.2
    refine ⟨s', cs', ?_, h.advance (.arena hk hi') (by rw [hw]) (by rw [hw]; exact Keep.refl _ _)⟩
    unfold BState.dealloc
    rw [hkk]
    revert hk
    cases b0.kind <;> intro hk <;> first | (cases hk; done) | (dsimp only; rw [ebind_ok' he]; rfl)
  | any e kp hk h0 hi =>
    obtain ⟨w', he, hd, hkeep, hi'⟩ := hi.dealloc hf hp
    refine ⟨{ b.s with w := w' }, cs, ?_, h.advance (.any e kp hk h0 hi') hd (hkeep.sub fun _ ho => List.mem_append_right _ ho)⟩
    unfold BState.dealloc
    rw [hkk, hk]
    dsimp only
    rw [ebind_ok' he]
    rfl

/-! ### Memory accesses -/

theorem BState.mem_ok {α} {b : BState} {x : M α} {a : α} {w : World} (h : x b.s.w = .ok (a, w)) :
    b.mem x = .ok (a, { b with s := { b.s with w := w } }) := by
  unfold BState.mem
  rw [ebind_ok' h]
  rfl

theorem BState.mem_id {α} {b : BState} {x : M α} {a : α} (h : x b.s.w = .ok (a, b.s.w)) : b.mem x = .ok (a, b) := by
  rw [BState.mem_ok h]

theorem Wk.writeIn {b0 b bk cs items E K m0} {blk : Slice} {l : Layout} (h : Wk b0 b bk cs items (Owned.of blk l :: E) K m0)
    {a n al : Nat} {f : Nat → Byte} (hal : a % al = 0) (h1 : blk.addr ≤ a) (h2 : a + n ≤ blk.addr + blk.len) :
    b.mem (Blink.writeIn blk a n al f) = .ok ((), b.setM a n f) ∧
    Wk b0 (b.setM a n f) bk cs items (Owned.of blk l :: E) K m0 := by
  refine ⟨?_, h.setM h1 h2⟩
  rw [BState.mem_ok (w := { b.s.w with mem := setBytes b.s.w.mem a n f })]
  · rfl
  · unfold Blink.writeIn
    rw [if_pos ⟨hal, h1, h2, .inr (h.acc (o := Owned.of blk l) h1 h2)⟩]

theorem Wk.storeWord {b0 b bk cs items E K m0} {o : Owned} (h : Wk b0 b bk cs items (o :: E) K m0)
    {a v : Nat} (hal : a % 8 = 0) (h1 : o.addr ≤ a) (h2 : a + 8 ≤ o.addr + o.len) :
    b.mem (Blink.storeWord a v) = .ok ((), b.setM a 8 (fun i => .word v i)) ∧
    Wk b0 (b.setM a 8 (fun i => .word v i)) bk cs items (o :: E) K m0 := by
  refine ⟨?_, h.setM h1 h2⟩
  rw [BState.mem_ok (storeWord_ok hal (h.acc h1 h2))]
  rfl

/-- Memory with a `Drops` record at `a`. -/
def record (m : Nat → Byte) (a count fn next : Nat) : Nat → Byte :=
  setBytes (setBytes (setBytes m a 8 (fun i => .word count i)) (a + 8) 8 (fun i => .word fn i)) (a + 16) 8
    (fun i => .word next i)

theorem record_cnt {m : Nat → Byte} {a c f n : Nat} : WordAt (record m a c f n) a c :=
  (WordAt.set_same.set_out (by omega)).set_out (by omega)

theorem record_fn {m : Nat → Byte} {a c f n : Nat} : WordAt (record m a c f n) (a + 8) f :=
  WordAt.set_same.set_out (by omega)

theorem record_next {m : Nat → Byte} {a c f n : Nat} : WordAt (record m a c f n) (a + 16) n := WordAt.set_same

theorem record_out {m : Nat → Byte} {a c f n x : Nat} (hx : x < a ∨ a + 24 ≤ x) : record m a c f n x = m x := by
  unfold record
  rw [setBytes_out (by omega), setBytes_out (by omega), setBytes_out (by omega)]

/-- Change memory. -/
def BState.withM (b : BState) (m : Nat → Byte) : BState := { b with s := { b.s with w := { b.s.w with mem := m } } }

theorem Wk.initDrops {b0 b bk cs items E K m0} {blk : Slice} {l : Layout} (h : Wk b0 b bk cs items (Owned.of blk l :: E) K m0)
    {count fn : Nat} (hal : 8 ≤ l.align) (hlen : 24 ≤ blk.len) :
    b.mem (Blink.initDrops blk count fn) = .ok ((), b.withM (record b.s.w.mem blk.addr count fn 0)) ∧
    Wk b0 (b.withM (record b.s.w.mem blk.addr count fn 0)) bk cs items (Owned.of blk l :: E) K m0 := by
  have hal' : blk.addr % 8 = 0 := h.al (o := Owned.of blk l) ⟨3, rfl⟩ hal
  have a1 := h.acc (o := Owned.of blk l) (a := blk.addr) (n := 8) (by simp [Owned.of]) (by simp only [Owned.of]; omega)
  have a2 := h.acc (o := Owned.of blk l) (a := blk.addr + 8) (n := 8) (by simp [Owned.of]) (by simp only [Owned.of]; omega)
  have a3 := h.acc (o := Owned.of blk l) (a := blk.addr + 16) (n := 8) (by simp [Owned.of]) (by simp only [Owned.of]; omega)
  constructor
  · rw [BState.mem_ok (w := { b.s.w with mem := record b.s.w.mem blk.addr count fn 0 })]
    · rfl
    · unfold Blink.initDrops
      rw [bind_ok (require_ok (by unfold DROPS_SIZE; omega)), bind_ok (storeWord_ok hal' a1)]
      refine (bind_ok (storeWord_ok (by omega) ?_)).trans ((storeWord_ok (by omega) ?_).trans ?_)
      · exact a2
      · exact a3
      · rfl
  · have h1 := h.setM (a := blk.addr) (n := 8) (f := fun i => .word count i) (by simp [Owned.of]) (by simp only [Owned.of]; omega)
    have h2 := h1.setM (a := blk.addr + 8) (n := 8) (f := fun i => .word fn i) (by simp [Owned.of]) (by simp only [Owned.of]; omega)
    exact h2.setM (a := blk.addr + 16) (n := 8) (f := fun i => .word 0 i) (by simp [Owned.of]) (by simp only [Owned.of]; omega)

/-! ### Frames and items -/

theorem Wk.pop {b0 b bk cs items K m0} {f : Frame} {fs : List Frame} (h : Wk b0 b bk cs items [] K m0) (hf : b.frames = f :: fs)
    (hK : ∀ o ∈ K, o ∈ brest b0 { b with frames := fs } { bk with frames := bk.frames.tail } items) :
    ∃ fb fbs, bk.frames = fb :: fbs ∧ FrameOK b0.kind b0.types b0.s.w.debug b.s.w.mem f fb ∧
      Wk b0 { b with frames := fs } { bk with frames := fbs } cs items (f.own b0.types).toList K m0 := by
  have h1 := h.frames
  rw [hf] at h1
  cases hbf : bk.frames with
  | nil => rw [hbf] at h1; exact h1.elim
  | cons fb fbs =>
    rw [hbf] at h1 hK
    refine ⟨fb, fbs, rfl, h1.1, ?_⟩
    refine { h with inv := h.inv.perm ?_, frames := h1.2, kin := hK }
    unfold brest
    rw [hf, List.nil_append, List.filterMap_cons]
    cases f.own b0.types with
    | none => exact List.Perm.refl _
    | some o =>
      simp only [Option.toList, List.cons_append, List.nil_append]
      exact List.perm_middle

theorem Wk.wait {b0 b bk cs items E K m0} {f : Frame} {fb : FBook}
    (h : Wk b0 b bk cs items ((f.own b0.types).toList ++ E) K m0) (hf : FrameOK b0.kind b0.types b0.s.w.debug b.s.w.mem f fb) :
    Wk b0 { b with frames := f :: b.frames } { bk with frames := fb :: bk.frames } cs items E K m0 := by
  refine { h with inv := h.inv.perm ?_, frames := ⟨hf, h.frames⟩, kin := fun o ho => ?_ }
  · unfold brest
    simp only [List.filterMap_cons]
    cases f.own b0.types with
    | none => exact List.Perm.refl _
    | some o =>
      simp only [Option.toList, List.cons_append, List.nil_append]
      have h1 : (o :: (E ++ (items.filterMap (·.blk) ++ (b.frames.filterMap (Frame.own b0.types) ++ bk.direct)))).Perm
          (E ++ o :: (items.filterMap (·.blk) ++ (b.frames.filterMap (Frame.own b0.types) ++ bk.direct))) :=
        List.perm_middle.symm
      exact h1.trans (List.Perm.append_left _ List.perm_middle.symm)
  · have := h.kin o ho
    unfold brest at *
    simp only [List.filterMap_cons]
    cases f.own b0.types with
    | none => exact this
    | some o' =>
      simp only [List.mem_append, List.mem_cons] at *
      rcases this with h | h | h
      · exact .inl h
      · exact .inr (.inl (.inr h))
      · exact .inr (.inr h)

/-- A reference without destructor is handed out. -/
theorem Wk.pushNoDrop {b0 b bk cs items E K m0} {r : Ref} {o : Option Owned} (h : Wk b0 b bk cs items (o.toList ++ E) K m0)
    (hd : r.drop = false) (hok : ItemOK b0.types b.s.w.mem ⟨r, o, 0⟩) :
    Wk b0 b (bk.push r) cs (⟨r, o, 0⟩ :: items) E K m0 := by
  refine { h with inv := h.inv.perm ?_, refs := ?_, ok := ?_, chain := ?_, adds := ?_, kin := fun o ho => ?_ }
  · unfold brest BBook.push
    simp only [List.filterMap_cons]
    cases o with
    | none => exact List.Perm.refl _
    | some o =>
      simp only [Option.toList, List.cons_append, List.nil_append]
      exact List.perm_middle.symm
  · simp [BBook.push, h.refs]
  · intro it hit
    rcases List.mem_cons.mp hit with rfl | hit
    · exact hok
    · exact h.ok it hit
  · rw [List.filter_cons_of_neg (by simp [hd])]; exact h.chain
  · rw [List.filter_cons_of_neg (by simp [hd])]; exact h.adds
  · have := h.kin o ho
    unfold brest BBook.push at *
    simp only [List.filterMap_cons]
    split
    · exact this
    · exact List.mem_cons_of_mem _ this

/-- A reference with destructor is handed out; its record is linked in front. -/
theorem Wk.pushDrop {b0 b bk cs items E K m0} {r : Ref} {o : Owned} {rid : Nat} (h : Wk b0 b bk cs items (o :: E) K m0)
    (hd : r.drop = true) (hok : ItemOK b0.types b.s.w.mem ⟨r, some o, rid⟩) (hlen : 24 ≤ o.len)
    (hn : WordAt b.s.w.mem (o.addr + 16) b.root) :
    Wk b0 { b with root := o.addr, adds := b.adds + 1 } (bk.push r) cs (⟨r, some o, rid⟩ :: items) E K m0 := by
  refine { h with inv := h.inv.perm ?_, refs := ?_, ok := ?_, chain := ?_, adds := ?_, kin := fun o ho => ?_ }
  · unfold brest BBook.push
    simp only [List.filterMap_cons, List.cons_append]
    exact List.perm_middle.symm
  · simp [BBook.push, h.refs]
  · intro it hit
    rcases List.mem_cons.mp hit with rfl | hit
    · exact hok
    · exact h.ok it hit
  · rw [List.filter_cons_of_pos (by simp [hd])]; exact ⟨o, b.root, rfl, rfl, hlen, hn, h.chain⟩
  · rw [List.filter_cons_of_pos (by simp [hd])]; simpa using h.adds
  · have := h.kin o ho
    unfold brest BBook.push at *
    simp only [List.filterMap_cons]
    exact List.mem_cons_of_mem _ this

end Blink
