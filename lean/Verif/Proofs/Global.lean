import Verif.Proofs.Direct
/-
  The invariant of a global allocator with two modes (src/global/local.rs).
-/
namespace Blink

/-! ### Counting -/

theorem nodup_bound : ∀ (n : Nat) (l : List Nat), l.Nodup → (∀ x ∈ l, x < n) → l.length ≤ n
  | 0, l, _, h => by
    cases l with
    | nil => simp
    | cons a l => exact absurd (h a List.mem_cons_self) (by omega)
  | n + 1, l, hn, h => by
    have := nodup_bound n (l.erase n) (hn.erase n) (by
      intro x hx
      have h1 := (hn.mem_erase_iff).mp hx
      have := h x h1.2
      omega)
    have h2 := List.length_erase (a := n) (l := l)
    split at h2 <;> omega

/-- Non-empty blocks that are apart and lie in the address space are fewer than 2^64. -/
theorem count_bound {cs w F} {L : List Owned} (h : AInv w cs F) (hL : LOK cs L) (hz : ∀ b ∈ L, 0 < b.size) : L.length + 1 < USIZE := by
  have hlt : ∀ b ∈ L, 32 ≤ b.addr ∧ b.addr < w.top := by
    intro b hb
    have := hz b hb
    obtain ⟨h1, _, _, d, hd, h3, h4⟩ := hL.each b hb
    have h5 := h.held.rng _ (h.mem_held hd)
    have := (h.ok d hd).hi
    have := (h.ok d hd).lo
    simp only [Chunk.blk] at h5
    omega
  have hnd : (L.map fun b => b.addr - 32).Nodup := by
    rw [List.Nodup, List.pairwise_map]
    refine (List.Pairwise.and_mem.mp hL.apart).imp ?_
    rintro a b ⟨ha, hb, hab⟩ he
    have h1 := hz a ha; have h2 := hz b hb
    have h3 := (hL.each a ha).1; have h4 := (hL.each b hb).1
    have h5 := hlt a ha; have h6 := hlt b hb
    exact hab a.addr ⟨⟨Nat.le_refl _, by omega⟩, by constructor <;> omega⟩
  have htop := h.held.top
  have := nodup_bound (USIZE - 32) _ hnd (by
    intro x hx
    obtain ⟨b, hb, rfl⟩ := List.mem_map.mp hx
    have := hlt b hb
    omega)
  rw [List.length_map] at this
  have : (32 : Nat) < USIZE := by decide
  omega

/-! ### What calls of the `BlinkAlloc` leave alone -/

/-- A call of the `BlinkAlloc` changes no byte outside its chunks, other than through the owner's write. -/
theorem OpRes.outside {w cs F m op r w' cs' L} (h : AInv w cs F) (h' : AInv w' cs' F) (hl : Legal L op)
    (hr : OpRes w cs m op r w' cs') (hop : ∀ x v, op ≠ .write x v) {x : Nat} (hx : ∀ c ∈ cs, x < c.start ∨ c.end_ ≤ x)
    (hx' : ∀ c ∈ cs', x < c.start ∨ c.end_ ≤ x) : w'.mem x = w.mem x := by
  have used : ∀ {p n : Nat}, InUsed cs' p n → x < p ∨ p + n ≤ x := by
    rintro p n ⟨d, hd, h1, h2⟩
    have := hx' d hd
    have := (h'.ok d hd).hi
    omega
  cases op with
  | allocate l => obtain ⟨o, _, hr⟩ := hr; exact hr.frame_out h'.ok hx'
  | allocateZeroed l =>
    obtain ⟨o, w1, _, hr, hw⟩ := hr
    cases hl with
    | allocateZeroed hl =>
      cases o with
      | none => rw [hw]; exact hr.frame_out h'.ok hx'
      | some s =>
        simp only at hw
        rw [hw]
        simp only
        have := used (hr.new_used h hl)
        rw [setBytes_out (by omega)]
        exact hr.frame_out h'.ok hx'
  | resize p old new =>
    obtain ⟨o, _, hr⟩ := hr
    cases hl with
    | resize _ _ hl =>
      cases hr with
      | same => rfl
      | grow c t hcs ha hs htip hfit =>
        have := hx' _ List.mem_cons_self
        have hc := h'.ok _ List.mem_cons_self
        have := hc.lo; have := hc.hi
        simp only [setCursor] at *
        exact setBytes_out (by omega)
      | move s w1 cs1 hn hg hr =>
        have := used (hr.new_used h hl)
        have := (hr.fresh h hl).1
        simp only
        rw [setBytes_out (by have := Nat.min_le_left new.size old.size; omega)]
        exact hr.frame_out h'.ok hx'
      | fail w1 cs1 hn hg hr => exact hr.frame_out h'.ok hx'
  | growZeroed p old new =>
    obtain ⟨o, w1, _, hr, hw⟩ := hr
    cases hl with
    | growZeroed _ _ hl hs =>
      cases o with
      | none => rw [hw]; exact hr.frame_out h'.ok hx'
      | some s =>
        simp only at hw
        rw [hw]
        simp only
        have := used (hr.new_used h hl)
        have := (hr.fresh h hl).1
        rw [setBytes_out (by omega), setBytes_out (by omega)]
        exact hr.frame_out h'.ok hx'
  | deallocate => obtain ⟨_, rfl, _⟩ := hr; rfl
  | reset =>
    obtain ⟨_, rfl, _⟩ := hr
    cases cs with
    | nil => rfl
    | cons c t =>
      have hc := h.ok c List.mem_cons_self
      have := hc.lo; have := hc.hi
      have := hx c List.mem_cons_self
      simp only [resetWorld]
      rw [freeAll_mem (fun d hd => by have h := h.ok d (List.mem_cons_of_mem _ hd); have := h.lo; have := h.hi; omega)
        (fun d hd => hx d (List.mem_cons_of_mem _ hd))]
      simp only [rewound]
      rw [setBytes_out (by omega), setBytes_out (by omega), setBytes_out (by omega)]
  | resetFinal =>
    obtain ⟨_, rfl, _⟩ := hr
    exact freeAll_mem (fun d hd => by have h := h.ok d hd; have := h.lo; have := h.hi; omega) hx
  | write x v => exact absurd rfl (hop x v)

/-! ### The invariant -/

theorem LOK.trim {cs L} {o o' : Owned} (h : LOK cs (o :: L)) (h1 : o'.addr = o.addr) (h2 : o'.size = o.size) (h3 : o'.align = o.align)
    (h4 : o'.size ≤ o'.len) (h5 : o'.len ≤ o.len) : LOK cs (o' :: L) := by
  obtain ⟨a1, a2, a3, a4⟩ := h.each o List.mem_cons_self
  refine ⟨?_, ?_⟩
  · intro b hb
    rcases List.mem_cons.mp hb with rfl | hb
    · exact ⟨h4, h3 ▸ a2, by rw [h1, h3]; exact a3, a4.sub (by omega) (by omega)⟩
    · exact h.each b (List.mem_cons_of_mem _ hb)
  · have := h.apart
    rw [List.pairwise_cons] at this ⊢
    refine ⟨fun b hb x hx => this.1 b hb x ⟨⟨?_, ?_⟩, hx.2⟩, this.2⟩
    · have := hx.1.1; omega
    · have := hx.1.2; omega

theorem Inv.trim {s0 s cs L} {o o' : Owned} (h : Inv s0 s cs (o :: L)) (h1 : o'.addr = o.addr) (h2 : o'.size = o.size)
    (h3 : o'.align = o.align) (h4 : o'.size ≤ o'.len) (h5 : o'.len ≤ o.len) : Inv s0 s cs (o' :: L) :=
  { h with led := h.led.trim h1 h2 h3 h4 h5 }

/-- The starting point of the `BlinkAlloc`: the direct blocks belong to somebody else. -/
def GS.origin (g0 : GS) (D : List BaseBlk) : St := ⟨{ g0.w with held := D ++ g0.w.held }, g0.a⟩

structure GInv (g0 g : GS) (cs : List Chunk) (D : List BaseBlk) (K : GBook) : Prop where
  inner : Inv (g0.origin D) ⟨g.w, g.a⟩ cs K.blink
  mode : g.enabled = K.blinkMode
  perm : K.direct.Perm (D.map BaseBlk.own)
  good : ∀ d ∈ D, d.Good
  cnt : g.allocations = if g.w.debug then K.blink.length else 0
  sz : ∀ b ∈ K.blink, 0 < b.size ∧ b.len = b.size
  dlg : DLog g.dlog D
  dbg : g.w.debug = g0.w.debug

theorem GStart.inv {g : GS} (h : GStart g) : GInv g g [] [] GBook.empty where
  inner := h.blink.inv
  mode := h.enabled
  perm := .nil
  good := by simp
  cnt := by rw [h.zero]; simp [GBook.empty]
  sz := by simp [GBook.empty]
  dlg := by rw [h.dlog]; exact ⟨rfl, trivial⟩
  dbg := rfl

theorem GInv.dinv {g0 g cs D K} (h : GInv g0 g cs D K) : DInv { g.w with log := g.dlog } cs D g0.w.held :=
  ⟨h.inner.arena.congr rfl rfl rfl, h.good⟩

/-- After a direct call: only the world's memory, held blocks and the direct log changed. -/
theorem GInv.rebase {g0 g cs D K} (h : GInv g0 g cs D K) {w' : World} {D' : List BaseBlk} {dl : List Owned}
    (hw : DInv w' cs D' g0.w.held) (hd : w'.debug = g.w.debug) (ht : w'.top = g.w.top) (ho : w'.oracle = g.w.oracle)
    (hl : DLog w'.log D') (hp : dl.Perm (D'.map BaseBlk.own)) :
    GInv g0 { g with w := { w' with log := g.w.log }, dlog := w'.log } cs D' { K with direct := dl } where
  inner :=
    { arena := hw.arena.congr rfl rfl rfl
      root := h.inner.root
      min := h.inner.min
      dbg := h.inner.dbg.of_eq hd ht
      led := h.inner.led
      oracle := ho.trans h.inner.oracle
      top := ht.trans h.inner.top
      log := h.inner.log }
  mode := h.mode
  perm := hp
  good := hw.good
  cnt := by simp only [hd]; exact h.cnt
  sz := h.sz
  dlg := hl
  dbg := hd.trans h.dbg

theorem GInv.direct_mem {g0 g cs D K} (h : GInv g0 g cs D K) {b : Owned} (hb : b ∈ K.direct) : ∃ d ∈ D, b = d.own := by
  obtain ⟨d, hd, he⟩ := List.mem_map.mp (h.perm.mem_iff.mp hb)
  exact ⟨d, hd, he.symm⟩

theorem GInv.perm_erase {g0 g cs D K} (h : GInv g0 g cs D K) {d : BaseBlk} (hd : d ∈ D) (hb : d.own ∈ K.direct) :
    (K.direct.erase d.own).Perm ((D.erase d).map BaseBlk.own) := by
  have h1 := List.perm_cons_erase hb
  have h2 := (List.perm_cons_erase hd).map BaseBlk.own
  exact (h1.symm.trans (h.perm.trans h2)).cons_inv

/-- Bytes of blocks of the `BlinkAlloc` are elsewhere, seen from a direct call. -/
theorem GInv.blink_elsewhere {g0 g cs D K} (h : GInv g0 g cs D K) {d? : Option BaseBlk} (hd : ∀ d, d? = some d → d ∈ D) {b : Owned}
    (hb : b ∈ K.blink) {x : Nat} (hx : b.Has x) : Elsewhere { g.w with log := g.dlog } d? x := by
  obtain ⟨c, hc, h1, h2⟩ := h.inner.led.byte hb hx
  have hok := h.inner.arena.ok c hc
  have := hok.hi
  refine ⟨c.blk, h.inner.arena.mem_held hc, ?_, by simp only [Chunk.blk]; omega, by simp only [Chunk.blk]; omega⟩
  intro he
  exact h.dinv.not_chunk (hd _ he.symm) hc rfl

theorem GInv.direct_elsewhere {g0 g cs D K} (h : GInv g0 g cs D K) {d : BaseBlk} {d? : Option BaseBlk} (hd : d ∈ D) (hne : some d ≠ d?)
    {x : Nat} (hx : d.own.Has x) : Elsewhere { g.w with log := g.dlog } d? x := by
  have := (h.good d hd).len
  exact ⟨d, h.dinv.mem hd, hne, hx.1, by have := hx.2; simp only [BaseBlk.own, granted] at this; omega⟩

/-- A direct call that touches at most the direct block at `p` keeps everything else. -/
theorem GInv.all_elsewhere {g0 g cs D K} (h : GInv g0 g cs D K) {d? : Option BaseBlk} (hd : ∀ d, d? = some d → d ∈ D) {b : Owned}
    (hb : b ∈ K.all) (hne : ∀ d, d? = some d → b.addr ≠ d.addr) {x : Nat} (hx : b.Has x) :
    Elsewhere { g.w with log := g.dlog } d? x := by
  rcases List.mem_append.mp hb with hb | hb
  · exact h.blink_elsewhere hd hb hx
  · obtain ⟨d, hd', rfl⟩ := h.direct_mem hb
    refine h.direct_elsewhere hd' ?_ hx
    intro he
    exact hne d he.symm rfl

theorem GInv.direct_pos {g0 g cs D K} (h : GInv g0 g cs D K) {d : BaseBlk} (hd : d ∈ D) : 0 < d.addr :=
  (h.inner.arena.held.rng d (h.dinv.mem hd)).1

/-- The blocks obtained in different modes are apart. -/
theorem GInv.apart {g0 g cs D K} (h : GInv g0 g cs D K) : K.all.Pairwise Owned.Apart := by
  unfold GBook.all
  rw [List.pairwise_append]
  refine ⟨h.inner.led.apart, ?_, ?_⟩
  · have h1 : (D.map BaseBlk.own).Pairwise Owned.Apart := by
      rw [List.pairwise_map]
      refine (List.Pairwise.and_mem.mp h.dinv.pairwise).imp ?_
      rintro a b ⟨ha, hb, hab⟩ x ⟨hx, hy⟩
      have h1 := (h.good a ha).len
      have h2 := (h.good b hb).len
      simp only [BaseBlk.own, granted, Owned.Has, BaseBlk.Disjoint] at hx hy hab
      omega
    exact (h.perm.symm.pairwise_iff fun h => Owned.Apart.symm h).mp h1
  · rintro a ha b hb x ⟨hx, hy⟩
    obtain ⟨d, hd, rfl⟩ := h.direct_mem hb
    obtain ⟨c, hc, h1, h2⟩ := h.inner.led.byte ha hx
    have h3 := h.inner.arena.foreign (List.mem_append_left _ hd) hc
    have h4 := (h.good d hd).len
    have := (h.inner.arena.ok c hc).hi
    simp only [BaseBlk.own, granted, Owned.Has] at hy
    omega

/-- No two owned blocks start at the same address. -/
theorem GInv.addr_inj {g0 g cs D K} (h : GInv g0 g cs D K) {b b' : Owned} (hb : b ∈ K.all) (hb' : b' ∈ K.all)
    (he : b.addr = b'.addr) : b = b' := by
  have hpos : ∀ c ∈ K.all, c.Has c.addr := by
    intro c hc
    rcases List.mem_append.mp hc with hc | hc
    · have := h.sz c hc
      exact ⟨Nat.le_refl _, by omega⟩
    · obtain ⟨d, hd, rfl⟩ := h.direct_mem hc
      have := (h.good d hd).pos
      exact ⟨Nat.le_refl _, by simp only [BaseBlk.own, granted]; omega⟩
  apply Decidable.byContradiction
  intro hne
  have h1 := ((List.perm_cons_erase hb).pairwise_iff fun h => Owned.Apart.symm h).mp h.apart
  rw [List.pairwise_cons] at h1
  have h1 := h1.1 b' ((List.mem_erase_of_ne (Ne.symm hne)).mpr hb')
  exact h1 b.addr ⟨hpos b hb, by rw [he]; exact hpos b' hb'⟩

end Blink
