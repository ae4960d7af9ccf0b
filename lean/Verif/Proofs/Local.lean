import Verif.Proofs.Slow
/-
  What the operations of `BlinkAlloc` do to the chunk chain and to memory.
-/
namespace Blink

/-- The layout does not fit into the current chunk, if there is one. -/
def NoFit (cs : List Chunk) (l : Layout) : Prop := ∀ c t, cs = c :: t → bump c.cursor c.end_ l = none

/-- Outcomes of `allocate`. -/
inductive AllocRes (w : World) (cs : List Chunk) (m : Nat) (l : Layout) : Option Slice → World → List Chunk → Prop
  | fast (c : Chunk) (t : List Chunk) (a : Nat) (hcs : cs = c :: t) (hb : bump c.cursor c.end_ l = some a) :
      AllocRes w cs m l (some ⟨a, l.size⟩) (setCursor w c (a + l.size)) ({ c with cursor := a + l.size } :: t)
  | slow {r : Option Slice} {w' : World} {cs' : List Chunk}
      (hb : NoFit cs l) (h : SlowRes w cs m l r w' cs') : AllocRes w cs m l r w' cs'

theorem allocate_spec {w cs F} {m : Nat} {l : Layout} (h : AInv w cs F) (hl : l.Valid) (hd : DbgOK w m) :
    (∃ e, (BadAnswer w e ∧ NoFit cs l ∧ ReqIs cs m l e) ∧ BA.allocate ⟨rootOf cs, m⟩ l w = .error e) ∨
    ∃ r w' cs', BA.allocate ⟨rootOf cs, m⟩ l w = .ok ((r, ⟨rootOf cs', m⟩), w') ∧ AllocRes w cs m l r w' cs' ∧
      AInv w' cs' F := by
  have slow : NoFit cs l →
      BA.allocFast ⟨rootOf cs, m⟩ l w = .ok (none, w) →
      (∃ e, (BadAnswer w e ∧ NoFit cs l ∧ ReqIs cs m l e) ∧ BA.allocate ⟨rootOf cs, m⟩ l w = .error e) ∨
      ∃ r w' cs', BA.allocate ⟨rootOf cs, m⟩ l w = .ok ((r, ⟨rootOf cs', m⟩), w') ∧ AllocRes w cs m l r w' cs' ∧
      AInv w' cs' F := by
    intro hb hf
    unfold BA.allocate
    rw [bind_ok hf]
    simp only
    rcases allocSlow_spec h hl hd with ⟨e, hbad, he⟩ | ⟨r, w', cs', he, hr, hi⟩
    · exact .inl ⟨e, ⟨hbad.1, hb, hbad.2⟩, bind_err he⟩
    · exact .inr ⟨r, w', cs', bind_ok he, .slow hb hr, hi⟩
  cases cs with
  | nil =>
    apply slow
    · intro c t h; cases h
    · rfl
  | cons c t =>
    have hne : rootOf (c :: t) ≠ 0 := by rw [Ne, rootOf_eq_zero h.ok]; simp
    have hf : BA.allocFast ⟨rootOf (c :: t), m⟩ l w = chunkAlloc c.start l w := by
      unfold BA.allocFast; rw [if_neg hne]; rfl
    have hca := chunkAlloc_spec h hl
    cases hb : bump c.cursor c.end_ l with
    | none =>
      rw [hb] at hca
      apply slow
      · intro c' t' he; injection he with h1 h2; subst h1; exact hb
      · rw [hf, hca]
    | some a =>
      rw [hb] at hca
      have hbf := bump_facts hl hb
      have hc := h.ok c List.mem_cons_self
      have := hc.lo
      refine .inr ⟨_, _, _, ?_, .fast c t a rfl hb, h.setCursor (by omega) (by omega)⟩
      unfold BA.allocate
      rw [bind_ok (hf.trans hca)]
      rfl

/-! ### Where a fresh block lies -/

/-- The `n` bytes at `p` lie in the used part of some chunk. -/
def InUsed (cs : List Chunk) (p n : Nat) : Prop := ∃ d ∈ cs, d.start + 32 ≤ p ∧ p + n ≤ d.cursor

theorem SlowRes.fresh {w cs F m l s w' cs'} (h : AInv w cs F) (hl : l.Valid) (hr : SlowRes w cs m l (some s) w' cs') :
    s.len = l.size ∧ s.addr % l.align = 0 ∧ (∃ c t, cs' = c :: t ∧ c.start + 32 ≤ s.addr ∧ s.addr + s.len = c.cursor ∧
      s.addr < c.start + 32 + l.align ∧ t = cs) ∧
    (∀ p n, InUsed cs p n → p + n ≤ s.addr ∨ s.addr + s.len ≤ p) := by
  cases hr with
  | ok R sl m' h' ho hf hb hm hu =>
    simp only [freshOk, Bool.and_eq_true, decide_eq_true_eq, List.all_eq_true] at hf
    obtain ⟨⟨⟨⟨⟨f1, f2⟩, f3⟩, f4⟩, f5⟩, f6⟩ := hf
    have hbf := bump_facts hl hb
    refine ⟨rfl, hbf.2.2.1, ⟨_, _, rfl, hbf.1, rfl, by simp only [newChunk]; omega, rfl⟩, ?_⟩
    rintro p n ⟨d, hd, h1, h2⟩
    have := f6 _ (h.mem_held hd)
    have hd' := h.ok d hd
    have := hd'.lo; have := hd'.hi
    simp only [Chunk.blk] at *
    omega

theorem AllocRes.fresh {w cs F m l s w' cs'} (h : AInv w cs F) (hl : l.Valid) (hr : AllocRes w cs m l (some s) w' cs') :
    s.len = l.size ∧ s.addr % l.align = 0 ∧
    (∃ c t, cs' = c :: t ∧ c.start + 32 ≤ s.addr ∧ s.addr + s.len = c.cursor) ∧
    (∀ p n, InUsed cs p n → p + n ≤ s.addr ∨ s.addr + s.len ≤ p) := by
  cases hr with
  | fast c t a hcs hb =>
    subst hcs
    have hbf := bump_facts hl hb
    have hc := h.ok c List.mem_cons_self
    have := hc.lo; have := hc.hi
    refine ⟨rfl, hbf.2.2.1, ⟨_, _, rfl, by simp only; omega, rfl⟩, ?_⟩
    rintro p n ⟨d, hd, h1, h2⟩
    rcases List.mem_cons.mp hd with rfl | hd
    · simp only; omega
    · have := h.chunk_dis hd
      have hd' := h.ok d (List.mem_cons_of_mem _ hd)
      have := hd'.lo; have := hd'.hi
      simp only; omega
  | slow hb hs =>
    obtain ⟨h1, h2, ⟨c, t, h3, h4, h5, _⟩, h6⟩ := hs.fresh h hl
    exact ⟨h1, h2, ⟨c, t, h3, h4, h5⟩, h6⟩

/-- Used ranges stay used. -/
theorem AllocRes.mono {w cs m l r w' cs'} (hl : l.Valid) (hr : AllocRes w cs m l r w' cs') {p n : Nat}
    (h : InUsed cs p n) : InUsed cs' p n := by
  obtain ⟨d, hd, h1, h2⟩ := h
  cases hr with
  | fast c t a hcs hb =>
    subst hcs
    have hbf := bump_facts hl hb
    rcases List.mem_cons.mp hd with rfl | hd
    · exact ⟨_, List.mem_cons_self, h1, by simp only; omega⟩
    · exact ⟨d, List.mem_cons_of_mem _ hd, h1, h2⟩
  | slow hb hs =>
    cases hs with
    | tooBig => exact ⟨d, hd, h1, h2⟩
    | refused => exact ⟨d, hd, h1, h2⟩
    | ok => exact ⟨d, List.mem_cons_of_mem _ hd, h1, h2⟩

/-- The new block is in the used part afterwards. -/
theorem AllocRes.new_used {w cs F m l s w' cs'} (h : AInv w cs F) (hl : l.Valid)
    (hr : AllocRes w cs m l (some s) w' cs') : InUsed cs' s.addr s.len := by
  obtain ⟨_, _, ⟨c, t, hcs, h1, h2⟩, _⟩ := hr.fresh h hl
  subst hcs
  exact ⟨c, List.mem_cons_self, h1, by omega⟩

/-- Allocation writes no byte in the used parts of the arena's chunks. -/
theorem AllocRes.frame_used {w cs F m l r w' cs'} (h : AInv w cs F) (hr : AllocRes w cs m l r w' cs') {x : Nat}
    (hx : InUsed cs x 1) : w'.mem x = w.mem x := by
  obtain ⟨d, hd, h1, h2⟩ := hx
  have hd' := h.ok d hd
  have := hd'.lo; have := hd'.hi
  cases hr with
  | fast c t a hcs hb =>
    subst hcs
    have hc := h.ok c List.mem_cons_self
    have := hc.lo; have := hc.hi
    apply setBytes_out
    rcases List.mem_cons.mp hd with rfl | hd
    · omega
    · have := h.chunk_dis hd
      omega
  | slow hb hs =>
    cases hs with
    | tooBig => rfl
    | refused => rfl
    | ok R sl m' h' ho hf hb hm hu =>
      simp only [freshOk, Bool.and_eq_true, decide_eq_true_eq, List.all_eq_true] at hf
      have := hf.2 _ (h.mem_held hd)
      simp only [Chunk.blk] at this
      exact hm x (by omega)

/-- Allocation writes nothing outside the arena's chunks. -/
theorem AllocRes.frame_out {w cs m l r w' cs'} (hr : AllocRes w cs m l r w' cs') {x : Nat}
    (hok : ∀ c ∈ cs', ChunkOK c)
    (hx : ∀ c ∈ cs', x < c.start ∨ c.end_ ≤ x) : w'.mem x = w.mem x := by
  cases hr with
  | fast c t a hcs hb =>
    subst hcs
    have := hx _ List.mem_cons_self
    have hc := hok _ List.mem_cons_self
    have := hc.lo; have := hc.hi
    apply setBytes_out
    simp only at *
    omega
  | slow hb hs =>
    cases hs with
    | tooBig => rfl
    | refused => rfl
    | ok R sl m' h' ho hf hb hm hu => exact hm x (hx _ List.mem_cons_self)

theorem AInv.setMem {w cs F} (h : AInv w cs F) {m' : Nat → Byte}
    (hm : ∀ c ∈ cs, ∀ x, c.start ≤ x → x < c.start + 32 → m' x = w.mem x) : AInv { w with mem := m' } cs F :=
  ⟨h.rep.congr hm, h.ok, h.perm, ⟨h.held.top, h.held.dis, h.held.rng⟩, h.cum⟩

/-- No header byte lies in the used part of a chunk. -/
theorem AInv.used_not_hdr {w cs F} (h : AInv w cs F) {p n : Nat} (hu : InUsed cs p n) {c : Chunk} (hc : c ∈ cs) :
    p + n ≤ c.start ∨ c.start + 32 ≤ p := by
  obtain ⟨d, hd, h1, h2⟩ := hu
  have hd' := h.ok d hd
  have := hd'.lo; have := hd'.hi
  have hc' := h.ok c hc
  have := hc'.lo; have := hc'.hi
  rcases h.chunk_dis2 hc hd with rfl | h3
  · omega
  · omega

/-- Writing into used ranges keeps the arena invariant. -/
theorem AInv.setUsed {w cs F} (h : AInv w cs F) {p n : Nat} {f : Nat → Byte} (hu : n = 0 ∨ InUsed cs p n) :
    AInv { w with mem := setBytes w.mem p n f } cs F := by
  apply h.setMem
  intro c hc x h1 h2
  apply setBytes_out
  rcases hu with rfl | hu
  · omega
  · have := h.used_not_hdr hu hc
    omega

end Blink
