import Verif.Proofs.Resize
namespace Blink

/-- The call by which chunk `c` is given back. -/
def Chunk.freeEvent (c : Chunk) : BaseEvent := .dealloc c.start ⟨c.end_ - c.start, 8⟩

/-- The world after chunk `c` was given back. -/
def freeBlk (w : World) (c : Chunk) : World :=
  { w with held := w.held.erase c.blk, log := c.freeEvent :: w.log
           mem := setBytes w.mem c.start (c.end_ - c.start) (fun _ => .uninit) }

theorem AInv.find {w c cs F} (h : AInv w (c :: cs) F) :
    w.held.find? (fun b => b.fits c.start ⟨c.end_ - c.start, 8⟩) = some c.blk := by
  have hc := h.ok c List.mem_cons_self
  have hlo := hc.lo; have hhi := hc.hi; have hreq := hc.req
  have hex : ∃ b ∈ w.held, b.fits c.start ⟨c.end_ - c.start, 8⟩ = true :=
    ⟨c.blk, h.mem_held List.mem_cons_self, by
      simp [BaseBlk.fits, Chunk.blk, hreq]⟩
  cases hf : w.held.find? (fun b => b.fits c.start ⟨c.end_ - c.start, 8⟩) with
  | none =>
    rw [List.find?_eq_none] at hf
    obtain ⟨b, hb, hb'⟩ := hex
    exact absurd hb' (hf b hb)
  | some b =>
    have hb := List.find?_some hf
    have hm := List.mem_of_find?_eq_some hf
    simp only [BaseBlk.fits, Bool.and_eq_true, decide_eq_true_eq] at hb
    have hm' := h.perm.mem_iff.mp hm
    simp only [List.map_cons, List.cons_append, List.mem_cons] at hm'
    rcases hm' with rfl | hm'
    · rfl
    · have hp := h.pairwise
      simp only [List.map_cons, List.cons_append, List.pairwise_cons] at hp
      have := hp.1 b hm'
      simp only [BaseBlk.Disjoint, Chunk.blk] at this
      omega

theorem AInv.freeBlk {w c cs F} (h : AInv w (c :: cs) F) : AInv (freeBlk w c) cs F where
  rep := by
    apply h.rep.2.congr
    intro d hd x h1 h2
    have := h.chunk_dis hd
    have hc := h.ok c List.mem_cons_self
    have := hc.lo; have := hc.hi
    have hd' := h.ok d (List.mem_cons_of_mem _ hd)
    have := hd'.lo; have := hd'.hi
    simp only [Blink.freeBlk]
    exact setBytes_out (by omega)
  ok := fun d hd => h.ok d (List.mem_cons_of_mem _ hd)
  perm := by
    have h1 := h.perm.erase c.blk
    simpa [Blink.freeBlk] using h1
  held := ⟨h.held.top, h.held.dis.sublist List.erase_sublist, fun b hb => h.held.rng b (List.mem_of_mem_erase hb)⟩
  cum := h.cum.2

theorem deallocChunk_spec {w c cs F} (h : AInv w (c :: cs) F) :
    deallocChunk c.start w = .ok (rootOf cs, freeBlk w c) := by
  have hc := h.ok c List.mem_cons_self
  have := hc.lo; have := hc.hi
  unfold deallocChunk
  rw [bind_ok h.loadPrev, bind_ok h.loadEnd, bind_ok (subU_ok (by omega))]
  have hb : baseDealloc c.start ⟨c.end_ - c.start, HDR_ALIGN⟩ w = .ok ((), freeBlk w c) := by
    unfold baseDealloc HDR_ALIGN
    rw [h.find]
    rfl
  rw [bind_ok hb]; rfl

/-- The world after giving back a whole chain. -/
def freeAll (w : World) : List Chunk → World
  | [] => w
  | c :: cs => freeAll (freeBlk w c) cs

theorem freeChain_spec {w cs F} (h : AInv w cs F) {fuel : Nat} (hfuel : cs.length ≤ fuel) :
    freeChain fuel (rootOf cs) w = .ok ((), freeAll w cs) ∧ AInv (freeAll w cs) [] F := by
  induction cs generalizing w fuel with
  | nil => cases fuel <;> exact ⟨rfl, h⟩
  | cons c cs ih =>
    obtain ⟨fuel, rfl⟩ : ∃ f, fuel = f + 1 := ⟨fuel - 1, by simp only [List.length_cons] at hfuel; omega⟩
    have hpos := (h.ok c List.mem_cons_self).pos
    obtain ⟨s, hs⟩ : ∃ s, c.start = s + 1 := ⟨c.start - 1, by omega⟩
    have hd := deallocChunk_spec h
    have := ih h.freeBlk (fuel := fuel) (by simp only [List.length_cons] at hfuel; omega)
    refine ⟨?_, this.2⟩
    simp only [rootOf, hs]
    unfold freeChain
    rw [← hs, bind_ok hd]
    exact this.1

theorem freeAll_fields (w : World) (cs : List Chunk) :
    (freeAll w cs).oracle = w.oracle ∧ (freeAll w cs).calls = w.calls ∧ (freeAll w cs).top = w.top ∧
    (freeAll w cs).debug = w.debug ∧ (freeAll w cs).log = (cs.map Chunk.freeEvent).reverse ++ w.log := by
  induction cs generalizing w with
  | nil => simp [freeAll]
  | cons c cs ih =>
    have := ih (freeBlk w c)
    simp only [freeAll, List.map_cons, List.reverse_cons, List.append_assoc, List.cons_append, List.nil_append]
    exact this

theorem freeAll_mem {w cs} (hok : ∀ c ∈ cs, c.start ≤ c.end_) {x : Nat} (hx : ∀ c ∈ cs, x < c.start ∨ c.end_ ≤ x) :
    (freeAll w cs).mem x = w.mem x := by
  induction cs generalizing w with
  | nil => rfl
  | cons c cs ih =>
    simp only [freeAll]
    rw [ih (fun d hd => hok d (List.mem_cons_of_mem _ hd)) (fun d hd => hx d (List.mem_cons_of_mem _ hd))]
    have := hx c List.mem_cons_self
    have := hok c List.mem_cons_self
    simp only [freeBlk]
    exact setBytes_out (by omega)

theorem AInv.heldCount {w cs F} (h : AInv w cs F) : cs.length ≤ w.held.length := by
  rw [h.perm.length_eq]; simp

/-! ### reset -/

/-- The world after the newest chunk was rewound. -/
def rewound (w : World) (c : Chunk) : World :=
  { w with mem := setBytes (setBytes (setBytes w.mem c.start 8 (fun i => .word (c.start + 32) i))
      (c.start + 24) 8 (fun i => .word 0 i)) (c.start + 16) 8 (fun i => .word 0 i) }

/-- The rewound chunk. -/
def Chunk.rewind (c : Chunk) : Chunk := { c with cursor := c.start + 32, cum := 0 }

theorem chunkReset_spec {w c cs F} (h : AInv w (c :: cs) F) :
    chunkReset c.start w = .ok (rootOf cs, rewound w c) ∧ AInv (rewound w c) cs (c.blk :: F) ∧
    HdrAt (rewound w c).mem c.rewind 0 := by
  have hc := h.ok c List.mem_cons_self
  have hlo := hc.lo; have hhi := hc.hi; have hal := hc.al
  have hacc : ∀ mm k n, k + n ≤ 32 → ({ w with mem := mm } : World).accessible (c.start + k) n = true :=
    fun mm k n hk => accessible_of (w := { w with mem := mm }) (h.mem_held List.mem_cons_self) (by simp [Chunk.blk])
      (by simp only [Chunk.blk]; omega)
  obtain ⟨⟨a1, a2, a3, a4⟩, a5⟩ := h.rep
  refine ⟨?_, ?_, ?_⟩
  · unfold chunkReset
    rw [bind_ok h.loadEnd, bind_ok h.chunkCap, bind_ok (subU_ok (by unfold Chunk.cap; omega)),
      show c.end_ - c.cap = c.start + 32 by unfold Chunk.cap; omega]
    rw [bind_ok (storeWord_ok hal (by simpa using hacc w.mem 0 8 (by omega))),
      bind_ok (storeWord_ok (by omega) (hacc _ 24 8 (by omega)))]
    have hl : ∀ w1 : World, w1 = { w with
        mem := setBytes (setBytes w.mem c.start 8 (fun i => .word (c.start + 32) i)) (c.start + 24) 8
                 (fun i => .word 0 i) } → loadPrev c.start w1 = .ok (rootOf cs, w1) := by
      rintro w1 rfl
      exact loadWord_ok (by omega) (hacc _ 16 8 (by omega)) ((a3.set_out (by simp)).set_out (by simp))
    rw [bind_ok (hl _ rfl), bind_ok (storeWord_ok (by omega) (hacc _ 16 8 (by omega)))]
    rfl
  · apply h.tail.setMem
    intro d hd x h1 h2
    have := h.chunk_dis hd
    have hd' := h.ok d (List.mem_cons_of_mem _ hd)
    have := hd'.lo; have := hd'.hi
    rw [setBytes_out (by omega), setBytes_out (by omega), setBytes_out (by omega)]
  · refine ⟨?_, ?_, ?_, ?_⟩
    · exact (WordAt.set_same.set_out (by simp)).set_out (by simp)
    · exact ((a2.set_out (by simp)).set_out (by simp)).set_out (by simp)
    · exact WordAt.set_same
    · exact WordAt.set_same.set_out (by simp)

/-- The world and the chunks after `reset`. -/
def resetWorld (w : World) : List Chunk → World
  | [] => w
  | c :: cs => freeAll (rewound w c) cs

def resetChunks : List Chunk → List Chunk
  | [] => []
  | c :: _ => [c.rewind]

theorem reset_spec {w cs F} {m : Nat} (h : AInv w cs F) :
    BA.reset ⟨rootOf cs, m⟩ w = .ok (⟨rootOf (resetChunks cs), m⟩, resetWorld w cs) ∧
    AInv (resetWorld w cs) (resetChunks cs) F := by
  cases cs with
  | nil => exact ⟨rfl, h⟩
  | cons c cs =>
    have hne : rootOf (c :: cs) ≠ 0 := by rw [Ne, rootOf_eq_zero h.ok]; simp
    have hc := h.ok c List.mem_cons_self
    have hlo := hc.lo; have hhi := hc.hi; have hal := hc.al
    obtain ⟨h1, h2, h3⟩ := chunkReset_spec h
    obtain ⟨h4, h5⟩ := freeChain_spec h2 h2.heldCount
    constructor
    · unfold BA.reset arenaReset
      simp only [if_true]
      rw [bind_ok (a := rootOf (c :: cs)) (w' := freeAll (rewound w c) cs)]
      · rfl
      · rw [if_neg hne]
        simp only [rootOf]
        rw [bind_ok h1, bind_ok (a := (rewound w c).held.length) rfl, bind_ok h4]; rfl
    · refine ⟨⟨h3.congr ?_, trivial⟩, ?_, ?_, h5.held, ⟨rfl, trivial⟩⟩
      · intro x hx1 hx2
        apply freeAll_mem
        · intro d hd
          have hd' := h.ok d (List.mem_cons_of_mem _ hd)
          have := hd'.lo; have := hd'.hi
          omega
        · intro d hd
          have hd' := h.ok d (List.mem_cons_of_mem _ hd)
          have := hd'.lo; have := hd'.hi
          have := h.chunk_dis hd
          simp only [Chunk.rewind] at *
          omega
      · intro d hd
        simp only [resetChunks, List.mem_singleton] at hd
        subst hd
        exact ⟨hal, hc.pos, Nat.le_refl _, by simp only [Chunk.rewind]; omega, hc.req⟩
      · exact h5.perm

theorem resetFinal_spec {w cs F} {m : Nat} (h : AInv w cs F) :
    BA.resetFinal ⟨rootOf cs, m⟩ w = .ok (⟨0, m⟩, freeAll w cs) ∧ AInv (freeAll w cs) [] F := by
  obtain ⟨h4, h5⟩ := freeChain_spec h h.heldCount
  refine ⟨?_, h5⟩
  unfold BA.resetFinal arenaReset
  simp only [if_false, Bool.false_eq_true]
  rw [bind_ok (a := 0) (w' := freeAll w cs)]
  · rfl
  · rw [bind_ok (a := w.held.length) rfl, bind_ok h4]; rfl

end Blink
