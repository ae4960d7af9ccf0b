import Verif.Proofs.Lift
import Verif.Proofs.Ledger
/-
  An arena whose chunks lie in memory obtained from somebody else: the invariant, and what each local operation does.
-/
namespace Blink

/-- The block of the shared allocator a chunk of a proxy occupies. -/
def Chunk.own (c : Chunk) : Owned := ⟨c.start, c.end_ - c.start, c.req, 8⟩

/-- The world as seen by an arena with chunks `cs`: exactly these chunks are held. -/
def VW (w : World) (cs : List Chunk) : World := { w with held := cs.map Chunk.blk }

/-- The chunks `cs` are a well-formed arena in `w`. -/
def VInv (w : World) (cs : List Chunk) : Prop := AInv (VW w cs) cs []

/-- The chunks `cs` lie inside held memory. -/
def Acc (w : World) (cs : List Chunk) : Prop := ∀ c ∈ cs, ∃ b ∈ w.held, b.addr ≤ c.start ∧ c.end_ ≤ b.addr + b.len

/-- Byte `x` is in one of the chunks. -/
def InCs (cs : List Chunk) (x : Nat) : Prop := ∃ c ∈ cs, c.start ≤ x ∧ x < c.end_

theorem VInv.of {V w : World} {cs F} (h : AInv V cs F) (hm : V.mem = w.mem) (ht : V.top = w.top) : VInv w cs where
  rep := by show Rep w.mem cs; rw [← hm]; exact h.rep
  ok := h.ok
  perm := by simp [VW]
  held := by
    refine ⟨?_, ?_, ?_⟩
    · show w.top ≤ _; rw [← ht]; exact h.held.top
    · show (cs.map Chunk.blk).Pairwise _
      exact (List.pairwise_append.mp h.pairwise).1
    · intro b hb
      show 0 < b.addr ∧ b.addr + b.len < w.top
      rw [← ht]
      exact h.held.rng b (h.perm.mem_iff.mpr (List.mem_append_left _ hb))
  cum := h.cum

theorem VInv.nil {w : World} (h : w.top ≤ USIZE) : VInv w [] :=
  ⟨trivial, by simp, by simp [VW], ⟨h, by simp [VW], by simp [VW]⟩, trivial⟩

theorem VInv.frame {w w' : World} {cs} (h : VInv w cs) (ht : w'.top = w.top)
    (hm : ∀ c ∈ cs, ∀ x, c.start ≤ x → x < c.end_ → w'.mem x = w.mem x) : VInv w' cs := by
  have h1 : AInv { VW w cs with mem := w'.mem } cs [] := h.setMem fun c hc x h1 h2 => by
    have hc' := h.ok c hc
    have := hc'.lo; have := hc'.hi
    exact hm c hc x h1 (by omega)
  exact VInv.of h1 rfl ht.symm

theorem VInv.tail {w : World} {c cs} (h : VInv w (c :: cs)) : VInv w cs := VInv.of (AInv.tail h) rfl rfl

theorem Acc.lift {w : World} {cs V} (h : Acc w cs) (hok : ∀ c ∈ cs, ChunkOK c) (hV : ∀ b ∈ V.held, b ∈ cs.map Chunk.blk) :
    ∀ a n, World.accessible V a n = true → w.accessible a n = true := by
  intro a n ha
  unfold World.accessible at ha
  rw [List.any_eq_true] at ha
  obtain ⟨b, hb, h1⟩ := ha
  simp only [Bool.and_eq_true, decide_eq_true_eq] at h1
  have := hV b hb
  rw [List.mem_map] at this
  obtain ⟨c, hc, rfl⟩ := this
  obtain ⟨B, hB, h2, h3⟩ := h c hc
  have := (hok c hc).lo; have := (hok c hc).hi
  simp only [Chunk.blk] at h1
  exact accessible_of hB (by omega) (by omega)

theorem Acc.cons {w : World} {c cs} (h : Acc w (c :: cs)) : Acc w cs := fun d hd => h d (List.mem_cons_of_mem _ hd)

/-! ### Fast paths -/

theorem allocFast_core {w : World} {cs} {m : Nat} {l : Layout} (h : VInv w cs) (ha : Acc w cs) (hl : l.Valid) :
    (∃ s w' cs', BA.allocFast ⟨rootOf cs, m⟩ l w = .ok (some s, { w with mem := w'.mem }) ∧
      AllocRes (VW w cs) cs m l (some s) w' cs' ∧ AInv w' cs' [] ∧ w'.top = w.top ∧ cs'.map Chunk.own = cs.map Chunk.own ∧
      rootOf cs' = rootOf cs ∧ ∀ x, w'.mem x ≠ w.mem x → InCs cs x) ∨
    (BA.allocFast ⟨rootOf cs, m⟩ l w = .ok (none, w) ∧ NoFit cs l) := by
  cases cs with
  | nil => right; exact ⟨rfl, fun c t h => by cases h⟩
  | cons c t =>
    have hne : rootOf (c :: t) ≠ 0 := by rw [Ne, rootOf_eq_zero h.ok]; simp
    have hf : ∀ w, BA.allocFast ⟨rootOf (c :: t), m⟩ l w = chunkAlloc c.start l w := by
      intro w; unfold BA.allocFast; rw [if_neg hne]; rfl
    have hca := chunkAlloc_spec h hl
    have hlift := fun {r V'} hx => (Lift.chunkAlloc c.start l).run (w := w) (V := VW w (c :: t)) (r := r) (V' := V') hx rfl rfl
      (ha.lift h.ok fun _ hb => hb)
    cases hb : bump c.cursor c.end_ l with
    | none =>
      rw [hb] at hca
      right
      refine ⟨?_, fun c' t' he => by injection he with h1 h2; subst h1; exact hb⟩
      rw [hf, (hlift hca).1]; rfl
    | some a =>
      rw [hb] at hca
      have hbf := bump_facts hl hb
      have hc := h.ok c List.mem_cons_self
      have := hc.lo; have := hc.hi
      left
      refine ⟨_, setCursor (VW w (c :: t)) c (a + l.size), { c with cursor := a + l.size } :: t, ?_, .fast c t a rfl hb,
        AInv.setCursor h (by omega) (by omega), rfl, rfl, rfl, ?_⟩
      · rw [hf, (hlift hca).1]
      · intro x hx
        refine ⟨c, List.mem_cons_self, ?_⟩
        apply Decidable.byContradiction
        intro hc
        exact hx (setBytes_out (by omega))

theorem resizeFast_core {w : World} {cs} {m p : Nat} {old new : Layout} (h : VInv w cs) (ha : Acc w cs) (hl : new.Valid)
    (hp : InUsed cs p old.size) :
    (∃ s w' cs', BA.resizeFast ⟨rootOf cs, m⟩ p old new w = .ok (some s, { w with mem := w'.mem }) ∧
      ResizeRes (VW w cs) cs m p old new (some s) w' cs' ∧ AInv w' cs' [] ∧ w'.top = w.top ∧
      cs'.map Chunk.own = cs.map Chunk.own ∧ rootOf cs' = rootOf cs ∧ ∀ x, w'.mem x ≠ w.mem x → InCs cs x) ∨
    (BA.resizeFast ⟨rootOf cs, m⟩ p old new w = .ok (none, w) ∧ NoFitResize cs p old new) := by
  cases cs with
  | nil => obtain ⟨d, hd, _⟩ := hp; cases hd
  | cons c t =>
    have hne : rootOf (c :: t) ≠ 0 := by rw [Ne, rootOf_eq_zero h.ok]; simp
    have hf : ∀ w, BA.resizeFast ⟨rootOf (c :: t), m⟩ p old new w = chunkResize c.start p old new w := by
      intro w; unfold BA.resizeFast; rw [if_neg hne]; rfl
    have hlift := fun {r V'} hx => (Lift.chunkResize c.start p old new).run (w := w) (V := VW w (c :: t)) (r := r) (V' := V') hx rfl rfl
      (ha.lift h.ok fun _ hb => hb)
    have hc := h.ok c List.mem_cons_self
    have hclo := hc.lo
    have hchi := hc.hi
    have hce := h.chunk_rng List.mem_cons_self
    have hpe : p + old.size < USIZE := by
      obtain ⟨d, hd, h1, h2⟩ := hp
      have := h.chunk_rng hd
      have := (h.ok d hd).hi
      omega
    have hdr : ∀ n x, (setCursor (VW w (c :: t)) c n).mem x ≠ w.mem x → InCs (c :: t) x := by
      intro n x hx
      refine ⟨c, List.mem_cons_self, ?_⟩
      apply Decidable.byContradiction
      intro hc
      exact hx (setBytes_out (by omega))
    have slow : chunkResize c.start p old new (VW w (c :: t)) = .ok (none, VW w (c :: t)) → bump c.cursor c.end_ new = none →
        ¬ (new.align ≤ old.align ∧ new.size ≤ old.size) →
        ¬ (new.align ≤ old.align ∧ c.cursor = p + old.size ∧ p + new.size ≤ c.end_) →
        BA.resizeFast ⟨rootOf (c :: t), m⟩ p old new w = .ok (none, w) ∧ NoFitResize (c :: t) p old new := by
      intro h1 hb hns hng
      refine ⟨?_, hns, ?_, ?_⟩
      · rw [hf, (hlift h1).1]; rfl
      · intro c' t' he; injection he with e1 e2; subst e1; exact hng
      · intro c' t' he; injection he with e1 e2; subst e1; exact hb
    have realloc : chunkResize c.start p old new (VW w (c :: t)) = chunkRealloc c.start p old new (VW w (c :: t)) →
        ¬ (new.align ≤ old.align ∧ new.size ≤ old.size) →
        ¬ (new.align ≤ old.align ∧ c.cursor = p + old.size ∧ p + new.size ≤ c.end_) →
        (∃ s w' cs', BA.resizeFast ⟨rootOf (c :: t), m⟩ p old new w = .ok (some s, { w with mem := w'.mem }) ∧
          ResizeRes (VW w (c :: t)) (c :: t) m p old new (some s) w' cs' ∧ AInv w' cs' [] ∧ w'.top = w.top ∧
          cs'.map Chunk.own = (c :: t).map Chunk.own ∧ rootOf cs' = rootOf (c :: t) ∧ ∀ x, w'.mem x ≠ w.mem x → InCs (c :: t) x) ∨
        (BA.resizeFast ⟨rootOf (c :: t), m⟩ p old new w = .ok (none, w) ∧ NoFitResize (c :: t) p old new) := by
      intro h1 hns hng
      have hca := chunkAlloc_spec h hl
      cases hb : bump c.cursor c.end_ new with
      | none =>
        rw [hb] at hca
        refine .inr (slow ?_ hb hns hng)
        rw [h1]; unfold chunkRealloc
        rw [bind_ok hca]; rfl
      | some a =>
        rw [hb] at hca
        have hbf := bump_facts hl hb
        have hng' : ∀ c' t', c :: t = c' :: t' →
            ¬ (new.align ≤ old.align ∧ c'.cursor = p + old.size ∧ p + new.size ≤ c'.end_) := by
          intro c' t' he; injection he with e1 e2; subst e1; exact hng
        have har : AllocRes (VW w (c :: t)) (c :: t) m new _ _ _ := .fast c t a rfl hb
        obtain ⟨hcp, hi2⟩ := copy_spec h hl hp har (AInv.setCursor h (by omega) (by omega))
        refine .inl ⟨_, _, _, ?_, .move _ _ _ hns hng' har, hi2, rfl, rfl, rfl, ?_⟩
        · rw [hf]
          refine (hlift (r := some _) ?_).1
          rw [h1]; unfold chunkRealloc
          rw [bind_ok hca]; simp only
          rw [bind_ok hcp]; rfl
        · intro x hx
          dsimp only at hx
          by_cases hx2 : a ≤ x ∧ x < a + min new.size old.size
          · exact ⟨c, List.mem_cons_self, by omega, by omega⟩
          · rw [setBytes_out (by omega)] at hx
            exact hdr _ x hx
    by_cases ha : new.align ≤ old.align
    · by_cases hs : new.size ≤ old.size
      · refine .inl ⟨_, VW w (c :: t), c :: t, ?_, .same ha hs, h, rfl, rfl, rfl, fun x hx => absurd rfl hx⟩
        rw [hf]; unfold chunkResize; rw [if_pos ha, if_pos hs]; rfl
      · by_cases ht : c.cursor = p + old.size
        · by_cases hfit : p + new.size ≤ c.end_
          · refine .inl ⟨_, _, _, ?_, .grow c t rfl ha (by omega) ht hfit, AInv.setCursor h (by omega) hfit, rfl, rfl, rfl, hdr _⟩
            have : chunkResize c.start p old new (VW w (c :: t)) = .ok (some ⟨p, new.size⟩, setCursor (VW w (c :: t)) c (p + new.size)) := by
              unfold chunkResize checkedAdd
              rw [if_pos ha, if_neg hs, bind_ok (addU_ok hpe), bind_ok (AInv.loadCursor h), if_pos ht,
                if_pos (show p + new.size < USIZE by omega)]
              simp only
              rw [bind_ok (AInv.loadEnd h), if_neg (by omega)]
              have hcas := cellCas_spec h c.cursor (p + new.size)
              rw [if_pos rfl] at hcas
              rw [bind_ok hcas]
              simp only [if_true]
              rw [bind_ok (subU_ok (by omega)), bind_ok (dassert_ok (by omega)),
                show p + new.size - p = new.size by omega]
              rfl
            rw [hf, (hlift this).1]
          · refine .inr (slow ?_ ?_ (by omega) (by omega))
            · unfold chunkResize checkedAdd
              rw [if_pos ha, if_neg hs, bind_ok (addU_ok hpe), bind_ok (AInv.loadCursor h), if_pos ht]
              by_cases ho : p + new.size < USIZE
              · rw [if_pos ho]
                simp only
                rw [bind_ok (AInv.loadEnd h), if_pos (by omega)]; rfl
              · rw [if_neg ho]; rfl
            · cases hb : bump c.cursor c.end_ new with
              | none => rfl
              | some a =>
                have := bump_facts hl hb
                omega
        · refine realloc ?_ (by omega) (by omega)
          unfold chunkResize
          rw [if_pos ha, if_neg hs, bind_ok (addU_ok hpe), bind_ok (AInv.loadCursor h), if_neg ht]
    · refine realloc ?_ (by omega) (by omega)
      unfold chunkResize
      rw [if_neg ha]

theorem deallocate_core {w : World} {cs} {m p n : Nat} (h : VInv w cs) (ha : Acc w cs) (hp : InUsed cs p n) :
    BA.deallocate ⟨rootOf cs, m⟩ p n w = .ok ((), w) := by
  have := ((Lift.deallocate ⟨rootOf cs, m⟩ p n).run (w := w) (deallocate_spec h hp) rfl rfl (ha.lift h.ok fun _ hb => hb)).1
  rw [this]; rfl

theorem lastChunkSize_core {w : World} {cs} {m : Nat} (h : VInv w cs) (ha : Acc w cs) :
    BA.lastChunkSize ⟨rootOf cs, m⟩ w = .ok ((cs.head?.map Chunk.cap).getD 0, w) := by
  cases cs with
  | nil => rfl
  | cons c t =>
    have hne : rootOf (c :: t) ≠ 0 := by rw [Ne, rootOf_eq_zero h.ok]; simp
    unfold BA.lastChunkSize
    rw [if_neg hne]
    have := ((Lift.chunkCap c.start).run (w := w) (AInv.chunkCap h) rfl rfl (ha.lift h.ok fun _ hb => hb)).1
    exact this

theorem chunkReset_core {w : World} {c cs} (h : VInv w (c :: cs)) (ha : Acc w (c :: cs)) :
    ∃ m', chunkReset c.start w = .ok (rootOf cs, { w with mem := m' }) ∧ VInv { w with mem := m' } [c.rewind] ∧
      VInv { w with mem := m' } cs ∧ (∀ x, m' x ≠ w.mem x → InCs [c] x) := by
  obtain ⟨h1, h2, h3⟩ := chunkReset_spec h
  have h4 := ((Lift.chunkReset c.start).run (w := w) h1 rfl rfl (ha.lift h.ok fun _ hb => hb)).1
  have hc := h.ok c List.mem_cons_self
  have := hc.lo; have := hc.hi
  refine ⟨_, h4, ?_, VInv.of h2 rfl rfl, ?_⟩
  · refine ⟨⟨h3, trivial⟩, ?_, by simp [VW, Chunk.blk, Chunk.rewind], ⟨h.held.top, ?_, ?_⟩, ?_⟩
    · intro d hd
      simp only [List.mem_singleton] at hd
      subst hd
      exact ⟨hc.al, hc.pos, Nat.le_refl _, by simp only [Chunk.rewind]; omega, hc.req⟩
    · simp [VW]
    · intro b hb
      have := h.held.rng c.blk List.mem_cons_self
      simp only [VW, List.map_cons, List.map_nil, List.mem_singleton] at hb
      subst hb
      exact this
    · exact ⟨rfl, trivial⟩
  · intro x hx
    refine ⟨c, List.mem_cons_self, ?_⟩
    apply Decidable.byContradiction
    intro hc
    apply hx
    show (rewound (VW w (c :: cs)) c).mem x = w.mem x
    simp only [rewound]
    rw [setBytes_out (by omega), setBytes_out (by omega), setBytes_out (by omega)]
    rfl

/-! ### The slow path -/

theorem chunkRequest_spec {V : World} {cs F} {m : Nat} {l : Layout} (h : AInv V cs F) (hd : need (rootCum cs) m l + 16383 < USIZE)
    (hb : ∀ R, chunkReq (rootCum cs) m l = some R → R + 8 ≤ ISIZE) :
    chunkRequest (rootOf cs) m l V = .ok (chunkReq (rootCum cs) m l, V) := by
  unfold chunkRequest
  rw [bind_ok (rootCum_load h)]
  unfold chunkReq at *
  cases hcs : slowChunkSize (rootCum cs) m l with
  | none => rfl
  | some S =>
    rw [hcs] at hb
    simp only at *
    have hS : S % HDR_ALIGN = 0 := by
      rw [slowChunkSize_eq] at hcs
      split at hcs
      · injection hcs with hcs
        rw [← hcs]
        exact roundChunk_mod8 (by unfold need; omega) hd
      · cases hcs
    rw [bind_ok (dassert_ok (fun _ => hS))]
    cases hR : alignUp S HDR_ALIGN with
    | none => rw [show alignUp S 8 = none from hR]; rfl
    | some R =>
      rw [show alignUp S 8 = some R from hR]
      exact bind_ok (require_ok (show R + HDR_ALIGN ≤ ISIZE from hb R hR))

theorem chunkRequest_core {w : World} {cs} {m : Nat} {l : Layout} (h : VInv w cs) (ha : Acc w cs)
    (hd : need (rootCum cs) m l + 16383 < USIZE) (hb : ∀ R, chunkReq (rootCum cs) m l = some R → R + 8 ≤ ISIZE) :
    chunkRequest (rootOf cs) m l w = .ok (chunkReq (rootCum cs) m l, w) := by
  have := ((Lift.chunkRequest (rootOf cs) m l).run (w := w) (chunkRequest_spec h hd hb) rfl rfl (ha.lift h.ok fun _ hb => hb)).1
  rw [this]; rfl

theorem newChunkAlloc_mark {root : Nat} {sl : Slice} {l : Layout} {w w' : World}
    (h : (markUninit sl w) = (markUninit sl w')) : newChunkAlloc root sl l w = newChunkAlloc root sl l w' := by
  unfold newChunkAlloc
  rw [bind_apply, bind_apply, h]

theorem setBytes_twice (m : Nat → Byte) (a n : Nat) (f : Nat → Byte) : setBytes (setBytes m a n f) a n f = setBytes m a n f := by
  funext x
  unfold setBytes
  split <;> rfl

theorem newChunk_core {w : World} {cs} {m R : Nat} {l : Layout} {sl : Slice} (h : VInv w cs) (ha : Acc w cs)
    (hd : need (rootCum cs) m l + 16383 < USIZE) (hz : w.debug = true → 32 < sl.len) (hl : l.Valid) (hno : NoFit cs l) (hR : chunkReq (rootCum cs) m l = some R) (hRv : R + 8 ≤ ISIZE)
    (h1 : 0 < sl.addr) (h2 : sl.addr % 8 = 0) (h3 : R ≤ sl.len) (h4 : sl.len < ISIZE) (h5 : sl.addr + sl.len < w.top)
    (h6 : ∀ c ∈ cs, sl.addr + sl.len ≤ c.start ∨ c.end_ ≤ sl.addr)
    (h7 : ∃ b ∈ w.held, b.addr ≤ sl.addr ∧ sl.addr + sl.len ≤ b.addr + b.len) :
    ∃ V w' s c, V.mem = w.mem ∧ AInv V cs [] ∧ AllocRes V cs m l (some s) w' (c :: cs) ∧ AInv w' (c :: cs) [] ∧
      newChunkAlloc (rootOf cs) sl l w = .ok (s, { w with mem := w'.mem }) ∧ w'.top = w.top ∧ w'.debug = w.debug ∧
      (∀ a n, w'.accessible a n = true → w.accessible a n = true) ∧ c.start = sl.addr ∧ c.end_ = sl.addr + sl.len ∧
      c.own = Owned.of sl ⟨R, 8⟩ ∧
      ∀ x, w'.mem x ≠ w.mem x → sl.addr ≤ x ∧ x < sl.addr + sl.len := by
  obtain ⟨V, hVm, hVt, hVd, hVh, hVo⟩ : ∃ V : World, V.mem = w.mem ∧ V.top = w.top ∧ V.debug = w.debug ∧
      V.held = cs.map Chunk.blk ∧ V.oracle V.calls = some sl :=
    ⟨{ VW w cs with oracle := fun _ => some sl }, rfl, rfl, rfl, rfl, rfl⟩
  have hV : AInv V cs [] := by
    refine ⟨?_, h.ok, ?_, ⟨?_, ?_, ?_⟩, h.cum⟩
    · rw [hVm]; exact h.rep
    · rw [hVh]; exact h.perm
    · rw [hVt]; exact h.held.top
    · rw [hVh]; exact h.held.dis
    · rw [hVh, hVt]; exact h.held.rng
  have hf : freshOk V ⟨R, 8⟩ sl = true := by
    simp only [freshOk, Bool.and_eq_true, decide_eq_true_eq, List.all_eq_true]
    rw [hVt]
    refine ⟨⟨⟨⟨⟨h1, h2⟩, h3⟩, h4⟩, h5⟩, ?_⟩
    intro b hb
    rw [hVh, List.mem_map] at hb
    obtain ⟨c, hc, rfl⟩ := hb
    have := (h.ok c hc).lo; have := (h.ok c hc).hi
    have := h6 c hc
    simp only [Chunk.blk]
    omega
  have hreq : chunkRequest (rootOf cs) m l V = .ok (some R, V) := by
    rw [chunkRequest_spec hV hd (fun R' hR' => by rw [hR] at hR'; injection hR' with hR'; omega), hR]
  have hsplit := allocSlow_split hreq
  have hbase : baseAlloc ⟨R, HDR_ALIGN⟩ V = .ok (some sl, { V with
        calls := V.calls + 1, log := .alloc ⟨R, HDR_ALIGN⟩ sl :: V.log, held := ⟨sl.addr, sl.len, ⟨R, HDR_ALIGN⟩⟩ :: V.held,
        mem := setBytes V.mem sl.addr sl.len (fun _ => .uninit) }) := by
    unfold baseAlloc; rw [hVo]; exact if_pos hf
  simp only at hsplit
  rw [bind_ok hbase] at hsplit
  simp only at hsplit
  rcases allocSlow_spec' hV hl (m := m) (fun hdb => ⟨hd, fun sl' ho _ => by
      rw [hVo] at ho; injection ho with ho; subst ho
      exact hz (hVd ▸ hdb)⟩) with ⟨e, ⟨⟨l', sl', hE, ho, hfr⟩, hq⟩, he⟩ | ⟨r, w', cs', he, hs, hi⟩
  · exfalso
    obtain ⟨R', sl'', hq, hE'⟩ := hq
    rw [hE] at hE'
    injection hE' with hl' _
    rw [hR] at hq; injection hq with hq; subst hq; subst hl'
    rw [hVo] at ho; injection ho with ho; subst ho
    rw [hf] at hfr; cases hfr
  · cases hs with
    | tooBig h8 => rw [hR] at h8; cases h8
    | refused R' h8 ho => rw [hVo] at ho; cases ho
    | ok R' sl' m' h8 ho hf' hb hm hu =>
      rw [hR] at h8; injection h8 with h8; subst h8
      rw [hVo] at ho; injection ho with ho; subst ho
      rw [he, bind_apply] at hsplit
      cases hx : newChunkAlloc (rootOf cs) sl l { V with
          calls := V.calls + 1, log := .alloc ⟨R, HDR_ALIGN⟩ sl :: V.log, held := ⟨sl.addr, sl.len, ⟨R, HDR_ALIGN⟩⟩ :: V.held,
          mem := setBytes V.mem sl.addr sl.len (fun _ => .uninit) } with
      | error e => rw [hx] at hsplit; cases hsplit
      | ok y =>
        obtain ⟨s, w''⟩ := y
        rw [hx] at hsplit
        injection hsplit with hsplit; injection hsplit with e1 e2
        injection e1 with e1 e3; injection e1 with e1
        subst e2
        have hx' := (newChunkAlloc_mark (root := rootOf cs) (l := l) (sl := sl) (w := { V with
          calls := V.calls + 1, log := .alloc ⟨R, HDR_ALIGN⟩ sl :: V.log,
          held := ⟨sl.addr, sl.len, ⟨R, HDR_ALIGN⟩⟩ :: V.held }) (by
          unfold markUninit
          simp only [setBytes_twice])).trans hx
        have hacc : ∀ a n, World.accessible { V with held := ⟨sl.addr, sl.len, ⟨R, HDR_ALIGN⟩⟩ :: V.held } a n = true →
            w.accessible a n = true := by
          intro a n h9
          unfold World.accessible at h9
          rw [List.any_cons, Bool.or_eq_true] at h9
          rcases h9 with h9 | h9
          · simp only [Bool.and_eq_true, decide_eq_true_eq] at h9
            obtain ⟨b, hb1, hb2, hb3⟩ := h7
            exact accessible_of hb1 (by omega) (by omega)
          · exact (ha.lift h.ok (V := V) (fun b hb => by rw [hVh] at hb; exact hb)) a n h9
        have h10 := ((Lift.newChunkAlloc (rootOf cs) sl l).run (w := w) hx' hVm hVd hacc).1
        refine ⟨V, _, s, _, hVm, hV, ?_, hi, h10, hVt, hVd, hacc, rfl, rfl, ?_, ?_⟩
        · rw [← e1]
          exact .slow hno (.ok R sl m' hR hVo hf hb hm hu)
        · simp only [Chunk.own, newChunk, Owned.of]
          rw [show sl.addr + sl.len - sl.addr = sl.len by omega]
        · intro x hx2
          apply Decidable.byContradiction
          intro h11
          apply hx2
          rw [← hVm]
          exact hm x (by omega)

end Blink
