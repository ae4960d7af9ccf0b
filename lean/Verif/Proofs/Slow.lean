import Verif.Proofs.Arena
/-
  `alloc_slow`: new chunks.
-/
namespace Blink

/-- Bytes a new chunk has to provide before rounding (header included). -/
def need (rootCum : Option Nat) (m : Nat) (l : Layout) : Nat :=
  (match rootCum with
   | some cum => max m cum + max l.size 64
   | none => max m l.size) + (if 8 < l.align then l.align else 0) + 32

/-- Rounding of chunk sizes: to a power of two below 16 KiB, to a multiple of 16 KiB above. -/
def roundChunk (n : Nat) : Nat :=
  if n < 16384 then nextPow2 n
  else if n + 16383 < USIZE then roundUp n 16384 else n

theorem alignUp_16384 {n : Nat} : (alignUp n 16384).getD n = if n + 16383 < USIZE then roundUp n 16384 else n := by
  by_cases h : n + 16383 < USIZE
  · have := alignUp_eq (v := n) (k := 14) (by decide) (by omega)
    simp only [show (2:Nat)^14 = 16384 from rfl] at this
    rw [this, if_pos h]
    unfold roundUp
    simp only [Option.getD_some]
    omega
  · rw [alignUp_none (by omega), if_neg h]; rfl

theorem slowChunkSize_eq (rc : Option Nat) (m : Nat) (l : Layout) :
    slowChunkSize rc m l = if need rc m l < USIZE then some (roundChunk (need rc m l)) else none := by
  unfold slowChunkSize need roundChunk
  simp only [HDR_ALIGN, HDR_SIZE, CHUNK_POWER_OF_TWO_THRESHOLD, CHUNK_MIN_GROW_STEP, alignUp_16384]
  cases rc with
  | none =>
    simp only
    by_cases h8 : 8 < l.align
    · simp only [h8, if_true, checkedAdd]
      by_cases h1 : max m l.size + l.align < USIZE
      · simp only [h1, if_true, Option.bind_eq_bind, Option.bind_some]
        by_cases h2 : max m l.size + l.align + 32 < USIZE
        · simp only [h2, if_true, Option.bind_some]; split <;> rfl
        · simp only [h2, if_false]; rfl
      · have : ¬ (max m l.size + l.align + 32 < USIZE) := by omega
        simp only [h1, this, if_false, Option.bind_eq_bind, Option.bind_none, Option.bind_some]
    · simp only [h8, if_false, checkedAdd, Nat.add_zero, Option.bind_eq_bind, Option.bind_some]
      by_cases h2 : max m l.size + 32 < USIZE
      · simp only [h2, if_true, Option.bind_some]; split <;> rfl
      · simp only [h2, if_false]; rfl
  | some cum =>
    simp only [checkedAdd]
    by_cases h0 : max m cum + max l.size 64 < USIZE
    · simp only [h0, if_true]
      by_cases h8 : 8 < l.align
      · simp only [h8, if_true]
        by_cases h1 : max m cum + max l.size 64 + l.align < USIZE
        · simp only [h1, if_true, Option.bind_eq_bind, Option.bind_some]
          by_cases h2 : max m cum + max l.size 64 + l.align + 32 < USIZE
          · simp only [h2, if_true, Option.bind_some]; split <;> rfl
          · simp only [h2, if_false]; rfl
        · have : ¬ (max m cum + max l.size 64 + l.align + 32 < USIZE) := by omega
          simp only [h1, this, if_false, Option.bind_eq_bind, Option.bind_none, Option.bind_some]
      · simp only [h8, if_false, Nat.add_zero, Option.bind_eq_bind, Option.bind_some]
        by_cases h2 : max m cum + max l.size 64 + 32 < USIZE
        · simp only [h2, if_true, Option.bind_some]; split <;> rfl
        · simp only [h2, if_false]; rfl
    · have : ¬ (max m cum + max l.size 64 + (if 8 < l.align then l.align else 0) + 32 < USIZE) := by omega
      simp only [h0, this, if_false, Option.bind_eq_bind, Option.bind_none]

theorem le_roundChunk {n : Nat} (h : n < USIZE) : n ≤ roundChunk n := by
  unfold roundChunk
  split
  · exact le_nextPow2 h
  · split
    · exact (roundUp_facts n (by decide)).1
    · exact Nat.le_refl _

theorem roundChunk_mod8 {n : Nat} (h : 8 ≤ n) (h2 : n + 16383 < USIZE) : roundChunk n % 8 = 0 := by
  unfold roundChunk
  split
  · exact nextPow2_mod8 (by omega) h
  · have := (roundUp_facts n (a := 16384) (by decide)).2.2
    omega

/-- The size requested from the underlying allocator for a new chunk. -/
def chunkReq (rc : Option Nat) (m : Nat) (l : Layout) : Option Nat :=
  match slowChunkSize rc m l with
  | none => none
  | some cs => alignUp cs 8

theorem chunkReq_facts {rc : Option Nat} {m R : Nat} {l : Layout} (h : chunkReq rc m l = some R) :
    need rc m l ≤ R ∧ R % 8 = 0 ∧ R < USIZE ∧ R < roundChunk (need rc m l) + 8 ∧ need rc m l < USIZE := by
  unfold chunkReq at h
  rw [slowChunkSize_eq] at h
  split at h
  · cases h
  · rename_i cs hcs
    split at hcs
    · rename_i hn
      injection hcs with hcs
      have := le_roundChunk hn
      have := alignUp8_spec h
      omega
    · cases hcs

theorem need_size (rc : Option Nat) (m : Nat) (l : Layout) :
    l.size + (if 8 < l.align then l.align else 0) + 32 ≤ need rc m l := by
  unfold need
  cases rc <;> simp only <;> omega

/-! ### Fresh chunks -/

theorem AInv.addHeld {w cs F} (h : AInv w cs F) {l : Layout} {sl : Slice} {cl : Nat} {lg : List BaseEvent}
    (hf : freshOk w l sl = true) :
    AInv { w with calls := cl, log := lg, held := ⟨sl.addr, sl.len, l⟩ :: w.held,
                  mem := setBytes w.mem sl.addr sl.len (fun _ => .uninit) } cs (⟨sl.addr, sl.len, l⟩ :: F) := by
  have hf' := hf
  simp only [freshOk, Bool.and_eq_true, decide_eq_true_eq, List.all_eq_true] at hf'
  obtain ⟨⟨⟨⟨⟨f1, f2⟩, f3⟩, f4⟩, f5⟩, f6⟩ := hf'
  refine ⟨?_, h.ok, ?_, ⟨h.held.top, ?_, ?_⟩, h.cum⟩
  · apply h.rep.congr
    intro c hc x hx1 hx2
    have hc' := h.ok c hc
    have := hc'.lo; have := hc'.hi
    have := f6 _ (h.mem_held hc)
    simp only [Chunk.blk] at this
    dsimp only
    exact setBytes_out (by omega)
  · exact (List.Perm.cons _ h.perm).trans List.perm_middle.symm
  · simp only [List.pairwise_cons]
    exact ⟨fun b hb => f6 b hb, h.held.dis⟩
  · intro b hb
    rcases List.mem_cons.mp hb with rfl | hb
    · exact ⟨f1, f5⟩
    · exact h.held.rng b hb

theorem rootOf_eq_zero {cs : List Chunk} (h : ∀ c ∈ cs, ChunkOK c) : rootOf cs = 0 ↔ cs = [] := by
  cases cs with
  | nil => simp [rootOf]
  | cons c cs =>
    have := (h c List.mem_cons_self).pos
    simp only [rootOf, reduceCtorEq, iff_false]
    omega

theorem initChunk_spec {w cs F} {sl : Slice} {R : Nat} (h : AInv w cs (⟨sl.addr, sl.len, ⟨R, 8⟩⟩ :: F))
    (hal : sl.addr % 8 = 0) (hlen : 32 ≤ sl.len) (hR : R ≤ sl.len) (hd : w.debug = true → 32 < sl.len) :
    ∃ m', initChunk sl (rootOf cs) w = .ok (sl.addr, { w with mem := m' }) ∧
      AInv { w with mem := m' } (⟨sl.addr, sl.addr + 32, sl.addr + sl.len, (cs.map Chunk.cap).sum, R⟩ :: cs) F ∧
      ∀ x, (x < sl.addr ∨ sl.addr + 32 ≤ x) → m' x = w.mem x := by
  have hmem : (⟨sl.addr, sl.len, ⟨R, 8⟩⟩ : BaseBlk) ∈ w.held :=
    h.perm.mem_iff.mpr (List.mem_append_right _ List.mem_cons_self)
  have hrng := h.held.rng _ hmem
  have htop := h.held.top
  simp only at hrng
  have hacc : ∀ mm k n, k + n ≤ sl.len → ({ w with mem := mm } : World).accessible (sl.addr + k) n = true :=
    fun mm k n hk => accessible_of (w := { w with mem := mm }) hmem (by simp) (by simp only; omega)
  have hsum := sum_cap_lt h
  have hcumv : (if rootOf cs = 0 then pure 0 else do
      let cap ← chunkCap (rootOf cs)
      let cum ← loadCum (rootOf cs)
      addU cap cum : M Nat) w = .ok ((cs.map Chunk.cap).sum, w) := by
    cases cs with
    | nil => rfl
    | cons c cs =>
      have hne : rootOf (c :: cs) ≠ 0 := by
        rw [Ne, rootOf_eq_zero h.ok]; simp
      rw [if_neg hne]
      simp only [rootOf]
      rw [bind_ok h.chunkCap, bind_ok h.loadCum]
      have hc := h.cum.1
      simp only [List.map_cons, List.sum_cons, List.length_cons] at *
      rw [addU_ok (by omega), hc]
  let m1 := setBytes w.mem sl.addr 8 (fun i => .word (sl.addr + 32) i)
  let m2 := setBytes m1 (sl.addr + 8) 8 (fun i => .word (sl.addr + sl.len) i)
  let m3 := setBytes m2 (sl.addr + 16) 8 (fun i => .word (rootOf cs) i)
  let m4 := setBytes m3 (sl.addr + 24) 8 (fun i => .word ((cs.map Chunk.cap).sum) i)
  have hfr : ∀ x, (x < sl.addr ∨ sl.addr + 32 ≤ x) → m4 x = w.mem x := by
    intro x hx
    simp only [m4, m3, m2, m1]
    rw [setBytes_out (by omega), setBytes_out (by omega), setBytes_out (by omega), setBytes_out (by omega)]
  refine ⟨m4, ?_, ?_, hfr⟩
  · unfold initChunk
    have ha : isAlignedTo sl.addr HDR_ALIGN = true := by
      have := isAlignedTo_eq (v := sl.addr) (k := 3) (by omega) (by decide)
      simp only [show (2:Nat)^3 = 8 from rfl] at this
      unfold HDR_ALIGN
      rw [this]; simp [hal]
    rw [bind_ok (dassert_ok (fun _ => ha)), bind_ok (dassert_ok (by unfold HDR_SIZE; exact hd)),
      bind_ok (addU_ok (by omega)), bind_ok (addU_ok (by unfold HDR_SIZE; omega)), bind_ok hcumv]
    rw [bind_ok (storeWord_ok hal (by simpa using hacc w.mem 0 8 (by omega))),
      bind_ok (storeWord_ok (by omega) (hacc _ 8 8 (by omega))),
      bind_ok (storeWord_ok (by omega) (hacc _ 16 8 (by omega))),
      bind_ok (storeWord_ok (by omega) (hacc _ 24 8 (by omega)))]
    rfl
  · refine ⟨⟨⟨?_, ?_, ?_, ?_⟩, ?_⟩, ?_, ?_, ⟨h.held.top, h.held.dis, h.held.rng⟩, ⟨rfl, h.cum⟩⟩
    · exact ((WordAt.set_same.set_out (by simp)).set_out (by simp)).set_out (by simp)
    · exact (WordAt.set_same.set_out (by simp)).set_out (by simp)
    · exact WordAt.set_same.set_out (by simp)
    · exact WordAt.set_same
    · apply h.rep.congr
      intro c hc x hx1 hx2
      have hc' := h.ok c hc
      have := hc'.lo; have := hc'.hi
      have hp := h.pairwise
      rw [List.pairwise_append] at hp
      have := hp.2.2 _ (List.mem_map_of_mem hc) _ List.mem_cons_self
      simp only [BaseBlk.Disjoint, Chunk.blk] at this
      exact hfr x (by omega)
    · intro c hc
      rcases List.mem_cons.mp hc with rfl | hc
      · exact ⟨hal, hrng.1, Nat.le_refl _, by simp only; omega, by simp only; omega⟩
      · exact h.ok c hc
    · simp only [List.map_cons, List.cons_append, Chunk.blk]
      rw [show sl.addr + sl.len - sl.addr = sl.len by omega]
      exact h.perm.trans List.perm_middle

/-! ### The slow path -/

/-- The ghost chunk created from base block `sl` for a first allocation ending at `cur`. -/
def newChunk (sl : Slice) (cur R : Nat) (cs : List Chunk) : Chunk :=
  ⟨sl.addr, cur, sl.addr + sl.len, (cs.map Chunk.cap).sum, R⟩

/-- `cumulative_size` of the root, if any. -/
def rootCum (cs : List Chunk) : Option Nat := cs.head?.map Chunk.cum

/-- Possible outcomes of `alloc_slow`. -/
inductive SlowRes (w : World) (cs : List Chunk) (m : Nat) (l : Layout) : Option Slice → World → List Chunk → Prop
  | tooBig (h : chunkReq (rootCum cs) m l = none) : SlowRes w cs m l none w cs
  | refused (R : Nat) (h : chunkReq (rootCum cs) m l = some R) (ho : w.oracle w.calls = none) :
      SlowRes w cs m l none { w with calls := w.calls + 1, log := .refused ⟨R, 8⟩ :: w.log } cs
  | ok (R : Nat) (sl : Slice) (m' : Nat → Byte) (h : chunkReq (rootCum cs) m l = some R)
      (ho : w.oracle w.calls = some sl) (hf : freshOk w ⟨R, 8⟩ sl = true)
      (hb : bump (sl.addr + 32) (sl.addr + sl.len) l = some (roundUp (sl.addr + 32) l.align))
      (hm : ∀ x, (x < sl.addr ∨ sl.addr + sl.len ≤ x) → m' x = w.mem x)
      (hu : ∀ x, sl.addr + 32 ≤ x → x < sl.addr + sl.len → m' x = .uninit) :
      SlowRes w cs m l (some ⟨roundUp (sl.addr + 32) l.align, l.size⟩)
        { w with calls := w.calls + 1, log := .alloc ⟨R, 8⟩ sl :: w.log, held := ⟨sl.addr, sl.len, ⟨R, 8⟩⟩ :: w.held,
                 mem := m' }
        (newChunk sl (roundUp (sl.addr + 32) l.align + l.size) R cs :: cs)

theorem bump_fresh {sl : Slice} {R : Nat} {l : Layout} {rc : Option Nat} {m : Nat} (hl : l.Valid)
    (hR : chunkReq rc m l = some R) (hal : sl.addr % 8 = 0) (hlen : R ≤ sl.len) (htop : sl.addr + sl.len < USIZE) :
    bump (sl.addr + 32) (sl.addr + sl.len) l = some (roundUp (sl.addr + 32) l.align) := by
  obtain ⟨k, hk64, hk, hpos, hs⟩ := hl.facts
  have h1 := chunkReq_facts hR
  have h2 := need_size rc m l
  have h3 := roundUp_facts (sl.addr + 32) hpos
  unfold bump
  apply if_pos
  by_cases h8 : 8 < l.align
  · rw [if_pos h8] at h2
    omega
  · rw [if_neg h8] at h2
    have hmod : (sl.addr + 32) % l.align = 0 := by
      have : k ≤ 3 := by
        apply Decidable.byContradiction
        intro hc
        have : 2 ^ 4 ≤ 2 ^ k := Nat.pow_le_pow_right (by decide) (by omega)
        omega
      have : l.align = 1 ∨ l.align = 2 ∨ l.align = 4 ∨ l.align = 8 := by
        have : k = 0 ∨ k = 1 ∨ k = 2 ∨ k = 3 := by omega
        rcases this with rfl | rfl | rfl | rfl <;> simp [hk]
      rcases this with h | h | h | h <;> rw [h] <;> omega
    rw [roundUp_of_mod hpos hmod]
    omega

theorem SlowRes.inv {w cs F m l r w' cs'} (h : AInv w cs F) (hl : l.Valid) (hr : SlowRes w cs m l r w' cs')
    (hrep : Rep w'.mem cs') : AInv w' cs' F := by
  cases hr with
  | tooBig h' => exact h
  | refused R h' ho => exact ⟨h.rep, h.ok, h.perm, ⟨h.held.top, h.held.dis, h.held.rng⟩, h.cum⟩
  | ok R sl m' h' ho hf hb hm hu =>
    have hA := h.addHeld (cl := w.calls + 1) (lg := .alloc ⟨R, 8⟩ sl :: w.log) hf
    simp only [freshOk, Bool.and_eq_true, decide_eq_true_eq, List.all_eq_true] at hf
    obtain ⟨⟨⟨⟨⟨f1, f2⟩, f3⟩, f4⟩, f5⟩, f6⟩ := hf
    have hbf := bump_facts hl hb
    have h1 := chunkReq_facts h'
    refine ⟨hrep, ?_, ?_, ⟨hA.held.top, hA.held.dis, hA.held.rng⟩, ⟨rfl, h.cum⟩⟩
    · intro c hc
      rcases List.mem_cons.mp hc with rfl | hc
      · exact ⟨f2, f1, by simp only [newChunk]; omega, by simp only [newChunk]; omega, by simp only [newChunk]; omega⟩
      · exact h.ok c hc
    · simp only [List.map_cons, List.cons_append, Chunk.blk, newChunk]
      rw [show sl.addr + sl.len - sl.addr = sl.len by omega]
      exact List.Perm.cons _ h.perm

theorem rootCum_load {w cs F} (h : AInv w cs F) :
    (if rootOf cs = 0 then pure none else do
      let c ← loadCum (rootOf cs)
      pure (some c) : M (Option Nat)) w = .ok (rootCum cs, w) := by
  cases cs with
  | nil => rfl
  | cons c cs =>
    have hne : rootOf (c :: cs) ≠ 0 := by
      rw [Ne, rootOf_eq_zero h.ok]; simp
    rw [if_neg hne]
    simp only [rootOf]
    rw [bind_ok h.loadCum]; rfl

theorem rootCum_le {w cs F} (h : AInv w cs F) {c : Nat} (hc : rootCum cs = some c) : c ≤ w.top := by
  cases cs with
  | nil => cases hc
  | cons d cs =>
    simp only [rootCum, List.head?_cons, Option.map_some, Option.some.injEq] at hc
    have := sum_cap_lt h
    have := h.cum.1
    simp only [List.map_cons, List.sum_cons] at *
    omega

/-- Fault `e` is the answer to the request for a new chunk for `l`. -/
def ReqIs (cs : List Chunk) (m : Nat) (l : Layout) (e : Fault) : Prop :=
  ∃ R sl, chunkReq (rootCum cs) m l = some R ∧ e = .env ⟨R, 8⟩ sl

/-- `alloc_slow` never goes wrong, and does one of the listed things. -/
theorem allocSlow_spec' {w cs F} {m : Nat} {l : Layout} (h : AInv w cs F) (hl : l.Valid)
    (hd : w.debug = true → need (rootCum cs) m l + 16383 < USIZE ∧
      ∀ sl, w.oracle w.calls = some sl → need (rootCum cs) m l ≤ sl.len → 32 < sl.len) :
    (∃ e, (BadAnswer w e ∧ ReqIs cs m l e) ∧ allocSlow (rootOf cs) m l w = .error e) ∨
    ∃ r w' cs', allocSlow (rootOf cs) m l w = .ok ((r, rootOf cs'), w') ∧ SlowRes w cs m l r w' cs' ∧ AInv w' cs' F := by
  unfold allocSlow
  rw [bind_ok (rootCum_load h)]
  cases hcs : slowChunkSize (rootCum cs) m l with
  | none =>
    refine .inr ⟨none, w, cs, rfl, .tooBig ?_, h⟩
    unfold chunkReq; rw [hcs]
  | some S =>
    simp only
    have hS : w.debug = true → S % HDR_ALIGN = 0 := by
      intro hdb
      rw [slowChunkSize_eq] at hcs
      split at hcs
      · injection hcs with hcs
        rw [← hcs]
        exact roundChunk_mod8 (by unfold need; omega) (hd hdb).1
      · cases hcs
    rw [bind_ok (dassert_ok hS)]
    unfold allocChunk
    cases hR : alignUp S HDR_ALIGN with
    | none =>
      refine .inr ⟨none, w, cs, rfl, .tooBig ?_, h⟩
      unfold chunkReq; rw [hcs]; exact hR
    | some R =>
      have hreq : chunkReq (rootCum cs) m l = some R := by unfold chunkReq; rw [hcs]; exact hR
      simp only [HDR_ALIGN]
      cases ho : w.oracle w.calls with
      | none =>
        have hb : baseAlloc ⟨R, 8⟩ w = .ok (none, { w with calls := w.calls + 1, log := .refused ⟨R, 8⟩ :: w.log }) := by
          unfold baseAlloc; rw [ho]
        rw [bind_ok (a := none) (w' := { w with calls := w.calls + 1, log := .refused ⟨R, 8⟩ :: w.log })]
        · have hres := SlowRes.refused (w := w) (cs := cs) (m := m) (l := l) R hreq ho
          exact .inr ⟨none, _, cs, rfl, hres, hres.inv h hl h.rep⟩
        · rw [bind_ok hb]; rfl
      | some sl =>
        by_cases hf : freshOk w ⟨R, 8⟩ sl = true
        · have hb : baseAlloc ⟨R, 8⟩ w = .ok (some sl, { w with
              calls := w.calls + 1, log := .alloc ⟨R, 8⟩ sl :: w.log, held := ⟨sl.addr, sl.len, ⟨R, 8⟩⟩ :: w.held
              mem := setBytes w.mem sl.addr sl.len (fun _ => .uninit) }) := by
            unfold baseAlloc; rw [ho]; simp only; rw [if_pos hf]
          have hA := h.addHeld (cl := w.calls + 1) (lg := .alloc ⟨R, 8⟩ sl :: w.log) hf
          have hf' := hf
          simp only [freshOk, Bool.and_eq_true, decide_eq_true_eq, List.all_eq_true] at hf'
          obtain ⟨⟨⟨⟨⟨f1, f2⟩, f3⟩, f4⟩, f5⟩, f6⟩ := hf'
          have h1 := chunkReq_facts hreq
          have h2 := need_size (rootCum cs) m l
          have h3 := h.held.top
          have h32 : w.debug = true → 32 < sl.len := by
            intro hdb
            exact (hd hdb).2 sl ho (by omega)
          obtain ⟨m', hi, hi2, hi3⟩ := initChunk_spec hA f2 (by omega) f3 h32
          have hbump := bump_fresh hl hreq f2 f3 (by omega)
          have hbf := bump_facts hl hbump
          have hca := chunkAlloc_spec hi2 hl
          simp only [hbump] at hca
          have hsc := hi2.setCursor (n := roundUp (sl.addr + 32) l.align + l.size) (by simp only; omega) (by simp only; omega)
          rw [bind_ok (a := some sl.addr) (by rw [bind_ok hb]; simp only; rw [bind_ok hi]; rfl)]
          simp only
          rw [bind_ok hca]
          have hres := SlowRes.ok (w := w) (cs := cs) (m := m) (l := l) R sl
            (setBytes m' sl.addr 8 fun i => .word (roundUp (sl.addr + 32) l.align + l.size) i) hreq ho hf hbump
            (by
              intro x hx
              rw [setBytes_out (by omega), hi3 x (by omega)]
              dsimp only
              exact setBytes_out (by omega))
            (by
              intro x hx1 hx2
              rw [setBytes_out (by omega), hi3 x (by omega)]
              simp only [setBytes]
              rw [if_pos (by omega)])
          exact .inr ⟨_, _, _, rfl, hres, hres.inv h hl hsc.rep⟩
        · refine .inl ⟨_, ⟨⟨⟨R, 8⟩, sl, rfl, ho, by simpa using hf⟩, R, sl, hreq, rfl⟩, ?_⟩
          have hb : baseAlloc ⟨R, 8⟩ w = .error (.env ⟨R, 8⟩ sl) := by
            unfold baseAlloc; rw [ho]; simp only; rw [if_neg hf]
          rw [bind_err (by rw [bind_err hb])]

theorem allocSlow_spec {w cs F} {m : Nat} {l : Layout} (h : AInv w cs F) (hl : l.Valid) (hd : DbgOK w m) :
    (∃ e, (BadAnswer w e ∧ ReqIs cs m l e) ∧ allocSlow (rootOf cs) m l w = .error e) ∨
    ∃ r w' cs', allocSlow (rootOf cs) m l w = .ok ((r, rootOf cs'), w') ∧ SlowRes w cs m l r w' cs' ∧ AInv w' cs' F := by
  refine allocSlow_spec' h hl fun hdb => ?_
  obtain ⟨h1, h2, h3⟩ := hd hdb
  obtain ⟨k, _, _, _, hs⟩ := hl.facts
  refine ⟨?_, fun sl _ h4 => ?_⟩
  · unfold need
    cases hrc : rootCum cs with
    | none => simp only; split <;> omega
    | some c =>
      have := rootCum_le h hrc
      simp only; split <;> omega
  · have h5 : m + 32 ≤ need (rootCum cs) m l := by
      unfold need; cases rootCum cs <;> simp only <;> omega
    omega

end Blink
