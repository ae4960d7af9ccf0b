import Verif.Proofs.SyncProg
/-
  An undisturbed thread computes what the sequential code computes.
-/
namespace Blink

/-! ### What remains to be done, as a sequential program -/

def restGot (root : Nat) (b : Slice) : Job → M (Resp × Nat)
  | .alloc _ => pure (.block b, root)
  | .resize p old new => do
    copyNonoverlapping p b.addr (min new.size old.size)
    pure (.block b, root)

def restSlow (root m : Nat) (j : Job) : M (Resp × Nat) := do
  match ← allocSlow root m j.layout with
  | (none, root') => pure (.err, root')
  | (some b, root') => restGot root' b j

def restAlloc (root m : Nat) (j : Job) : M (Resp × Nat) := do
  match ← chunkAlloc root j.layout with
  | none => restSlow root m j
  | some b => restGot root b j

def restResize (root m p : Nat) (old new : Layout) : M (Resp × Nat) := do
  match ← chunkResize root p old new with
  | none => restSlow root m (.resize p old new)
  | some b => pure (.block b, root)

def restCall (root m : Nat) (c : Call) : M (Resp × Nat) := fun w =>
  match step ⟨w, ⟨root, m⟩⟩ c.op with
  | .ok (r, s) => .ok ((r, s.a.root), s.w)
  | .error e => .error e

def rest (root m : Nat) : Pc → M (Resp × Nat)
  | .idle => ub "idle"
  | .rd c => restCall root m c
  | .load _ j => restAlloc root m j
  | .cas _ j _ => restAlloc root m j
  | .rload _ p old new => restResize root m p old new
  | .rcas _ p old new _ => restResize root m p old new
  | .free _ p n => do arenaDealloc root p n; pure (.unit, root)
  | .unlockSlow j => restSlow root m j
  | .wr j => restSlow root m j
  | .slow j => restSlow root m j
  | .copy _ p old new b k => do
    copyNonoverlapping (p + k) (b.addr + k) (min new.size old.size - k)
    pure (.block b, root)
  | .ret _ r => pure (r, root)

/-- The thread's last look at the cursor is up to date. -/
def SS.current (s : SS) (t : Nat) : Prop :=
  match s.pcs t with
  | .cas _ _ v => s.cursor = some v
  | .rcas _ _ _ _ v => s.cursor = some v
  | _ => True

theorem restCall_allocate (root m : Nat) (l : Layout) (w : World) :
    restCall root m (.allocate l) w = (if root = 0 then restSlow root m (.alloc l) w else restAlloc root m (.alloc l) w) := by
  have hslow : ∀ w1, BA.allocFast ⟨root, m⟩ l w = .ok (none, w1) →
      restCall root m (.allocate l) w = restSlow root m (.alloc l) w1 := by
    intro w1 h1
    unfold restCall restSlow
    simp only [Call.op, step]
    unfold BA.allocate
    rw [bind_ok h1]
    dsimp only [Job.layout]
    cases hs : allocSlow root m l w1 with
    | error e => rw [bind_err hs, bind_err hs]; rfl
    | ok x =>
      obtain ⟨⟨r, root'⟩, w'⟩ := x
      rw [bind_ok hs, bind_ok hs]
      cases r <;> rfl
  by_cases hr : root = 0
  · rw [if_pos hr]
    exact hslow w (by unfold BA.allocFast; rw [if_pos hr]; rfl)
  · rw [if_neg hr]
    have hf : BA.allocFast ⟨root, m⟩ l w = chunkAlloc root l w := by unfold BA.allocFast; rw [if_neg hr]
    cases hc : chunkAlloc root l w with
    | error e =>
      unfold restAlloc restCall
      simp only [Call.op, step, Job.layout]
      unfold BA.allocate
      rw [bind_err (hf.trans hc), bind_err hc]; rfl
    | ok x =>
      obtain ⟨r, w1⟩ := x
      unfold restAlloc
      dsimp only [Job.layout]
      rw [bind_ok hc]
      cases r with
      | none => exact hslow w1 (hf.trans hc)
      | some b =>
        unfold restCall
        simp only [Call.op, step]
        unfold BA.allocate
        rw [bind_ok (hf.trans hc)]; rfl

theorem restCall_resize (root m p : Nat) (old new : Layout) (w : World) :
    restCall root m (.resize p old new) w =
      (if root = 0 then restSlow root m (.resize p old new) w else restResize root m p old new w) := by
  have hslow : ∀ w1, BA.resizeFast ⟨root, m⟩ p old new w = .ok (none, w1) →
      restCall root m (.resize p old new) w = restSlow root m (.resize p old new) w1 := by
    intro w1 h1
    unfold restCall restSlow
    simp only [Call.op, step]
    unfold BA.resize resizeSlow
    rw [bind_ok h1]
    dsimp only [Job.layout]
    cases hs : allocSlow root m new w1 with
    | error e => rw [bind_err (bind_err hs), bind_err hs]; rfl
    | ok x =>
      obtain ⟨⟨r, root'⟩, w'⟩ := x
      rw [bind_ok hs]
      cases r with
      | none => rw [bind_ok (a := (none, root')) (w' := w') (by rw [bind_ok hs]; rfl)]; rfl
      | some b =>
        dsimp only [restGot]
        cases hcp : copyNonoverlapping p b.addr (min new.size old.size) w' with
        | error e => rw [bind_err (e := e) (by rw [bind_ok hs]; exact bind_err hcp), bind_err hcp]; rfl
        | ok y =>
          obtain ⟨⟨⟩, w2⟩ := y
          rw [bind_ok (a := (some b, root')) (w' := w2) (by rw [bind_ok hs]; dsimp only; rw [bind_ok hcp]; rfl), bind_ok hcp]; rfl
  by_cases hr : root = 0
  · rw [if_pos hr]
    exact hslow w (by unfold BA.resizeFast; rw [if_pos hr]; rfl)
  · rw [if_neg hr]
    have hf : BA.resizeFast ⟨root, m⟩ p old new w = chunkResize root p old new w := by unfold BA.resizeFast; rw [if_neg hr]
    cases hc : chunkResize root p old new w with
    | error e =>
      unfold restResize restCall
      simp only [Call.op, step]
      unfold BA.resize
      rw [bind_err (hf.trans hc), bind_err hc]; rfl
    | ok x =>
      obtain ⟨r, w1⟩ := x
      unfold restResize
      rw [bind_ok hc]
      cases r with
      | none => exact hslow w1 (hf.trans hc)
      | some b =>
        unfold restCall
        simp only [Call.op, step]
        unfold BA.resize
        rw [bind_ok (hf.trans hc)]; rfl

theorem restCall_deallocate (root m p n : Nat) (w : World) :
    restCall root m (.deallocate p n) w = (do arenaDealloc root p n; pure (Resp.unit, root) : M (Resp × Nat)) w := by
  unfold restCall
  simp only [Call.op, step]
  unfold BA.deallocate
  cases h : arenaDealloc root p n w with
  | error e => rw [bind_err h]; rfl
  | ok x => obtain ⟨⟨⟩, w1⟩ := x; rw [bind_ok h]; rfl

/-- Reallocation after the in-place attempt did not apply. -/
theorem restResize_of_realloc {root m p : Nat} {old new : Layout} {w : World}
    (h : chunkResize root p old new w = chunkRealloc root p old new w) :
    restResize root m p old new w = restAlloc root m (.resize p old new) w := by
  unfold restResize restAlloc
  dsimp only [Job.layout]
  cases hc : chunkAlloc root new w with
  | error e => rw [bind_err (h.trans (by unfold chunkRealloc; exact bind_err hc)), bind_err hc]
  | ok x =>
    obtain ⟨r, w1⟩ := x
    cases r with
    | none => rw [bind_ok (h.trans (by unfold chunkRealloc; rw [bind_ok hc]; rfl)), bind_ok hc]
    | some b =>
      rw [bind_ok hc]
      dsimp only [restGot]
      cases hcp : copyNonoverlapping p b.addr (min new.size old.size) w1 with
      | error e =>
        rw [bind_err (h.trans (by unfold chunkRealloc; rw [bind_ok hc]; dsimp only; exact bind_err hcp)), bind_err hcp]
      | ok y =>
        obtain ⟨⟨⟩, w2⟩ := y
        rw [bind_ok (h.trans (by unfold chunkRealloc; rw [bind_ok hc]; dsimp only; rw [bind_ok hcp]; rfl)), bind_ok hcp]

theorem rest_got (root m : Nat) (wr : Bool) (b : Slice) (j : Job) (w : World) :
    rest root m (j.got wr b) w = restGot root b j w := by
  cases j with
  | alloc => rfl
  | resize p old new => simp only [Job.got, rest, restGot, Nat.add_zero, Nat.sub_zero]

theorem copyRest {s0 s cs K B} (h : SInv s0 s cs K B) {t : Nat} {wr p old new b k}
    (hpc : s.pcs t = .copy wr p old new b k) :
    (p + min new.size old.size ≤ b.addr ∨ b.addr + min new.size old.size ≤ p ∨ min new.size old.size = 0) ∧
    copyNonoverlapping (p + k) (b.addr + k) (min new.size old.size - k) s.w =
      .ok ((), { s.w with mem := setBytes s.w.mem (b.addr + k) (min new.size old.size - k) (fun i => s.w.mem (p + k + i)) }) := by
  have ht := h.thr t
  rw [hpc] at ht
  obtain ⟨bz, hbz⟩ : ∃ bz, K.busy t = bz := ⟨_, rfl⟩
  obtain ⟨Bt, hB⟩ : ∃ Bt, B t = Bt := ⟨_, rfl⟩
  rw [hbz, hB] at ht
  obtain ⟨R, hR, -, -⟩ := h.fam.focus t
  rw [hB] at hR
  cases ht with
  | @copy o _ _ _ _ _ _ j hk hc =>
    have hnew : Owned.of b new ∈ K.owned ++ ([Owned.of b new, o] ++ R) :=
      List.mem_append_right _ (List.mem_append_left _ List.mem_cons_self)
    have hbm : o ∈ K.owned ++ ([Owned.of b new, o] ++ R) :=
      List.mem_append_right _ (List.mem_append_left _ (List.mem_cons_of_mem _ List.mem_cons_self))
    cases j with
    | resize hf hv hsame =>
      obtain ⟨f1, f2, f3, f4⟩ := hf
      have hap := hR.apart
      rw [List.pairwise_append] at hap
      have hap2 := hap.2.1
      rw [List.cons_append, List.pairwise_cons] at hap2
      have hap3 := hap2.1 o (List.mem_append_left _ List.mem_cons_self)
      obtain ⟨n1, _, _, n4⟩ := hR.each _ hnew
      obtain ⟨o1, _, _, o4⟩ := hR.each _ hbm
      simp only [Owned.of] at n1 n4
      have hdis : p + min new.size old.size ≤ b.addr ∨ b.addr + min new.size old.size ≤ p ∨ min new.size old.size = 0 := by
        by_cases h0 : min new.size old.size = 0
        · exact .inr (.inr h0)
        · by_cases h1 : p ≤ b.addr
          · have := hap3 b.addr
            simp only [Owned.Has, Owned.of] at this
            omega
          · have := hap3 p
            simp only [Owned.Has, Owned.of] at this
            omega
      refine ⟨hdis, ?_⟩
      unfold copyNonoverlapping
      rw [if_pos]
      by_cases h0 : min new.size old.size - k = 0
      · exact .inl h0
      · right
        exact ⟨h.arena.acc_used (o4.sub (by omega) (by omega)), h.arena.acc_used (n4.sub (by omega) (by omega)), by omega⟩

theorem copy_split {m : Nat → Byte} {p b k n : Nat} (hk : k < n) (hd : p + n ≤ b ∨ b + n ≤ p ∨ n = 0) :
    setBytes (setBytes m (b + k) 1 fun _ => m (p + k)) (b + (k + 1)) (n - (k + 1))
      (fun i => setBytes m (b + k) 1 (fun _ => m (p + k)) (p + (k + 1) + i)) =
    setBytes m (b + k) (n - k) (fun i => m (p + k + i)) := by
  funext x
  by_cases h1 : b + k ≤ x ∧ x < b + n
  · by_cases h2 : x = b + k
    · subst h2
      rw [setBytes_out (by omega)]
      have e1 := setBytes_in (m := m) (a := b + k) (n := 1) (f := fun _ => m (p + k)) (i := 0) Nat.one_pos
      have e2 := setBytes_in (m := m) (a := b + k) (n := n - k) (f := fun i => m (p + k + i)) (i := 0) (by omega)
      simp only [Nat.add_zero] at e1 e2
      rw [e1, e2]
    · obtain ⟨i, rfl⟩ : ∃ i, x = b + (k + 1) + i := ⟨x - (b + (k + 1)), by omega⟩
      rw [setBytes_in (by omega)]
      have e2 := setBytes_in (m := m) (a := b + k) (n := n - k) (f := fun i => m (p + k + i)) (i := i + 1) (by omega)
      rw [show b + (k + 1) + i = b + k + (i + 1) by omega, e2]
      rw [setBytes_out (by omega)]
      congr 1; omega
  · rw [setBytes_out (by omega), setBytes_out (by omega), setBytes_out (by omega)]

theorem rest_next {s0 s cs K B} (h : SInv s0 s cs K B) {t : Nat} {s' : SS} {cs' B'} (h' : SInv s0 s' cs' K B')
    (hg : GoRes s cs t fresh none s') (hcur : s.current t) :
    rest s'.root s'.minChunk (s'.pcs t) s'.w = rest s.root s.minChunk (s.pcs t) s.w ∧ s'.current t := by
  have ht := h.thr t
  obtain ⟨pc, hpc0⟩ : ∃ pc, s.pcs t = pc := ⟨_, rfl⟩
  obtain ⟨bz, hbz⟩ : ∃ bz, K.busy t = bz := ⟨_, rfl⟩
  obtain ⟨Bt, hB⟩ : ∃ Bt, B t = Bt := ⟨_, rfl⟩
  rw [hbz, hB] at ht
  have hval : ∀ {j : Job}, (s.pcs t = .load s.root j ∨ ∃ v, s.pcs t = .cas s.root j v) → j.layout.Valid := by
    intro j hj
    rcases hj with hj | ⟨v, hj⟩ <;> rw [hj] at ht <;> cases ht <;> exact JobOK.valid ‹_›
  unfold SS.current at hcur ⊢
  cases hg with
  | @acq c hpc hw =>
    rw [SS.setPc_same, hpc]
    rw [hpc] at ht
    constructor
    · show rest s.root s.minChunk (enter s.root c) s.w = rest s.root s.minChunk (.rd c) s.w
      simp only [rest]
      cases c with
      | allocate l =>
        rw [restCall_allocate]
        unfold enter; dsimp only
        split <;> rfl
      | resize p old new =>
        rw [restCall_resize]
        unfold enter; dsimp only
        split
        · rfl
        · split
          · split
            · rename_i ha hs
              unfold restResize
              rw [bind_ok (a := some ⟨p, old.size⟩) (w' := s.w)]
              · unfold chunkResize; rw [if_pos ha, if_pos hs]; rfl
            · rfl
          · rename_i ha
            exact (restResize_of_realloc (by unfold chunkResize; rw [if_neg ha])).symm
      | deallocate p n =>
        rw [restCall_deallocate]
        unfold enter; dsimp only
        split
        · rename_i hr
          rw [bind_ok (a := ()) (w' := s.w) (by unfold arenaDealloc; rw [if_pos hr]; rfl)]
        · rfl
    · dsimp only [SS.setPc]
      cases c with
      | allocate l => by_cases h0 : s.root = 0 <;> simp [enter, h0]
      | resize p old new =>
        by_cases h0 : s.root = 0
        · simp [enter, h0]
        · by_cases ha : new.align ≤ old.align
          · by_cases hs : new.size ≤ old.size <;> simp [enter, h0, ha, hs]
          · simp [enter, h0, ha]
      | deallocate p n => by_cases h0 : s.root = 0 <;> simp [enter, h0]
  | @load c tl j hpc hcs hr =>
    rw [SS.setPc_same, hpc]
    exact ⟨rfl, h.cursor_eq hcs⟩
  | @noroom c tl j v hpc hcs hr hb =>
    rw [SS.setPc_same, hpc]
    rw [hpc] at hcur
    have := h.cursor_eq hcs
    dsimp only at hcur
    rw [hcur] at this
    injection this with this
    subst this hcs
    refine ⟨?_, trivial⟩
    show restSlow s.root s.minChunk j s.w = restAlloc s.root s.minChunk j s.w
    unfold restAlloc
    rw [bind_ok (a := none) (w' := s.w) (by rw [hr, chunkAlloc_spec h.arena (hval (.inr ⟨_, hpc⟩)), hb])]
  | @commit c tl j a hpc hcs hr hb hsp =>
    rw [SS.setPc_same, hpc]
    subst hcs
    constructor
    · show rest s.root s.minChunk (j.got false ⟨a, j.layout.size⟩) (setCursor s.w c (a + j.layout.size)) = restAlloc s.root s.minChunk j s.w
      rw [rest_got]
      unfold restAlloc
      rw [bind_ok (a := some ⟨a, j.layout.size⟩) (w' := setCursor s.w c (a + j.layout.size))
        (by rw [hr, chunkAlloc_spec h.arena (hval (.inr ⟨_, hpc⟩)), hb])]
    · cases j <;> trivial
  | @retry c tl j v a hpc hcs hr hb hf =>
    rw [hpc] at hcur
    have := h.cursor_eq hcs
    dsimp only at hcur
    rw [hcur] at this
    injection this with this
    exact absurd ⟨this.symm, rfl⟩ hf
  | @rtip c tl p old new hpc hcs hr hv =>
    rw [SS.setPc_same, hpc]
    refine ⟨rfl, ?_⟩
    show s.cursor = _
    simp only [fresh, List.getD_cons_zero] at hv
    rw [h.cursor_eq hcs, hv]
  | @rnot c tl p old new hpc hcs hr hv =>
    rw [SS.setPc_same, hpc]
    rw [hpc] at ht
    simp only [fresh, List.getD_cons_zero] at hv
    subst hcs
    refine ⟨?_, trivial⟩
    show restAlloc s.root s.minChunk _ s.w = restResize s.root s.minChunk p old new s.w
    refine (restResize_of_realloc ?_).symm
    cases ht with
    | rload hr0 hj ha hs =>
      have hold : p + old.size < USIZE := by
        obtain ⟨R, hR, -, -⟩ := h.fam.focus t
        rw [hB] at hR
        cases hj with
        | @resize b _ _ _ hf hv hsame =>
          obtain ⟨f1, f2, f3, f4⟩ := hf
          obtain ⟨_, _, _, d, hd, h1, h2⟩ := hR.each b (List.mem_append_right _ (List.mem_append_left _ List.mem_cons_self))
          have := h.arena.chunk_rng hd
          have := (h.arena.ok d hd).hi
          omega
      unfold chunkResize
      rw [if_pos ha, if_neg (by omega), bind_ok (addU_ok hold), bind_ok (by rw [hr]; exact h.arena.loadCursor), if_neg hv]
  | @rnoroom c tl p old new hpc hcs hr hb =>
    rw [SS.setPc_same, hpc]
    rw [hpc] at ht hcur
    have hc := h.cursor_eq hcs
    dsimp only at hcur
    rw [hcur] at hc
    injection hc with hc
    subst hcs
    refine ⟨?_, trivial⟩
    show restSlow s.root s.minChunk _ s.w = restResize s.root s.minChunk p old new s.w
    cases ht with
    | rcas hr0 hj ha hs =>
      have hcok := h.arena.ok c List.mem_cons_self
      have := hcok.hi
      have := h.arena.chunk_rng (c := c) List.mem_cons_self
      unfold restResize
      rw [bind_ok (a := none) (w' := s.w)]
      unfold chunkResize
      rw [if_pos ha, if_neg (by omega), bind_ok (addU_ok (by omega)), bind_ok (by rw [hr]; exact h.arena.loadCursor), if_pos hc.symm]
      cases hn : checkedAdd p new.size with
      | none => rfl
      | some next =>
        have hnext : next = p + new.size := by
          unfold checkedAdd at hn; split at hn
          · injection hn with hn; exact hn.symm
          · cases hn
        subst hnext
        dsimp only
        rw [bind_ok (by rw [hr]; exact h.arena.loadEnd), if_pos hb]; rfl
  | @rcommit c tl p old new hpc hcs hr hb hv =>
    rw [SS.setPc_same, hpc]
    rw [hpc] at ht
    subst hcs
    refine ⟨?_, trivial⟩
    show rest s.root s.minChunk (.ret false (.block ⟨p, new.size⟩)) (setCursor s.w c (p + new.size)) =
      restResize s.root s.minChunk p old new s.w
    cases ht with
    | rcas hr0 hj ha hs =>
      have hcok := h.arena.ok c List.mem_cons_self
      have := hcok.hi
      have := h.arena.chunk_rng (c := c) List.mem_cons_self
      unfold restResize
      rw [bind_ok (a := some ⟨p, new.size⟩) (w' := setCursor s.w c (p + new.size))]
      · rfl
      unfold chunkResize
      rw [if_pos ha, if_neg (by omega), bind_ok (addU_ok (by omega)), bind_ok (by rw [hr]; exact h.arena.loadCursor), if_pos hv.symm]
      rw [show checkedAdd p new.size = some (p + new.size) from by unfold checkedAdd; rw [if_pos (by omega)]]
      dsimp only
      rw [bind_ok (by rw [hr]; exact h.arena.loadEnd), if_neg (by omega)]
      have hcas := cellCas_spec h.arena c.cursor (p + new.size)
      rw [if_pos rfl] at hcas
      rw [bind_ok (by rw [hr]; exact hcas), if_pos rfl, bind_ok (subU_ok (by omega)), bind_ok (dassert_ok (by omega)),
        show p + new.size - p = new.size by omega]
      rfl
  | @rfail c tl p old new hpc hcs hr hb hv =>
    rw [hpc] at hcur
    have hc := h.cursor_eq hcs
    dsimp only at hcur
    rw [hcur] at hc
    injection hc with hc
    exact absurd hc hv
  | @free p n seen' hpc =>
    rw [SS.setPc_same, hpc]
    rw [hpc] at ht
    refine ⟨?_, trivial⟩
    show rest s.root s.minChunk (.ret false .unit) s.w = rest s.root s.minChunk (.free s.root p n) s.w
    simp only [rest]
    cases ht with
    | @free b _ _ hr0 hf =>
      obtain ⟨R, hR, -, -⟩ := h.fam.focus t
      rw [hB] at hR
      obtain ⟨_, _, _, hu⟩ := hR.each b (List.mem_append_right _ (List.mem_append_left _ List.mem_cons_self))
      have hd := deallocate_spec (m := s.minChunk) h.arena (hu.sub (q := p) (k := n) (by omega) (by omega))
      unfold BA.deallocate at hd
      rw [bind_ok (by rw [h.root]; exact hd)]
  | unlock hpc => rw [SS.setPc_same, hpc]; exact ⟨rfl, trivial⟩
  | wr hpc => rw [SS.setPc_same, hpc]; exact ⟨rfl, trivial⟩
  | @slowErr j w' cs' hpc he =>
    rw [SS.setPc_same, hpc]
    refine ⟨?_, trivial⟩
    show rest (rootOf cs') s.minChunk (.ret true .err) w' = restSlow s.root s.minChunk j s.w
    unfold restSlow
    rw [bind_ok he]; rfl
  | @slowOk j b w' cs' hpc he =>
    rw [SS.setPc_same, hpc]
    constructor
    · show rest (rootOf cs') s.minChunk (j.got true b) w' = restSlow s.root s.minChunk j s.w
      rw [rest_got]
      unfold restSlow
      rw [bind_ok he]
    · cases j <;> trivial
  | @copy wr p old new b k hpc hk hu1 hu2 =>
    have c1 := copyRest h hpc
    have c2 := copyRest h' (SS.setPc_same _ _ _)
    rw [SS.setPc_same, hpc]
    refine ⟨?_, trivial⟩
    simp only [rest]
    rw [bind_ok c1.2, bind_ok c2.2]
    have := copy_split (m := s.w.mem) hk c1.1
    show (Except.ok ((Resp.block b, s.root), _) : Except Fault ((Resp × Nat) × World)) = Except.ok ((Resp.block b, s.root), _)
    dsimp only [SS.setPc]
    rw [this]
  | @copied wr p old new b k hpc hk =>
    rw [SS.setPc_same, hpc]
    refine ⟨?_, trivial⟩
    show rest s.root s.minChunk (.ret wr (.block b)) s.w = rest s.root s.minChunk (.copy wr p old new b k) s.w
    simp only [rest]
    rw [show min new.size old.size - k = 0 by omega]
    rw [bind_ok (a := ()) (w' := s.w)]
    unfold copyNonoverlapping
    rw [if_pos (.inl rfl)]
    congr 2
    cases hw : s.w
    congr 1
    funext x
    exact setBytes_out (by omega)

/-- What an undisturbed thread does: in at most `left` steps it returns what the sequential code returns. -/
theorem SInv.solo {s0 : SS} {K : Book} {t : Nat} : ∀ (n : Nat) {s cs B}, SInv s0 s cs K B → K.busy t ≠ none → s.Free t → s.current t →
    s.left (s.pcs t) ≤ n →
    match rest s.root s.minChunk (s.pcs t) s.w with
    | .error e => Blink.solo n s t = .error e ∧ ∃ l sl, e = .env l sl
    | .ok ((r, root'), w') => ∃ s', Blink.solo n s t = .ok (some (r, s')) ∧ s'.w = w' ∧ s'.root = root' ∧
        s'.minChunk = s.minChunk ∧ s'.pcs t = .idle ∧ (∀ u, u ≠ t → s'.pcs u = s.pcs u) ∧ t ∉ s'.readers ∧ s'.Free t ∧
        s'.writer = none := by
  intro n
  induction n with
  | zero =>
    intro s cs B h hb hf hc hn
    have hi : s.pcs t = .idle := by
      cases hp : s.pcs t <;> rw [hp] at hn <;> simp [SS.left] at hn
      · split at hn <;> omega
    have := h.thr t
    rw [hi] at this
    exact absurd this.of_idle hb
  | succ n ih =>
    intro s cs B h hb hf hc hn
    unfold Blink.solo
    rcases h.go_exact t fresh with ⟨e, j, hpc, hbad, he, hgo⟩ | ⟨hw, _⟩ | ⟨r, s', hgo, hg⟩
    · rw [hgo, hpc]
      have : rest s.root s.minChunk (.slow j) s.w = .error e := by
        simp only [rest]; unfold restSlow; rw [bind_err he]
      rw [this]
      obtain ⟨l, sl, h1, _⟩ := hbad
      exact ⟨rfl, l, sl, h1⟩
    · exact absurd hw (h.not_waits hf hb)
    · rw [hgo]
      cases r with
      | none =>
        dsimp only
        obtain ⟨cs', B', h'⟩ := h.next hgo
        obtain ⟨h1, h2⟩ := rest_next h h' hg hc
        have hlt := h.left_lt hg
        have := ih h' hb (hg.free' hf) h2 (by omega)
        rw [h1] at this
        have hm : s'.minChunk = s.minChunk := h'.min.trans h.min.symm
        revert this
        cases rest s.root s.minChunk (s.pcs t) s.w with
        | error e => exact id
        | ok x =>
          obtain ⟨⟨r, root'⟩, w'⟩ := x
          rintro ⟨s2, a1, a2, a3, a4, a5, a6, a7⟩
          exact ⟨s2, a1, a2, a3, a4.trans hm, a5, fun u hu => (a6 u hu).trans (hg.others hu), a7⟩
      | some r =>
        dsimp only
        have hidle := hg.idle.mp rfl
        have hfr := hg.free' hf
        obtain ⟨c', ob', cs', B', _, _, h'⟩ := h.done hgo
        have hnr : t ∉ s'.readers := fun hm => by
          have := (h'.lock.rd t).mp hm
          rw [hidle] at this; cases this
        have hnw : s'.writer = none := by
          cases hwr : s'.writer with
          | none => rfl
          | some u =>
            have := hfr.2 u hwr
            subst this
            have := (h'.lock.wr u).mp hwr
            rw [hidle] at this; cases this
        cases hg with
        | retW hpc =>
          rw [hpc]
          exact ⟨_, rfl, rfl, rfl, rfl, SS.setPc_same _ _ _, fun u hu => SS.setPc_ne _ _ hu, hnr, hfr, hnw⟩
        | retR hpc =>
          rw [hpc]
          exact ⟨_, rfl, rfl, rfl, rfl, SS.setPc_same _ _ _, fun u hu => SS.setPc_ne _ _ hu, hnr, hfr, hnw⟩

end Blink
