import Verif.Proofs.SyncCas
/-
  Property theorems about `SyncBlinkAlloc` used by any number of threads: C22–C25.
  `SReach s0 s K` (Verif/Spec/Sync.lean): `s` is reached from a fresh shared allocator in state `s0` by an arbitrary schedule
  of arbitrarily many threads making contract-respecting calls; the callers' book is `K`.
-/
namespace Blink

/-! ### A concrete schedule used to show that hypotheses can be met -/

/-- Three threads: 1 and 2 race for the first chunk; later 2 allocates while 1 is in the middle of an allocation; 3 moves its
block and is suspended after copying three bytes; then 1 reads an outdated value of the cursor. -/
def sdemoActs : List Act :=
  [.call 1 (.allocate ⟨100, 8⟩), .call 2 (.allocate ⟨10, 16⟩)] ++ goes 1 2 ++ goes 2 2 ++ goes 1 3 ++ goes 2 3 ++
  [.write 65580 (.raw 7), .call 3 (.allocate ⟨24, 8⟩)] ++ goes 3 4 ++ [.write 131122 (.raw 9)] ++
  [.call 1 (.allocate ⟨3, 1⟩), .call 2 (.allocate ⟨5, 1⟩)] ++ goes 1 1 ++ goes 2 4 ++
  [.call 3 (.resize 131120 ⟨24, 8⟩ ⟨40, 16⟩)] ++ goes 3 6 ++ [.go 1 ⟨1, false⟩]

/-! ### C22 -/

/-- C22: at every moment of every schedule, any two owned blocks have no byte in common. -/
theorem C22_no_overlap {s0 s : SS} {K : Book} (h : SReach s0 s K) : K.owned.Pairwise Owned.Apart := by
  obtain ⟨cs, B, hi⟩ := h.inv
  exact hi.fam.owned.apart

/-- C22: every owned block is aligned and long enough for its layout, not null, and lies inside one block that was obtained
from the underlying allocator by this allocator and is still held from it. -/
theorem C22_layout_and_memory {s0 s : SS} {K : Book} (h : SReach s0 s K) {b : Owned} (hb : b ∈ K.owned) :
    b.addr % b.align = 0 ∧ b.size ≤ b.len ∧ 0 < b.addr ∧
    ∃ B ∈ openBlocks s.w.log, B ∈ s.w.held ∧ B.addr ≤ b.addr ∧ b.addr + b.len ≤ B.addr + B.len := by
  obtain ⟨cs, B, hi⟩ := h.inv
  obtain ⟨h1, _, h3, d, hd, h4, h5⟩ := hi.fam.owned.each b hb
  have hd' := hi.arena.ok d hd
  have := hd'.lo; have := hd'.hi
  refine ⟨h3, h1, by omega, d.blk, ?_, hi.arena.mem_held hd, ?_, ?_⟩
  · rw [hi.log.1]; exact List.mem_map_of_mem hd
  · simp only [Chunk.blk]; omega
  · simp only [Chunk.blk]; omega

/-- What is held from the underlying allocator is what others held plus what this allocator obtained and did not give back. -/
theorem C22_held {s0 s : SS} {K : Book} (h : SReach s0 s K) : s.w.held.Perm (openBlocks s.w.log ++ s0.w.held) := by
  obtain ⟨cs, B, hi⟩ := h.inv
  rw [hi.log.1]
  exact hi.arena.perm

/-- C22: when a thread's `allocate` returns a block, it then owns a block for exactly the requested layout. -/
theorem C22_allocate {s0 s s' : SS} {K : Book} (h : SReach s0 s K) {t : Nat} {ch : Choice} {l : Layout} {b : Slice}
    (hb : K.busy t = some (.allocate l, none)) (hs : sstep s (.go t ch) = .ok (some (some (.block b), s'))) :
    ∃ K', SReach s0 s' K' ∧ K'.owned = Owned.of b l :: K.owned ∧ b.addr % l.align = 0 ∧ l.size ≤ b.len := by
  obtain ⟨h0, tr, hr⟩ := h
  have h' : SReach s0 s' _ := ⟨h0, _, hr.snoc .go hs (.ret hb)⟩
  have := C22_layout_and_memory h' (b := Owned.of b l) List.mem_cons_self
  exact ⟨_, h', rfl, this.1, this.2.1⟩

/-- C22: no step of any thread faults, unless the underlying allocator breaks its contract in that very step. -/
theorem C22_no_ub {s0 s : SS} {K : Book} (h : SReach s0 s K) {a : Act} (hl : SLegal K a) {e : Fault}
    (he : sstep s a = .error e) : BadAnswer s.w e := by
  obtain ⟨cs, B, hi⟩ := h.inv
  rcases hi.step hl with ⟨e', hbad, he'⟩ | he' | ⟨r, s', cs', he', _⟩
  · rw [he'] at he; injection he with he; subst he; exact hbad
  · rw [he'] at he; cases he
  · rw [he'] at he; cases he

/-- The hypotheses of C22 are met in the middle of a race: three blocks owned, one thread about to exchange an outdated cursor,
one in the middle of copying. -/
example : ∃ s0 s K, SReach s0 s K ∧ K.owned.length = 3 ∧ K.busy 1 = some (.allocate ⟨3, 1⟩, none) ∧
    s.pcs 1 = .cas 131072 (.alloc ⟨3, 1⟩) 131149 ∧ s.cursor = some 131192 ∧
    s.pcs 3 = .copy false 131120 ⟨24, 8⟩ ⟨40, 16⟩ ⟨131152, 40⟩ 3 := by
  obtain ⟨s, K, h, hf⟩ := of_sdemoAt (sizes := [512, 1024, 2048]) (m := 256) (as := sdemoActs)
    (f := fun s K => decide (K.owned.length = 3) && decide (K.busy 1 = some (.allocate ⟨3, 1⟩, none)) &&
      decide (s.pcs 1 = .cas 131072 (.alloc ⟨3, 1⟩) 131149) && decide (s.cursor = some 131192) &&
      decide (s.pcs 3 = .copy false 131120 ⟨24, 8⟩ ⟨40, 16⟩ ⟨131152, 40⟩ 3)) (by decide) (by decide +kernel)
  simp only [Bool.and_eq_true, decide_eq_true_eq] at hf
  exact ⟨_, s, K, h, hf.1.1.1.1, hf.1.1.1.2, hf.1.1.2, hf.1.2, hf.2⟩

/-! ### C23 -/

/-- C23: no step of anybody changes a byte of a block that somebody owns, except a store to that byte by its owner and a
reset. -/
theorem C23_frame {s0 s s' : SS} {K : Book} (h : SReach s0 s K) {a : Act} (hl : SLegal K a) {r : Option Resp}
    (hs : sstep s a = .ok (some (r, s'))) {b : Owned} (hb : b ∈ K.owned) {x : Nat} (hx : b.Has x)
    (hw : ∀ v, a ≠ .write x v) (hr : a ≠ .reset ∧ a ≠ .resetUnchecked ∧ a ≠ .resetFinal) : s'.w.mem x = s.w.mem x := by
  obtain ⟨cs, B, hi⟩ := h.inv
  rcases hi.step hl with ⟨e', _, he'⟩ | he' | ⟨r', s1, cs', he', hfr, _⟩
  · rw [he'] at hs; cases hs
  · rw [he'] at hs; cases hs
  · rw [he'] at hs
    injection hs with hs; injection hs with hs; injection hs with _ h2
    subst h2
    refine hfr b hb x hx ?_ hw
    cases a <;> first | rfl | exact absurd rfl hr.1 | exact absurd rfl hr.2.1 | exact absurd rfl hr.2.2

theorem SRun.snap {s1 K1 tr s2 K2} (h : SRun s1 K1 tr s2 K2) {t : Nat} {x} (hb : K1.busy t = some x)
    (hno : ∀ ch r, (Act.go t ch, some r) ∉ tr) : K2.busy t = some x ∧ K2.snap t = K1.snap t := by
  induction h with
  | nil => exact ⟨hb, rfl⟩
  | @snoc tr s K a r s' K' hr hl hs ha ih =>
    obtain ⟨h1, h2⟩ := ih fun ch r hm => hno ch r (List.mem_append_left _ hm)
    cases ha with
    | @allocate u l =>
      have hne : t ≠ u := fun he => by subst he; cases hl with | allocate hb' => rw [hb'] at h1; cases h1
      dsimp only; rw [put_ne _ _ hne, put_ne _ _ hne]; exact ⟨h1, h2⟩
    | @resize u =>
      have hne : t ≠ u := fun he => by subst he; cases hl with | resize hb' => rw [hb'] at h1; cases h1
      dsimp only; rw [put_ne _ _ hne, put_ne _ _ hne]; exact ⟨h1, h2⟩
    | @deallocate u =>
      have hne : t ≠ u := fun he => by subst he; cases hl with | deallocate hb' => rw [hb'] at h1; cases h1
      dsimp only; rw [put_ne _ _ hne, put_ne _ _ hne]; exact ⟨h1, h2⟩
    | @ret u ch c ob r hb' =>
      have hne : t ≠ u := fun he => by subst he; exact hno ch r (by simp)
      dsimp only; rw [put_ne _ _ hne]; exact ⟨h1, h2⟩
    | _ => exact ⟨h1, h2⟩

theorem resize_ret_inv {s0 s s' : SS} {cs B} {K : Book} (hi : SInv s0 s cs K B) {t : Nat} {p : Nat} {old new : Layout} {ob : Option Owned}
    (hb : K.busy t = some (.resize p old new, ob)) {ch : Choice} {r : Resp}
    (hs : sstep s (.go t ch) = .ok (some (some r, s'))) :
    (∃ blk, r = .block blk ∧ ∀ i, i < min old.size new.size → s'.w.mem (blk.addr + i) = K.snap t (p + i)) ∨
    (∃ b, r = .err ∧ ob = some b ∧ b.Fits p old ∧ ∀ x, b.Has x → s'.w.mem x = K.snap t x) := by
  have ht := hi.thr t
  obtain ⟨Bt, hB⟩ : ∃ Bt, B t = Bt := ⟨_, rfl⟩
  rw [hb, hB] at ht
  have hg := hi.go_res hs
  have hmem : s'.w.mem = s.w.mem ∧ ∃ wr, s.pcs t = .ret wr r := by
    cases hg with
    | retW hpc => exact ⟨rfl, true, hpc⟩
    | retR hpc => exact ⟨rfl, false, hpc⟩
  obtain ⟨hmem, wr, hpc⟩ := hmem
  rw [hpc] at ht
  rw [hmem]
  cases ht with
  | retResizeOk hc => exact .inl ⟨_, rfl, fun i hi => hc i (by omega)⟩
  | retResizeErr j =>
    cases j with
    | resize hf _ hsame => exact .inr ⟨_, rfl, rfl, hf, hsame⟩

theorem resize_ret {s0 s s' : SS} {K : Book} (h : SReach s0 s K) {t : Nat} {p : Nat} {old new : Layout} {ob : Option Owned}
    (hb : K.busy t = some (.resize p old new, ob)) {ch : Choice} {r : Resp}
    (hs : sstep s (.go t ch) = .ok (some (some r, s'))) :
    (∃ blk, r = .block blk ∧ ∀ i, i < min old.size new.size → s'.w.mem (blk.addr + i) = K.snap t (p + i)) ∨
    (∃ b, r = .err ∧ ob = some b ∧ b.Fits p old ∧ ∀ x, b.Has x → s'.w.mem x = K.snap t x) := by
  obtain ⟨cs, B, hi⟩ := h.inv
  exact resize_ret_inv hi hb hs

/-- C23: a `resize` that returns a block returns one holding the old contents as they were when the call was made, and a
`resize` that fails leaves the old block with its contents; whatever the schedule `tr` does between call and return. -/
theorem C23_resize {s0 s s1 s2 s3 : SS} {K K1 K2 : Book} (h : SReach s0 s K) {t p : Nat} {old new : Layout}
    (hl : SLegal K (.call t (.resize p old new))) (hs : sstep s (.call t (.resize p old new)) = .ok (some (none, s1)))
    (ha : SAfter s.w.mem K (.call t (.resize p old new)) none K1) {tr} (hr : SRun s1 K1 tr s2 K2)
    (hno : ∀ ch r, (Act.go t ch, some r) ∉ tr) {ch : Choice} {r : Resp}
    (hret : sstep s2 (.go t ch) = .ok (some (some r, s3))) :
    (∃ blk, r = .block blk ∧ ∀ i, i < min old.size new.size → s3.w.mem (blk.addr + i) = s.w.mem (p + i)) ∨
    (∃ b ∈ K.owned, r = .err ∧ b.Fits p old ∧ (∀ x, b.Has x → s3.w.mem x = s.w.mem x) ∧
      ∃ K3, SReach s0 s3 K3 ∧ K3.owned = b :: K2.owned) := by
  obtain ⟨h0, tr0, hr0⟩ := h
  have h2 : SReach s0 s2 K2 := ⟨h0, _, (hr0.snoc hl hs ha).trans hr⟩
  cases ha with
  | @resize _ b _ _ _ ho hf =>
    obtain ⟨hb2, hsn⟩ := hr.snap (t := t) (put_same _ _ _) hno
    dsimp only at hsn
    rw [put_same] at hsn
    rcases resize_ret h2 hb2 hret with ⟨blk, h3, h4⟩ | ⟨b', h3, h4, h5, h6⟩
    · exact .inl ⟨blk, h3, fun i hi => by rw [h4 i hi, hsn]⟩
    · injection h4 with h4
      subst h4 h3
      refine .inr ⟨b, ho, rfl, h5, fun x hx => by rw [h6 x hx, hsn], _, ⟨h0, _, ((hr0.snoc hl hs (.resize ho hf)).trans hr).snoc .go hret (.ret hb2)⟩, rfl⟩

/-- The hypotheses of `C23_frame` are met by a step that copies a byte for thread 3 while others own blocks; the byte being
copied there (offset 2) is the one its owner had stored. -/
example : ∃ s0 s K s', SReach s0 s K ∧ SLegal K (.go 3 fresh) ∧ sstep s (.go 3 fresh) = .ok (some (none, s')) ∧
    ⟨131144, 5, 5, 1⟩ ∈ K.owned ∧ s.w.mem 131154 = .raw 9 ∧ s.w.mem 65580 = .raw 7 ∧ s'.w.mem 131155 ≠ s.w.mem 131122 := by
  obtain ⟨s, K, h, hf⟩ := of_sdemoAt (sizes := [512, 1024, 2048]) (m := 256) (as := sdemoActs)
    (f := fun s K => (match sstep s (.go 3 fresh) with
      | .ok (some (none, s')) => decide (s'.w.mem 131155 ≠ s.w.mem 131122)
      | _ => false) && decide (⟨131144, 5, 5, 1⟩ ∈ K.owned) && decide (s.w.mem 131154 = .raw 9) &&
        decide (s.w.mem 65580 = .raw 7)) (by decide) (by decide +kernel)
  simp only [Bool.and_eq_true, decide_eq_true_eq] at hf
  obtain ⟨⟨⟨h1, h2⟩, h3⟩, h4⟩ := hf
  split at h1
  · rename_i s' hs
    exact ⟨_, s, K, s', h, .go, hs, h2, h3, h4, by simpa using h1⟩
  · cases h1

/-- The hypotheses of `C23_resize` are met: thread 3's `resize` moves its block while thread 1 allocates in between. -/
example : ∃ s0 s K s1 K1 tr s2 K2 ch s3, SReach s0 s K ∧ SLegal K (.call 3 (.resize 131120 ⟨24, 8⟩ ⟨40, 16⟩)) ∧
    sstep s (.call 3 (.resize 131120 ⟨24, 8⟩ ⟨40, 16⟩)) = .ok (some (none, s1)) ∧
    SAfter s.w.mem K (.call 3 (.resize 131120 ⟨24, 8⟩ ⟨40, 16⟩)) none K1 ∧ SRun s1 K1 tr s2 K2 ∧
    (∀ ch r, (Act.go 3 ch, some r) ∉ tr) ∧ sstep s2 (.go 3 ch) = .ok (some (some (.block ⟨131152, 40⟩), s3)) ∧
    (Act.go 1 fresh, some (.block ⟨131192, 3⟩)) ∈ tr := by
  obtain ⟨s, K, h, hf⟩ := of_sdemoAt (sizes := [512, 1024, 2048]) (m := 256) (as := sdemoActs.take 26)
    (f := fun s K => match sexec1 s K (.call 3 (.resize 131120 ⟨24, 8⟩ ⟨40, 16⟩)) with
      | some (none, s1, K1) =>
        match sexecAll s1 K1 (goes 3 6 ++ goes 1 3 ++ goes 3 22) with
        | some (rs, s2, K2) =>
          (match sstep s2 (.go 3 fresh) with
          | .ok (some (some r, _)) => decide (r = .block ⟨131152, 40⟩)
          | _ => false) && decide ((Act.go 1 fresh, some (.block ⟨131192, 3⟩)) ∈ (goes 3 6 ++ goes 1 3 ++ goes 3 22).zip rs) &&
          ((goes 3 6 ++ goes 1 3 ++ goes 3 22).zip rs).all (fun x => match x with
            | (.go 3 _, some _) => false
            | _ => true)
        | none => false
      | _ => false) (by decide) (by decide +kernel)
  split at hf
  case h_2 => cases hf
  rename_i s1 K1 h1
  split at hf
  case h_2 => cases hf
  rename_i rs s2 K2 h2
  simp only [Bool.and_eq_true, decide_eq_true_eq] at hf
  obtain ⟨⟨hf1, hf2⟩, hf3⟩ := hf
  split at hf1
  case h_2 => cases hf1
  rename_i r s3 h3
  simp only [decide_eq_true_eq] at hf1
  obtain ⟨a1, a2, a3⟩ := sexec1_sound h1
  refine ⟨_, s, K, s1, K1, _, s2, K2, fresh, s3, h, a1, a2, a3, sexecAll_sound h2, ?_, hf1 ▸ h3, hf2⟩
  intro ch r hm
  rw [List.all_eq_true] at hf3
  cases hf3 _ hm

/-! ### C24 -/

/-- Outside the lock: idle, waiting for the read lock, or waiting for the write lock. -/
def Pc.outside (pc : Pc) : Prop := pc = .idle ∨ (∃ c, pc = .rd c) ∨ ∃ j, pc = .wr j

theorem Pc.outside_of {pc : Pc} (h1 : pc.holdsR = false) (h2 : pc.holdsW = false) : pc.outside := by
  cases pc <;> first
    | exact .inl rfl
    | exact .inr (.inl ⟨_, rfl⟩)
    | exact .inr (.inr ⟨_, rfl⟩)
    | (exfalso; simp [Pc.holdsR, Pc.holdsW] at h1 h2; done)
    | (exfalso; simp [Pc.holdsR] at h1; done)
    | (exfalso; simp [Pc.holdsW] at h2; done)
    | (exfalso; simp [Pc.holdsR, Pc.holdsW] at h1 h2; simp_all)

/-- C24: a thread holding the write lock is alone: every other thread is outside the lock. -/
theorem C24_writer_alone {s0 s : SS} {K : Book} (h : SReach s0 s K) {t : Nat} (hw : s.writer = some t) :
    s.readers = [] ∧ ∀ u, u ≠ t → (s.pcs u).outside := by
  obtain ⟨cs, B, hi⟩ := h.inv
  have hr := hi.lock.excl (by rw [hw]; simp)
  refine ⟨hr, fun u hu => Pc.outside_of ?_ ?_⟩
  · cases hh : (s.pcs u).holdsR with
    | false => rfl
    | true => have := (hi.lock.rd u).mpr hh; rw [hr] at this; cases this
  · cases hh : (s.pcs u).holdsW with
    | false => rfl
    | true =>
      have := (hi.lock.wr u).mpr hh
      rw [hw] at this; injection this with this; exact absurd this.symm hu

/-- C24: which chunk is current changes only by a reset while nobody executes a call, or by a step of a thread that holds the
write lock while every other thread is outside. -/
theorem C24_root_change {s0 s s' : SS} {K : Book} (h : SReach s0 s K) {a : Act} (hl : SLegal K a) {r : Option Resp}
    (hs : sstep s a = .ok (some (r, s'))) (hne : s'.root ≠ s.root) :
    (∀ t, K.busy t = none) ∨ ∃ t ch, a = .go t ch ∧ s.writer = some t ∧ ∀ u, u ≠ t → (s.pcs u).outside := by
  cases hl with
  | reset hq => exact .inl hq
  | resetUnchecked hq => exact .inl hq
  | resetFinal hq => exact .inl hq
  | @go t ch =>
    obtain ⟨cs, B, hi⟩ := h.inv
    have hg := hi.go_res hs
    have hslow : ∀ j, s.pcs t = .slow j → s.writer = some t := fun j hj => (hi.lock.wr t).mpr (by rw [hj]; rfl)
    cases hg with
    | slowErr hpc => exact .inr ⟨t, ch, rfl, hslow _ hpc, (C24_writer_alone h (hslow _ hpc)).2⟩
    | slowOk hpc => exact .inr ⟨t, ch, rfl, hslow _ hpc, (C24_writer_alone h (hslow _ hpc)).2⟩
    | _ => exact absurd rfl hne
  | write =>
    injection hs with hs; injection hs with hs; injection hs with _ h2
    subst h2; exact absurd rfl hne
  | _ =>
    simp only [sstep] at hs
    split at hs
    · injection hs with hs; injection hs with hs; injection hs with _ h2
      subst h2; exact absurd rfl hne
    · cases hs

/-- Both alternatives of `C24_root_change` occur: here thread 2 replaces the current chunk while thread 3 waits. -/
example : ∃ s0 s K s', SReach s0 s K ∧ sstep s (.go 2 fresh) = .ok (some (none, s')) ∧ s'.root ≠ s.root ∧
    s.pcs 3 = .rd (.allocate ⟨1, 1⟩) := by
  obtain ⟨s, K, h, hf⟩ := of_sdemoAt (sizes := [512, 1024, 2048]) (m := 256)
    (as := [.call 1 (.allocate ⟨100, 8⟩), .call 2 (.allocate ⟨10, 16⟩)] ++ goes 1 2 ++ goes 2 2 ++ goes 1 3 ++ goes 2 1 ++
      [.call 3 (.allocate ⟨1, 1⟩)])
    (f := fun s _ => (match sstep s (.go 2 fresh) with
      | .ok (some (none, s')) => decide (s'.root ≠ s.root)
      | _ => false) && decide (s.pcs 3 = .rd (.allocate ⟨1, 1⟩))) (by decide) (by decide +kernel)
  simp only [Bool.and_eq_true, decide_eq_true_eq] at hf
  obtain ⟨h1, h2⟩ := hf
  split at h1
  · rename_i s' hs
    exact ⟨_, s, K, s', h, hs, by simpa using h1, h2⟩
  · cases h1

/-- C24: an attempt to commit an allocation is repeated only after a spurious failure or because the cursor has moved past
the value the thread had read, i.e. somebody committed in between. -/
theorem C24_retry {s0 s s' : SS} {K : Book} (h : SReach s0 s K) {t c v v' : Nat} {j : Job} {ch : Choice} {r : Option Resp}
    (hpc : s.pcs t = .cas c j v) (hs : sstep s (.go t ch) = .ok (some (r, s'))) (hpc' : s'.pcs t = .cas c j v') :
    ch.spurious = true ∨ ∃ cur, s.cursor = some cur ∧ v < cur := by
  obtain ⟨cs, B, hi⟩ := h.inv
  have hg := hi.go_res hs
  obtain ⟨cur, h1, h2⟩ := h.readOK t c j v hpc
  cases hg with
  | @retry c1 tl j1 v1 a hpc1 hcs hr hb hf =>
    rw [hpc] at hpc1
    injection hpc1 with _ _ h3
    subst h3
    cases hsp : ch.spurious with
    | true => exact .inl rfl
    | false =>
      refine .inr ⟨cur, h1, ?_⟩
      rw [hi.cursor_eq hcs] at h1
      injection h1 with h1
      rcases Nat.lt_or_ge v cur with hlt | hge
      · exact hlt
      · exact absurd ⟨by omega, hsp⟩ hf
  | @commit c1 tl j1 a hpc1 =>
    rw [hpc] at hpc1; injection hpc1 with _ hj; subst hj
    rw [SS.setPc_same] at hpc'; cases j <;> cases hpc'
  | @noroom c1 tl j1 v1 hpc1 => rw [SS.setPc_same] at hpc'; cases hpc'
  | _ => rename_i hpc1; first | (rw [hpc] at hpc1; cases hpc1) | (simp_all)

/-- C24: a thread gives up on the current chunk only if its request does not fit into what is left of that chunk now (or the
address computation would overflow). -/
theorem C24_gives_up_only_if_full {s0 s s' : SS} {K : Book} (h : SReach s0 s K) {t c v : Nat} {j : Job} {ch : Choice}
    {r : Option Resp} (hpc : s.pcs t = .cas c j v) (hs : sstep s (.go t ch) = .ok (some (r, s')))
    (hpc' : s'.pcs t = .unlockSlow j) :
    ∃ pos e, s.toLocal.room = some (pos, e) ∧ ∀ q, pos ≤ q → q % j.layout.align = 0 → q + j.layout.size ≤ e →
      USIZE < pos + j.layout.size + j.layout.align := by
  obtain ⟨cs, B, hi⟩ := h.inv
  have hg := hi.go_res hs
  obtain ⟨cur, h1, h2⟩ := h.readOK t c j v hpc
  have ht := hi.thr t
  obtain ⟨bz, hbz⟩ : ∃ bz, K.busy t = bz := ⟨_, rfl⟩
  obtain ⟨Bt, hB⟩ : ∃ Bt, B t = Bt := ⟨_, rfl⟩
  rw [hbz, hB, hpc] at ht
  have hv : j.layout.Valid := by cases ht; exact JobOK.valid ‹_›
  cases hg with
  | @noroom c1 tl j1 v1 hpc1 hcs hr hb =>
    rw [hpc] at hpc1
    injection hpc1 with _ hj h3
    subst h3 hj hcs
    rw [hi.cursor_eq rfl] at h1
    injection h1 with h1
    refine ⟨c1.cursor, c1.end_, hi.room, fun q q1 q2 q3 => ?_⟩
    apply Decidable.byContradiction
    intro hc
    rw [bump_of_fit hv (by omega) q2 q3 (by omega)] at hb
    cases hb
  | @commit c1 tl j1 a hpc1 =>
    rw [hpc] at hpc1; injection hpc1 with _ hj; subst hj
    rw [SS.setPc_same] at hpc'; cases j <;> cases hpc'
  | @retry => rw [SS.setPc_same] at hpc'; cases hpc'
  | _ => rename_i hpc1; first | (rw [hpc] at hpc1; cases hpc1) | (simp_all)

/-- C24: a thread executing a call while nobody else holds the lock finishes the call within a fixed number of steps if it is
scheduled alone and nothing fails spuriously (or meets a broken answer of the underlying allocator). -/
theorem C24_finishes_alone {s0 s : SS} {K : Book} (h : SReach s0 s K) {t : Nat} {c : Call} {ob : Option Owned}
    (hb : K.busy t = some (c, ob)) (hf : s.Free t) :
    (∃ r s', solo (c.bytes + 10) s t = .ok (some (r, s'))) ∨
      ∃ e w, solo (c.bytes + 10) s t = .error e ∧ w.oracle = s0.w.oracle ∧ BadAnswer w e := by
  obtain ⟨cs, B, hi⟩ := h.inv
  exact hi.finishes _ (by rw [hb]; simp) hf (hi.left_call hb)

/-- C24: whoever holds the lock can always make its next step. -/
theorem C24_holder_enabled {s0 s : SS} {K : Book} (h : SReach s0 s K) {t : Nat} (ht : t ∈ s.readers ∨ s.writer = some t)
    (ch : Choice) : sstep s (.go t ch) ≠ .ok none := by
  obtain ⟨cs, B, hi⟩ := h.inv
  intro hn
  have hn' : goStep s t ch = .ok none := hn
  have hw : s.waits t := by
    rcases hi.go_exact t ch with ⟨_, _, _, _, _, he⟩ | ⟨hw, _⟩ | ⟨_, _, he, _⟩
    · rw [he] at hn'; cases hn'
    · exact hw
    · rw [he] at hn'; cases hn'
  obtain ⟨h1, h2⟩ := hw.noLock
  rcases ht with ht | ht
  · have := (hi.lock.rd t).mp ht; rw [h1] at this; cases this
  · have := (hi.lock.wr t).mp ht; rw [h2] at this; cases this

/-- C24: if nobody holds the lock, every thread executing a call can make its next step, so there is no deadlock whichever
waiting thread the lock admits first. -/
theorem C24_no_deadlock {s0 s : SS} {K : Book} (h : SReach s0 s K) (hr : s.readers = []) (hw : s.writer = none) {t : Nat}
    (hb : K.busy t ≠ none) (ch : Choice) : sstep s (.go t ch) ≠ .ok none := by
  obtain ⟨cs, B, hi⟩ := h.inv
  intro hn
  have hn' : goStep s t ch = .ok none := hn
  have hfree : s.Free t := ⟨by rw [hr]; simp, by rw [hw]; simp⟩
  rcases hi.go_exact t ch with ⟨_, _, _, _, _, he⟩ | ⟨hw, _⟩ | ⟨_, _, he, _⟩
  · rw [he] at hn'; cases hn'
  · exact hi.not_waits hfree hb hw
  · rw [he] at hn'; cases hn'

/-- C24: in particular some thread can move whenever some call is being executed. -/
theorem C24_somebody_moves {s0 s : SS} {K : Book} (h : SReach s0 s K) {t : Nat} (hb : K.busy t ≠ none) (ch : Choice) :
    ∃ u, K.busy u ≠ none ∧ sstep s (.go u ch) ≠ .ok none := by
  obtain ⟨cs, B, hi⟩ := h.inv
  have hold : ∀ u, (u ∈ s.readers ∨ s.writer = some u) → K.busy u ≠ none ∧ sstep s (.go u ch) ≠ .ok none := by
    intro u hu
    refine ⟨fun hn => ?_, C24_holder_enabled h hu ch⟩
    have := (hi.busy_none hn).1
    rcases hu with hu | hu
    · have h2 := (hi.lock.rd u).mp hu; rw [this] at h2; cases h2
    · have h2 := (hi.lock.wr u).mp hu; rw [this] at h2; cases h2
  cases hw : s.writer with
  | some u => exact ⟨u, hold u (.inr hw)⟩
  | none =>
    cases hr : s.readers with
    | cons u l => exact ⟨u, hold u (.inl (by rw [hr]; exact List.mem_cons_self))⟩
    | nil => exact ⟨t, hb, C24_no_deadlock h hr hw hb ch⟩

/-- The hypotheses of `C24_retry` are met by thread 1 of the schedule above: its exchange fails because the cursor moved on. -/
example : ∃ s0 s K s' v', SReach s0 s K ∧ s.pcs 1 = .cas 131072 (.alloc ⟨3, 1⟩) 131149 ∧
    sstep s (.go 1 fresh) = .ok (some (none, s')) ∧ s'.pcs 1 = .cas 131072 (.alloc ⟨3, 1⟩) v' := by
  obtain ⟨s, K, h, hf⟩ := of_sdemoAt (sizes := [512, 1024, 2048]) (m := 256) (as := sdemoActs)
    (f := fun s K => decide (s.pcs 1 = .cas 131072 (.alloc ⟨3, 1⟩) 131149) && (match sstep s (.go 1 fresh) with
      | .ok (some (none, s')) => decide (s'.pcs 1 = .cas 131072 (.alloc ⟨3, 1⟩) 131192)
      | _ => false)) (by decide) (by decide +kernel)
  simp only [Bool.and_eq_true, decide_eq_true_eq] at hf
  obtain ⟨h1, h2⟩ := hf
  split at h2
  · rename_i s' hs
    exact ⟨_, s, K, s', _, h, h1, hs, by simpa using h2⟩
  · cases h2

/-- The hypotheses of `C24_gives_up_only_if_full` are met: a request for 2000 bytes does not fit. -/
example : ∃ s0 s K s', SReach s0 s K ∧ s.pcs 1 = .cas 65536 (.alloc ⟨2000, 1⟩) 65668 ∧
    sstep s (.go 1 fresh) = .ok (some (none, s')) ∧ s'.pcs 1 = .unlockSlow (.alloc ⟨2000, 1⟩) := by
  obtain ⟨s, K, h, hf⟩ := of_sdemoAt (sizes := [512, 1024, 2048]) (m := 256)
    (as := [.call 1 (.allocate ⟨100, 8⟩)] ++ goes 1 5 ++ [.call 1 (.allocate ⟨2000, 1⟩)] ++ goes 1 2)
    (f := fun s K => decide (s.pcs 1 = .cas 65536 (.alloc ⟨2000, 1⟩) 65668) && (match sstep s (.go 1 fresh) with
      | .ok (some (none, s')) => decide (s'.pcs 1 = .unlockSlow (.alloc ⟨2000, 1⟩))
      | _ => false)) (by decide) (by decide +kernel)
  simp only [Bool.and_eq_true, decide_eq_true_eq] at hf
  obtain ⟨h1, h2⟩ := hf
  split at h2
  · rename_i s' hs
    exact ⟨_, s, K, s', h, h1, hs, by simpa using h2⟩
  · cases h2

/-- The hypotheses of `C24_finishes_alone` are met by a thread about to move a block while another thread is waiting. -/
example : ∃ s0 s K, SReach s0 s K ∧ K.busy 1 = some (.resize 65568 ⟨100, 8⟩ ⟨900, 8⟩, some ⟨65568, 100, 100, 8⟩) ∧
    K.busy 2 = some (.allocate ⟨1, 1⟩, none) ∧ s.Free 1 := by
  obtain ⟨s, K, h, hf⟩ := of_sdemoAt (sizes := [512, 1024, 2048]) (m := 256)
    (as := [.call 1 (.allocate ⟨100, 8⟩)] ++ goes 1 5 ++ [.call 1 (.resize 65568 ⟨100, 8⟩ ⟨900, 8⟩), .call 2 (.allocate ⟨1, 1⟩)] ++ goes 1 2)
    (f := fun s K => decide (K.busy 1 = some (.resize 65568 ⟨100, 8⟩ ⟨900, 8⟩, some ⟨65568, 100, 100, 8⟩)) &&
      decide (K.busy 2 = some (.allocate ⟨1, 1⟩, none)) && decide (s.readers = [1]) && decide (s.writer = none)) (by decide)
    (by decide +kernel)
  simp only [Bool.and_eq_true, decide_eq_true_eq] at hf
  obtain ⟨⟨⟨h1, h2⟩, h3⟩, h4⟩ := hf
  exact ⟨_, s, K, h, h1, h2, by rw [SS.Free, h3, h4]; simp⟩

/-- The hypotheses of the other theorems of C24 are met by the schedule at the top: thread 3 holds the read lock. -/
example : ∃ s0 s K, SReach s0 s K ∧ 3 ∈ s.readers ∧ K.busy 1 ≠ none := by
  obtain ⟨s, K, h, hf⟩ := of_sdemoAt (sizes := [512, 1024, 2048]) (m := 256) (as := sdemoActs)
    (f := fun s K => decide (3 ∈ s.readers) && decide (K.busy 1 ≠ none)) (by decide) (by decide +kernel)
  simp only [Bool.and_eq_true, decide_eq_true_eq] at hf
  exact ⟨_, s, K, h, hf⟩

/-! ### C25 -/

theorem call_busy {K : Book} {t : Nat} {c : Call} (hl : SLegal K (.call t c)) (m : Nat → Byte) :
    K.busy t = none ∧ ∃ ob K', SAfter m K (.call t c) none K' ∧ K'.busy = put K.busy t (some (c, ob)) := by
  cases hl with
  | allocate hb _ => exact ⟨hb, _, _, .allocate, rfl⟩
  | resize hb ho hf _ => exact ⟨hb, _, _, .resize ho hf, rfl⟩
  | deallocate hb ho hf => exact ⟨hb, _, _, .deallocate ho hf, rfl⟩

theorem step_min {w : World} {a : BA} {c : Call} {r l} (hst : step ⟨w, a⟩ c.op = .ok (r, l)) : l.a.minChunk = a.minChunk := by
  cases c with
  | allocate lay =>
    simp only [Call.op, step] at hst
    unfold BA.allocate at hst
    cases h1 : a.allocFast lay w with
    | error e => rw [bind_err h1] at hst; cases hst
    | ok x =>
      obtain ⟨o, w1⟩ := x
      rw [bind_ok h1] at hst
      cases o with
      | some b => injection hst with hst; injection hst with _ hst; subst hst; rfl
      | none =>
        dsimp only at hst
        cases h2 : allocSlow a.root a.minChunk lay w1 with
        | error e => rw [bind_err h2] at hst; cases hst
        | ok y =>
          rw [bind_ok h2] at hst
          injection hst with hst; injection hst with _ hst; subst hst; rfl
  | resize p old new =>
    simp only [Call.op, step] at hst
    unfold BA.resize at hst
    cases h1 : a.resizeFast p old new w with
    | error e => rw [bind_err h1] at hst; cases hst
    | ok x =>
      obtain ⟨o, w1⟩ := x
      rw [bind_ok h1] at hst
      cases o with
      | some b => injection hst with hst; injection hst with _ hst; subst hst; rfl
      | none =>
        dsimp only at hst
        cases h2 : resizeSlow a.root a.minChunk p old new w1 with
        | error e => rw [bind_err h2] at hst; cases hst
        | ok y =>
          rw [bind_ok h2] at hst
          injection hst with hst; injection hst with _ hst; subst hst; rfl
  | deallocate p n =>
    simp only [Call.op, step] at hst
    cases h1 : a.deallocate p n w with
    | error e => rw [ebind_err h1] at hst; cases hst
    | ok x => rw [ebind_ok h1] at hst; injection hst with hst; injection hst with _ hst; subst hst; rfl

/-- C25: executed without interleaving in a state where nobody holds the lock, a call on the shared allocator does exactly
what the call on a `BlinkAlloc` in the same state does: same response, same chunks, same memory, same dealings with the
underlying allocator (and it faults exactly when that call does). -/
theorem C25_call {s0 s : SS} {K : Book} (h : SReach s0 s K) {t : Nat} {c : Call} (hl : SLegal K (.call t c))
    (hr : s.readers = []) (hw : s.writer = none) {n : Nat} (hn : c.bytes + 10 ≤ n) :
    ∃ s1, sstep s (.call t c) = .ok (some (none, s1)) ∧
    match step s.toLocal c.op with
    | .error e => solo n s1 t = .error e
    | .ok (r, l) => ∃ s', solo n s1 t = .ok (some (r, s')) ∧ s'.toLocal = l ∧ s'.readers = [] ∧ s'.writer = none ∧
        s'.pcs = s.pcs := by
  obtain ⟨cs, B, hi⟩ := h.inv
  obtain ⟨hb, ob, K1, ha, hK1⟩ := call_busy hl s.w.mem
  have hidle := (hi.busy_none hb).1
  have hs : sstep s (.call t c) = .ok (some (none, s.setPc t (.rd c))) := by
    simp only [sstep]; rw [if_pos hidle]; rfl
  refine ⟨_, hs, ?_⟩
  obtain ⟨h0, tr, hrun⟩ := h
  have h1 : SReach s0 (s.setPc t (.rd c)) K1 := ⟨h0, _, hrun.snoc hl hs ha⟩
  obtain ⟨cs1, B1, hi1⟩ := h1.inv
  have hb1 : K1.busy t = some (c, ob) := by rw [hK1, put_same]
  have hfree : (s.setPc t (.rd c)).Free t := by
    refine ⟨?_, ?_⟩
    · show ∀ u ∈ s.readers, u = t
      rw [hr]; simp
    · show ∀ u, s.writer = some u → u = t
      rw [hw]; simp
  have hcur : (s.setPc t (.rd c)).current t := by
    unfold SS.current; rw [SS.setPc_same]; trivial
  have hsolo := hi1.solo n (by rw [hb1]; simp) hfree hcur (Nat.le_trans (hi1.left_call hb1) hn)
  rw [SS.setPc_same] at hsolo
  have hrest : rest (s.setPc t (.rd c)).root (s.setPc t (.rd c)).minChunk (.rd c) (s.setPc t (.rd c)).w =
      match step s.toLocal c.op with
      | .ok (r, l) => .ok ((r, l.a.root), l.w)
      | .error e => .error e := rfl
  rw [hrest] at hsolo
  cases hst : step s.toLocal c.op with
  | error e => rw [hst] at hsolo; exact hsolo.1
  | ok x =>
    obtain ⟨r, l⟩ := x
    rw [hst] at hsolo
    obtain ⟨s', a1, a2, a3, a4, a5, a6, a7, a8, a9⟩ := hsolo
    refine ⟨s', a1, ?_, ?_, a9, ?_⟩
    · have : l.a.minChunk = s.minChunk := step_min hst
      have h4 : s'.minChunk = s.minChunk := a4
      unfold SS.toLocal
      rw [a2, a3, h4, ← this]
    · cases hrd : s'.readers with
      | nil => rfl
      | cons u rest =>
        have hm : u ∈ s'.readers := by rw [hrd]; exact List.mem_cons_self
        have := a8.1 u hm
        subst this
        exact absurd hm a7
    · funext u
      by_cases hu : u = t
      · subst hu; rw [a5, hidle]
      · rw [a6 u hu, SS.setPc_ne _ _ hu]

/-- C25: a store by an owner and the resets do what they do on a `BlinkAlloc` in the same state. -/
theorem C25_reset {s s' : SS} {r} :
    (sstep s .reset = .ok (some (r, s')) → step s.toLocal .reset = .ok (.unit, s'.toLocal)) ∧
    (sstep s .resetUnchecked = .ok (some (r, s')) → step s.toLocal .reset = .ok (.unit, s'.toLocal)) ∧
    (sstep s .resetFinal = .ok (some (r, s')) → step s.toLocal .resetFinal = .ok (.unit, s'.toLocal)) := by
  have h1 : ∀ k, resetStep s k = .ok (some (r, s')) →
      arenaReset s.root k s.w = .ok (s'.root, s'.w) ∧ s'.minChunk = s.minChunk := by
    intro k h
    unfold resetStep at h
    cases hx : arenaReset s.root k s.w with
    | error e => rw [ebind_err hx] at h; cases h
    | ok y =>
      rw [ebind_ok hx] at h
      injection h with h; injection h with h; injection h with _ h
      subst h
      exact ⟨rfl, rfl⟩
  refine ⟨fun h => ?_, fun h => ?_, fun h => ?_⟩
  · obtain ⟨a, b⟩ := h1 _ h
    simp only [step, SS.toLocal, BA.reset]
    rw [ebind_ok (bind_ok a)]
    rw [b]; rfl
  · simp only [sstep] at h
    split at h
    · obtain ⟨a, b⟩ := h1 _ h
      simp only [step, SS.toLocal, BA.reset]
      rw [ebind_ok (bind_ok a)]
      rw [b]; rfl
    · cases h
  · obtain ⟨a, b⟩ := h1 _ h
    simp only [step, SS.toLocal, BA.resetFinal]
    rw [ebind_ok (bind_ok a)]
    rw [b]; rfl

theorem quiet_of {s0 s K} (h : SReach s0 s K) (hq : ∀ t, K.busy t = none) : s.readers = [] ∧ s.writer = none := by
  obtain ⟨cs, B, hi⟩ := h.inv
  constructor
  · cases hr : s.readers with
    | nil => rfl
    | cons t l =>
      have := (hi.lock.rd t).mp (by rw [hr]; exact List.mem_cons_self)
      rw [(hi.busy_none (hq t)).1] at this
      cases this
  · cases hw : s.writer with
    | none => rfl
    | some t =>
      have := (hi.lock.wr t).mp hw
      rw [(hi.busy_none (hq t)).1] at this
      cases this

theorem callRun_step {s0 s s1 s' : SS} {K : Book} (hR : SReach s0 s K) (hq : ∀ t, K.busy t = none) {L L' : List Owned}
    (hp : K.owned.Perm L) {t n c r} (hl : Legal L (Call.op c)) (hc : sstep s (.call t c) = .ok (some (none, s1)))
    (hs : solo n s1 t = .ok (some (r, s'))) (ha : After L c.op r L') :
    step s.toLocal c.op = .ok (r, s'.toLocal) ∧ ∃ K', SReach s0 s' K' ∧ K'.owned.Perm L' ∧ ∀ t, K'.busy t = none := by
  obtain ⟨hrd, hw⟩ := quiet_of hR hq
  have main : ∀ {ob K1}, SLegal K (.call t c) → SAfter s.w.mem K (.call t c) none K1 → K1.busy = put K.busy t (some (c, ob)) →
      (gets c ob r ++ K1.owned).Perm L' →
      step s.toLocal c.op = .ok (r, s'.toLocal) ∧ ∃ K', SReach s0 s' K' ∧ K'.owned.Perm L' ∧ ∀ t, K'.busy t = none := by
    intro ob K1 hsl hsa hbz hperm
    constructor
    · obtain ⟨s1', h1, h2⟩ := C25_call hR hsl hrd hw (n := max n (c.bytes + 10)) (by omega)
      rw [hc] at h1
      injection h1 with h1; injection h1 with h1; injection h1 with _ h1
      subst h1
      have hs' := solo_mono hs (show n ≤ max n (c.bytes + 10) by omega)
      revert h2
      cases hst : step s.toLocal c.op with
      | error e => dsimp only; intro h2; rw [hs'] at h2; cases h2
      | ok x =>
        obtain ⟨r1, l1⟩ := x
        rintro ⟨s2, h2, h3, _⟩
        rw [hs'] at h2
        injection h2 with h2; injection h2 with h2; injection h2 with h4 h5
        subst h4 h5
        rw [h3]
    · obtain ⟨h0, tr, hrun⟩ := hR
      obtain ⟨c', ob', hb, hR'⟩ := solo_run n (K := K1) ⟨h0, _, hrun.snoc hsl hc hsa⟩ hs
      rw [hbz, put_same] at hb
      injection hb with hb; injection hb with h4 h5
      subst h4 h5
      refine ⟨_, hR', hperm, fun u => ?_⟩
      dsimp only
      by_cases hu : u = t
      · subst hu; rw [put_same]
      · rw [put_ne _ _ hu, hbz, put_ne _ _ hu, hq u]
  cases c with
  | allocate l =>
    have hv : l.Valid := by cases hl; assumption
    refine main (.allocate (hq t) hv) .allocate rfl ?_
    cases ha with
    | allocOk => exact hp.cons _
    | allocErr => exact hp
  | resize p old new =>
    cases hl with
    | @resize b0 _ _ _ hb0 hf0 hv =>
      cases ha with
      | @resizeOk b _ _ _ sl hb hf =>
        exact main (.resize (hq t) (hp.mem_iff.mpr hb) hf hv) (.resize (hp.mem_iff.mpr hb) hf) rfl ((hp.erase b).cons _)
      | resizeErr =>
        refine main (.resize (hq t) (hp.mem_iff.mpr hb0) hf0 hv) (.resize (hp.mem_iff.mpr hb0) hf0) rfl ?_
        exact (List.perm_cons_erase (hp.mem_iff.mpr hb0)).symm.trans hp
  | deallocate p n =>
    cases ha with
    | @deallocate b _ _ hb hf =>
      exact main (.deallocate (hq t) (hp.mem_iff.mpr hb) hf) (.deallocate (hp.mem_iff.mpr hb) hf) rfl (hp.erase b)

/-- C25: a history of a shared allocator in which calls do not overlap in time is a history of a `BlinkAlloc`, call by call and
response by response; so everything proved about histories of `BlinkAlloc` holds for it. -/
theorem C25_carry_over {s0 s : SS} (h0 : SStart s0) {tr : List (Op × Resp)} {L : List Owned} (h : CallRun s0 tr s L) :
    Start s0.toLocal ∧ Run s0.toLocal [] tr s.toLocal L := by
  refine ⟨⟨h0.root, h0.world, h0.dbg, h0.log⟩, ?_⟩
  suffices hh : Run s0.toLocal [] tr s.toLocal L ∧ ∃ K, SReach s0 s K ∧ K.owned.Perm L ∧ ∀ t, K.busy t = none from hh.1
  induction h with
  | nil => exact ⟨.nil, _, ⟨h0, [], .nil⟩, .nil, fun _ => rfl⟩
  | call h hl hc hs ha ih =>
    obtain ⟨hrun, K, hR, hp, hq⟩ := ih
    obtain ⟨h1, h2⟩ := callRun_step hR hq hp hl hc hs ha
    exact ⟨hrun.snoc hl h1 ha, h2⟩
  | @write _ _ L1 _ _ _ h hl hs ih =>
    obtain ⟨hrun, K, ⟨_, tr', hR⟩, hp, hq⟩ := ih
    have hsl : ∀ {x v}, Legal L1 (.write x v) → SLegal K (.write x v) := by
      intro x v hl; cases hl with | write hb hx => exact .write (hp.mem_iff.mpr hb) hx
    refine ⟨hrun.snoc hl ?_ .write, K, ⟨h0, _, hR.snoc (hsl hl) hs .write⟩, hp, hq⟩
    simp only [sstep] at hs
    injection hs with hs; injection hs with hs; injection hs with _ hs
    subst hs; rfl
  | reset h hs ih =>
    obtain ⟨hrun, K, ⟨_, tr', hR⟩, hp, hq⟩ := ih
    exact ⟨hrun.snoc .reset (C25_reset.1 hs) .reset, _, ⟨h0, _, hR.snoc (.reset hq) hs .reset⟩, .nil, hq⟩
  | resetUnchecked h hs ih =>
    obtain ⟨hrun, K, ⟨_, tr', hR⟩, hp, hq⟩ := ih
    exact ⟨hrun.snoc .reset (C25_reset.2.1 hs) .reset, _, ⟨h0, _, hR.snoc (.resetUnchecked hq) hs .resetUnchecked⟩, .nil, hq⟩
  | resetFinal h hs ih =>
    obtain ⟨hrun, K, ⟨_, tr', hR⟩, hp, hq⟩ := ih
    exact ⟨hrun.snoc .resetFinal (C25_reset.2.2 hs) .resetFinal, _, ⟨h0, _, hR.snoc (.resetFinal hq) hs .resetFinal⟩, .nil, hq⟩

/-- The hypotheses of `C25_call` are met by a thread about to grow a block after others have allocated. -/
example : ∃ s0 s K, SReach s0 s K ∧ SLegal K (.call 2 (.resize 131104 ⟨10, 16⟩ ⟨600, 32⟩)) ∧ s.readers = [] ∧ s.writer = none := by
  obtain ⟨s, K, h, hf⟩ := of_sdemoAt (sizes := [512, 1024, 2048]) (m := 256) (as := sdemoActs.take 19)
    (f := fun s K => decide (⟨131104, 10, 10, 16⟩ ∈ K.owned) && decide (K.busy 2 = none) && decide (s.readers = []) &&
      decide (s.writer = none)) (by decide) (by decide +kernel)
  simp only [Bool.and_eq_true, decide_eq_true_eq] at hf
  obtain ⟨⟨⟨h1, h2⟩, h3⟩, h4⟩ := hf
  exact ⟨_, s, K, h, .resize h2 h1 ⟨rfl, rfl, by decide, by decide⟩ ⟨⟨5, rfl⟩, by decide⟩, h3, h4⟩

/-- The hypotheses of `C25_carry_over` are met by a history of two threads taking turns. -/
example : ∃ s L, CallRun (sdemoStart [512, 1024]) [(.allocate ⟨100, 8⟩, .block ⟨65568, 100⟩), (.allocate ⟨10, 16⟩, .block ⟨65680, 10⟩)] s L ∧
    L.length = 2 := by
  have h : (match sstep (sdemoStart [512, 1024]) (.call 1 (.allocate ⟨100, 8⟩)) with
      | .ok (some (none, s1)) =>
        match solo 10 s1 1 with
        | .ok (some (r, s2)) =>
          match sstep s2 (.call 2 (.allocate ⟨10, 16⟩)) with
          | .ok (some (none, s3)) =>
            match solo 10 s3 2 with
            | .ok (some (r', _)) => decide (r = .block ⟨65568, 100⟩ ∧ r' = .block ⟨65680, 10⟩)
            | _ => false
          | _ => false
        | _ => false
      | _ => false) = true := by decide +kernel
  split at h
  case h_2 => cases h
  rename_i s1 h1
  split at h
  case h_2 => cases h
  rename_i r s2 h2
  split at h
  case h_2 => cases h
  rename_i s3 h3
  split at h
  case h_2 => cases h
  rename_i r' s4 h4
  simp only [decide_eq_true_eq] at h
  obtain ⟨rfl, rfl⟩ := h
  exact ⟨s4, _, .call (tr := [(.allocate ⟨100, 8⟩, .block ⟨65568, 100⟩)]) (.call (tr := []) .nil (c := .allocate ⟨100, 8⟩) (.allocate ⟨⟨3, rfl⟩, by decide⟩) h1 h2 .allocOk)
    (c := .allocate ⟨10, 16⟩) (.allocate ⟨⟨4, rfl⟩, by decide⟩) h3 h4 .allocOk, rfl⟩

end Blink
