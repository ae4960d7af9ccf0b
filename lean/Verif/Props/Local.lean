import Verif.Proofs.Step
import Verif.Spec.Exec
/-
  Property theorems about one `BlinkAlloc`: C01–C12, C16–C19, C52, C54.
  `Reach s0 s L` (Verif/Spec/Client.lean): `s` is reached from a fresh allocator in state `s0` by an arbitrary history of
  contract-respecting calls, with an arbitrary underlying allocator, and the callers now own the blocks `L`.
-/
namespace Blink

/-! ### A concrete history used to show that hypotheses can be met -/

/-- Two chunks, an alignment above the chunk alignment, a resize that moves, owner writes, a zero-sized block. -/
def demoOps : List Op :=
  [.allocate ⟨100, 8⟩, .write 65600 (.raw 3), .allocate ⟨10, 16⟩, .resize 65568 ⟨100, 8⟩ ⟨900, 8⟩, .allocate ⟨0, 1⟩,
   .allocateZeroed ⟨7, 4⟩]

def demoLedger : List Owned :=
  [⟨132004, 7, 7, 4⟩, ⟨132004, 0, 0, 1⟩, ⟨131104, 900, 900, 8⟩, ⟨65680, 10, 10, 16⟩]

theorem demo_reach : ∃ s, Reach (demoStart [512, 2048]) s demoLedger :=
  reach_of_demo (rs := [.block ⟨65568, 100⟩, .unit, .block ⟨65680, 10⟩, .block ⟨131104, 900⟩, .block ⟨132004, 0⟩,
    .block ⟨132004, 7⟩]) (ops := demoOps) (by decide) (by decide +kernel)

/-! ### C01 -/

/-- C01: at every point of every history, any two owned blocks have no byte in common. -/
theorem C01_no_overlap {s0 s : St} {L : List Owned} (h : Reach s0 s L) : L.Pairwise Owned.Apart := by
  obtain ⟨cs, hi⟩ := h.inv
  exact hi.led.apart

/-- The hypothesis of C01 is met by a history with four live blocks in two chunks. -/
example : ∃ s0 s L, Reach s0 s L ∧ L.length = 4 :=
  let ⟨s, h⟩ := demo_reach; ⟨_, s, _, h, rfl⟩

/-! ### C02 -/

/-- C02: every owned block is aligned and long enough for its layout, not null, and lies inside one block that was obtained
from the underlying allocator by this allocator and is still held from it. -/
theorem C02_layout_and_memory {s0 s : St} {L : List Owned} (h : Reach s0 s L) {b : Owned} (hb : b ∈ L) :
    b.addr % b.align = 0 ∧ b.size ≤ b.len ∧ 0 < b.addr ∧
    ∃ B ∈ openBlocks s.w.log, B ∈ s.w.held ∧ B.addr ≤ b.addr ∧ b.addr + b.len ≤ B.addr + B.len := by
  obtain ⟨cs, hi⟩ := h.inv
  obtain ⟨h1, _, h3, d, hd, h4, h5⟩ := hi.led.each b hb
  have hd' := hi.arena.ok d hd
  have := hd'.lo; have := hd'.hi
  refine ⟨h3, h1, by omega, d.blk, ?_, hi.arena.mem_held hd, ?_, ?_⟩
  · rw [hi.log.1]; exact List.mem_map_of_mem hd
  · simp only [Chunk.blk]; omega
  · simp only [Chunk.blk]; omega

/-- What is held from the underlying allocator is what others held plus what this allocator obtained and did not give back. -/
theorem C02_held {s0 s : St} {L : List Owned} (h : Reach s0 s L) : s.w.held.Perm (openBlocks s.w.log ++ s0.w.held) := by
  obtain ⟨cs, hi⟩ := h.inv
  rw [hi.log.1]
  exact hi.arena.perm

/-- Immediately after a successful allocation the caller owns a block for exactly the requested layout. -/
theorem C02_allocate {s0 s s' : St} {L : List Owned} (h : Reach s0 s L) {l : Layout} (hl : l.Valid) {b : Slice}
    (hs : step s (.allocate l) = .ok (.block b, s')) :
    Reach s0 s' (Owned.of b l :: L) ∧ b.addr % l.align = 0 ∧ l.size ≤ b.len := by
  obtain ⟨h0, tr, hr⟩ := h
  have h' : Reach s0 s' (Owned.of b l :: L) := ⟨h0, _, hr.snoc (.allocate hl) hs .allocOk⟩
  have := C02_layout_and_memory h' (b := Owned.of b l) List.mem_cons_self
  exact ⟨h', this.1, this.2.1⟩

example : ∃ s0 s L b, Reach s0 s L ∧ b ∈ L ∧ b.align = 16 :=
  let ⟨s, h⟩ := demo_reach; ⟨_, s, _, ⟨65680, 10, 10, 16⟩, h, by decide, rfl⟩

/-! ### C03 -/

/-- C03: a legal call in a reachable state never faults, unless the underlying allocator breaks its contract in that very
call: no undefined behaviour, no failing debug assertion, and termination. -/
theorem C03_no_ub {s0 s : St} {L : List Owned} (h : Reach s0 s L) {op : Op} (hl : Legal L op) {e : Fault}
    (he : step s op = .error e) : BadAnswer s.w e := by
  obtain ⟨cs, hi⟩ := h.inv
  rcases hi.step hl with ⟨e', hbad, he'⟩ | ⟨r, s', cs', he', _⟩
  · rw [he'] at he; injection he with he; subst he; exact hbad
  · rw [he'] at he; cases he

example : ∃ s0 s L op, Reach s0 s L ∧ Legal L op ∧ op = .resize 65680 ⟨10, 16⟩ ⟨4000, 64⟩ :=
  let ⟨s, h⟩ := demo_reach
  ⟨_, s, _, _, h, .resize (b := ⟨65680, 10, 10, 16⟩) (by decide) ⟨rfl, rfl, by decide, by decide⟩ ⟨⟨6, rfl⟩, by decide⟩, rfl⟩

/-- The debug-build assumption `0 < m` of C03 is needed: a debug build of an allocator made with chunk size 0 fails a debug
assertion when a zero-sized block is requested first. -/
theorem C03_debug_zero_chunk_size :
    (step ⟨demoWorld [32], BA.withChunkSize 0⟩ (.allocate ⟨0, 1⟩)).toOption.isNone = true ∧
    (step ⟨demoWorld [32] (debug := false), BA.withChunkSize 0⟩ (.allocate ⟨0, 1⟩)).toOption.isSome = true := by
  decide +kernel

/-! ### C04 -/

/-- C04: a successful resize preserves the first `min old new` bytes. -/
theorem C04_resize_preserves {s0 s s' : St} {L : List Owned} (h : Reach s0 s L) {p : Nat} {old new : Layout}
    (hl : Legal L (.resize p old new)) {b : Slice} (hs : step s (.resize p old new) = .ok (.block b, s')) {i : Nat}
    (hi : i < min old.size new.size) : s'.w.mem (b.addr + i) = s.w.mem (p + i) := by
  obtain ⟨cs, hI⟩ := h.inv
  cases hl with
  | resize hb hf hv =>
    obtain ⟨cs', ⟨o, ho, hr⟩, _⟩ := hI.step_ok (.resize hb hf hv) hs (.resizeOk hb hf)
    cases o with
    | none => cases ho
    | some s1 =>
      injection ho with ho
      subst ho
      exact hr.contents hI.arena hv (InUsed.of_fits hI.led hb hf) (by omega)

/-- C04 for `grow_zeroed`: old contents, then zeros. -/
theorem C04_grow_zeroed {s0 s s' : St} {L : List Owned} (h : Reach s0 s L) {p : Nat} {old new : Layout}
    (hl : Legal L (.growZeroed p old new)) {b : Slice} (hs : step s (.growZeroed p old new) = .ok (.block b, s')) {i : Nat} :
    (i < old.size → s'.w.mem (b.addr + i) = s.w.mem (p + i)) ∧
    (old.size ≤ i → i < b.len → s'.w.mem (b.addr + i) = .raw 0) := by
  obtain ⟨cs, hI⟩ := h.inv
  cases hl with
  | growZeroed hb hf hv hsz =>
    obtain ⟨cs', ⟨o, w1, ho, hr, hw⟩, _⟩ := hI.step_ok (.growZeroed hb hf hv hsz) hs (.growZeroedOk hb hf)
    cases o with
    | none => cases ho
    | some s1 =>
      injection ho with ho
      subst ho
      simp only at hw
      rw [hw]
      have hfresh := hr.fresh hI.arena hv
      have hu := InUsed.of_fits hI.led hb hf
      constructor
      · intro hi
        simp only
        rw [setBytes_in hi, hr.frame_used hI.arena (hu.sub (by omega) (by omega))]
      · intro h1 h2
        simp only
        rw [setBytes_out (by omega), setBytes_in h2]

/-- Non-vacuity: a resize that moves 100 bytes to another chunk. -/
example : ∃ s0 s L s' b, Reach s0 s L ∧ Legal L (.resize 65568 ⟨100, 8⟩ ⟨900, 8⟩) ∧
    step s (.resize 65568 ⟨100, 8⟩ ⟨900, 8⟩) = .ok (.block b, s') ∧ b.addr = 131104 :=
  let ⟨s, s', h1, h2, h3, _⟩ := step_of_demo (sizes := [512, 2048]) (m := 256) (ops := [.allocate ⟨100, 8⟩])
    (op := .resize 65568 ⟨100, 8⟩ ⟨900, 8⟩) (r := .block ⟨131104, 900⟩) (L := [⟨65568, 100, 100, 8⟩]) (by decide)
    (by decide +kernel)
  ⟨_, s, _, s', _, h1, h2, h3, rfl⟩

/-! ### C05 -/

/-- C05: no allocator call other than a reset changes a byte of a block that is owned when the call is made. (The block a
resize or zeroing allocation writes to is the one it returns, which is not owned yet; writes by owners are not allocator
calls.) -/
theorem C05_never_writes_owned {s0 s s' : St} {L : List Owned} (h : Reach s0 s L) {op : Op} (hl : Legal L op) {r : Resp}
    (hs : step s op = .ok (r, s')) (hop : op ≠ .reset ∧ op ≠ .resetFinal ∧ ∀ x v, op ≠ .write x v)
    {b : Owned} (hb : b ∈ L) {x : Nat} (hx : b.Has x) : s'.w.mem x = s.w.mem x := by
  obtain ⟨cs, hI⟩ := h.inv
  have hu := hI.led.byte hb hx
  rcases hI.step hl with ⟨e, _, he⟩ | ⟨r1, s1, cs1, he, hr, _⟩
  · rw [he] at hs; cases hs
  rw [he] at hs
  injection hs with hs
  injection hs with h1 h2
  subst h1; subst h2
  cases op with
  | allocate l => obtain ⟨o, _, hr⟩ := hr; exact hr.frame_used hI.arena hu
  | allocateZeroed l =>
    obtain ⟨o, w1, _, hr, hw⟩ := hr
    cases hl with
    | allocateZeroed hv =>
      cases o with
      | none => rw [hw]; exact hr.frame_used hI.arena hu
      | some sl =>
        simp only at hw
        have hf := hr.fresh hI.arena hv
        have := hf.2.2.2 _ _ hu
        rw [hw]
        simp only
        rw [setBytes_out (by omega)]
        exact hr.frame_used hI.arena hu
  | resize p old new =>
    obtain ⟨o, _, hr⟩ := hr
    cases hl with
    | resize _ _ hv => exact hr.frame hI.arena hv hu
  | growZeroed p old new =>
    obtain ⟨o, w1, _, hr, hw⟩ := hr
    cases hl with
    | growZeroed _ _ hv hsz =>
      cases o with
      | none => rw [hw]; exact hr.frame_used hI.arena hu
      | some sl =>
        simp only at hw
        have hf := hr.fresh hI.arena hv
        have := hf.2.2.2 _ _ hu
        have := hf.1
        rw [hw]
        simp only
        rw [setBytes_out (by omega), setBytes_out (by omega)]
        exact hr.frame_used hI.arena hu
  | deallocate p n => obtain ⟨_, hw, _⟩ := hr; rw [hw]
  | reset => exact absurd rfl hop.1
  | resetFinal => exact absurd rfl hop.2.1
  | write x v => exact absurd rfl (hop.2.2 x v)

example : ∃ s0 s L s' r b, Reach s0 s L ∧ Legal L (.allocateZeroed ⟨300, 8⟩) ∧
    step s (.allocateZeroed ⟨300, 8⟩) = .ok (r, s') ∧ b ∈ L ∧ b.Has 65600 :=
  let ⟨s, s', h1, h2, h3, _⟩ := step_of_demo (sizes := [512, 2048]) (m := 256)
    (ops := [.allocate ⟨100, 8⟩, .write 65600 (.raw 7)])
    (op := .allocateZeroed ⟨300, 8⟩) (r := .block ⟨65672, 300⟩) (L := [⟨65568, 100, 100, 8⟩]) (by decide)
    (by decide +kernel)
  ⟨_, s, _, s', _, ⟨65568, 100, 100, 8⟩, h1, h2, h3, by decide, by constructor <;> decide⟩

/-! ### C06 -/

/-- C06: a call that answers `Err` leaves memory, the allocator and the blocks held from the underlying allocator exactly as
they were; only the record of at most one refused request is new. -/
theorem C06_failure_changes_nothing {s0 s s' : St} {L : List Owned} (h : Reach s0 s L) {op : Op} (hl : Legal L op)
    (hs : step s op = .ok (.err, s')) :
    s' = s ∨ ∃ l, s.w.oracle s.w.calls = none ∧
      s' = { s with w := { s.w with calls := s.w.calls + 1, log := .refused l :: s.w.log } } := by
  obtain ⟨cs, hI⟩ := h.inv
  have key : ∀ l w1 cs1, AllocRes s.w cs s.a.minChunk l none w1 cs1 →
      (w1 = s.w ∨ ∃ l, s.w.oracle s.w.calls = none ∧
        w1 = { s.w with calls := s.w.calls + 1, log := .refused l :: s.w.log }) ∧ cs1 = cs := by
    intro l w1 cs1 hr
    cases hr with
    | slow hb hsl =>
      cases hsl with
      | tooBig => exact ⟨.inl rfl, rfl⟩
      | refused R h' ho => exact ⟨.inr ⟨_, ho, rfl⟩, rfl⟩
  have main : ∃ cs', (s'.w = s.w ∨ ∃ l, s.w.oracle s.w.calls = none ∧
        s'.w = { s.w with calls := s.w.calls + 1, log := .refused l :: s.w.log }) ∧ cs' = cs ∧ s'.a.root = rootOf cs' ∧
        s'.a.minChunk = s.a.minChunk := by
    rcases hI.step hl with ⟨e, _, he⟩ | ⟨r1, s1, cs1, he, hr, hi⟩
    · rw [he] at hs; cases hs
    rw [he] at hs
    injection hs with hs
    injection hs with h1 h2
    subst h1; subst h2
    refine ⟨cs1, ?_⟩
    cases op with
    | allocate l =>
      obtain ⟨o, ho, hr⟩ := hr
      have hi' := hi L .allocErr
      cases o with
      | some sl => cases ho
      | none => have := key _ _ _ hr; exact ⟨this.1, this.2, hi'.root, hi'.min.trans hI.min.symm⟩
    | allocateZeroed l =>
      obtain ⟨o, w1, ho, hr, hw⟩ := hr
      have hi' := hi L .zeroedErr
      cases o with
      | some sl => cases ho
      | none => rw [hw]; have := key _ _ _ hr; exact ⟨this.1, this.2, hi'.root, hi'.min.trans hI.min.symm⟩
    | resize p old new =>
      obtain ⟨o, ho, hr⟩ := hr
      have hi' := hi L .resizeErr
      cases o with
      | some sl => cases ho
      | none =>
        cases hr with
        | fail w1 cs1 hn hg hr => have := key _ _ _ hr; exact ⟨this.1, this.2, hi'.root, hi'.min.trans hI.min.symm⟩
    | growZeroed p old new =>
      obtain ⟨o, w1, ho, hr, hw⟩ := hr
      have hi' := hi L .growZeroedErr
      cases o with
      | some sl => cases ho
      | none => rw [hw]; have := key _ _ _ hr; exact ⟨this.1, this.2, hi'.root, hi'.min.trans hI.min.symm⟩
    | deallocate p n => obtain ⟨h, _⟩ := hr; cases h
    | reset => obtain ⟨h, _⟩ := hr; cases h
    | resetFinal => obtain ⟨h, _⟩ := hr; cases h
    | write x v => obtain ⟨h, _⟩ := hr; cases h
  obtain ⟨cs', hw, hcs, hroot, hmin⟩ := main
  have ha : s'.a = s.a := by
    have h1 := hI.root
    rw [hcs, ← h1] at hroot
    cases hsa : s.a with | mk r m =>
    cases hsa' : s'.a with | mk r' m' =>
    simp only [hsa, hsa'] at *
    rw [hroot, hmin]
  rcases hw with hw | ⟨l, ho, hw⟩
  · left
    cases s; cases s'
    simp only at *
    rw [hw, ha]
  · right
    refine ⟨l, ho, ?_⟩
    cases s; cases s'
    simp only at *
    rw [hw, ha]

/-- Non-vacuity: the underlying allocator refuses the second chunk during a resize. -/
example : ∃ s0 s L s', Reach s0 s L ∧ Legal L (.resize 65568 ⟨100, 8⟩ ⟨900, 8⟩) ∧
    step s (.resize 65568 ⟨100, 8⟩ ⟨900, 8⟩) = .ok (.err, s') :=
  let ⟨s, s', h1, h2, h3, _⟩ := step_of_demo (sizes := [512]) (m := 256) (ops := [.allocate ⟨100, 8⟩])
    (op := .resize 65568 ⟨100, 8⟩ ⟨900, 8⟩) (r := .err) (L := [⟨65568, 100, 100, 8⟩]) (by decide)
    (by decide +kernel)
  ⟨_, s, _, s', h1, h2, h3⟩

/-! ### C09 -/

/-- C09: `deallocate` of an owned block leaves the allocator and all of memory exactly as they were. Hence every later call
behaves as if it had not been made. -/
theorem C09_deallocate_noop {s0 s : St} {L : List Owned} (h : Reach s0 s L) {p n : Nat} (hl : Legal L (.deallocate p n)) :
    step s (.deallocate p n) = .ok (.unit, s) := by
  obtain ⟨cs, hI⟩ := h.inv
  cases hl with
  | deallocate hb hf =>
    have := deallocate_spec (m := s.a.minChunk) (p := p) (n := n) hI.arena
      (((hI.led.each _ hb).2.2.2).sub (by omega) (by omega))
    rw [hI.eta]
    simp only [step, this]
    rfl

/-- Non-vacuity: the most recently allocated, non-empty block. -/
example : ∃ s0 s L, Reach s0 s L ∧ Legal L (.deallocate 132004 7) :=
  let ⟨s, h⟩ := demo_reach
  ⟨_, s, _, h, .deallocate (b := ⟨132004, 7, 7, 4⟩) (by decide) ⟨rfl, by decide, by decide⟩⟩

/-! ### C10, C11, C12, C54 -/

/-- C10: after `reset`, of the blocks obtained from the underlying allocator exactly the newest one is still held, if there
was any; everything held by others is untouched. -/
theorem C10_reset_keeps_newest {s0 s s' : St} {L : List Owned} (h : Reach s0 s L) {r : Resp}
    (hs : step s .reset = .ok (r, s')) :
    openBlocks s'.w.log = (openBlocks s.w.log).take 1 ∧
    s'.w.held.Perm ((openBlocks s.w.log).take 1 ++ s0.w.held) := by
  obtain ⟨cs, hI⟩ := h.inv
  have hr : r = .unit := by
    rcases hI.step .reset with ⟨e, _, he⟩ | ⟨r1, s1, cs1, he, hr, _⟩
    · rw [he] at hs; cases hs
    · rw [he] at hs; injection hs with hs; injection hs with h1 h2; rw [← h1]; exact hr.1
  subst hr
  obtain ⟨cs', ⟨_, _, hcs⟩, hI'⟩ := hI.step_ok .reset hs .reset
  have e : openBlocks s'.w.log = (openBlocks s.w.log).take 1 := by
    rw [hI'.log.1, hI.log.1, hcs]
    cases cs <;> rfl
  refine ⟨e, ?_⟩
  rw [← e, hI'.log.1]
  exact hI'.arena.perm

/-- C10: `reset` always completes. -/
theorem C10_reset_total {s0 s : St} {L : List Owned} (h : Reach s0 s L) : ∃ s', step s .reset = .ok (.unit, s') := by
  obtain ⟨cs, hI⟩ := h.inv
  have := (reset_spec (m := s.a.minChunk) hI.arena).1
  rw [hI.eta]
  exact ⟨_, by simp only [step, this]; rfl⟩

/-- C11: after `reset_final` (and `drop`, which runs the same code) exactly the blocks held before the allocator was created
are held from the underlying allocator. -/
theorem C11_no_leak {s0 s : St} {L : List Owned} (h : Reach s0 s L) :
    ∃ s', step s .resetFinal = .ok (.unit, s') ∧ s'.w.held.Perm s0.w.held ∧ openBlocks s'.w.log = [] ∧ s'.a.root = 0 := by
  obtain ⟨cs, hI⟩ := h.inv
  have h1 := (resetFinal_spec (m := s.a.minChunk) hI.arena)
  refine ⟨⟨freeAll s.w cs, ⟨0, s.a.minChunk⟩⟩, ?_, h1.2.perm, ?_, rfl⟩
  · rw [hI.eta]; simp only [step, h1.1]; rfl
  · exact (OpRes.log (m := s.a.minChunk) (op := .resetFinal) hI.arena ⟨rfl, rfl, rfl⟩ hI.log).1

/-- C12: every block given back to the underlying allocator was held at that moment, and is given back with the alignment it
was requested with and a size between the requested one and its actual length; giving it back removes it from the
open blocks, so it is not given back twice. -/
theorem C12_frees_fit {s0 s : St} {L : List Owned} (h : Reach s0 s L) :
    FreesOK s.w.log ∧ (openBlocks s.w.log).Pairwise (fun b c => b.addr ≠ c.addr) := by
  obtain ⟨cs, hI⟩ := h.inv
  refine ⟨hI.log.2, ?_⟩
  rw [hI.log.1]
  have hp := (List.pairwise_append.mp hI.arena.pairwise).1
  rw [List.pairwise_map] at *
  refine hp.imp_of_mem ?_
  intro c d hc hd hdis
  have hc' := hI.arena.ok c hc
  have hd' := hI.arena.ok d hd
  have := hc'.lo; have := hc'.hi; have := hd'.lo; have := hd'.hi
  simp only [BaseBlk.Disjoint, Chunk.blk] at *
  omega

/-- Non-vacuity for C10–C12: a history holding two blocks, with over-long answers, that resets twice. -/
example : ∃ s, Reach (demoStart [600, 2500, 1000]) s [] ∧ (openBlocks s.w.log).length = 1 ∧ s.w.log.length = 3 := by
  have h : (execAll (demoStart [600, 2500, 1000]) [] [.allocate ⟨100, 8⟩, .allocate ⟨900, 8⟩, .reset]).isSome = true := by
    decide +kernel
  obtain ⟨⟨rs, s, L⟩, he⟩ := Option.isSome_iff_exists.mp h
  have h2 : (execAll (demoStart [600, 2500, 1000]) [] [.allocate ⟨100, 8⟩, .allocate ⟨900, 8⟩, .reset]).map
      (fun x => (x.2.2, (openBlocks x.2.1.w.log).length, x.2.1.w.log.length)) = some ([], 1, 3) := by decide +kernel
  rw [he] at h2
  simp only [Option.map_some, Option.some.injEq, Prod.mk.injEq] at h2
  obtain ⟨rfl, h3, h4⟩ := h2
  exact ⟨s, reach_of_exec (by decide) he, h3, h4⟩

/-! ### C17 -/

/-- C17: every byte of the block returned by `allocate_zeroed` is zero. -/
theorem C17_zeroed {s0 s s' : St} {L : List Owned} (h : Reach s0 s L) {l : Layout} (hl : l.Valid) {b : Slice}
    (hs : step s (.allocateZeroed l) = .ok (.block b, s')) :
    l.size ≤ b.len ∧ ∀ i, i < b.len → s'.w.mem (b.addr + i) = .raw 0 := by
  obtain ⟨cs, hI⟩ := h.inv
  obtain ⟨cs', ⟨o, w1, ho, hr, hw⟩, _⟩ := hI.step_ok (.allocateZeroed hl) hs .zeroedOk
  cases o with
  | none => cases ho
  | some sl =>
    injection ho with ho
    subst ho
    simp only at hw
    have := (hr.fresh hI.arena hl).1
    refine ⟨by omega, fun i hi => ?_⟩
    rw [hw]
    exact setBytes_in (f := fun _ => .raw 0) hi

/-- Non-vacuity: zeroing memory that was written before a reset. -/
example : ∃ s0 s L s', Reach s0 s L ∧ Layout.Valid ⟨50, 8⟩ ∧ step s (.allocateZeroed ⟨50, 8⟩) = .ok (.block ⟨65568, 50⟩, s') :=
  let ⟨s, s', h1, _, h3, _⟩ := step_of_demo (sizes := [512]) (m := 256)
    (ops := [.allocate ⟨100, 8⟩, .write 65600 (.raw 9), .reset]) (op := .allocateZeroed ⟨50, 8⟩) (r := .block ⟨65568, 50⟩) (L := [])
    (by decide) (by decide +kernel)
  ⟨_, s, _, s', h1, ⟨⟨3, rfl⟩, by decide⟩, h3⟩

end Blink
