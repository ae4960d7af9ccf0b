import Verif.Props.ProxyReset
import Verif.Props.ProxyDRF
import Verif.Props.SyncMore
/-
  Property theorems about `reset_unchecked` of a shared allocator that still has proxies: C77. The documentation
  (src/sync.rs:322-328) asks of the caller that memory allocated before is not used afterwards; nothing is said about proxies.
-/
namespace Blink

/-- No call is in progress, of the shared allocator or of a proxy. -/
def PBook.Quiet (K : PBook) : Prop := ∀ t, K.direct.busy t = none ∧ K.pbusy t = none

/-- `tr` leads from one state to another: actions with their responses. No contract is assumed. -/
inductive PPath : PS → List (PAct × Option Resp) → PS → Prop
  | nil {ps} : PPath ps [] ps
  | cons {ps a r ps1 tr ps2} (hs : pstep ps a = .ok (some (r, ps1))) (h : PPath ps1 tr ps2) : PPath ps ((a, r) :: tr) ps2

/-- The action belongs to an `allocate`, directly or through a proxy. -/
def PAct.Allocates : PAct → Prop
  | .allocate _ _ => True
  | .shared (.call _ (.allocate _)) => True
  | .shared (.go _ _) => True
  | _ => False

/-- The blocks handed out, in order. -/
def blocksOut (tr : List (PAct × Option Resp)) : List Slice :=
  tr.filterMap fun x => match x.2 with | some (.block s) => some s | _ => none

/-! ### The full statements, and why they are false -/

/-- C77, full statement about dropping: when nothing is in progress and the shared allocator is reset by `reset_unchecked`, any
proxy may be dropped afterwards. -/
def C77_drop_full : Prop := ∀ (p0 ps : PS) (K : PBook), PReach p0 ps K → K.Quiet →
  ∀ r ps1, pstep ps (.shared .resetUnchecked) = .ok (some (r, ps1)) → ∀ i, K.live i = true →
    ∃ r ps2, pstep ps1 (.drop i) = .ok (some (r, ps2))

/-- C77, full statement about further use: when nothing is in progress and the shared allocator is reset by `reset_unchecked`, all
blocks that are then handed out, directly or by proxies, have no byte in common. -/
def C77_fresh_full : Prop := ∀ (p0 ps : PS) (K : PBook), PReach p0 ps K → K.Quiet →
  ∀ r ps1, pstep ps (.shared .resetUnchecked) = .ok (some (r, ps1)) → ∀ tr ps2, PPath ps1 tr ps2 → (∀ x ∈ tr, x.1.Allocates) →
    (blocksOut tr).Pairwise fun b c => ∀ x, ¬ ((b.addr ≤ x ∧ x < b.addr + b.len) ∧ (c.addr ≤ x ∧ x < c.addr + c.len))

theorem PBook.quiet_of {p0 ps : PS} {K : PBook} (h : PReach p0 ps K) (hs : K.Small)
    (hq : ((List.range 8).all fun t => (K.direct.busy t).isNone && (K.pbusy t).isNone) = true) : K.Quiet := by
  intro t
  by_cases ht : t < 8
  · have := List.all_eq_true.mp hq t (List.mem_range.mpr ht)
    simp only [Bool.and_eq_true, Option.isNone_iff_eq_none] at this
    exact this
  · obtain ⟨h1, h2⟩ := hs t (by omega)
    obtain ⟨KS, cs, pend, hi⟩ := h.inv
    refine ⟨h2, ?_⟩
    have hx := hi.px t
    rw [h1] at hx
    generalize ps.px t = a1 at hx
    generalize K.led t = a2 at hx
    generalize K.pbusy t = a3 at hx ⊢
    generalize K.direct.busy t = a4 at hx
    generalize KS.busy t = a5 at hx
    generalize cs t = a6 at hx
    generalize pend t = a7 at hx
    cases hx
    rfl

/-- The state after an action, and its response. -/
def pnext (ps : PS) (a : PAct) : Option (Option Resp × PS) := match pstep ps a with | .ok x => x | .error _ => none

theorem pnext_some {ps a r ps1} (h : pnext ps a = some (r, ps1)) : pstep ps a = .ok (some (r, ps1)) := by
  unfold pnext at h
  split at h
  · rename_i x hx; rw [hx, h]
  · cases h

/-- Run a list of actions without a book. -/
def ppath (ps : PS) : List PAct → Option (List (PAct × Option Resp) × PS)
  | [] => some ([], ps)
  | a :: as => match pnext ps a with
    | none => none
    | some (r, ps1) => match ppath ps1 as with
      | none => none
      | some (tr, ps2) => some ((a, r) :: tr, ps2)

theorem ppath_sound {ps as tr ps2} (h : ppath ps as = some (tr, ps2)) : PPath ps tr ps2 ∧ tr.map (·.1) = as := by
  induction as generalizing ps tr with
  | nil => cases h; exact ⟨.nil, rfl⟩
  | cons a as ih =>
    unfold ppath at h
    split at h
    · cases h
    rename_i r ps1 h1
    split at h
    · cases h
    rename_i tr1 ps3 h2
    cases h
    obtain ⟨h3, h4⟩ := ih h2
    exact ⟨.cons (pnext_some h1) h3, by rw [List.map_cons, h4]⟩

/-- A proxy with a chunk in the first block of the shared allocator, which then gets a second block. -/
def c77Acts : List PAct :=
  [.spawn 0 0, .allocate 0 ⟨24, 8⟩] ++ pgoes 0 5 ++ [.shared (.call 1 (.allocate ⟨3000, 8⟩))] ++ pgoes 1 7

/-- C77 is false as it stands: the header of the proxy's chunk was given back to the underlying allocator by the reset; dropping the
proxy reads it (src/sync.rs:461-463). -/
theorem C77_drop_full_false : ¬ C77_drop_full := by
  intro hfull
  obtain ⟨rs, ps, K, h0, hr, hs, hf⟩ := of_pdemoAt (sizes := [2048, 8192]) (m := 1024) (as := c77Acts)
    (f := fun _ ps K => ((List.range 8).all fun t => (K.direct.busy t).isNone && (K.pbusy t).isNone) && K.live 0 &&
      (match pnext ps (.shared .resetUnchecked) with
        | some (_, ps1) => (pnext ps1 (.drop 0)).isNone
        | none => false)) (by decide +kernel)
  simp only [Bool.and_eq_true] at hf
  obtain ⟨⟨h1, h2⟩, h3⟩ := hf
  split at h3
  · rename_i r ps1 hn
    obtain ⟨r', ps2, hd⟩ := hfull _ ps K ⟨h0, _, hr⟩ (PBook.quiet_of ⟨h0, _, hr⟩ hs h1) r ps1 (pnext_some hn) 0 h2
    simp only [pnext, hd] at h3
    cases h3
  · cases h3

/-- C77 is false as it stands: after the reset the proxy still allocates from its chunk, and the shared allocator hands out the memory
of this chunk once more. -/
theorem C77_fresh_full_false : ¬ C77_fresh_full := by
  intro hfull
  obtain ⟨rs, ps, K, h0, hr, hs, hf⟩ := of_pdemoAt (sizes := [8192]) (m := 1024) (as := [.spawn 0 0, .allocate 0 ⟨24, 8⟩] ++ pgoes 0 5)
    (f := fun _ ps K => ((List.range 8).all fun t => (K.direct.busy t).isNone && (K.pbusy t).isNone) &&
      (match pnext ps (.shared .resetUnchecked) with
        | some (_, ps1) =>
          match ppath ps1 ([.allocate 0 ⟨8, 8⟩, .shared (.call 1 (.allocate ⟨100, 8⟩))] ++ pgoes 1 4) with
          | some (tr, _) => decide (blocksOut tr = [⟨65624, 8⟩, ⟨65568, 100⟩])
          | none => false
        | none => false)) (by decide +kernel)
  simp only [Bool.and_eq_true] at hf
  obtain ⟨h1, h3⟩ := hf
  split at h3
  · rename_i r ps1 hn
    split at h3
    · rename_i tr ps2 hp
      obtain ⟨hp1, hp2⟩ := ppath_sound hp
      have := hfull _ ps K ⟨h0, _, hr⟩ (PBook.quiet_of ⟨h0, _, hr⟩ hs h1) r ps1 (pnext_some hn) tr ps2 hp1 ?_
      · rw [of_decide_eq_true h3] at this
        simp only [List.pairwise_cons, List.mem_singleton, forall_eq] at this
        exact this.1 65630 (by omega)
      · intro x hx
        have hm : x.1 ∈ tr.map (·.1) := List.mem_map_of_mem hx
        rw [hp2] at hm
        simp only [pgoes, goes, List.mem_append, List.mem_cons, List.mem_map, List.mem_replicate, List.not_mem_nil, or_false] at hm
        rcases hm with (h | h) | ⟨y, ⟨_, rfl⟩, h⟩
        · rw [h]; trivial
        · rw [h]; trivial
        · rw [← h]; trivial
    · cases h3
  · cases h3

/-! ### What does hold -/

theorem PInv.quiet {p0 ps K KS cs pend} (hi : PInv p0 ps K KS cs pend) (hq : K.Quiet) : ∀ t, KS.busy t = none := by
  intro t
  have := hi.px t
  rw [(hq t).2] at this
  rw [← this.busy.1]
  exact (hq t).1

/-- What `reset_unchecked` of the shared allocator does to the rest. -/
theorem PInv.sharedReset {p0 ps K KS cs pend} (hi : PInv p0 ps K KS cs pend) (hq : K.Quiet) :
    ∃ s', pstep ps (.shared .resetUnchecked) = .ok (some (none, { ps with s := s' })) ∧ SReach p0.s s' { KS with owned := [] } ∧
      s'.w.top = ps.s.w.top ∧ s'.w.debug = ps.s.w.debug ∧
      s'.w.held.Perm ((openBlocks ps.s.w.log).take 1 ++ p0.s.w.held) ∧
      ∀ b ∈ KS.owned, (∃ B ∈ (openBlocks ps.s.w.log).head?, B.addr ≤ b.addr ∧ b.addr + b.len ≤ B.addr + B.len) →
        ∀ x, b.Has x → s'.w.mem x = ps.s.w.mem x := by
  have hq' := hi.quiet hq
  obtain ⟨s', h1, h2, _, _, h3⟩ := C59_reset hi.reach hq' (.inr rfl)
  obtain ⟨cs0, B, hI⟩ := hi.reach.inv
  have hs : ∃ s1, sstep ps.s .resetUnchecked = .ok (some (none, s1)) ∧ s1.w = resetWorld ps.s.w cs0 := by
    have hlk : ps.s.writer = none ∧ ps.s.readers = [] := by
      constructor
      · cases hw : ps.s.writer with
        | none => rfl
        | some u => have := (hI.lock.wr u).mp hw; rw [(hI.busy_none (hq' u)).1] at this; cases this
      · cases hr : ps.s.readers with
        | nil => rfl
        | cons u l => have := (hI.lock.rd u).mp (by rw [hr]; exact List.mem_cons_self); rw [(hI.busy_none (hq' u)).1] at this; cases this
    refine ⟨{ ps.s with w := resetWorld ps.s.w cs0, root := rootOf (resetChunks cs0), seen := [] }, ?_, rfl⟩
    simp only [sstep, resetStep]
    rw [if_pos hlk, hI.root, ebind_ok (arenaReset_keep hI.arena)]; rfl
  obtain ⟨s1, hs1, hw⟩ := hs
  rw [hs1] at h1
  cases h1
  refine ⟨s', ?_, h2, ?_, ?_, h3, ?_⟩
  · simp only [pstep]
    rw [ebind_ok hs1]; rfl
  · rw [hw]; exact (resetWorld_consts _ _).2.1
  · rw [hw]; exact (resetWorld_consts _ _).1
  · rintro b hb ⟨B0, hB0, hB1, hB2⟩ x hx
    rw [hw]
    have hu := hI.fam.owned.byte hb hx
    cases cs0 with
    | nil => rfl
    | cons c t =>
      rw [hI.log.1] at hB0
      simp only [List.map_cons, List.head?_cons, Option.mem_def, Option.some.injEq] at hB0
      subst hB0
      show (freeAll (rewound ps.s.w c) t).mem x = _
      have hp := (List.pairwise_append.mp hI.arena.pairwise).1
      rw [List.map_cons, List.pairwise_cons] at hp
      have hc := hI.arena.ok c List.mem_cons_self
      have := hc.lo; have := hc.hi
      obtain ⟨hx1, hx2⟩ := hx
      simp only [Chunk.blk] at hB1 hB2
      rw [freeAll_mem (fun d hd => by have h := hI.arena.ok d (List.mem_cons_of_mem _ hd); have := h.lo; have := h.hi; omega)]
      · have := hI.arena.used_not_hdr hu (c := c) List.mem_cons_self
        simp only [rewound, setBytes]
        rw [if_neg (by omega), if_neg (by omega), if_neg (by omega)]
      · intro d hd
        have hok := hI.arena.ok d (List.mem_cons_of_mem _ hd)
        have := hok.lo; have := hok.hi
        have hdis := hp.1 d.blk (List.mem_map_of_mem hd)
        simp only [BaseBlk.Disjoint, Chunk.blk] at hdis
        omega

/-- C77, as far as it holds: when nothing is in progress `reset_unchecked` of the shared allocator succeeds, and a proxy can be
dropped afterwards exactly if it had no chunk, or if its newest chunk lies in the one block the shared allocator keeps.
Otherwise the drop is an access to memory that was given back. -/
theorem C77_drop_partial {p0 ps : PS} {K : PBook} (h : PReach p0 ps K) (hq : K.Quiet) {i : Nat} (hl : K.live i = true)
    {L : List (Nat × Nat)} (hL : ps.Chunks i L) :
    ∃ ps1, pstep ps (.shared .resetUnchecked) = .ok (some (none, ps1)) ∧
      ((∀ c ∈ L.head?, ∃ B ∈ (openBlocks ps.s.w.log).head?, B.addr ≤ c.1 ∧ c.1 + c.2 ≤ B.addr + B.len) →
        ∃ ps2, pstep ps1 (.drop i) = .ok (some (some .unit, ps2))) ∧
      (¬ (∀ c ∈ L.head?, ∃ B ∈ (openBlocks ps.s.w.log).head?, B.addr ≤ c.1 ∧ c.1 + c.2 ≤ B.addr + B.len) →
        ∃ why, pstep ps1 (.drop i) = .error (.ub why)) := by
  obtain ⟨KS, cs, pend, hi⟩ := h.inv
  obtain ⟨s', h1, h2, h3, _, h4, h5⟩ := hi.sharedReset hq
  refine ⟨_, h1, ?_⟩
  have hp := hi.px i
  rw [hl, (hq i).2] at hp
  obtain ⟨m, hpx, hv, _, _, _, _⟩ := hp.ready
  obtain ⟨p, hp1, hp2⟩ := hL
  have hp3 := hi.chunks hp1
  have hLL := hp2.unique hp3
  subst hLL
  have hstep : ∀ c, BA.lastChunkSize ⟨rootOf (cs i), m⟩ s'.w = .ok (c, s'.w) →
      ∃ ps2, pstep { ps with s := s' } (.drop i) = .ok (some (some .unit, ps2)) := by
    intro c hc
    simp only [pstep, hpx]
    rw [ebind_ok hc]
    simp only
    have : arenaResetLeak (rootOf (cs i)) false s'.w = .ok (0, s'.w) := rfl
    rw [ebind_ok this]
    simp only
    rw [ebind_ok (dassert_ok fun _ => trivial)]
    exact ⟨_, rfl⟩
  have hfail : ∀ e, BA.lastChunkSize ⟨rootOf (cs i), m⟩ s'.w = .error e → pstep { ps with s := s' } (.drop i) = .error e := by
    intro e he
    simp only [pstep, hpx]
    rw [ebind_err he]
  cases hcs : cs i with
  | nil =>
    rw [hcs] at hstep
    refine ⟨fun _ => hstep 0 rfl, fun hn => absurd ?_ hn⟩
    simp
  | cons c t =>
    rw [hcs] at hstep hfail hv
    have hok := hv.ok c List.mem_cons_self
    have hlo := hok.lo; have hhi := hok.hi; have hal := hok.al
    have hown : c.own ∈ KS.owned := hi.tiles.mem (i := i) (List.mem_map_of_mem (by rw [hcs]; simp))
    have hspan : ∀ B : BaseBlk, (B.addr ≤ c.span.1 ∧ c.span.1 + c.span.2 ≤ B.addr + B.len) ↔ (B.addr ≤ c.start ∧ c.end_ ≤ B.addr + B.len) := by
      intro B
      simp only [Chunk.span]
      omega
    have hne : rootOf (c :: t) ≠ 0 := by rw [Ne, rootOf_eq_zero hv.ok]; simp
    simp only [List.map_cons, List.head?_cons, Option.mem_def, Option.some.injEq, forall_eq', hspan]
    constructor
    · rintro ⟨B, hB, hB1, hB2⟩
      have hBh : B ∈ s'.w.held := h4.mem_iff.mpr (List.mem_append_left _ (by
        cases ho : openBlocks ps.s.w.log with
        | nil => rw [ho] at hB; cases hB
        | cons b bs => rw [ho] at hB; cases hB; simp))
      have hmem := h5 c.own hown ⟨B, hB, by simp only [Chunk.own]; omega, by simp only [Chunk.own]; omega⟩
      have hacc : s'.w.accessible (c.start + 8) 8 = true :=
        List.any_eq_true.mpr ⟨B, hBh, by simp only [Bool.and_eq_true, decide_eq_true_eq]; omega⟩
      have hw : WordAt s'.w.mem (c.start + 8) c.end_ := hv.rep.1.2.1.congr fun x h1 h2 =>
        hmem x ⟨by simp only [Chunk.own]; omega, by simp only [Chunk.own]; omega⟩
      refine hstep (c.end_ - (c.start + 32)) ?_
      unfold BA.lastChunkSize
      rw [if_neg hne]
      show chunkCap c.start s'.w = _
      have := hv.chunk_rng List.mem_cons_self
      unfold Blink.chunkCap Blink.loadEnd
      rw [bind_ok (loadWord_ok (by omega) hacc hw), bind_ok (addU_ok (by unfold HDR_SIZE; omega))]
      exact subU_ok (by unfold HDR_SIZE; omega)
    · intro hno
      have hnacc : ¬ s'.w.accessible (c.start + 8) 8 = true := by
        intro hacc
        obtain ⟨b, hb, hbb⟩ := List.any_eq_true.mp hacc
        simp only [Bool.and_eq_true, decide_eq_true_eq] at hbb
        obtain ⟨_, _, _, B, hB, hBh, hB1, hB2⟩ := C22_layout_and_memory hi.reach hown
        simp only [Chunk.own] at hB1 hB2
        obtain ⟨cs0, B0, hI⟩ := hi.reach.inv
        have hdis := hI.arena.pairwise
        rw [← hI.log.1] at hdis
        rcases List.mem_append.mp (h4.mem_iff.mp hb) with hb' | hb'
        · cases ho : openBlocks ps.s.w.log with
          | nil => rw [ho] at hb'; cases hb'
          | cons b0 bs =>
            rw [ho] at hb' hB hno hdis
            simp only [List.take_succ_cons, List.take_zero, List.mem_singleton] at hb'
            subst hb'
            rcases List.mem_cons.mp hB with rfl | hB'
            · exact hno ⟨B, rfl, by omega, by omega⟩
            · have := (List.pairwise_cons.mp (List.pairwise_append.mp hdis).1).1 B hB'
              simp only [BaseBlk.Disjoint] at this
              omega
        · have := (List.pairwise_append.mp hdis).2.2 B hB b hb'
          simp only [BaseBlk.Disjoint] at this
          omega
      refine ⟨"invalid load", hfail _ ?_⟩
      unfold BA.lastChunkSize
      rw [if_neg hne]
      show chunkCap c.start s'.w = _
      unfold Blink.chunkCap Blink.loadEnd
      have : loadWord (c.start + 8) s'.w = .error (.ub "invalid load") := by
        unfold loadWord
        rw [if_neg fun h => hnacc h.2]
      rw [bind_err this]

/-! ### Going on with proxies that had no chunks -/

theorem PRun.inv_from {p0 q0 k0 ps K tr KS cs pend} (h0 : PInv p0 q0 k0 KS cs pend) (h : PRun q0 k0 tr ps K) :
    ∃ KS cs pend, PInv p0 ps K KS cs pend := by
  induction h with
  | nil => exact ⟨_, _, _, h0⟩
  | snoc h hl hs ha ih =>
    obtain ⟨KS, cs, pend, hi⟩ := ih
    rcases hi.step hl with ⟨e, _, he⟩ | he | ⟨r, ps', he, _, hK⟩
    · rw [he] at hs; cases hs
    · rw [he] at hs; cases hs
    · rw [he] at hs
      injection hs with hs; injection hs with hs; injection hs with h1 h2
      subst h1; subst h2
      obtain ⟨KS', cs', pend', hi', _⟩ := hK _ ha
      exact ⟨KS', cs', pend', hi'⟩

/-- The book after a reset of the shared allocator: whoever had blocks, directly or through a proxy, gave them up. -/
def PBook.gaveUp (K : PBook) : PBook := { K with direct := { K.direct with owned := [] }, led := fun _ => [] }

theorem PInv.bareReset {p0 ps K KS cs pend} (hi : PInv p0 ps K KS cs pend) (hq : K.Quiet)
    (hb : ∀ i, K.live i = true → ps.Chunks i []) :
    ∃ ps1, pstep ps (.shared .resetUnchecked) = .ok (some (none, ps1)) ∧
      PInv p0 ps1 K.gaveUp { KS with owned := [] } (fun _ => []) (fun _ => []) := by
  obtain ⟨s', h1, h2, h3, h6, h4, h5⟩ := hi.sharedReset hq
  refine ⟨_, h1, h2, by rw [h3]; exact hi.top, hi.hist, ⟨[], [], .nil, fun _ _ => rfl, by simp [PBook.gaveUp]⟩, ?_, hi.snap⟩
  intro i
  have hx := hi.px i
  show PxOK s'.w (ps.px i) (K.live i) [] (K.pbusy i) (K.direct.busy i) (KS.busy i) [] []
  rw [(hq i).1, (hq i).2, hi.quiet hq i]
  cases hl : K.live i with
  | false =>
    rw [hl] at hx
    rw [hx.dead.1]
    exact .absent
  | true =>
    rw [hl, (hq i).2] at hx
    obtain ⟨m, hpx, hv, _, hm, _, _⟩ := hx.ready
    obtain ⟨p, hp1, hp2⟩ := hb i hl
    have hcs : cs i = [] := List.map_eq_nil_iff.mp ((hi.chunks hp1).unique hp2)
    rw [hcs] at hv hpx
    rw [hpx]
    exact .idle (cs := []) (hv.frame h3 (by simp)) LOK.nil hm

/-- C77, as far as it holds: when nothing is in progress and no proxy has a chunk, `reset_unchecked` of the shared allocator may be
called although proxies exist. Histories go on from there as from any other state: all blocks held directly or through proxies are
disjoint and lie in held memory, and no step faults unless the underlying allocator breaks its contract (or by the debug assertion
described at `PS.EmptyChunk`). -/
theorem C77_fresh_partial {p0 ps : PS} {K : PBook} (h : PReach p0 ps K) (hq : K.Quiet) (hb : ∀ i, K.live i = true → ps.Chunks i []) :
    ∃ ps1, pstep ps (.shared .resetUnchecked) = .ok (some (none, ps1)) ∧
      ∀ tr ps2 K2, PRun ps1 K.gaveUp tr ps2 K2 →
        (∀ ids : List Nat, ids.Nodup → (K2.direct.owned ++ ids.flatMap K2.blocks).Pairwise Owned.Apart) ∧
        (∀ b, (b ∈ K2.direct.owned ∨ ∃ i, b ∈ K2.blocks i) → b.addr % b.align = 0 ∧ b.size ≤ b.len ∧ 0 < b.addr ∧
          ∃ B ∈ openBlocks ps2.s.w.log, B ∈ ps2.s.w.held ∧ B.addr ≤ b.addr ∧ b.addr + b.len ≤ B.addr + B.len) ∧
        (∀ a e, PLegal K2 a → pstep ps2 a = .error e → BadAnswer ps2.s.w e ∨ ps2.EmptyChunk a e) := by
  obtain ⟨KS, cs, pend, hi⟩ := h.inv
  obtain ⟨ps1, h1, h2⟩ := hi.bareReset hq hb
  refine ⟨ps1, h1, fun tr ps2 K2 hr => ?_⟩
  obtain ⟨KS2, cs2, pend2, hi2⟩ := hr.inv_from h2
  exact ⟨fun ids hn => hi2.no_overlap hn, fun b hb => hi2.memory hb, fun a e hl he => hi2.no_ub hl he⟩

/-! ### Concrete cases -/

/-- Both cases of `C77_drop_partial` occur: proxies 0 and 1 live, the newest chunk of 0 is in a block that will be given back, that of 1
in the block that stays, and 2 has no chunk. -/
example : ∃ p0 ps K, PReach p0 ps K ∧ K.Quiet ∧ K.live 0 = true ∧ K.live 1 = true ∧ K.live 2 = true ∧ ps.Chunks 0 [(65568, 64)] ∧
    ps.Chunks 1 [(134104, 64)] ∧ ps.Chunks 2 [] ∧ (openBlocks ps.s.w.log).map (fun b => (b.addr, b.len)) = [(131072, 8192), (65536, 2048)] := by
  obtain ⟨rs, ps, K, h0, hr, hs, hf⟩ := of_pdemoAt (sizes := [2048, 8192]) (m := 1024)
    (as := c77Acts ++ [.spawn 1 0, .spawn 2 0, .allocate 1 ⟨24, 8⟩] ++ pgoes 1 4)
    (f := fun _ ps K => ((List.range 8).all fun t => (K.direct.busy t).isNone && (K.pbusy t).isNone) && K.live 0 && K.live 1 && K.live 2 &&
      decide ((ps.px 0).map (·.a.root) = some 65568) && decide (decodeWord ps.s.w.mem (65568 + 8) = some 65632) &&
      decide (decodeWord ps.s.w.mem (65568 + 16) = some 0) &&
      decide ((ps.px 1).map (·.a.root) = some 134104) && decide (decodeWord ps.s.w.mem (134104 + 8) = some 134168) &&
      decide (decodeWord ps.s.w.mem (134104 + 16) = some 0) && decide ((ps.px 2).map (·.a.root) = some 0) &&
      decide ((openBlocks ps.s.w.log).map (fun b => (b.addr, b.len)) = [(131072, 8192), (65536, 2048)])) (by decide +kernel)
  simp only [Bool.and_eq_true, decide_eq_true_eq, Option.map_eq_some_iff] at hf
  obtain ⟨⟨⟨⟨⟨⟨⟨⟨⟨⟨⟨hq, l0⟩, l1⟩, l2⟩, ⟨q0, a1, a2⟩⟩, a3⟩, a4⟩, ⟨q1, b1, b2⟩⟩, b3⟩, b4⟩, ⟨q2, c1, c2⟩⟩, hl⟩ := hf
  refine ⟨_, ps, K, ⟨h0, _, hr⟩, PBook.quiet_of ⟨h0, _, hr⟩ hs hq, l0, l1, l2, ⟨q0, a1, ?_⟩, ⟨q1, b1, ?_⟩, ⟨q2, c1, ?_⟩, hl⟩
  · rw [a2]; exact .cons (e := 65632) (by decide) a3 a4 .nil
  · rw [b2]; exact .cons (e := 134168) (by decide) b3 b4 .nil
  · rw [c2]; exact .nil

/-- The hypotheses of `C77_fresh_partial` are met with a live proxy and a block held directly. -/
example : ∃ p0 ps K, PReach p0 ps K ∧ K.Quiet ∧ K.live 0 = true ∧ (∀ i, K.live i = true → ps.Chunks i []) ∧ K.direct.owned.length = 1 := by
  obtain ⟨rs, ps, K, h0, hr, hs, hf⟩ := of_pdemoAt (sizes := [8192]) (m := 1024)
    (as := [.spawn 0 0, .shared (.call 1 (.allocate ⟨100, 8⟩))] ++ pgoes 1 5)
    (f := fun _ ps K => ((List.range 8).all fun t => (K.direct.busy t).isNone && (K.pbusy t).isNone) && K.live 0 &&
      ((List.range 8).all fun t => !K.live t || decide ((ps.px t).map (·.a.root) = some 0)) && decide (K.direct.owned.length = 1)) (by decide +kernel)
  simp only [Bool.and_eq_true, decide_eq_true_eq] at hf
  obtain ⟨⟨⟨hq, l0⟩, hc⟩, ho⟩ := hf
  refine ⟨_, ps, K, ⟨h0, _, hr⟩, PBook.quiet_of ⟨h0, _, hr⟩ hs hq, l0, ?_, ho⟩
  intro i hi
  by_cases h8 : i < 8
  · have := List.all_eq_true.mp hc i (List.mem_range.mpr h8)
    simp only [hi, Bool.not_true, Bool.false_or, decide_eq_true_eq, Option.map_eq_some_iff] at this
    obtain ⟨q, q1, q2⟩ := this
    exact ⟨q, q1, by rw [q2]; exact .nil⟩
  · rw [(hs i (by omega)).1] at hi; cases hi

end Blink
