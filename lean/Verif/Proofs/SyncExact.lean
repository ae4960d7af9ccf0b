import Verif.Proofs.SyncRun
/-
  Exactly what one step of one thread does in a reachable state.
-/
namespace Blink

/-- Where a thread goes when its job got a block. -/
def Job.got (wr : Bool) (b : Slice) : Job → Pc
  | .alloc _ => .ret wr (.block b)
  | .resize p old new => .copy wr p old new b 0

/-- The outcomes of one step of thread `t`. -/
inductive GoRes (s : SS) (cs : List Chunk) (t : Nat) (ch : Choice) : Option Resp → SS → Prop
  | acq {c} (hpc : s.pcs t = .rd c) (hw : s.writer = none) :
      GoRes s cs t ch none ({ s with readers := t :: s.readers }.setPc t (enter s.root c))
  | load {c tl j} (hpc : s.pcs t = .load s.root j) (hcs : cs = c :: tl) (hr : s.root = c.start) :
      GoRes s cs t ch none (s.setPc t (.cas s.root j ((c.cursor :: s.seen).getD ch.idx c.cursor)))
  | noroom {c tl j v} (hpc : s.pcs t = .cas s.root j v) (hcs : cs = c :: tl) (hr : s.root = c.start)
      (hb : bump v c.end_ j.layout = none) : GoRes s cs t ch none (s.setPc t (.unlockSlow j))
  | commit {c tl j a} (hpc : s.pcs t = .cas s.root j c.cursor) (hcs : cs = c :: tl) (hr : s.root = c.start)
      (hb : bump c.cursor c.end_ j.layout = some a) (hsp : ch.spurious = false) :
      GoRes s cs t ch none ({ s with w := setCursor s.w c (a + j.layout.size), seen := c.cursor :: s.seen }.setPc t
        (j.got false ⟨a, j.layout.size⟩))
  | retry {c tl j v a} (hpc : s.pcs t = .cas s.root j v) (hcs : cs = c :: tl) (hr : s.root = c.start)
      (hb : bump v c.end_ j.layout = some a) (hf : ¬ (c.cursor = v ∧ ch.spurious = false)) :
      GoRes s cs t ch none (s.setPc t (.cas s.root j ((c.cursor :: s.seen).getD ch.idx c.cursor)))
  | rtip {c tl p old new} (hpc : s.pcs t = .rload s.root p old new) (hcs : cs = c :: tl) (hr : s.root = c.start)
      (hv : (c.cursor :: s.seen).getD ch.idx c.cursor = p + old.size) :
      GoRes s cs t ch none (s.setPc t (.rcas s.root p old new (p + old.size)))
  | rnot {c tl p old new} (hpc : s.pcs t = .rload s.root p old new) (hcs : cs = c :: tl) (hr : s.root = c.start)
      (hv : (c.cursor :: s.seen).getD ch.idx c.cursor ≠ p + old.size) :
      GoRes s cs t ch none (s.setPc t (.load s.root (.resize p old new)))
  | rnoroom {c tl p old new} (hpc : s.pcs t = .rcas s.root p old new (p + old.size)) (hcs : cs = c :: tl) (hr : s.root = c.start)
      (hb : c.end_ < p + new.size) : GoRes s cs t ch none (s.setPc t (.unlockSlow (.resize p old new)))
  | rcommit {c tl p old new} (hpc : s.pcs t = .rcas s.root p old new (p + old.size)) (hcs : cs = c :: tl) (hr : s.root = c.start)
      (hb : p + new.size ≤ c.end_) (hv : p + old.size = c.cursor) :
      GoRes s cs t ch none ({ s with w := setCursor s.w c (p + new.size), seen := (p + old.size) :: s.seen }.setPc t
        (.ret false (.block ⟨p, new.size⟩)))
  | rfail {c tl p old new} (hpc : s.pcs t = .rcas s.root p old new (p + old.size)) (hcs : cs = c :: tl) (hr : s.root = c.start)
      (hb : p + new.size ≤ c.end_) (hv : p + old.size ≠ c.cursor) :
      GoRes s cs t ch none (s.setPc t (.load s.root (.resize p old new)))
  | free {p n seen'} (hpc : s.pcs t = .free s.root p n) :
      GoRes s cs t ch none ({ s with seen := seen' }.setPc t (.ret false .unit))
  | unlock {j} (hpc : s.pcs t = .unlockSlow j) :
      GoRes s cs t ch none ({ s with readers := s.readers.erase t }.setPc t (.wr j))
  | wr {j} (hpc : s.pcs t = .wr j) (hw : s.writer = none) (hr : s.readers = []) :
      GoRes s cs t ch none ({ s with writer := some t }.setPc t (.slow j))
  | slowErr {j w' cs'} (hpc : s.pcs t = .slow j)
      (he : allocSlow s.root s.minChunk j.layout s.w = .ok ((none, rootOf cs'), w')) :
      GoRes s cs t ch none ({ s with w := w', root := rootOf cs', seen := [] }.setPc t (.ret true .err))
  | slowOk {j b w' cs'} (hpc : s.pcs t = .slow j)
      (he : allocSlow s.root s.minChunk j.layout s.w = .ok ((some b, rootOf cs'), w')) :
      GoRes s cs t ch none ({ s with w := w', root := rootOf cs', seen := [] }.setPc t (j.got true b))
  | copy {wr p old new b k} (hpc : s.pcs t = .copy wr p old new b k) (hk : k < min new.size old.size)
      (hu1 : InUsed cs (p + k) 1) (hu2 : InUsed cs (b.addr + k) 1) :
      GoRes s cs t ch none
        ({ s with w := { s.w with mem := setBytes s.w.mem (b.addr + k) 1 fun _ => s.w.mem (p + k) } }.setPc t
          (.copy wr p old new b (k + 1)))
  | copied {wr p old new b k} (hpc : s.pcs t = .copy wr p old new b k) (hk : ¬ k < min new.size old.size) :
      GoRes s cs t ch none (s.setPc t (.ret wr (.block b)))
  | retW {r} (hpc : s.pcs t = .ret true r) : GoRes s cs t ch (some r) ({ s with writer := none }.setPc t .idle)
  | retR {r} (hpc : s.pcs t = .ret false r) :
      GoRes s cs t ch (some r) ({ s with readers := s.readers.erase t }.setPc t .idle)

theorem gotBlock_exact {cs owned R} {m sn : Nat → Byte} {bz j Bj} {s : Slice} (wr : Bool) (w : World)
    (hj : JobOK m sn bz j Bj) (hL : LOK cs (owned ++ (Bj ++ R))) (hlen : j.layout.size ≤ s.len)
    (hd : ∀ p n, InUsed cs p n → p + n ≤ s.addr ∨ s.addr + s.len ≤ p) : gotBlock wr j s w = .ok (j.got wr s, w) := by
  cases hj with
  | alloc h => rfl
  | @resize b p old new hf h hs =>
    have hb : b ∈ owned ++ ([b] ++ R) := List.mem_append_right _ (List.mem_append_left _ List.mem_cons_self)
    obtain ⟨f1, f2, f3, f4⟩ := hf
    unfold gotBlock Job.got
    dsimp only
    rw [bind_ok (require_ok ?_)]
    · rfl
    · have := hd _ _ (hL.each b hb).2.2.2
      simp only [Job.layout] at hlen
      omega

/-- Waiting for the lock, or outside. -/
def SS.waits (s : SS) (t : Nat) : Prop :=
  s.pcs t = .idle ∨ ((∃ c, s.pcs t = .rd c) ∧ s.writer ≠ none) ∨ ((∃ j, s.pcs t = .wr j) ∧ ¬ (s.writer = none ∧ s.readers = []))

theorem SInv.go_exact {s0 s cs K B} (h : SInv s0 s cs K B) (t : Nat) (ch : Choice) :
    (∃ e j, s.pcs t = .slow j ∧ BadAnswer s.w e ∧ allocSlow s.root s.minChunk j.layout s.w = .error e ∧
      goStep s t ch = .error e) ∨
    (s.waits t ∧ goStep s t ch = .ok none) ∨ ∃ r s', goStep s t ch = .ok (some (r, s')) ∧ GoRes s cs t ch r s' := by
  have ht := h.thr t
  obtain ⟨pc, hpc⟩ : ∃ pc, s.pcs t = pc := ⟨_, rfl⟩
  obtain ⟨bz, hbz⟩ : ∃ bz, K.busy t = bz := ⟨_, rfl⟩
  obtain ⟨Bt, hB⟩ : ∃ Bt, B t = Bt := ⟨_, rfl⟩
  rw [hpc, hbz, hB] at ht
  obtain ⟨R, hR, -, -⟩ := h.fam.focus t
  rw [hB] at hR
  have rdcase : ∀ c, s.pcs t = .rd c → (∃ e j, s.pcs t = .slow j ∧ BadAnswer s.w e ∧
      allocSlow s.root s.minChunk j.layout s.w = .error e ∧ goStep s t ch = .error e) ∨
      (s.waits t ∧ goStep s t ch = .ok none) ∨ ∃ r s', goStep s t ch = .ok (some (r, s')) ∧ GoRes s cs t ch r s' := by
    intro c hpc
    by_cases hw : s.writer = none
    · exact .inr (.inr ⟨_, _, by unfold goStep; rw [hpc]; dsimp only; rw [if_pos hw]; rfl, .acq hpc hw⟩)
    · exact .inr (.inl ⟨.inr (.inl ⟨⟨c, hpc⟩, hw⟩), by unfold goStep; rw [hpc]; dsimp only; rw [if_neg hw]; rfl⟩)
  have retcase : ∀ wr r, s.pcs t = .ret wr r → ∃ r s', goStep s t ch = .ok (some (r, s')) ∧ GoRes s cs t ch r s' := by
    intro wr r hpc
    cases wr with
    | true => exact ⟨_, _, by unfold goStep; rw [hpc]; rfl, .retW hpc⟩
    | false => exact ⟨_, _, by unfold goStep; rw [hpc]; rfl, .retR hpc⟩
  cases ht with
  | idle => exact .inr (.inl ⟨.inl hpc, by unfold goStep; rw [hpc]; rfl⟩)
  | rdAlloc => exact rdcase _ hpc
  | rdResize => exact rdcase _ hpc
  | rdDealloc => exact rdcase _ hpc
  | @load _ j _ hr hj =>
    obtain ⟨c, tl, rfl, hc⟩ := h.cons hr
    refine .inr (.inr ⟨_, _, ?_, .load hpc rfl hc⟩)
    unfold goStep; rw [hpc]; dsimp only
    rw [ebind_ok (by rw [hc]; exact loadRelaxed_spec h.arena _ _)]; rfl
  | @cas _ j _ cursor hr hj =>
    obtain ⟨c, tl, rfl, hc⟩ := h.cons hr
    right; right
    have hl := hj.valid
    have hgo : goStep s t ch = (match (bump cursor c.end_ j.layout).map (fun a => (a, a + j.layout.size)) with
      | none => pure (some (none, s.setPc t (.unlockSlow j)))
      | some (aligned, next) =>
        if c.cursor = cursor ∧ ch.spurious = false then do
          let ((), w) ← storeWord s.root next s.w
          let (len, w) ← subU next aligned w
          let ((), w) ← dassert (j.layout.size ≤ len) "len >= layout.size()" w
          let ((), w) ← dassert (aligned % j.layout.align = 0) "aligned_addr % layout.align() == 0" w
          let (pc, w) ← gotBlock false j ⟨aligned, len⟩ w
          pure (some (none, { s with w := w, seen := cursor :: s.seen }.setPc t pc))
        else pure (some (none, s.setPc t (.cas s.root j ((c.cursor :: s.seen).getD ch.idx c.cursor))))) := by
      unfold goStep
      rw [hpc]
      dsimp only
      rw [ebind_ok (by rw [hc]; exact h.arena.loadEnd)]
      dsimp only
      rw [ebind_ok (tryBump_spec hl)]
      dsimp only
      cases hb : bump cursor c.end_ j.layout with
      | none => rfl
      | some a =>
        simp only [Option.map_some]
        rw [ebind_ok (by rw [hc]; exact h.arena.loadCursor)]
        dsimp only
        split
        · rfl
        · rw [ebind_ok (by rw [hc]; exact loadRelaxed_spec h.arena _ _)]
    cases hb : bump cursor c.end_ j.layout with
    | none =>
      rw [hb] at hgo
      exact ⟨_, _, hgo, .noroom hpc rfl hc hb⟩
    | some a =>
      rw [hb] at hgo
      simp only [Option.map_some] at hgo
      by_cases hcas : c.cursor = cursor ∧ ch.spurious = false
      · rw [if_pos hcas] at hgo
        obtain ⟨rfl, hsp⟩ := hcas
        have hbf := bump_facts hl hb
        have hcok := h.arena.ok c List.mem_cons_self
        have := hcok.al; have := hcok.lo; have := hcok.hi
        have hfresh : ∀ p n, InUsed (c :: tl) p n → p + n ≤ a ∨ a + j.layout.size ≤ p := by
          rintro p n ⟨d, hd, h1, h2⟩
          rcases List.mem_cons.mp hd with rfl | hd
          · omega
          · have := h.arena.chunk_dis hd
            have hd' := h.arena.ok d (List.mem_cons_of_mem _ hd)
            have := hd'.lo; have := hd'.hi
            omega
        have hg := gotBlock_exact (s := ⟨a, j.layout.size⟩) false
          (setCursor s.w c (a + j.layout.size)) hj hR (Nat.le_refl _) hfresh
        rw [ebind_ok (show storeWord s.root (a + j.layout.size) s.w = .ok ((), setCursor s.w c (a + j.layout.size)) from
          hc ▸ storeWord_ok (by omega) (h.arena.acc List.mem_cons_self (by omega) (by omega)))] at hgo
        dsimp only at hgo
        rw [ebind_ok (subU_ok (by omega))] at hgo
        dsimp only at hgo
        rw [ebind_ok (dassert_ok (by omega))] at hgo
        dsimp only at hgo
        rw [ebind_ok (dassert_ok (fun _ => hbf.2.2.1)), show a + j.layout.size - a = j.layout.size by omega] at hgo
        dsimp only at hgo
        rw [ebind_ok hg] at hgo
        exact ⟨_, _, hgo, .commit hpc rfl hc hb hsp⟩
      · rw [if_neg hcas] at hgo
        exact ⟨_, _, hgo, .retry hpc rfl hc hb hcas⟩
  | @rload _ p old new _ hr hj ha hs =>
    obtain ⟨c, tl, rfl, hc⟩ := h.cons hr
    right; right
    have hold : p + old.size < USIZE := by
      cases hj with
      | @resize b _ _ _ hf hv hsame =>
        obtain ⟨f1, f2, f3, f4⟩ := hf
        obtain ⟨_, _, _, d, hd, h1, h2⟩ := hR.each b (List.mem_append_right _ (List.mem_append_left _ List.mem_cons_self))
        have := h.arena.chunk_rng hd
        have := (h.arena.ok d hd).hi
        omega
    have hgo : goStep s t ch = (if (c.cursor :: s.seen).getD ch.idx c.cursor = p + old.size then
        pure (some (none, s.setPc t (.rcas s.root p old new ((c.cursor :: s.seen).getD ch.idx c.cursor))))
        else pure (some (none, s.setPc t (.load s.root (.resize p old new))))) := by
      unfold goStep
      rw [hpc]
      dsimp only
      rw [ebind_ok (addU_ok hold)]
      dsimp only
      rw [ebind_ok (by rw [hc]; exact loadRelaxed_spec h.arena _ _)]
    by_cases hv : (c.cursor :: s.seen).getD ch.idx c.cursor = p + old.size
    · rw [if_pos hv, hv] at hgo
      exact ⟨_, _, hgo, .rtip hpc rfl hc hv⟩
    · rw [if_neg hv] at hgo
      exact ⟨_, _, hgo, .rnot hpc rfl hc hv⟩
  | @rcas _ p old new _ hr hj ha hs =>
    obtain ⟨c, tl, rfl, hc⟩ := h.cons hr
    right; right
    have hcok := h.arena.ok c List.mem_cons_self
    have := hcok.al; have := hcok.lo; have := hcok.hi
    have hcr := h.arena.chunk_rng (c := c) List.mem_cons_self
    cases hn : checkedAdd p new.size with
    | none =>
      refine ⟨_, _, ?_, .rnoroom hpc rfl hc ?_⟩
      · unfold goStep; rw [hpc]; dsimp only; rw [hn]; rfl
      · unfold checkedAdd at hn; split at hn
        · cases hn
        · omega
    | some next =>
      have hnext : next = p + new.size := by
        unfold checkedAdd at hn; split at hn
        · injection hn with hn; exact hn.symm
        · cases hn
      subst hnext
      by_cases hfit : c.end_ < p + new.size
      · refine ⟨_, _, ?_, .rnoroom hpc rfl hc hfit⟩
        unfold goStep; rw [hpc]; dsimp only; rw [hn]; dsimp only
        rw [ebind_ok (by rw [hc]; exact h.arena.loadEnd)]; dsimp only; rw [if_pos hfit]; rfl
      · have hcas := cellCas_spec h.arena (p + old.size) (p + new.size)
        by_cases htip : p + old.size = c.cursor
        · rw [if_pos htip] at hcas
          refine ⟨_, _, ?_, .rcommit hpc rfl hc (by omega) htip⟩
          unfold goStep; rw [hpc]; dsimp only; rw [hn]; dsimp only
          rw [ebind_ok (by rw [hc]; exact h.arena.loadEnd)]; dsimp only; rw [if_neg hfit]
          rw [ebind_ok (by rw [hc]; exact hcas)]; dsimp only
          rw [if_pos rfl, ebind_ok (subU_ok (by omega))]; dsimp only
          rw [ebind_ok (dassert_ok (by omega)), show p + new.size - p = new.size by omega]; rfl
        · rw [if_neg htip] at hcas
          refine ⟨_, _, ?_, .rfail hpc rfl hc (by omega) htip⟩
          unfold goStep; rw [hpc]; dsimp only; rw [hn]; dsimp only
          rw [ebind_ok (by rw [hc]; exact h.arena.loadEnd)]; dsimp only; rw [if_neg hfit]
          rw [ebind_ok (by rw [hc]; exact hcas)]; rfl
  | @free b p n hr hf =>
    obtain ⟨c, tl, rfl, hc⟩ := h.cons hr
    right; right
    obtain ⟨f1, f2, f3⟩ := hf
    obtain ⟨_, _, _, d, hd, h1, h2⟩ := hR.each b (List.mem_append_right _ (List.mem_append_left _ List.mem_cons_self))
    have hd1 := h.arena.chunk_rng hd
    have hd2 := h.arena.ok d hd
    have := hd2.lo; have := hd2.hi
    have hc2 := h.arena.ok c List.mem_cons_self
    have := hc2.lo; have := hc2.hi
    have hcas := cellCas_spec h.arena p (p + n)
    refine ⟨_, _, ?_, .free (seen' := if p = c.cursor then p :: s.seen else s.seen) hpc⟩
    unfold goStep; rw [hpc]; dsimp only
    rw [ebind_ok (addU_ok (by omega))]; dsimp only
    rw [ebind_ok (by rw [hc]; exact hcas)]
    by_cases htip : p = c.cursor
    · have hn0 : p + n = c.cursor := by
        rcases List.mem_cons.mp hd with rfl | hd
        · omega
        · have := h.arena.chunk_dis hd
          omega
      rw [if_pos htip, if_pos htip, hn0, setCursor_self h.arena]; rfl
    · rw [if_neg htip, if_neg htip]; rfl
  | @unlockSlow _ j _ hj => exact .inr (.inr ⟨_, _, by unfold goStep; rw [hpc]; rfl, .unlock hpc⟩)
  | @wr _ j _ hj =>
    by_cases hfree : s.writer = none ∧ s.readers = []
    · exact .inr (.inr ⟨_, _, by unfold goStep; rw [hpc]; dsimp only; rw [if_pos hfree]; rfl, .wr hpc hfree.1 hfree.2⟩)
    · exact .inr (.inl ⟨.inr (.inr ⟨⟨j, hpc⟩, hfree⟩), by unfold goStep; rw [hpc]; dsimp only; rw [if_neg hfree]; rfl⟩)
  | @slow _ j _ hj =>
    rcases allocSlow_spec h.arena hj.valid h.dbg with ⟨e, hbad, he⟩ | ⟨r, w', cs', he, hr, hi⟩
    · left
      refine ⟨e, j, hpc, hbad.1, by rw [h.root]; exact he, ?_⟩
      unfold goStep; rw [hpc]; dsimp only
      rw [h.root, ebind_err he]
    · right; right
      have he' : allocSlow s.root s.minChunk j.layout s.w = .ok ((r, rootOf cs'), w') := by rw [h.root]; exact he
      cases r with
      | none =>
        refine ⟨_, _, ?_, .slowErr hpc he'⟩
        unfold goStep; rw [hpc]; dsimp only
        rw [ebind_ok he']; rfl
      | some b =>
        obtain ⟨f1, f2, ⟨c, tl, f3, f4, f5, f6, f7⟩, f8⟩ := hr.fresh h.arena hj.valid
        have hg := gotBlock_exact (s := b) true w' hj hR (by omega) f8
        refine ⟨_, _, ?_, .slowOk hpc he'⟩
        unfold goStep; rw [hpc]; dsimp only
        rw [ebind_ok he']; dsimp only
        rw [ebind_ok hg]; rfl
  | @copy b p old new wr sl k j hk hc =>
    right; right
    have hnew : Owned.of sl new ∈ K.owned ++ ([Owned.of sl new, b] ++ R) :=
      List.mem_append_right _ (List.mem_append_left _ List.mem_cons_self)
    have hbm : b ∈ K.owned ++ ([Owned.of sl new, b] ++ R) :=
      List.mem_append_right _ (List.mem_append_left _ (List.mem_cons_of_mem _ List.mem_cons_self))
    have hnl := (hR.each _ hnew).1
    by_cases hlt : k < Nat.min new.size old.size
    · have hlt' := Nat.lt_min.mp hlt
      cases j with
      | resize hf hv hsame =>
        obtain ⟨f1, f2, f3, f4⟩ := hf
        have hbx : b.Has (p + k) := ⟨by omega, by omega⟩
        have hnx : (Owned.of sl new).Has (sl.addr + k) := by
          simp only [Owned.of] at hnl
          exact ⟨by simp only [Owned.of]; omega, by simp only [Owned.of]; omega⟩
        have hu1 := hR.byte hbm hbx
        have hu2 := hR.byte hnew hnx
        refine ⟨_, _, ?_, .copy hpc hlt hu1 hu2⟩
        unfold goStep; rw [hpc]; dsimp only; rw [if_pos hlt]
        rw [ebind_ok (show copyByte (p + k) (sl.addr + k) s.w = _ from by
          unfold copyByte; rw [if_pos ⟨h.arena.acc_used hu1, h.arena.acc_used hu2⟩])]
        rfl
    · exact ⟨_, _, by unfold goStep; rw [hpc]; dsimp only; rw [if_neg hlt]; rfl, .copied hpc hlt⟩
  | retAllocOk => exact .inr (.inr (retcase _ _ hpc))
  | retAllocErr => exact .inr (.inr (retcase _ _ hpc))
  | retResizeOk => exact .inr (.inr (retcase _ _ hpc))
  | retResizeErr => exact .inr (.inr (retcase _ _ hpc))
  | retDealloc => exact .inr (.inr (retcase _ _ hpc))

/-- The same for a step known to have happened. -/
theorem SInv.go_res {s0 s cs K B} (h : SInv s0 s cs K B) {t : Nat} {ch : Choice} {r s'}
    (hgo : goStep s t ch = .ok (some (r, s'))) : GoRes s cs t ch r s' := by
  rcases h.go_exact t ch with ⟨_, _, _, _, _, he⟩ | ⟨_, he⟩ | ⟨r', s'', he, hr⟩
  · rw [hgo] at he; cases he
  · rw [hgo] at he; cases he
  · rw [hgo] at he
    injection he with he; injection he with he; injection he with h1 h2
    subst h1 h2
    exact hr

end Blink
