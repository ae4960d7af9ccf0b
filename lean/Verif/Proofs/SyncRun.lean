import Verif.Proofs.SyncStep
/-
  The invariant of `SyncBlinkAlloc` is preserved by every legal action, so it holds along every history.
-/
namespace Blink

theorem TOK.of_none {m root sn pc Bt} (h : TOK m root sn none pc Bt) : pc = .idle ∧ Bt = [] := by
  generalize hb : (none : Option (Call × Option Owned)) = bz at h
  cases h with
  | idle => exact ⟨rfl, rfl⟩
  | rload _ j => cases hb; cases j
  | rcas _ j => cases hb; cases j
  | load _ j => cases hb; cases j
  | cas _ j => cases hb; cases j
  | unlockSlow j => cases hb; cases j
  | wr j => cases hb; cases j
  | slow j => cases hb; cases j
  | _ => cases hb

theorem TOK.of_idle {m root sn bz Bt} (h : TOK m root sn bz .idle Bt) : bz = none := by
  cases h; rfl

theorem arenaReset_keep {w cs F} (h : AInv w cs F) :
    arenaReset (rootOf cs) true w = .ok (rootOf (resetChunks cs), resetWorld w cs) := by
  have h1 := (reset_spec (m := 0) h).1
  unfold BA.reset at h1
  cases hr : arenaReset (rootOf cs) true w with
  | error e => rw [bind_err (by exact hr)] at h1; cases h1
  | ok q =>
    rw [bind_ok (by exact hr)] at h1
    injection h1 with h1
    injection h1 with h1 h2
    injection h1 with h1
    obtain ⟨q1, q2⟩ := q
    simp only at h1 h2
    rw [h1, h2]

theorem arenaReset_all {w cs F} (h : AInv w cs F) : arenaReset (rootOf cs) false w = .ok (0, freeAll w cs) := by
  have h1 := (resetFinal_spec (m := 0) h).1
  unfold BA.resetFinal at h1
  cases hr : arenaReset (rootOf cs) false w with
  | error e => rw [bind_err (by exact hr)] at h1; cases h1
  | ok q =>
    rw [bind_ok (by exact hr)] at h1
    injection h1 with h1
    injection h1 with h1 h2
    injection h1 with h1
    obtain ⟨q1, q2⟩ := q
    simp only at h1 h2
    rw [h1, h2]

theorem SInv.busy_none {s0 s cs K B} (h : SInv s0 s cs K B) {t : Nat} (hb : K.busy t = none) : s.pcs t = .idle ∧ B t = [] := by
  have := h.thr t
  rw [hb] at this
  exact this.of_none

theorem SInv.call {s0 s cs K B} (h : SInv s0 s cs K B) {t : Nat} {c : Call} {K' : Book} {bt : List Owned} (hb : K.busy t = none)
    (hl : ∀ R, LOK cs (K.owned ++ R) → LOK cs (K'.owned ++ (bt ++ R)))
    (hbusy : ∀ u, u ≠ t → K'.busy u = K.busy u) (hsnap : ∀ u, u ≠ t → K'.snap u = K.snap u)
    (htok : TOK s.w.mem s.root (K'.snap t) (K'.busy t) (.rd c) bt) :
    ∃ B', SInv s0 (s.setPc t (.rd c)) cs K' B' := by
  obtain ⟨hpc, hB⟩ := h.busy_none hb
  obtain ⟨R, hR, hRB, hF⟩ := h.fam.focus t
  refine ⟨_, h.upd t hR hRB hF (cs' := cs) (bt := bt) h.arena h.root rfl ⟨rfl, rfl, rfl⟩ h.log h.seen
    (fun u hu => SS.setPc_ne _ _ hu) hbusy hsnap ?_ (fun _ _ _ _ => rfl) (.inl rfl)
    (h.lock.same (t := t) (fun u hu => SS.setPc_ne _ _ hu) ?_ ?_) ?_⟩
  · rw [hB] at hR
    exact hl R hR
  · rw [SS.setPc_same, hpc]; rfl
  · rw [SS.setPc_same, hpc]; rfl
  · rw [SS.setPc_same]; exact htok

theorem SInv.resetTo {s0 s cs K B} (h : SInv s0 s cs K B) (hq : ∀ t, K.busy t = none) {w' : World} {cs' : List Chunk} {root' : Nat}
    (hroot : root' = rootOf cs')
    (hA : AInv w' cs' s0.w.held) (hc : w'.debug = s.w.debug ∧ w'.top = s.w.top ∧ w'.oracle = s.w.oracle)
    (hl : LogInv w'.log cs') :
    ∃ B', SInv s0 { s with w := w', root := root', seen := [] } cs' { K with owned := [] } B' := by
  refine ⟨fun _ => [], hA, hroot, h.min, h.dbg.of_eq hc.1 hc.2.1, hc.2.2.trans h.oracle, hc.2.1.trans h.top, hl, ?_, ?_, h.lock, ?_⟩
  · intro c t _ v hv; cases hv
  · exact ⟨[], .nil, fun _ _ => rfl, .nil⟩
  · intro t
    dsimp only
    rw [hq t, (h.busy_none (hq t)).1]
    exact .idle

/-- Every legal action either is not possible now, or meets a bad answer of the underlying allocator, or keeps the invariant;
an owned byte only changes if it is written to or the arena is reset. -/
theorem SInv.step {s0 s cs K B} (h : SInv s0 s cs K B) {a : Act} (hl : SLegal K a) :
    (∃ e, BadAnswer s.w e ∧ sstep s a = .error e) ∨ sstep s a = .ok none ∨
    ∃ r s' cs', sstep s a = .ok (some (r, s')) ∧
      (∀ b ∈ K.owned, ∀ x, b.Has x → a.resets = false → (∀ v, a ≠ .write x v) → s'.w.mem x = s.w.mem x) ∧
      ∀ K', SAfter s.w.mem K a r K' → ∃ B', SInv s0 s' cs' K' B' := by
  cases hl with
  | @allocate t l hb hv =>
    right; right
    refine ⟨none, s.setPc t (.rd (.allocate l)), cs, by simp only [sstep]; rw [if_pos (h.busy_none hb).1]; rfl, fun _ _ _ _ _ _ => rfl, ?_⟩
    intro K' hK
    cases hK
    refine h.call hb (bt := []) (fun R hR => hR) (fun u hu => put_ne _ _ hu) (fun u hu => put_ne _ _ hu) ?_
    dsimp only
    rw [put_same, put_same]
    exact .rdAlloc hv
  | @resize t b p old new hb ho hf hv =>
    right; right
    refine ⟨none, s.setPc t (.rd (.resize p old new)), cs, by simp only [sstep]; rw [if_pos (h.busy_none hb).1]; rfl, fun _ _ _ _ _ _ => rfl, ?_⟩
    intro K' hK
    cases hK with
    | @resize _ b' _ _ _ ho' hf' =>
      refine h.call hb (bt := [b']) (fun R hR => ?_) (fun u hu => put_ne _ _ hu) (fun u hu => put_ne _ _ hu) ?_
      · refine hR.perm ?_
        refine ((List.perm_cons_erase ho').append_right R).trans ?_
        exact List.perm_middle.symm
      · dsimp only
        rw [put_same, put_same]
        exact .rdResize (.resize hf' hv fun _ _ => rfl)
  | @deallocate t b p n hb ho hf =>
    right; right
    refine ⟨none, s.setPc t (.rd (.deallocate p n)), cs, by simp only [sstep]; rw [if_pos (h.busy_none hb).1]; rfl, fun _ _ _ _ _ _ => rfl, ?_⟩
    intro K' hK
    cases hK with
    | @deallocate _ b' _ _ ho' hf' =>
      refine h.call hb (bt := [b']) (fun R hR => ?_) (fun u hu => put_ne _ _ hu) (fun u hu => put_ne _ _ hu) ?_
      · refine hR.perm ?_
        refine ((List.perm_cons_erase ho').append_right R).trans ?_
        exact List.perm_middle.symm
      · dsimp only
        rw [put_same, put_same]
        exact .rdDealloc hf'
  | @go t ch =>
    rcases h.go t ch with h1 | h1 | ⟨r, s', cs', h1, h2, h3⟩
    · exact .inl h1
    · exact .inr (.inl h1)
    · exact .inr (.inr ⟨r, s', cs', h1, fun b hb x hx _ _ => h2 b hb x hx, h3⟩)
  | @write b x v ho hx =>
    right; right
    have hother : ∀ y, y ≠ x → setBytes s.w.mem x 1 (fun _ => v) y = s.w.mem y := fun y hy => setBytes_out (by omega)
    refine ⟨none, _, cs, rfl, ?_, ?_⟩
    · intro d _ y _ _ hw
      exact hother y fun he => hw v (by rw [he])
    · intro K' hK
      cases hK
      obtain ⟨R, hR, hRB, hF⟩ := h.fam.focus 0
      obtain ⟨L, hL, hLB, hLL⟩ := h.fam
      refine ⟨B, h.arena.setUsed (.inr (hR.byte (List.mem_append_left _ ho) hx)), h.root, h.min, h.dbg, h.oracle, h.top, h.log,
        h.seen, h.fam, h.lock, ?_⟩
      intro u
      obtain ⟨R, hR, hRB, hF⟩ := h.fam.focus u
      refine (h.thr u).frame ?_ ?_
      · intro d hd y hy
        have hap := hR.apart
        rw [List.pairwise_append] at hap
        have := hap.2.2 b ho d (List.mem_append_left _ hd)
        exact hother y fun he => this x ⟨hx, he ▸ hy⟩
      · intro d hd
        exact (hR.each d (List.mem_append_right _ (List.mem_append_left _ hd))).1
  | reset hq =>
    right; right
    obtain ⟨_, hi⟩ := reset_spec (m := 0) h.arena
    refine ⟨none, { s with w := resetWorld s.w cs, root := rootOf (resetChunks cs), seen := [] }, resetChunks cs, ?_, fun _ _ _ _ hh => (nomatch hh), ?_⟩
    · simp only [sstep, resetStep]
      rw [ebind_ok (by rw [h.root]; exact arenaReset_keep h.arena)]; rfl
    · intro K' hK
      cases hK
      exact h.resetTo hq rfl hi (resetWorld_consts _ _) (resetWorld_log h.arena h.log)
  | resetUnchecked hq =>
    have hfree : s.writer = none ∧ s.readers = [] := by
      constructor
      · cases hw : s.writer with
        | none => rfl
        | some t =>
          have := (h.lock.wr t).mp hw
          rw [(h.busy_none (hq t)).1] at this
          cases this
      · cases hr : s.readers with
        | nil => rfl
        | cons t l =>
          have := (h.lock.rd t).mp (by rw [hr]; exact List.mem_cons_self)
          rw [(h.busy_none (hq t)).1] at this
          cases this
    right; right
    obtain ⟨_, hi⟩ := reset_spec (m := 0) h.arena
    refine ⟨none, { s with w := resetWorld s.w cs, root := rootOf (resetChunks cs), seen := [] }, resetChunks cs, ?_, fun _ _ _ _ hh => (nomatch hh), ?_⟩
    · simp only [sstep, resetStep]
      rw [if_pos hfree, ebind_ok (by rw [h.root]; exact arenaReset_keep h.arena)]; rfl
    · intro K' hK
      cases hK
      exact h.resetTo hq rfl hi (resetWorld_consts _ _) (resetWorld_log h.arena h.log)
  | resetFinal hq =>
    right; right
    obtain ⟨_, hi⟩ := resetFinal_spec (m := 0) h.arena
    refine ⟨none, { s with w := freeAll s.w cs, root := 0, seen := [] }, [], ?_, fun _ _ _ _ hh => (nomatch hh), ?_⟩
    · simp only [sstep, resetStep]
      rw [ebind_ok (by rw [h.root]; exact arenaReset_all h.arena)]; rfl
    · intro K' hK
      cases hK
      have h1 := freeAll_fields s.w cs
      refine h.resetTo hq rfl hi ⟨h1.2.2.2.1, h1.2.2.1, h1.1⟩ ?_
      unfold LogInv
      rw [h1.2.2.2.2]
      exact log_free (pre := []) h.log.1 h.log.2 h.arena.ok (by simp)

theorem SRun.inv {s0 tr s K} (h0 : SStart s0) (h : SRun s0 Book.empty tr s K) : ∃ cs B, SInv s0 s cs K B := by
  induction h with
  | nil => exact ⟨_, _, h0.inv⟩
  | snoc h hl hs ha ih =>
    obtain ⟨cs, B, hi⟩ := ih
    rcases hi.step hl with ⟨e, _, he⟩ | he | ⟨r, s', cs', he, _, hK⟩
    · rw [hs] at he; cases he
    · rw [hs] at he; cases he
    · rw [hs] at he
      injection he with he; injection he with he; injection he with he1 he2
      subst he1 he2
      obtain ⟨B', hB⟩ := hK _ ha
      exact ⟨_, _, hB⟩

theorem SReach.inv {s0 s K} (h : SReach s0 s K) : ∃ cs B, SInv s0 s cs K B := by
  obtain ⟨h0, tr, h⟩ := h
  exact h.inv h0

end Blink
