import Verif.Proofs.ZeroContract
import Verif.Props.SyncZero
/-
  Property theorem: a `SyncBlinkAlloc` is a documented allocator for threads that use all methods of `Allocator`: C92.
-/
namespace Blink

theorem ZRun.abs {s0 tr z K} (h0 : SStart s0) (h : ZRun (ZSS.start s0) ZBook.empty tr z K) :
    ∃ M σ T, ZLinRun ⟨[], s0.w.mem⟩ tr σ T ∧ ZSim z K M σ T := by
  induction h with
  | nil =>
    exact ⟨Book.empty, _, _, .nil, ⟨fun _ => rfl, ⟨[], .nil, fun _ _ => rfl, .refl _⟩, AbsSim.start.norm, fun _ => rfl⟩⟩
  | snoc h hl hs ha ih =>
    obtain ⟨M, σ, T, hr, hsim⟩ := ih
    obtain ⟨KS, hz⟩ := ZReach.inv ⟨h0, _, h⟩
    exact hsim.step hz hl hs ha hr

/-- C92: a `SyncBlinkAlloc` whose threads use all methods of `Allocator`, `allocate_zeroed` and `grow_zeroed` included, is linearizable. Every
history is one of an allocator whose calls happen at a single moment between call and return, each as the documentation allows: zeros in
the whole block of `allocate_zeroed`, the old contents and then zeros in the block of `grow_zeroed`. The blocks in the hands of the threads
are in use there, with the same contents; when no thread is inside a call, they are all that is in use. -/
theorem C92_linearizable {s0 : SS} {z : ZSS} {K : ZBook} {tr} (h0 : SStart s0) (h : ZRun (ZSS.start s0) ZBook.empty tr z K) :
    ∃ σ T, ZLinRun ⟨[], s0.w.mem⟩ tr σ T ∧ (∀ t, T t = .idle ↔ K.busy t = none) ∧
      (∀ b ∈ K.owned, b ∈ σ.owned) ∧ SameOn σ.owned z.s.w.mem σ.mem ∧ ((∀ t, K.busy t = none) → σ.owned.Perm K.owned) := by
  obtain ⟨M, σ, T, hr, hs⟩ := h.abs h0
  refine ⟨σ, T, hr, fun t => ?_, fun b hb => hs.sim.own.left (hs.own.left hb), fun b hb x hx => (hs.sim.mem b hb x hx).symm, fun hq => ?_⟩
  · have hb := hs.busy t
    rw [hs.thr t]
    rcases hbz : K.busy t with _ | ⟨c | j, ob⟩ <;> rw [hbz] at hb
    · cases z.zpcs t <;> simp [zthr]
    · rw [hb]
      cases z.zpcs t <;> cases z.s.pcs t <;> simp [zthr, zplain, Pc.abs]
    · cases z.zpcs t <;> simp [zthr]
  · have e1 : ∀ u, zvis (z.zpcs u) (K.busy u) = [] := by
      intro u; rw [hq u]; cases z.zpcs u <;> rfl
    have e2 : ∀ u, (z.s.pcs u).pend (M.busy u) = [] := by
      intro u; rw [hs.busy u, hq u]; cases z.s.pcs u <;> rfl
    obtain ⟨ts, _, _, h1⟩ := hs.sim.own
    obtain ⟨us, _, _, h2⟩ := hs.own
    rw [List.flatMap_eq_nil_iff.mpr fun u _ => e2 u, List.append_nil] at h1
    rw [List.flatMap_eq_nil_iff.mpr fun u _ => e1 u, List.append_nil] at h2
    exact h1.trans h2

/-- The hypotheses are met by a history in which one thread is copying in `grow_zeroed` while another is zeroing in `allocate_zeroed`. -/
example : ∃ s0 z K tr, SStart s0 ∧ ZRun (ZSS.start s0) ZBook.empty tr z K ∧ K.owned = [⟨65578, 5, 5, 1⟩] ∧
    K.busy 1 = some (.zeroed (.growZeroed 65568 ⟨10, 8⟩ ⟨16, 8⟩), some ⟨65568, 10, 10, 8⟩) ∧
    K.busy 2 = some (.zeroed (.zeroed ⟨3, 2⟩), none) := by
  obtain ⟨z, K, ⟨h0, tr, h⟩, hf⟩ := of_zdemoAt (sizes := [512, 1024, 2048]) (m := 256)
    (as := zdemoPre ++ [.zcall 1 (.growZeroed 65568 ⟨10, 8⟩ ⟨16, 8⟩)] ++ zdemoMid)
    (f := fun _ K => decide (K.owned = [⟨65578, 5, 5, 1⟩]) &&
      decide (K.busy 1 = some (.zeroed (.growZeroed 65568 ⟨10, 8⟩ ⟨16, 8⟩), some ⟨65568, 10, 10, 8⟩)) &&
      decide (K.busy 2 = some (.zeroed (.zeroed ⟨3, 2⟩), none))) (by decide) (by decide +kernel)
  simp only [Bool.and_eq_true, decide_eq_true_eq] at hf
  exact ⟨_, z, K, tr, h0, h, hf.1.1, hf.1.2, hf.2⟩

/-- And by one that has run to the end, with three blocks in the hands of the threads. -/
example : ∃ s0 z K tr, SStart s0 ∧ ZRun (ZSS.start s0) ZBook.empty tr z K ∧ K.busy 1 = none ∧ K.busy 2 = none ∧ K.owned.length = 3 := by
  obtain ⟨z, K, ⟨h0, tr, h⟩, hf⟩ := of_zdemoAt (sizes := [512, 1024, 2048]) (m := 256)
    (as := zdemoPre ++ [.zcall 1 (.growZeroed 65568 ⟨10, 8⟩ ⟨16, 8⟩)] ++ zdemoMid ++ zgoes 1 9 ++ bgoes 1 3 ++ zgoes 2 3)
    (f := fun _ K => decide (K.busy 1 = none) && decide (K.busy 2 = none) && decide (K.owned.length = 3)) (by decide) (by decide +kernel)
  simp only [Bool.and_eq_true, decide_eq_true_eq] at hf
  exact ⟨_, z, K, tr, h0, h, hf.1.1, hf.1.2, hf.2⟩

end Blink
