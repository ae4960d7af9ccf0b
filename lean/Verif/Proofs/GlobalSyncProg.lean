import Verif.Proofs.GlobalSyncRun
import Verif.Proofs.SyncCas
/-
  Progress of threads using a global allocator with two modes.
-/
namespace Blink

theorem SInv.waits_of {s0 s cs K B} (h : SInv s0 s cs K B) {t : Nat} {ch : Choice} (hn : goStep s t ch = .ok none) : s.waits t := by
  rcases h.go_exact t ch with ⟨_, _, _, _, _, he⟩ | ⟨hw, _⟩ | ⟨_, _, he, _⟩
  · rw [he] at hn; cases hn
  · exact hw
  · rw [he] at hn; cases hn

/-- Who cannot move is outside or waits for somebody else. -/
theorem SInv.blocked {s0 s cs K B} (h : SInv s0 s cs K B) {t : Nat} {ch : Choice} (hn : goStep s t ch = .ok none) (hb : K.busy t ≠ none) :
    ∃ u, u ≠ t ∧ (u ∈ s.readers ∨ s.writer = some u) := by
  have hw := h.waits_of hn
  obtain ⟨h1, h2⟩ := hw.noLock
  have key : ∀ u, (u ∈ s.readers ∨ s.writer = some u) → u ≠ t := by
    rintro u (hu | hu) rfl
    · have := (h.lock.rd u).mp hu; rw [h1] at this; cases this
    · have := (h.lock.wr u).mp hu; rw [h2] at this; cases this
  apply Classical.byContradiction
  intro hne
  refine h.not_waits ⟨fun u hu => ?_, fun u hu => ?_⟩ hb hw
  · exact absurd ⟨u, key u (.inl hu), .inl hu⟩ hne
  · exact absurd ⟨u, key u (.inr hu), .inr hu⟩ hne

theorem SInv.holder {s0 s cs K B} (h : SInv s0 s cs K B) {u : Nat} (hu : u ∈ s.readers ∨ s.writer = some u) :
    K.busy u ≠ none ∧ ∀ ch, goStep s u ch ≠ .ok none := by
  refine ⟨fun hn => ?_, fun ch hn => ?_⟩
  · have := (h.busy_none hn).1
    rcases hu with hu | hu
    · have h2 := (h.lock.rd u).mp hu; rw [this] at h2; cases h2
    · have h2 := (h.lock.wr u).mp hu; rw [this] at h2; cases h2
  · obtain ⟨h1, h2⟩ := (h.waits_of hn).noLock
    rcases hu with hu | hu
    · have := (h.lock.rd u).mp hu; rw [h1] at this; cases this
    · have := (h.lock.wr u).mp hu; rw [h2] at this; cases this

/-- A thread inside the `SyncBlinkAlloc`. -/
theorem GSInv.inside {g0 g cs D K I B} (h : GSInv g0 g cs D K I B) {t : Nat} (hb : I.busy t ≠ none) :
    K.busy t ≠ none ∧ ∃ c, g.pcs t = .blink c := by
  have ht := h.thr t
  revert ht hb
  generalize K.busy t = bz, g.pcs t = pc, I.busy t = ibz
  intro hb ht
  cases ht <;> first | exact ⟨by simp, _, rfl⟩ | exact absurd rfl hb

theorem GSInv.blink_busy {g0 g cs D K I B} (h : GSInv g0 g cs D K I B) {t : Nat} {c : GCall} (hpc : g.pcs t = .blink c) : I.busy t ≠ none := by
  have ht := h.thr t
  rw [hpc] at ht
  generalize K.busy t = bz, I.busy t = ibz at ht
  cases ht <;> simp

theorem ggo_blink_none {g : GSS} {t : Nat} {c : GCall} {ch : Choice} (hpc : g.pcs t = .blink c) : ggo g t ch = .ok none ↔ goStep g.s t ch = .ok none := by
  unfold ggo
  rw [hpc]
  dsimp only
  constructor
  · intro hn
    cases hg : goStep g.s t ch with
    | error e => rw [hg] at hn; cases hn
    | ok x =>
      rw [hg] at hn
      rcases x with _ | ⟨_ | r, s⟩
      · rfl
      · cases hn
      · exfalso
        cases c <;> cases r <;> cases hn
  · intro hg
    rw [hg]; rfl

/-- A thread inside a call that cannot move waits for the lock, which somebody else inside a call has; and they can move. -/
theorem GSInv.blocked {g0 g cs D K I B} (h : GSInv g0 g cs D K I B) {t : Nat} {ch : Choice} (hn : ggo g t ch = .ok none) (hb : K.busy t ≠ none) :
    ∃ u, u ≠ t ∧ K.busy u ≠ none ∧ (u ∈ g.s.readers ∨ g.s.writer = some u) ∧ ∀ ch, ggo g u ch ≠ .ok none := by
  cases hpc : g.pcs t with
  | idle =>
    have ht := h.thr t
    rw [hpc] at ht
    exact absurd ht.of_idle.1 hb
  | blink c =>
    obtain ⟨u, hne, hu⟩ := h.inner.blocked ((ggo_blink_none hpc).mp hn) (h.blink_busy hpc)
    obtain ⟨h1, h2⟩ := h.inner.holder hu
    obtain ⟨h3, c', h4⟩ := h.inside h1
    exact ⟨u, hne, h3, hu, fun ch he => h2 ch ((ggo_blink_none h4).mp he)⟩
  | direct c =>
    exfalso
    unfold ggo at hn
    rw [hpc] at hn
    dsimp only at hn
    cases hbp : g.bypass (baseFor c) with
    | error e => rw [hbp] at hn; cases hn
    | ok y => rw [hbp] at hn; cases hn
  | zero l b k =>
    exfalso
    unfold ggo at hn
    rw [hpc] at hn
    dsimp only at hn
    split at hn
    · split at hn <;> cases hn
    · cases hn
  | fin c r =>
    exfalso
    unfold ggo at hn
    rw [hpc] at hn
    cases hn

/-! ### A thread running alone -/

theorem gsolo_step {g g' : GSS} {t : Nat} (he : ggo g t fresh = .ok (some (none, g'))) (m : Nat) : gsolo (m + 1) g t = gsolo m g' t := by
  conv => lhs; unfold gsolo
  rw [he]

theorem gsolo_ret {g g' : GSS} {t : Nat} {r : GResp} (he : ggo g t fresh = .ok (some (some r, g'))) (m : Nat) :
    gsolo (m + 1) g t = .ok (some (r, g')) := by
  unfold gsolo
  rw [he]

/-- One step that does not return. -/
theorem GSInv.go_inside {g0 g cs D K I B} (h : GSInv g0 g cs D K I B) {t : Nat} {ch : Choice} {g' : GSS}
    (he : gsstep g (.go t ch) = .ok (some (none, g'))) : ∃ cs' D' I' B', GSInv g0 g' cs' D' K I' B' :=
  (h.step_ok .go he .inside).2

/-- The thread follows the `SyncBlinkAlloc`. -/
theorem GSInv.solo_blink {g0 : GSS} {K : GSBook} {t : Nat} {c : GCall} : ∀ (n : Nat) {g cs D I B}, GSInv g0 g cs D K I B → g.pcs t = .blink c →
    (∀ r s', solo n g.s t = .ok (some (r, s')) → ∃ k g' cs' D' I' B', GSInv g0 g' cs' D' K I' B' ∧ g'.pcs t = afterBlink c r ∧
      ∀ m, gsolo (k + m) g t = gsolo m g' t) ∧
    (∀ e, solo n g.s t = .error e → gsolo n g t = .error e) := by
  intro n
  induction n with
  | zero => intro g cs D I B h hpc; exact ⟨by rintro r s' ⟨⟩, by rintro e ⟨⟩⟩
  | succ n ih =>
    intro g cs D I B h hpc
    unfold solo
    cases hg : goStep g.s t fresh with
    | error e =>
      refine ⟨by rintro r s' ⟨⟩, ?_⟩
      rintro e' ⟨⟩
      unfold gsolo ggo
      rw [hpc]
      dsimp only
      rw [ebind_err' hg]
    | ok x =>
      rcases x with _ | ⟨_ | r, s⟩
      · exact ⟨by rintro r s' ⟨⟩, by rintro e ⟨⟩⟩
      · have he : ggo g t fresh = .ok (some (none, { g with s := s })) := by
          unfold ggo; rw [hpc]; dsimp only; rw [ebind_ok' hg]; rfl
        obtain ⟨cs', D', I', B', h'⟩ := h.go_inside he
        obtain ⟨i1, i2⟩ := ih h' hpc
        refine ⟨fun r s' hs => ?_, fun e hs => ?_⟩
        · obtain ⟨k, g', cs', D', I', B', h1, h2, h3⟩ := i1 r s' hs
          exact ⟨k + 1, g', cs', D', I', B', h1, h2, fun m => by
            rw [show k + 1 + m = (k + m) + 1 by omega, gsolo_step he]; exact h3 m⟩
        · rw [gsolo_step he]; exact i2 e hs
      · have he : ggo g t fresh = .ok (some (none, { g with s := s }.setPc t (afterBlink c r))) := by
          unfold ggo; rw [hpc]; dsimp only; rw [ebind_ok' hg]
          cases c <;> cases r <;> rfl
        obtain ⟨cs', D', I', B', h'⟩ := h.go_inside he
        refine ⟨?_, by rintro e ⟨⟩⟩
        rintro r' s' ⟨⟩
        exact ⟨1, _, cs', D', I', B', h', GSS.setPc_same _ _ _, fun m => by rw [Nat.add_comm]; exact gsolo_step he m⟩

theorem gsolo_fin {g : GSS} {t : Nat} {c : GCall} {r : Resp} (hpc : g.pcs t = .fin c r) (m : Nat) :
    ∃ r' g', gsolo (m + 1) g t = .ok (some (r', g')) :=
  ⟨_, _, gsolo_ret (by unfold ggo; rw [hpc]; rfl) m⟩

theorem GSInv.solo_zero {g0 : GSS} {K : GSBook} {t : Nat} {l : Layout} {b : Slice} : ∀ (j : Nat) {g cs D I B k}, GSInv g0 g cs D K I B →
    g.pcs t = .zero l b k → b.len ≤ k + j → ∃ r g', gsolo (j + 2) g t = .ok (some (r, g')) := by
  intro j
  induction j with
  | zero =>
    intro g cs D I B k h hpc hk
    have he : ggo g t fresh = .ok (some (none, g.setPc t (.fin (.allocZeroed l) (.block b)))) := by
      unfold ggo; rw [hpc]; dsimp only; rw [if_neg (by omega)]; rfl
    obtain ⟨r, g', hf⟩ := gsolo_fin (GSS.setPc_same g t (.fin (.allocZeroed l) (.block b))) 0
    exact ⟨r, g', (gsolo_step he 1).trans hf⟩
  | succ j ih =>
    intro g cs D I B k h hpc hk
    by_cases hlt : k < b.len
    · obtain ⟨R, S, f1, _⟩ := h.fam.focus t
      rw [hpc] at f1
      have ho : Owned.of b l ∈ I.owned := f1.mem_iff.mpr (List.mem_append_right _ (List.mem_append_left _ List.mem_cons_self))
      have hx : (Owned.of b l).Has (b.addr + k) := ⟨by simp only [Owned.of]; omega, by simp only [Owned.of]; omega⟩
      have hacc : g.s.w.accessible (b.addr + k) 1 = true := h.inner.arena.acc_used (h.inner.fam.owned.byte ho hx)
      have he : ggo g t fresh = .ok (some (none,
          ({ g with s := { g.s with w := { g.s.w with mem := setBytes g.s.w.mem (b.addr + k) 1 (fun _ => .raw 0) } } } : GSS).setPc t
          (.zero l b (k + 1)))) := by
        unfold ggo; rw [hpc]; dsimp only; rw [if_pos hlt, if_pos hacc]; rfl
      obtain ⟨cs', D', I', B', h'⟩ := h.go_inside he
      obtain ⟨r, g', hf⟩ := ih h' (GSS.setPc_same _ _ _) (by omega)
      exact ⟨r, g', (gsolo_step he (j + 2)).trans hf⟩
    · have he : ggo g t fresh = .ok (some (none, g.setPc t (.fin (.allocZeroed l) (.block b)))) := by
        unfold ggo; rw [hpc]; dsimp only; rw [if_neg hlt]; rfl
      obtain ⟨r, g', hf⟩ := gsolo_fin (GSS.setPc_same g t (.fin (.allocZeroed l) (.block b))) (j + 1)
      exact ⟨r, g', (gsolo_step he (j + 2)).trans hf⟩

/-- Alone, a thread comes back from its call. -/
theorem GSInv.finishes {g0 g cs D K I B} (h : GSInv g0 g cs D K I B) (hm : K.blinkMode = true) {t : Nat} (hb : K.busy t ≠ none) (hf : g.s.Free t) :
    ∃ n, (∃ r g', gsolo n g t = .ok (some (r, g'))) ∨ ∃ e w, gsolo n g t = .error e ∧ w.oracle = g0.s.w.oracle ∧ BadAnswer w e := by
  cases hpc : g.pcs t with
  | idle =>
    have ht := h.thr t
    rw [hpc] at ht
    exact absurd ht.of_idle.1 hb
  | direct c =>
    have ht := h.thr t
    rw [hpc, hm] at ht
    generalize K.busy t = bz, I.busy t = ibz at ht
    cases ht <;> exact absurd (show true = false by assumption) (by simp)
  | fin c r => exact ⟨1, .inl (gsolo_fin hpc 0)⟩
  | zero l b k => exact ⟨_, .inl (h.solo_zero b.len hpc (by omega))⟩
  | blink c =>
    obtain ⟨h1, h2⟩ := h.solo_blink (g.s.left (g.s.pcs t)) hpc
    rcases h.inner.finishes _ (h.blink_busy hpc) hf (Nat.le_refl _) with ⟨r, s', hs⟩ | ⟨e, w, hs, ho, hbad⟩
    · obtain ⟨k, g', cs', D', I', B', h', hpc', hk⟩ := h1 r s' hs
      unfold afterBlink at hpc'
      split at hpc'
      · rename_i l b
        obtain ⟨r, g'', hz⟩ := h'.solo_zero b.len hpc' (by omega)
        exact ⟨_, .inl ⟨r, g'', (hk _).trans hz⟩⟩
      · obtain ⟨r, g'', hz⟩ := gsolo_fin hpc' 0
        exact ⟨_, .inl ⟨r, g'', (hk _).trans hz⟩⟩
    · exact ⟨_, .inr ⟨e, w, h2 e hs, ho, hbad⟩⟩

end Blink
