import Verif.Spec.SyncRace
import Verif.Proofs.SyncFrame
import Verif.Proofs.SyncCas
/-
  The invariant of `SyncBlinkAlloc` also holds along histories in which `reset_unchecked` races with `allocate`.
-/
namespace Blink

/-- A thread outside the lock that was not handed a block has nothing. -/
theorem TOK.nothing {m root sn bz pc Bt} (h : TOK m root sn bz pc Bt) (hr : pc.holdsR = false) (hw : pc.holdsW = false)
    (hb : ∀ c b, bz ≠ some (c, some b)) : Bt = [] := by
  cases h with
  | idle => rfl
  | rdAlloc => rfl
  | rdResize => exact absurd rfl (hb _ _)
  | rdDealloc => exact absurd rfl (hb _ _)
  | wr hj =>
    cases hj with
    | alloc => rfl
    | resize => exact absurd rfl (hb _ _)
  | slow => cases hw
  | copy => exact absurd rfl (hb _ _)
  | @retAllocOk _ wr =>
    cases wr with
    | false => cases hr
    | true => cases hw
  | retAllocErr => rfl
  | retResizeOk => exact absurd rfl (hb _ _)
  | retResizeErr => exact absurd rfl (hb _ _)
  | retDealloc => rfl
  | _ => cases hr

/-- A reset while nobody holds the lock; threads may be executing `allocate`. -/
theorem SInv.resetOver {s0 s cs K B} (h : SInv s0 s cs K B) (hq : ∀ t c b, K.busy t ≠ some (c, some b))
    (hf : s.writer = none ∧ s.readers = []) {w' : World} {cs' : List Chunk} {root' : Nat}
    (hroot : root' = rootOf cs')
    (hA : AInv w' cs' s0.w.held) (hc : w'.debug = s.w.debug ∧ w'.top = s.w.top ∧ w'.oracle = s.w.oracle)
    (hl : LogInv w'.log cs') :
    ∃ B', SInv s0 { s with w := w', root := root', seen := [] } cs' { K with owned := [] } B' := by
  refine ⟨fun _ => [], hA, hroot, h.min, h.dbg.of_eq hc.1 hc.2.1, hc.2.2.trans h.oracle, hc.2.1.trans h.top, hl, ?_, ?_, h.lock, ?_⟩
  · intro c t _ v hv; cases hv
  · exact ⟨[], .nil, fun _ _ => rfl, .nil⟩
  · intro t
    have hr : (s.pcs t).holdsR = false := by
      cases hx : (s.pcs t).holdsR with
      | false => rfl
      | true => have := (h.lock.rd t).mpr hx; rw [hf.2] at this; cases this
    have hw : (s.pcs t).holdsW = false := by
      cases hx : (s.pcs t).holdsW with
      | false => rfl
      | true => have := (h.lock.wr t).mpr hx; rw [hf.1] at this; cases this
    have h1 := h.thr t
    have hB := h1.nothing hr hw (hq t)
    rw [hB] at h1
    exact (h1.root hr).frame (fun _ hb => nomatch hb) (fun _ hb => nomatch hb)

/-- Blocks may be forgotten. -/
theorem SInv.forget {s0 s cs K B} (h : SInv s0 s cs K B) {L : List Owned} (hs : L.Sublist K.owned) :
    SInv s0 s cs { K with owned := L } B := by
  obtain ⟨ts, a1, a2, a3⟩ := h.fam
  exact { h with fam := ⟨ts, a1, a2, a3.sublist (hs.append_right _)⟩, thr := h.thr }

/-- A racing `reset_unchecked`: it waits for the lock, or resets the arena. -/
theorem SInv.race {s0 s cs K B} (h : SInv s0 s cs K B) (hq : ∀ t c b, K.busy t ≠ some (c, some b)) :
    (¬ (s.writer = none ∧ s.readers = []) ∧ sstep s .resetUnchecked = .ok none) ∨
    ((s.writer = none ∧ s.readers = []) ∧ ∃ s', s' = { s with w := resetWorld s.w cs, root := rootOf (resetChunks cs), seen := [] } ∧
      sstep s .resetUnchecked = .ok (some (none, s')) ∧ ∃ B', SInv s0 s' (resetChunks cs) { K with owned := [] } B') := by
  by_cases hf : s.writer = none ∧ s.readers = []
  · refine .inr ⟨hf, _, rfl, ?_, ?_⟩
    · simp only [sstep, resetStep]
      rw [if_pos hf, ebind_ok (by rw [h.root]; exact arenaReset_keep h.arena)]; rfl
    · obtain ⟨_, hi⟩ := reset_spec (m := 0) h.arena
      exact h.resetOver hq hf rfl hi (resetWorld_consts _ _) (resetWorld_log h.arena h.log)
  · refine .inl ⟨hf, ?_⟩
    simp only [sstep]
    rw [if_neg hf]; rfl

/-- Every legal action either is not possible now, or meets a bad answer of the underlying allocator, or keeps the invariant. -/
theorem SInv.rstep {s0 s cs B} {R : RBook} (h : SInv s0 s cs R.toBook B) {a : Act} (hl : RLegal R a) :
    (∃ e, BadAnswer s.w e ∧ sstep s a = .error e) ∨ sstep s a = .ok none ∨
    ∃ r s' cs', sstep s a = .ok (some (r, s')) ∧
      (∀ b ∈ R.owned, ∀ x, b.Has x → a.resets = false → (∀ v, a ≠ .write x v) → s'.w.mem x = s.w.mem x) ∧
      ∀ R' : RBook, RAfter s.w.mem R a r R' → ∃ B', SInv s0 s' cs' R'.toBook B' := by
  have race : (∀ t c b, R.busy t ≠ some (c, some b)) → a = .resetUnchecked → sstep s a = .ok none ∨
      ∃ r s' cs', sstep s a = .ok (some (r, s')) ∧
      (∀ b ∈ R.owned, ∀ x, b.Has x → a.resets = false → (∀ v, a ≠ .write x v) → s'.w.mem x = s.w.mem x) ∧
      ∀ R' : RBook, RAfter s.w.mem R a r R' → ∃ B', SInv s0 s' cs' R'.toBook B' := by
    rintro hq rfl
    rcases h.race hq with ⟨_, he⟩ | ⟨_, s', _, he, hB⟩
    · exact .inl he
    · refine .inr ⟨_, s', resetChunks cs, he, fun _ _ _ _ hh => (nomatch hh), ?_⟩
      intro R' hR
      generalize ha : Act.resetUnchecked = a at hR
      generalize hr : (none : Option Resp) = r at hR
      cases hR with
      | other _ hn => exact absurd ha.symm hn
      | lost => cases ha
      | race => exact hB
  cases hl with
  | race hq => exact .inr (race hq rfl)
  | other hl =>
    by_cases ha : a = .resetUnchecked
    · refine .inr (race ?_ ha)
      subst ha
      cases hl with
      | resetUnchecked hq => intro t c b hb; rw [hq t] at hb; cases hb
    · rcases h.step hl with he | he | ⟨r, s', cs', he, hfr, hK⟩
      · exact .inl he
      · exact .inr (.inl he)
      · refine .inr (.inr ⟨r, s', cs', he, hfr, ?_⟩)
        intro R' hR
        cases hR with
        | other hS => exact hK _ hS
        | race => exact absurd rfl ha
        | @lost t ch c ob r hb _ =>
          obtain ⟨B', hB⟩ := hK _ (.ret hb)
          exact ⟨B', hB.forget (List.sublist_append_right _ _)⟩

theorem RRun.inv {s0 tr s R} (h0 : SStart s0) (h : RRun s0 RBook.empty tr s R) : ∃ cs B, SInv s0 s cs R.toBook B := by
  induction h with
  | nil => exact ⟨_, _, h0.inv⟩
  | snoc h hl hs ha ih =>
    obtain ⟨cs, B, hi⟩ := ih
    rcases hi.rstep hl with ⟨e, _, he⟩ | he | ⟨r, s', cs', he, _, hK⟩
    · rw [hs] at he; cases he
    · rw [hs] at he; cases he
    · rw [hs] at he
      injection he with he; injection he with he; injection he with h1 h2
      subst h1 h2
      obtain ⟨B', hB⟩ := hK _ ha
      exact ⟨cs', B', hB⟩

theorem RReach.inv {s0 s R} (h : RReach s0 s R) : ∃ cs B, SInv s0 s cs R.toBook B := by
  obtain ⟨h0, tr, hr⟩ := h
  exact hr.inv h0

end Blink
