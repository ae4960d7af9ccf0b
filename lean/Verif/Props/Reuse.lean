import Verif.Props.Room
import Verif.Props.Sync
/-
  What shrinking and deallocating the newest block do: C62, C63. The documentation promises that they free memory for reuse; the
  code does not.
-/
namespace Blink

/-! ### C62 -/

/-- C62 in full (README.md:31-34): shrinking the block at the tip frees its tail for reuse. -/
def C62_full : Prop :=
  ∀ (s0 s s' : St) (L : List Owned) (p e : Nat) (old new : Layout) (r : Resp), Reach s0 s L → Legal L (.resize p old new) →
    new.align ≤ old.align → new.size < old.size → s.room = some (p + old.size, e) → step s (.resize p old new) = .ok (r, s') →
    s'.room = some (p + new.size, e)

/-- C62 is false: after shrinking the only block from 100 bytes to 10, the room is what it was. -/
theorem C62_full_false : ¬ C62_full := by
  intro h
  obtain ⟨s, L, r, s', h1, h2, h3, _, h5⟩ := of_demoAt (sizes := [512]) (m := 256)
    (ops := [.allocate ⟨100, 8⟩]) (op := .resize 65568 ⟨100, 8⟩ ⟨10, 8⟩)
    (f := fun s _ _ s' => s.room == some (65668, 66048) && s'.room == some (65668, 66048)) (by decide) (by decide +kernel)
  simp only [Bool.and_eq_true, beq_iff_eq] at h5
  have := h _ s s' L 65568 66048 ⟨100, 8⟩ ⟨10, 8⟩ r h1 h2 (by decide) (by decide) h5.1 h3
  rw [h5.2] at this
  simp at this

/-- C62, what holds instead: the shrink answers with the old address and the whole old length and changes nothing, so the room is
what it was. (The rest of the claim, that the tail can be allocated again before the next reset, is what `C62_full_false`
refutes.) -/
theorem C62_shrink_partial {s0 s s' : St} {L : List Owned} (h : Reach s0 s L) {p : Nat} {old new : Layout} {r : Resp}
    (hl : Legal L (.resize p old new)) (ha : new.align ≤ old.align) (hs : new.size ≤ old.size)
    (hst : step s (.resize p old new) = .ok (r, s')) : r = .block ⟨p, old.size⟩ ∧ s'.room = s.room ∧ s' = s := by
  rw [C07_shrink_partial h hl hs ha] at hst
  injection hst with hst
  injection hst with h1 h2
  exact ⟨h1.symm, by rw [h2], h2.symm⟩

/-! ### C63 -/

/-- C63 in full (src/arena/mod.rs:446-455 with src/api.rs:6-8): deallocating the block at the tip makes its memory available again. -/
def C63_full : Prop :=
  ∀ (s0 s s' : St) (L : List Owned) (p n e : Nat) (r : Resp), Reach s0 s L → Legal L (.deallocate p n) →
    s.room = some (p + n, e) → step s (.deallocate p n) = .ok (r, s') → s'.room = some (p, e)

/-- C63 is false: the exchange in `ChunkHeader::dealloc` expects the cursor to be at the start of the block, where it is not. -/
theorem C63_full_false : ¬ C63_full := by
  intro h
  obtain ⟨s, L, r, s', h1, h2, h3, _, h5⟩ := of_demoAt (sizes := [512]) (m := 256)
    (ops := [.allocate ⟨100, 8⟩]) (op := .deallocate 65568 100)
    (f := fun s _ _ s' => s.room == some (65668, 66048) && s'.room == some (65668, 66048)) (by decide) (by decide +kernel)
  simp only [Bool.and_eq_true, beq_iff_eq] at h5
  have := h _ s s' L 65568 100 66048 r h1 h2 h5.1 h3
  rw [h5.2] at this
  simp at this

/-- C63, what holds instead: `deallocate` changes nothing. The memory stays taken until the next reset. -/
theorem C63_dealloc_partial {s0 s s' : St} {L : List Owned} (h : Reach s0 s L) {p n : Nat} {r : Resp}
    (hl : Legal L (.deallocate p n)) (hst : step s (.deallocate p n) = .ok (r, s')) : s'.room = s.room ∧ s' = s := by
  rw [C09_deallocate_noop h hl] at hst
  injection hst with hst
  injection hst with h1 h2
  exact ⟨by rw [h2], h2.symm⟩

/-- C63, the same for `SyncBlinkAlloc`: no step of a thread that executes `deallocate` changes memory or talks to the underlying
allocator, whatever the other threads do. -/
theorem C63_threads_dealloc_partial {s0 s s' : SS} {K : Book} (h : SReach s0 s K) {t p n : Nat} {ob : Option Owned}
    (hb : K.busy t = some (.deallocate p n, ob)) {ch : Choice} {r : Option Resp}
    (hs : sstep s (.go t ch) = .ok (some (r, s'))) : s'.w = s.w ∧ s'.root = s.root := by
  obtain ⟨cs, B, hi⟩ := h.inv
  have ht := hi.thr t
  obtain ⟨Bt, hB⟩ : ∃ Bt, B t = Bt := ⟨_, rfl⟩
  rw [hb, hB] at ht
  have hg := hi.go_res hs
  have nojob : ∀ {j Bj m sn}, ¬ JobOK m sn (some (.deallocate p n, ob)) j Bj := by
    intro j Bj m sn hj; cases hj
  cases hg with
  | commit hpc => rw [hpc] at ht; cases ht; exact absurd ‹_› nojob
  | rcommit hpc => rw [hpc] at ht; cases ht; exact absurd ‹_› nojob
  | slowErr hpc => rw [hpc] at ht; cases ht; exact absurd ‹_› nojob
  | slowOk hpc => rw [hpc] at ht; cases ht; exact absurd ‹_› nojob
  | copy hpc => rw [hpc] at ht; cases ht
  | _ => exact ⟨rfl, rfl⟩

/-- Non-vacuity of `C62_shrink_partial` and `C63_dealloc_partial`: the block at the tip, with another one below it. -/
example : ∃ s0 s s' L r, Reach s0 s L ∧ L.length = 2 ∧ Legal L (.resize 65672 ⟨50, 8⟩ ⟨10, 4⟩) ∧
    Legal L (.deallocate 65672 50) ∧ step s (.resize 65672 ⟨50, 8⟩ ⟨10, 4⟩) = .ok (r, s') ∧ s.room = some (65672 + 50, 66048) := by
  obtain ⟨s, L, r, s', h1, h2, h3, _, h5⟩ := of_demoAt (sizes := [512]) (m := 256)
    (ops := [.allocate ⟨100, 8⟩, .allocate ⟨50, 8⟩]) (op := .resize 65672 ⟨50, 8⟩ ⟨10, 4⟩)
    (f := fun s L _ _ => s.room == some (65672 + 50, 66048) && decide (L = [⟨65672, 50, 50, 8⟩, ⟨65568, 100, 100, 8⟩]))
    (by decide) (by decide +kernel)
  simp only [Bool.and_eq_true, beq_iff_eq, decide_eq_true_eq] at h5
  obtain ⟨h5, rfl⟩ := h5
  exact ⟨_, s, s', _, r, h1, rfl, h2, .deallocate List.mem_cons_self ⟨rfl, by decide, by decide⟩, h3, h5⟩

/-- Non-vacuity of `C63_threads_dealloc_partial`: thread 3 deallocates the newest block while thread 1 is allocating. -/
example : ∃ s0 s K s', SReach s0 s K ∧ K.busy 3 = some (.deallocate 65576 8, some ⟨65576, 8, 8, 8⟩) ∧ K.busy 1 ≠ none ∧
    sstep s (.go 3 fresh) = .ok (some (none, s')) := by
  obtain ⟨s, K, hr, hf⟩ := of_sdemoAt (sizes := [512]) (m := 256)
    (as := [.call 1 (.allocate ⟨8, 8⟩)] ++ goes 1 5 ++ [.call 3 (.allocate ⟨8, 8⟩)] ++ goes 3 4 ++
      [.call 1 (.allocate ⟨8, 8⟩), .call 3 (.deallocate 65576 8)] ++ goes 1 2 ++ goes 3 1)
    (f := fun s K => decide (K.busy 3 = some (.deallocate 65576 8, some ⟨65576, 8, 8, 8⟩)) && decide (K.busy 1 ≠ none) &&
      (match sstep s (.go 3 fresh) with
       | .ok (some (none, _)) => true
       | _ => false)) (by decide) (by decide +kernel)
  simp only [Bool.and_eq_true, decide_eq_true_eq] at hf
  obtain ⟨⟨h1, h2⟩, h3⟩ := hf
  split at h3
  · rename_i s' hs; exact ⟨_, s, K, s', hr, h1, h2, hs⟩
  · cases h3

end Blink
