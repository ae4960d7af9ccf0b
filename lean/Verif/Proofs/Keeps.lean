import Verif.Proofs.Blind
/-
  Computations that do not write a given byte.
-/
namespace Blink

/-- Run in `w`, the computation does not write the byte at `x`. -/
def Keeps {α} (x : Nat) (f : M α) (w : World) : Prop := ∀ a w', f w = .ok (a, w') → w'.mem x = w.mem x

namespace Keeps

theorem pure {α} {x w} (a : α) : Keeps x (Pure.pure a : M α) w := by
  intro b w' h; cases h; rfl

theorem bind {α β} {x w} {f : M α} {g : α → M β} (hf : Keeps x f w) (hg : ∀ a w', f w = .ok (a, w') → Keeps x (g a) w') :
    Keeps x (f >>= g) w := by
  intro b w' h
  obtain ⟨a, w1, h1, h2⟩ := mbind_inv h
  exact (hg a w1 h1 b w' h2).trans (hf a w1 h1)

theorem ub {α} {x w} (s : String) : Keeps x (Blink.ub s : M α) w := by
  intro b w' h; cases h

theorem require {x w} (p : Prop) [Decidable p] (s : String) : Keeps x (Blink.require p s) w := by
  intro b w' h
  unfold Blink.require at h
  split at h <;> cases h
  rfl

theorem dassert {x w} (p : Prop) [Decidable p] (s : String) : Keeps x (Blink.dassert p s) w := by
  intro b w' h
  rw [dassert_world h]

theorem addU {x w} (a b : Nat) : Keeps x (Blink.addU a b) w := by
  intro b w' h
  unfold Blink.addU at h
  split at h <;> cases h
  rfl

theorem subU {x w} (a b : Nat) : Keeps x (Blink.subU a b) w := by
  intro b w' h
  unfold Blink.subU at h
  split at h <;> cases h
  rfl

theorem loadWord {x w} (a : Nat) : Keeps x (Blink.loadWord a) w := by
  intro b w' h
  rw [loadWord_world h]

theorem storeWord {x w} (a u : Nat) (h : x < a ∨ a + 8 ≤ x) : Keeps x (Blink.storeWord a u) w := by
  intro b w' h'
  unfold Blink.storeWord at h'
  split at h' <;> cases h'
  exact setBytes_out (by omega)

theorem cellCas {x w} (a o n : Nat) (h : x < a ∨ a + 8 ≤ x) : Keeps x (Blink.cellCas a o n) w := by
  unfold Blink.cellCas
  refine bind (loadWord a) fun cur w' _ => ?_
  split
  · exact bind (storeWord _ _ h) fun _ _ _ => pure _
  · exact pure _

theorem tryBump {x w} (c e : Nat) (l : Layout) : Keeps x (Blink.tryBump c e l) w := by
  unfold Blink.tryBump layoutSum
  refine bind (bind (subU _ _) fun _ _ _ => addU _ _) fun _ _ _ => ?_
  split
  · exact pure _
  refine bind (subU _ _) fun _ _ _ => bind (dassert _ _) fun _ _ _ => bind (dassert _ _) fun _ _ _ => bind (addU _ _) fun _ _ _ => ?_
  split
  · exact pure _
  · exact bind (require _ _) fun _ _ _ => pure _

theorem loadRelaxed {x w} (c : Nat) (seen : List Nat) (ch : Choice) : Keeps x (Blink.loadRelaxed c seen ch) w :=
  bind (loadWord c) fun _ _ _ => pure _

theorem chunkAlloc {x w} (c : Nat) (l : Layout) (h : x < c ∨ c + 8 ≤ x) : Keeps x (Blink.chunkAlloc c l) w := by
  unfold Blink.chunkAlloc loadCursor loadEnd
  refine bind (loadWord _) fun _ _ _ => bind (loadWord _) fun _ _ _ => bind (tryBump _ _ _) fun b _ _ => ?_
  split
  · exact pure _
  · unfold cellCasWeak
    refine bind (bind (loadWord _) fun _ _ _ => bind (dassert _ _) fun _ _ _ => storeWord c _ (by omega)) fun _ _ _ => ?_
    exact bind (subU _ _) fun _ _ _ => bind (dassert _ _) fun _ _ _ => bind (dassert _ _) fun _ _ _ => pure _

theorem initChunk {x w} (sl : Slice) (p : Nat) (h : x < sl.addr ∨ sl.addr + 32 ≤ x) : Keeps x (Blink.initChunk sl p) w := by
  unfold Blink.initChunk chunkCap loadEnd loadCum
  refine bind (dassert _ _) fun _ _ _ => bind (dassert _ _) fun _ _ _ => bind (addU _ _) fun _ _ _ => bind (addU _ _) fun _ _ _ =>
    bind ?_ fun _ _ _ => bind (storeWord sl.addr _ (by omega)) fun _ _ _ => bind (storeWord (sl.addr + 8) _ (by omega)) fun _ _ _ =>
    bind (storeWord (sl.addr + 16) _ (by omega)) fun _ _ _ => bind (storeWord (sl.addr + 24) _ (by omega)) fun _ _ _ => pure _
  split
  · exact pure _
  · exact bind (bind (loadWord _) fun _ _ _ => bind (addU _ _) fun _ _ _ => subU _ _) fun _ _ _ =>
      bind (loadWord _) fun _ _ _ => addU _ _

theorem baseAlloc {x w} (l : Layout) (hx : w.Holds x) : Keeps x (Blink.baseAlloc l) w := by
  intro o w' h
  cases o with
  | none =>
    unfold Blink.baseAlloc at h
    split at h
    · cases h; rfl
    · split at h <;> cases h
  | some sl =>
    have h1 := baseAlloc_apart h hx
    unfold Blink.baseAlloc at h
    split at h
    · cases h
    · split at h <;> cases h
      show setBytes w.mem sl.addr sl.len (fun _ => .uninit) x = w.mem x
      exact setBytes_out h1.2

theorem allocSlow {x w} (root m : Nat) (l : Layout) (hx : w.Holds x) : Keeps x (Blink.allocSlow root m l) w := by
  unfold Blink.allocSlow
  refine bind ?_ fun rc w1 h1 => ?_
  · split
    · exact pure _
    · exact bind (loadWord _) fun _ _ _ => pure _
  have := rootCum_world h1
  subst this
  cases hcs : slowChunkSize rc m l with
  | none => exact pure _
  | some n =>
    refine bind (dassert _ _) fun _ w2 h2 => ?_
    have := dassert_world h2
    subst this
    have hn := slowChunkSize_ge hcs
    have hc : ∀ {c w3}, Blink.allocChunk n root w2 = .ok (some c, w3) → x < c ∨ c + 32 ≤ x := by
      intro c w3 h3
      unfold Blink.allocChunk at h3
      cases h4 : alignUp n HDR_ALIGN with
      | none => rw [h4] at h3; cases h3
      | some size =>
        rw [h4] at h3
        obtain ⟨o, w4, h5, h6⟩ := mbind_inv h3
        cases o with
        | none => cases h6
        | some sl =>
          obtain ⟨c', w5, h7, h8⟩ := mbind_inv h6
          cases h8
          have h9 := baseAlloc_apart h5 hx
          have h10 := alignUp_ge h4
          have h11 := initChunk_at h7
          simp only at h9
          omega
    refine bind ?_ fun o w3 h3 => ?_
    · unfold Blink.allocChunk
      cases h4 : alignUp n HDR_ALIGN with
      | none => exact pure _
      | some size =>
        refine bind (baseAlloc _ hx) fun o w4 h5 => ?_
        cases o with
        | none => exact pure _
        | some sl =>
          have h9 := baseAlloc_apart h5 hx
          have h10 := alignUp_ge h4
          simp only at h9
          exact bind (initChunk _ _ (by omega)) fun _ _ _ => pure _
    cases o with
    | none => exact pure _
    | some c =>
      have := hc h3
      refine bind (chunkAlloc c l (by omega)) fun o _ _ => ?_
      cases o with
      | none => exact ub _
      | some s => exact pure _

theorem gotBlock {x w} (wr : Bool) (j : Job) (s : Slice) : Keeps x (Blink.gotBlock wr j s) w := by
  unfold Blink.gotBlock
  split
  · exact pure _
  · exact bind (require _ _) fun _ _ _ => pure _

theorem copyByte {x w} (a b : Nat) (hb : x ≠ b) : Keeps x (Blink.copyByte a b) w := by
  intro o w' h
  unfold Blink.copyByte at h
  split at h <;> cases h
  show setBytes w.mem b 1 (fun _ => w.mem a) x = w.mem x
  exact setBytes_out (by omega)

end Keeps

/-- Bytes the next step of a thread may write. -/
def Pc.puts (s : SS) (x : Nat) : Pc → Prop
  | .cas c _ _ | .rcas c _ _ _ _ | .free c _ _ => c ≤ x ∧ x < c + 8
  | .slow _ => ¬ s.w.Holds x
  | .copy _ _ old new b k => k < min new.size old.size ∧ x = b.addr + k
  | _ => False

theorem kp_bind {α} {x : Nat} {w : World} {f : M α} (hf : Keeps x f w)
    {G : α × World → Except Fault (Option (Option Resp × SS))} {r s'} (hG : ∀ a w', f w = .ok (a, w') → G (a, w') = .ok (some (r, s')) → s'.w.mem x = w'.mem x)
    (h : (f w >>= G) = .ok (some (r, s'))) : s'.w.mem x = w.mem x := by
  cases h1 : f w with
  | error e => rw [h1] at h; cases h
  | ok p =>
    obtain ⟨a, w'⟩ := p
    rw [h1] at h
    exact (hG a w' h1 h).trans (hf a w' h1)

theorem go_keeps {s : SS} {t : Nat} {x : Nat} (h : ¬ (s.pcs t).puts s x) {ch : Choice} {r s'}
    (hg : goStep s t ch = .ok (some (r, s'))) : s'.w.mem x = s.w.mem x := by
  unfold goStep at hg
  cases hp : s.pcs t with
  | idle => rw [hp] at hg; cases hg
  | rd c =>
    rw [hp] at hg
    simp only at hg
    split at hg <;> cases hg
    rfl
  | load chunk j =>
    rw [hp] at hg
    exact kp_bind (Keeps.loadRelaxed _ _ _) (fun a w' _ h => by cases h; rfl) hg
  | cas chunk j cursor =>
    rw [hp] at hg h
    simp only [Pc.puts] at h
    refine kp_bind (Keeps.loadWord (chunk + 8)) (fun e w1 _ hg => ?_) hg
    refine kp_bind (Keeps.tryBump _ _ _) (fun b w2 _ hg => ?_) hg
    cases b with
    | none => cases hg; rfl
    | some q =>
      obtain ⟨aligned, next⟩ := q
      refine kp_bind (Keeps.loadWord chunk) (fun cur w3 _ hg => ?_) hg
      simp only at hg
      split at hg
      · refine kp_bind (Keeps.storeWord chunk _ (by omega)) (fun _ w4 _ hg => ?_) hg
        refine kp_bind (Keeps.subU _ _) (fun _ w5 _ hg => ?_) hg
        refine kp_bind (Keeps.dassert _ _) (fun _ w6 _ hg => ?_) hg
        refine kp_bind (Keeps.dassert _ _) (fun _ w7 _ hg => ?_) hg
        refine kp_bind (Keeps.gotBlock _ _ _) (fun _ w8 _ hg => ?_) hg
        cases hg; rfl
      · exact kp_bind (Keeps.loadRelaxed chunk _ _) (fun _ _ _ hg => by cases hg; rfl) hg
  | rload chunk p old new =>
    rw [hp] at hg
    refine kp_bind (Keeps.addU _ _) (fun oe w1 _ hg => ?_) hg
    refine kp_bind (Keeps.loadRelaxed chunk _ _) (fun cur w2 _ hg => ?_) hg
    simp only at hg
    split at hg <;> (cases hg; rfl)
  | rcas chunk p old new cursor =>
    rw [hp] at hg h
    simp only [Pc.puts] at h
    simp only at hg
    cases hc : checkedAdd p new.size with
    | none => rw [hc] at hg; cases hg; rfl
    | some next =>
      rw [hc] at hg
      refine kp_bind (Keeps.loadWord (chunk + 8)) (fun e w1 _ hg => ?_) hg
      simp only at hg
      split at hg
      · cases hg; rfl
      · refine kp_bind (Keeps.cellCas chunk _ _ (by omega)) (fun ok w2 _ hg => ?_) hg
        cases ok with
        | true =>
          refine kp_bind (Keeps.subU _ _) (fun _ w5 _ hg => ?_) hg
          refine kp_bind (Keeps.dassert _ _) (fun _ w6 _ hg => ?_) hg
          cases hg; rfl
        | false => cases hg; rfl
  | free chunk p n =>
    rw [hp] at hg h
    simp only [Pc.puts] at h
    refine kp_bind (Keeps.addU _ _) (fun oe w1 _ hg => ?_) hg
    refine kp_bind (Keeps.cellCas chunk _ _ (by omega)) (fun ok w2 _ hg => ?_) hg
    cases hg; rfl
  | unlockSlow j => rw [hp] at hg; cases hg; rfl
  | wr j =>
    rw [hp] at hg
    simp only at hg
    split at hg <;> cases hg
    rfl
  | slow j =>
    rw [hp] at hg h
    simp only [Pc.puts] at h
    have h1 : s.w.Holds x := Classical.byContradiction fun hn => h hn
    refine kp_bind (Keeps.allocSlow s.root _ _ h1) (fun q w1 _ hg => ?_) hg
    obtain ⟨r, root⟩ := q
    cases r with
    | none => cases hg; rfl
    | some b => exact kp_bind (Keeps.gotBlock _ _ _) (fun _ _ _ hg => by cases hg; rfl) hg
  | copy wr p old new b k =>
    rw [hp] at hg h
    simp only [Pc.puts] at h
    simp only at hg
    split at hg
    · rename_i hk
      exact kp_bind (Keeps.copyByte _ _ (fun he => h ⟨hk, he⟩)) (fun _ _ _ hg => by cases hg; rfl) hg
    · cases hg; rfl
  | ret wr r =>
    rw [hp] at hg
    simp only at hg
    split at hg <;> (cases hg; rfl)

end Blink
