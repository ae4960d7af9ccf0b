import Verif.Proofs.Reset
import Verif.Spec.Client
/-
  The invariant linking callers' blocks and chunks.
-/
namespace Blink

/-- Callers' blocks `L` are well placed in the chunks `cs`. -/
structure LOK (cs : List Chunk) (L : List Owned) : Prop where
  each : ∀ b ∈ L, b.size ≤ b.len ∧ (∃ k, b.align = 2 ^ k) ∧ b.addr % b.align = 0 ∧ InUsed cs b.addr b.len
  apart : L.Pairwise Owned.Apart

theorem LOK.nil {cs} : LOK cs [] := ⟨by simp, .nil⟩

theorem LOK.erase {cs L} (h : LOK cs L) (b : Owned) : LOK cs (L.erase b) :=
  ⟨fun c hc => h.each c (List.mem_of_mem_erase hc), h.apart.sublist List.erase_sublist⟩

theorem Owned.Apart.symm {b c : Owned} (h : b.Apart c) : c.Apart b := fun x hx => h x hx.symm

theorem LOK.perm {cs L L'} (h : LOK cs L) (hp : L.Perm L') : LOK cs L' :=
  ⟨fun b hb => h.each b (hp.mem_iff.mpr hb), (hp.pairwise_iff fun h => Owned.Apart.symm h).mp h.apart⟩

theorem LOK.mono {cs cs' L} (h : LOK cs L) (hm : ∀ p n, InUsed cs p n → InUsed cs' p n) : LOK cs' L :=
  ⟨fun b hb => let ⟨h1, h2, h3, h4⟩ := h.each b hb; ⟨h1, h2, h3, hm _ _ h4⟩, h.apart⟩

/-- Every owned byte is in use. -/
theorem LOK.byte {cs L} (h : LOK cs L) {b : Owned} (hb : b ∈ L) {x : Nat} (hx : b.Has x) : InUsed cs x 1 := by
  have := (h.each b hb).2.2.2
  exact this.sub hx.1 (by have := hx.2; omega)

theorem LOK.alloc {w cs F L m l s w' cs'} (hL : LOK cs L) (h : AInv w cs F) (hl : l.Valid)
    (hr : AllocRes w cs m l (some s) w' cs') : LOK cs' (Owned.of s l :: L) := by
  obtain ⟨h1, h2, h3, h4⟩ := hr.fresh h hl
  refine ⟨?_, ?_⟩
  · intro b hb
    rcases List.mem_cons.mp hb with rfl | hb
    · exact ⟨by simp only [Owned.of]; omega, hl.1, h2, hr.new_used h hl⟩
    · obtain ⟨a1, a2, a3, a4⟩ := hL.each b hb
      exact ⟨a1, a2, a3, hr.mono hl a4⟩
  · rw [List.pairwise_cons]
    refine ⟨?_, hL.apart⟩
    rintro b hb x ⟨hx1, hx2⟩
    have := h4 _ _ (hL.each b hb).2.2.2
    simp only [Owned.Has, Owned.of] at *
    omega

theorem LOK.alloc_none {w cs L m l w' cs'} (hL : LOK cs L) (hl : l.Valid)
    (hr : AllocRes w cs m l none w' cs') : LOK cs' L :=
  hL.mono fun _ _ => hr.mono hl

theorem pow2_mod {p a b : Nat} (ha : ∃ k, a = 2 ^ k) (hb : ∃ k, b = 2 ^ k) (hle : a ≤ b) (h : p % b = 0) : p % a = 0 := by
  obtain ⟨i, rfl⟩ := ha
  obtain ⟨j, rfl⟩ := hb
  have : i ≤ j := by
    apply Decidable.byContradiction
    intro hc
    have : 2 ^ j < 2 ^ i := Nat.pow_lt_pow_right (by decide) (by omega)
    omega
  exact Nat.mod_eq_zero_of_dvd (Nat.dvd_trans (Nat.pow_dvd_pow 2 this) (Nat.dvd_of_mod_eq_zero h))

theorem ResizeRes.mono {w cs m p old new r w' cs'} (hl : new.Valid) (hr : ResizeRes w cs m p old new r w' cs') {q n : Nat}
    (h : InUsed cs q n) : InUsed cs' q n := by
  cases hr with
  | same => exact h
  | grow c t hcs ha hs htip hfit =>
    obtain ⟨d, hd, h1, h2⟩ := h
    subst hcs
    rcases List.mem_cons.mp hd with rfl | hd
    · exact ⟨_, List.mem_cons_self, h1, by simp only; omega⟩
    · exact ⟨d, List.mem_cons_of_mem _ hd, h1, h2⟩
  | move s w1 cs1 hn hgrow hr => exact hr.mono hl h
  | fail w1 cs1 hn hgrow hr => exact hr.mono hl h

/-- The block grown in place is the topmost one of the current chunk. -/
theorem tip_block {w c t F L p} {old : Layout} {b : Owned} (h : AInv w (c :: t) F) (hL : LOK (c :: t) L) (hb : b ∈ L)
    (hf : b.Fits p old) (htip : c.cursor = p + old.size) : c.start + 32 ≤ p ∧ b.len = old.size := by
  obtain ⟨f1, f2, f3, f4⟩ := hf
  obtain ⟨_, _, _, d, hd, h1, h2⟩ := hL.each b hb
  have hc := h.ok c List.mem_cons_self
  have := hc.lo; have := hc.hi
  have hd' := h.ok d hd
  have := hd'.lo; have := hd'.hi
  rcases List.mem_cons.mp hd with rfl | hd
  · omega
  · have := h.chunk_dis hd
    omega

theorem LOK.resize {w cs F L m p old new s w' cs'} {b : Owned} (hL : LOK cs L) (h : AInv w cs F) (hl : new.Valid)
    (hb : b ∈ L) (hf : b.Fits p old) (hr : ResizeRes w cs m p old new (some s) w' cs') :
    LOK cs' (Owned.of s new :: L.erase b) := by
  obtain ⟨b1, b2, b3, b4⟩ := hL.each b hb
  have hperm : L.Perm (b :: L.erase b) := List.perm_cons_erase hb
  have hLb := hL.perm hperm
  obtain ⟨f1, f2, f3, f4⟩ := hf
  have hAp := hLb.apart
  rw [List.pairwise_cons] at hAp
  have inplace : ∀ cs', (∀ q n, InUsed cs q n → InUsed cs' q n) → ∀ n, new.align ≤ old.align → new.size ≤ n → InUsed cs' p n →
      (∀ c ∈ L.erase b, (Owned.of ⟨p, n⟩ new).Apart c) → LOK cs' (Owned.of ⟨p, n⟩ new :: L.erase b) := by
    intro cs' hm n ha hn hu hap
    refine ⟨?_, ?_⟩
    · intro c hc
      rcases List.mem_cons.mp hc with rfl | hc
      · exact ⟨hn, hl.1, pow2_mod hl.1 b2 (by simp only [Owned.of]; omega) (by simpa [Owned.of, ← f1] using b3), hu⟩
      · obtain ⟨a1, a2, a3, a4⟩ := (hL.erase b).each c hc
        exact ⟨a1, a2, a3, hm _ _ a4⟩
    · rw [List.pairwise_cons]
      exact ⟨hap, (hL.erase b).apart⟩
  cases hr with
  | same ha hs =>
    apply inplace _ (fun _ _ h => h) _ ha hs (b4.sub (by omega) (by omega))
    rintro c hc x ⟨hx1, hx2⟩
    refine hAp.1 c hc x ⟨?_, hx2⟩
    simp only [Owned.Has, Owned.of] at *
    omega
  | grow c t hcs ha hs htip hfit =>
    have hmono : ∀ q n, InUsed cs q n → InUsed _ q n := fun _ _ hu =>
      ResizeRes.mono hl (.grow (w := w) (m := m) c t hcs ha hs htip hfit) hu
    subst hcs
    obtain ⟨t1, t2⟩ := tip_block h hL hb ⟨f1, f2, f3, f4⟩ htip
    apply inplace _ hmono _ ha (Nat.le_refl _) ⟨_, List.mem_cons_self, t1, Nat.le_refl _⟩
    rintro d hd x ⟨hx1, hx2⟩
    obtain ⟨e, he, e1, e2⟩ := hL.byte (List.mem_of_mem_erase hd) hx2
    have := hAp.1 d hd x
    have hc := h.ok c List.mem_cons_self
    have := hc.lo; have := hc.hi
    have he' := h.ok e he
    have := he'.lo; have := he'.hi
    simp only [Owned.Has, Owned.of] at *
    rcases List.mem_cons.mp he with rfl | he
    · omega
    · have := h.chunk_dis he
      omega
  | move s w1 cs1 hn hgrow hr => exact (hL.erase b).alloc h hl hr

theorem LOK.resize_none {w cs L m p old new w' cs'} (hL : LOK cs L) (hl : new.Valid)
    (hr : ResizeRes w cs m p old new none w' cs') : LOK cs' L :=
  hL.mono fun _ _ => hr.mono hl

/-! ### Contents -/

theorem ResizeRes.frame {w cs F m p old new r w' cs'} (h : AInv w cs F) (hl : new.Valid)
    (hr : ResizeRes w cs m p old new r w' cs') {x : Nat} (hx : InUsed cs x 1) : w'.mem x = w.mem x := by
  cases hr with
  | same => rfl
  | grow c t hcs ha hs htip hfit =>
    subst hcs
    have hc := h.ok c List.mem_cons_self
    have := hc.lo; have := hc.hi
    have := h.used_not_hdr hx List.mem_cons_self
    simp only [setCursor]
    exact setBytes_out (by omega)
  | move s w1 cs1 hn hgrow hr =>
    have h1 := hr.frame_used h hx
    have h2 := (hr.fresh h hl).2.2.2 _ _ hx
    have h3 := (hr.fresh h hl).1
    simp only
    rw [setBytes_out (by omega), h1]
  | fail w1 cs1 hn hgrow hr => exact hr.frame_used h hx

theorem ResizeRes.contents {w cs F m p old new s w' cs'} (h : AInv w cs F) (hl : new.Valid) (hp : InUsed cs p old.size)
    (hr : ResizeRes w cs m p old new (some s) w' cs') {i : Nat} (hi : i < min new.size old.size) :
    w'.mem (s.addr + i) = w.mem (p + i) := by
  have hx : InUsed cs (p + i) 1 := hp.sub (by omega) (by omega)
  cases hr with
  | same => rfl
  | grow c t hcs ha hs htip hfit =>
    exact ResizeRes.frame h hl (.grow (m := m) c t hcs ha hs htip hfit) hx
  | move s w1 cs1 hn hgrow hr =>
    simp only
    rw [setBytes_in hi, hr.frame_used h hx]

end Blink
