import Verif.Model.Arith
namespace Blink

theorem andU_lt (a b : Nat) : andU a b < USIZE := BitVec.isLt _

theorem andU_mask {v k : Nat} (hv : v < USIZE) (hk : k < 64) : andU v (2 ^ k - 1) = v % 2 ^ k := by
  have h2 : 2 ^ k < 2 ^ 64 := Nat.pow_lt_pow_right (by decide) hk
  unfold andU
  rw [BitVec.toNat_and, BitVec.toNat_ofNat, BitVec.toNat_ofNat, Nat.mod_eq_of_lt (by omega), Nat.mod_eq_of_lt (by omega),
    Nat.and_two_pow_sub_one_eq_mod]

theorem andU_not_mask {v k : Nat} (hv : v < USIZE) (hk : k < 64) :
    andU v (notU (2 ^ k - 1)) = v - v % 2 ^ k := by
  have h2 : 2 ^ k < 2 ^ 64 := Nat.pow_lt_pow_right (by decide) hk
  have hpos : 0 < 2 ^ k := Nat.two_pow_pos k
  have hv' : v < 2 ^ 64 := by omega
  have e1 : v - v % 2 ^ k = (v >>> k) <<< k := by
    rw [Nat.shiftRight_eq_div_pow, Nat.shiftLeft_eq]
    have := Nat.div_add_mod v (2 ^ k)
    rw [Nat.mul_comm] at this
    omega
  rw [e1]
  unfold andU notU
  rw [BitVec.toNat_and, BitVec.toNat_ofNat, BitVec.toNat_ofNat, BitVec.toNat_not, BitVec.toNat_ofNat,
    Nat.mod_eq_of_lt hv', Nat.mod_eq_of_lt (a := 2 ^ k - 1) (by omega), Nat.mod_eq_of_lt (by omega)]
  have e2 : 2 ^ 64 - 1 - (2 ^ k - 1) = 2 ^ 64 - ((2 ^ k - 1) + 1) := by omega
  rw [e2]
  apply Nat.eq_of_testBit_eq
  intro i
  rw [Nat.testBit_and, Nat.testBit_two_pow_sub_succ (by omega), Nat.testBit_two_pow_sub_one, Nat.testBit_shiftLeft,
    Nat.testBit_shiftRight]
  by_cases hi : i < 64
  · by_cases hik : i < k
    · have : ¬ (k ≤ i) := by omega
      simp [hi, hik, this]
    · have h3 : k ≤ i := by omega
      have h4 : k + (i - k) = i := by omega
      simp [hi, hik, h3, h4]
  · have : v.testBit i = false := Nat.testBit_lt_two_pow (Nat.lt_of_lt_of_le hv' (Nat.pow_le_pow_right (by decide) (by omega)))
    by_cases h3 : k ≤ i
    · have h4 : k + (i - k) = i := by omega
      simp [this, h4]
    · simp [this, h3]

/-- `alignDown` is rounding down to a multiple. -/
theorem alignDown_eq {v k : Nat} (hv : v < USIZE) (hk : k < 64) : alignDown v (2 ^ k) = v - v % 2 ^ k :=
  andU_not_mask hv hk

theorem alignUp_eq {v k : Nat} (hk : k < 64) (h : v + (2 ^ k - 1) < USIZE) :
    alignUp v (2 ^ k) = some (v + (2 ^ k - 1) - (v + (2 ^ k - 1)) % 2 ^ k) := by
  unfold alignUp checkedAdd
  simp only [h, if_true]
  rw [andU_not_mask h hk]

theorem alignUp_none {v a : Nat} (h : ¬ v + (a - 1) < USIZE) : alignUp v a = none := by
  unfold alignUp checkedAdd
  simp only [h, if_false]

theorem isAlignedTo_eq {v k : Nat} (hv : v < USIZE) (hk : k < 64) :
    isAlignedTo v (2 ^ k) = decide (v % 2 ^ k = 0) := by
  unfold isAlignedTo
  simp only [andU_mask hv hk]
  by_cases h : v % 2 ^ k = 0 <;> simp [h]

/-- Facts about valid layouts in a form usable by `omega`. -/
theorem Layout.Valid.facts {l : Layout} (h : l.Valid) :
    ∃ k, k < 64 ∧ l.align = 2 ^ k ∧ 0 < l.align ∧ l.size + l.align ≤ ISIZE := by
  obtain ⟨⟨k, hk⟩, hs⟩ := h
  refine ⟨k, ?_, hk, ?_, hs⟩
  · apply Decidable.byContradiction
    intro hc
    have : 2 ^ 64 ≤ 2 ^ k := Nat.pow_le_pow_right (by decide) (by omega)
    omega
  · rw [hk]; exact Nat.two_pow_pos k

theorem alignUp8 {v : Nat} (h : v + 7 < USIZE) : alignUp v 8 = some ((v + 7) / 8 * 8) := by
  have := alignUp_eq (v := v) (k := 3) (by decide) (by omega)
  simp only [show (2:Nat)^3 = 8 from rfl] at this
  rw [this]; congr 1; omega

theorem alignUp8_none {v : Nat} (h : ¬ v + 7 < USIZE) : alignUp v 8 = none := alignUp_none h

theorem alignUp8_spec {v r : Nat} (h : alignUp v 8 = some r) : v ≤ r ∧ r < v + 8 ∧ r % 8 = 0 ∧ r < USIZE := by
  by_cases hv : v + 7 < USIZE
  · rw [alignUp8 hv] at h
    injection h with h
    omega
  · rw [alignUp8_none hv] at h; cases h

theorem nextPow2From_spec (fuel k n : Nat) (h : n ≤ 2 ^ (k + fuel)) (hk : ∀ j, n ≤ 2 ^ j → k ≤ j) :
    ∃ m, nextPow2From fuel (2 ^ k) n = 2 ^ m ∧ n ≤ 2 ^ m ∧ ∀ j, n ≤ 2 ^ j → m ≤ j := by
  induction fuel generalizing k with
  | zero => exact ⟨k, rfl, h, hk⟩
  | succ f ih =>
    unfold nextPow2From
    by_cases hn : n ≤ 2 ^ k
    · rw [if_pos hn]; exact ⟨k, rfl, hn, hk⟩
    · rw [if_neg hn, show 2 * 2 ^ k = 2 ^ (k + 1) by rw [Nat.pow_succ]; omega]
      apply ih (k + 1) (by rw [show k + 1 + f = k + (f + 1) by omega]; exact h)
      intro j hj
      have := hk j hj
      apply Decidable.byContradiction
      intro hc
      have : j = k := by omega
      subst this; exact hn hj

/-- `nextPow2 n` is the least power of two that is at least `n`. -/
theorem nextPow2_spec {n : Nat} (h : n < USIZE) :
    ∃ m, nextPow2 n = 2 ^ m ∧ n ≤ 2 ^ m ∧ ∀ j, n ≤ 2 ^ j → m ≤ j :=
  nextPow2From_spec 64 0 n (by omega) (by intros; omega)

theorem le_nextPow2 {n : Nat} (h : n < USIZE) : n ≤ nextPow2 n := by
  obtain ⟨m, h1, h2, _⟩ := nextPow2_spec h
  omega

theorem nextPow2_mod8 {n : Nat} (h : n < USIZE) (h8 : 8 ≤ n) : nextPow2 n % 8 = 0 := by
  obtain ⟨m, h1, h2, _⟩ := nextPow2_spec h
  rw [h1]
  have : 3 ≤ m := by
    apply Decidable.byContradiction
    intro hc
    have : 2 ^ m ≤ 2 ^ 2 := Nat.pow_le_pow_right (by decide) (by omega)
    omega
  obtain ⟨d, rfl⟩ := Nat.exists_eq_add_of_le this
  rw [Nat.pow_add]; omega

end Blink
