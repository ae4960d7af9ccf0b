import Verif.Proofs.Frame
import Verif.Spec.Blink
/-
  Arithmetic of `DropItem` layouts.
-/
namespace Blink

/-! ### Layout arithmetic -/

theorem up_eq (n : Nat) {a : Nat} (ha : 0 < a) : up n a = roundUp n a := by
  unfold up roundUp
  rw [show n + a - 1 = n + (a - 1) by omega]

theorem up_facts (n : Nat) {a : Nat} (ha : 0 < a) : n ≤ up n a ∧ up n a < n + a ∧ up n a % a = 0 := by
  rw [up_eq n ha]; exact roundUp_facts n ha

theorem up_of_mod {n a : Nat} (ha : 0 < a) (h : n % a = 0) : up n a = n := by
  rw [up_eq n ha]; exact roundUp_of_mod ha h

theorem mul_le_of_mod {x y a : Nat} (hx : x % a = 0) (hy : y % a = 0) (h : x < y + a) : x ≤ y := by
  obtain ⟨q, rfl⟩ := Nat.dvd_of_mod_eq_zero hx
  obtain ⟨r, rfl⟩ := Nat.dvd_of_mod_eq_zero hy
  have : q < r + 1 := by
    apply Nat.lt_of_mul_lt_mul_left (a := a)
    rw [Nat.mul_add, Nat.mul_one]
    exact h
  exact Nat.mul_le_mul_left _ (by omega)

theorem pow2_pos {a : Nat} (h : ∃ k, a = 2 ^ k) : 0 < a := by
  obtain ⟨k, rfl⟩ := h; exact Nat.two_pow_pos k

theorem pow2_max {a b : Nat} (ha : ∃ k, a = 2 ^ k) (hb : ∃ k, b = 2 ^ k) : ∃ k, max a b = 2 ^ k := by
  rcases Nat.le_total a b with h | h
  · rw [Nat.max_eq_right h]; exact hb
  · rw [Nat.max_eq_left h]; exact ha

theorem pow2_dal : ∃ k, DROPS_ALIGN = 2 ^ k := ⟨3, rfl⟩

theorem up_mono {n m a b : Nat} (ha : ∃ k, a = 2 ^ k) (hb : ∃ k, b = 2 ^ k) (hab : a ≤ b) (hnm : n ≤ m) :
    up n a ≤ up m b := by
  have h1 := up_facts n (pow2_pos ha)
  have h2 := up_facts m (pow2_pos hb)
  exact mul_le_of_mod h1.2.2 (pow2_mod ha hb hab h2.2.2) (by omega)

theorem valueOff_facts {a : Nat} (ha : ∃ k, a = 2 ^ k) : 24 ≤ valueOff a ∧ valueOff a % a = 0 := by
  have := up_facts DROPS_SIZE (pow2_pos ha)
  unfold valueOff
  exact ⟨this.1, this.2.2⟩

theorem valueOff_mono {a b : Nat} (ha : ∃ k, a = 2 ^ k) (hb : ∃ k, b = 2 ^ k) (hab : a ≤ b) : valueOff a ≤ valueOff b :=
  up_mono ha hb hab (Nat.le_refl _)

/-- The offset of the value in `DropItem<T>` is the size of `DropItem<[T; 0]>`. -/
theorem dropItem_zero {a : Nat} (ha : ∃ k, a = 2 ^ k) : (dropItem 0 a).size = valueOff a := by
  unfold dropItem
  simp only [Nat.add_zero]
  apply up_of_mod (pow2_pos (pow2_max pow2_dal ha))
  rcases Nat.le_total a 8 with h | h
  · have h8 : max DROPS_ALIGN a = 8 := by unfold DROPS_ALIGN; omega
    have : valueOff a = 24 := up_of_mod (pow2_pos ha) (pow2_mod ha ⟨3, rfl⟩ h (by rfl))
    rw [h8, this]
  · have h8 : max DROPS_ALIGN a = a := by unfold DROPS_ALIGN; omega
    rw [h8]
    exact (valueOff_facts ha).2

theorem arrOff_eq {t : RTy} (ht : t.OK) (nd : Bool) : arrOff t nd = if nd then 0 else valueOff t.align := by
  unfold arrOff
  cases nd
  · simp only [Bool.false_eq_true, if_false]; exact dropItem_zero ht.align
  · rfl

/-- An item allocated for `Result<T, ManuallyDrop<E>>` has room for a `Result<T, ManuallyDrop<G>>`. -/
theorem dropItem_room {t : RTy} {re : Layout} (ht : t.OK) (hr : ReOK t re) :
    valueOff t.align + t.size ≤ (dropItem re.size re.align).size ∧ max 8 t.align ≤ (dropItem re.size re.align).align := by
  have h1 := valueOff_mono ht.align hr.pow hr.align
  have h2 := up_facts (valueOff re.align + re.size) (pow2_pos (pow2_max pow2_dal hr.pow))
  have h3 := hr.size
  have h4 := hr.align
  constructor
  · show _ ≤ up (valueOff re.align + re.size) (max DROPS_ALIGN re.align)
    omega
  · show max 8 t.align ≤ max DROPS_ALIGN re.align
    unfold DROPS_ALIGN; omega

theorem dropItem_align (s a : Nat) : (dropItem s a).align = max 8 a := rfl

theorem dropItem_zero_valid {t : RTy} (ht : t.OK) : (dropItem 0 t.align).Valid := by
  refine ⟨pow2_max pow2_dal ht.align, ?_⟩
  have h1 := ht.item.2
  have h2 := up_mono (pow2_max pow2_dal ht.align) (pow2_max pow2_dal ht.align) (Nat.le_refl _)
    (show valueOff t.align + 0 ≤ valueOff t.align + t.size by omega)
  simp only [dropItem] at *
  omega

theorem emplaceLayout_valid {t : RTy} {nd : Bool} {re : Layout} (ht : t.OK) (hr : ReOK t re) :
    (emplaceLayout t nd re).Valid := by
  unfold emplaceLayout
  cases nd
  · exact hr.item
  · exact ht.self

theorem fillLayout_facts {t : RTy} {nd : Bool} {n : Nat} {l : Layout} {off : Nat} (ht : t.OK)
    (h : fillLayout t nd n = some (l, off)) :
    l.Valid ∧ off = arrOff t nd ∧ l.size = arrOff t nd + n * t.size ∧ l.align = (if nd then t.align else max 8 t.align) := by
  unfold fillLayout arrayLayout at h
  split at h
  · rename_i hfit
    cases nd
    · simp only [Option.bind_eq_bind, Option.bind_some, Bool.false_eq_true, if_false] at h
      unfold Layout.extend at h
      simp only at h
      split at h
      · rename_i hfit2
        injection h with h
        injection h with h1 h2
        have hoff : up (dropItem 0 t.align).size t.align = arrOff t false := by
          unfold arrOff
          simp only [Bool.false_eq_true, if_false]
          apply up_of_mod (pow2_pos ht.align)
          rw [dropItem_zero ht.align]
          exact (valueOff_facts ht.align).2
        have hal : max (dropItem 0 t.align).align t.align = max 8 t.align := by rw [dropItem_align]; omega
        subst h1 h2
        rw [hoff, hal] at hfit2
        rw [hoff, hal]
        refine ⟨⟨pow2_max ⟨3, rfl⟩ ht.align, hfit2⟩, rfl, rfl, ?_⟩
        simp
      · cases h
    · simp only [Option.bind_eq_bind, Option.bind_some, if_true] at h
      injection h with h
      injection h with h1 h2
      subst h1 h2
      exact ⟨⟨ht.align, hfit⟩, rfl, by simp [arrOff], by simp⟩
  · cases h


end Blink
