import Verif.Proofs.Arith
import Verif.Spec.World
namespace Blink

/-! ### The monad -/

theorem bind_apply {α β} (x : M α) (f : α → M β) (w : World) :
    (x >>= f) w = match x w with | .ok (a, w') => f a w' | .error e => .error e := rfl

theorem pure_apply {α} (a : α) (w : World) : (pure a : M α) w = .ok (a, w) := rfl

theorem bind_ok {α β} {x : M α} {f : α → M β} {w w' : World} {a : α} (h : x w = .ok (a, w')) :
    (x >>= f) w = f a w' := by rw [bind_apply, h]

theorem bind_err {α β} {x : M α} {f : α → M β} {w : World} {e : Fault} (h : x w = .error e) :
    (x >>= f) w = .error e := by rw [bind_apply, h]

theorem addU_ok {a b : Nat} {w : World} (h : a + b < USIZE) : addU a b w = .ok (a + b, w) := by
  unfold addU; rw [if_pos h]

theorem subU_ok {a b : Nat} {w : World} (h : b ≤ a) : subU a b w = .ok (a - b, w) := by
  unfold subU; rw [if_pos h]

theorem dassert_ok {p : Prop} [Decidable p] {why : String} {w : World} (h : w.debug = true → p) :
    dassert p why w = .ok ((), w) := by
  unfold dassert
  rw [if_neg]
  rintro ⟨h1, h2⟩
  exact h2 (h h1)

theorem require_ok {p : Prop} [Decidable p] {why : String} {w : World} (h : p) :
    require p why w = .ok ((), w) := by
  unfold require; rw [if_pos h]

/-! ### Bytes and words -/

/-- An intact word `v` is stored at `a`. -/
def WordAt (m : Nat → Byte) (a v : Nat) : Prop := ∀ i, i < 8 → m (a + i) = .word v i

theorem decodeWord_of {m : Nat → Byte} {a v : Nat} (h : WordAt m a v) : decodeWord m a = some v := by
  unfold decodeWord
  have h0 := h 0 (by decide)
  simp only [Nat.add_zero] at h0
  rw [h0]
  simp only
  rw [if_pos]
  rw [List.all_eq_true]
  intro i hi
  rw [List.mem_range] at hi
  simp [h i hi]

theorem loadWord_ok {w : World} {a v : Nat} (ha : a % 8 = 0) (hacc : w.accessible a 8 = true)
    (h : WordAt w.mem a v) : loadWord a w = .ok (v, w) := by
  unfold loadWord
  rw [if_pos ⟨ha, hacc⟩, decodeWord_of h]

theorem storeWord_ok {w : World} {a v : Nat} (ha : a % 8 = 0) (hacc : w.accessible a 8 = true) :
    storeWord a v w = .ok ((), { w with mem := setBytes w.mem a 8 (fun i => .word v i) }) := by
  unfold storeWord
  rw [if_pos ⟨ha, hacc⟩]

theorem mbind_inv {α β : Type} {x : M α} {f : α → M β} {w : World} {y : β × World} (h : (x >>= f) w = .ok y) :
    ∃ a w1, x w = .ok (a, w1) ∧ f a w1 = .ok y := by
  cases hx : x w with
  | error e => rw [bind_err hx] at h; cases h
  | ok a => rw [bind_ok hx] at h; exact ⟨a.1, a.2, rfl, h⟩

theorem setBytes_out {m : Nat → Byte} {a n : Nat} {f : Nat → Byte} {x : Nat} (h : x < a ∨ a + n ≤ x) :
    setBytes m a n f x = m x := by
  unfold setBytes
  rw [if_neg (by omega)]

theorem setBytes_in {m : Nat → Byte} {a n : Nat} {f : Nat → Byte} {i : Nat} (h : i < n) :
    setBytes m a n f (a + i) = f i := by
  unfold setBytes
  rw [if_pos (by omega)]
  congr 1
  omega

theorem WordAt.set_same {m : Nat → Byte} {a v : Nat} : WordAt (setBytes m a 8 (fun i => .word v i)) a v := by
  intro i hi
  rw [setBytes_in hi]

theorem WordAt.congr {m m' : Nat → Byte} {a v : Nat} (h : WordAt m a v)
    (hm : ∀ x, a ≤ x → x < a + 8 → m' x = m x) : WordAt m' a v := by
  intro i hi
  rw [hm (a + i) (by omega) (by omega)]
  exact h i hi

theorem WordAt.set_out {m : Nat → Byte} {a v b n : Nat} {f : Nat → Byte} (h : WordAt m a v)
    (hd : a + 8 ≤ b ∨ b + n ≤ a) : WordAt (setBytes m b n f) a v :=
  h.congr (fun _ _ _ => setBytes_out (by omega))

/-- Storing the word that is already there changes nothing. -/
theorem WordAt.set_id {m : Nat → Byte} {a v : Nat} (h : WordAt m a v) :
    setBytes m a 8 (fun i => .word v i) = m := by
  funext x
  unfold setBytes
  split
  · have := h (x - a) (by omega)
    rw [show a + (x - a) = x by omega] at this
    exact this.symm
  · rfl

theorem accessible_of {w : World} {b : BaseBlk} {a n : Nat} (hb : b ∈ w.held) (h1 : b.addr ≤ a)
    (h2 : a + n ≤ b.addr + b.len) : w.accessible a n = true := by
  unfold World.accessible
  rw [List.any_eq_true]
  exact ⟨b, hb, by simp [h1, h2]⟩

theorem accessible_iff {w : World} {a n : Nat} :
    w.accessible a n = true ↔ ∃ b ∈ w.held, b.addr ≤ a ∧ a + n ≤ b.addr + b.len := by
  unfold World.accessible
  rw [List.any_eq_true]
  simp

theorem accessible_congr {w w' : World} (h : w'.held = w.held) (a n : Nat) :
    w'.accessible a n = w.accessible a n := by
  unfold World.accessible; rw [h]

/-! ### Disjoint blocks fit into the address space -/

theorem BaseBlk.Disjoint.symm {b c : BaseBlk} (h : b.Disjoint c) : c.Disjoint b := by
  unfold BaseBlk.Disjoint at *
  omega

def cnt (p : Nat → Bool) : Nat → Nat
  | 0 => 0
  | n + 1 => cnt p n + if p n then 1 else 0

theorem cnt_le (p : Nat → Bool) (n : Nat) : cnt p n ≤ n := by
  induction n with
  | zero => exact Nat.le_refl _
  | succ n ih => unfold cnt; split <;> omega

theorem cnt_or (p q : Nat → Bool) (h : ∀ x, ¬ (p x = true ∧ q x = true)) (n : Nat) :
    cnt (fun x => p x || q x) n = cnt p n + cnt q n := by
  induction n with
  | zero => rfl
  | succ n ih =>
    unfold cnt
    rw [ih]
    have := h n
    cases hp : p n <;> cases hq : q n <;> simp_all <;> omega

theorem cnt_interval (a l n : Nat) :
    cnt (fun x => decide (a ≤ x) && decide (x < a + l)) n = min n (a + l) - min n a := by
  induction n with
  | zero => simp [cnt]
  | succ n ih =>
    unfold cnt
    rw [ih]
    by_cases h1 : a ≤ n <;> by_cases h2 : n < a + l <;> simp [h1, h2] <;> omega

theorem sum_len_le {L : List BaseBlk} {N : Nat} (hd : L.Pairwise BaseBlk.Disjoint)
    (hN : ∀ b ∈ L, b.addr + b.len ≤ N) : (L.map (·.len)).sum ≤ N := by
  have key : ∀ L : List BaseBlk, L.Pairwise BaseBlk.Disjoint → (∀ b ∈ L, b.addr + b.len ≤ N) →
      cnt (fun x => L.any fun b => decide (b.addr ≤ x) && decide (x < b.addr + b.len)) N = (L.map (·.len)).sum := by
    intro L
    induction L with
    | nil =>
      intro _ _
      have : ∀ n, cnt (fun _ => false) n = 0 := by
        intro n; induction n with
        | zero => rfl
        | succ n ih => unfold cnt; simp [ih]
      simpa using this N
    | cons b L ih =>
      intro hp hN
      rw [List.pairwise_cons] at hp
      have h1 := ih hp.2 (fun c hc => hN c (List.mem_cons_of_mem _ hc))
      have h2 := hN b List.mem_cons_self
      simp only [List.any_cons, List.map_cons, List.sum_cons]
      rw [cnt_or, cnt_interval, h1]
      · omega
      · rintro x ⟨hx1, hx2⟩
        rw [List.any_eq_true] at hx2
        obtain ⟨c, hc, hx2⟩ := hx2
        simp at hx1 hx2
        rcases hp.1 c hc with h | h <;> omega
  rw [← key L hd hN]
  exact cnt_le _ _

end Blink
