import Verif.Spec.Touch
import Verif.Proofs.SyncRun
/-
  Computations that neither read nor write a given byte.
-/
namespace Blink

theorem World.poke_self (w : World) (x : Nat) : w.poke x (w.mem x) = w := by
  unfold World.poke
  congr 1
  funext y
  split
  · rename_i h; rw [h]
  · rfl

theorem World.poke_mem_ne (w : World) {x y : Nat} (v : Byte) (h : y ≠ x) : (w.poke x v).mem y = w.mem y := if_neg h
theorem World.poke_mem_eq (w : World) (x : Nat) (v : Byte) : (w.poke x v).mem x = v := if_pos rfl

/-- Outcome of a computation with another byte at `x`. -/
def pokeM {α} (x : Nat) (v : Byte) : Except Fault (α × World) → Except Fault (α × World)
  | .ok (a, w) => .ok (a, w.poke x v)
  | .error e => .error e

/-- Run in `w`, the computation neither reads nor writes the byte at `x`. -/
def Blind {α} (x : Nat) (f : M α) (w : World) : Prop := ∀ v, f (w.poke x v) = pokeM x v (f w)

namespace Blind

theorem pure {α} {x w} (a : α) : Blind x (Pure.pure a : M α) w := fun _ => rfl

theorem bind {α β} {x w} {f : M α} {g : α → M β} (hf : Blind x f w) (hg : ∀ a w', f w = .ok (a, w') → Blind x (g a) w') :
    Blind x (f >>= g) w := by
  intro v
  have h := hf v
  show M.bind f g (w.poke x v) = pokeM x v (M.bind f g w)
  unfold M.bind
  rw [h]
  cases he : f w with
  | error e => rfl
  | ok p =>
    obtain ⟨a, w'⟩ := p
    exact hg a w' he v

theorem ub {α} {x w} (s : String) : Blind x (Blink.ub s : M α) w := fun _ => rfl

theorem require {x w} (p : Prop) [Decidable p] (s : String) : Blind x (Blink.require p s) w := by
  intro v
  unfold Blink.require
  split <;> rfl

theorem dassert {x w} (p : Prop) [Decidable p] (s : String) : Blind x (Blink.dassert p s) w := by
  intro v
  unfold Blink.dassert
  show (if w.debug = true ∧ ¬ p then _ else _) = _
  split <;> rfl

theorem addU {x w} (a b : Nat) : Blind x (Blink.addU a b) w := by
  intro v
  unfold Blink.addU
  split <;> rfl

theorem subU {x w} (a b : Nat) : Blind x (Blink.subU a b) w := by
  intro v
  unfold Blink.subU
  split <;> rfl

end Blind

theorem decodeWord_poke (w : World) {x a : Nat} (v : Byte) (h : x < a ∨ a + 8 ≤ x) :
    decodeWord (w.poke x v).mem a = decodeWord w.mem a := by
  have h' : ∀ i, i < 8 → (w.poke x v).mem (a + i) = w.mem (a + i) := fun i hi => w.poke_mem_ne v (by omega)
  unfold decodeWord
  rw [show (w.poke x v).mem a = w.mem a from h' 0 (by omega)]
  cases w.mem a with
  | word u i =>
    simp only
    have : (List.range 8).all (fun i => (w.poke x v).mem (a + i) == .word u i) = (List.range 8).all (fun i => w.mem (a + i) == .word u i) := by
      rw [Bool.eq_iff_iff, List.all_eq_true, List.all_eq_true]
      constructor
      · intro H i hi
        rw [← h' i (List.mem_range.mp hi)]; exact H i hi
      · intro H i hi
        rw [h' i (List.mem_range.mp hi)]; exact H i hi
    rw [this]
  | _ => rfl

theorem poke_setBytes (w : World) {x a n : Nat} (v : Byte) (f : Nat → Byte) (h : x < a ∨ a + n ≤ x) :
    setBytes (w.poke x v).mem a n f = ({ w with mem := setBytes w.mem a n f }.poke x v).mem := by
  funext y
  unfold setBytes World.poke
  simp only
  by_cases h1 : a ≤ y ∧ y < a + n
  · rw [if_pos h1, if_neg (by omega), if_pos h1]
  · rw [if_neg h1, if_neg h1]

namespace Blind

theorem loadWord {x w} (a : Nat) (h : x < a ∨ a + 8 ≤ x) : Blind x (Blink.loadWord a) w := by
  intro v
  unfold Blink.loadWord
  rw [decodeWord_poke w v h]
  show (if a % 8 = 0 ∧ w.accessible a 8 = true then _ else _) = _
  split
  · cases decodeWord w.mem a <;> rfl
  · rfl

theorem storeWord {x w} (a u : Nat) (h : x < a ∨ a + 8 ≤ x) : Blind x (Blink.storeWord a u) w := by
  intro v
  unfold Blink.storeWord
  show (if a % 8 = 0 ∧ w.accessible a 8 = true then _ else _) = _
  split
  · rw [poke_setBytes w v _ h]; rfl
  · rfl

theorem cellCas {x w} (a o n : Nat) (h : x < a ∨ a + 8 ≤ x) : Blind x (Blink.cellCas a o n) w := by
  unfold Blink.cellCas
  refine bind (loadWord a h) fun cur w' _ => ?_
  split
  · exact bind (storeWord _ _ h) fun _ _ _ => pure _
  · exact pure _

theorem tryBump {x w} (c e : Nat) (l : Layout) : Blind x (Blink.tryBump c e l) w := by
  unfold Blink.tryBump layoutSum
  refine bind (bind (subU _ _) fun _ _ _ => addU _ _) fun _ _ _ => ?_
  split
  · exact pure _
  refine bind (subU _ _) fun _ _ _ => bind (dassert _ _) fun _ _ _ => bind (dassert _ _) fun _ _ _ => bind (addU _ _) fun _ _ _ => ?_
  split
  · exact pure _
  · exact bind (require _ _) fun _ _ _ => pure _

theorem loadRelaxed {x w} (c : Nat) (seen : List Nat) (ch : Choice) (h : x < c ∨ c + 8 ≤ x) :
    Blind x (Blink.loadRelaxed c seen ch) w :=
  bind (loadWord c h) fun _ _ _ => pure _

theorem chunkAlloc {x w} (c : Nat) (l : Layout) (h : x < c ∨ c + 16 ≤ x) : Blind x (Blink.chunkAlloc c l) w := by
  unfold Blink.chunkAlloc loadCursor loadEnd
  refine bind (loadWord _ (by omega)) fun _ _ _ => bind (loadWord _ (by omega)) fun _ _ _ => bind (tryBump _ _ _) fun b _ _ => ?_
  split
  · exact pure _
  · unfold cellCasWeak
    refine bind (bind (loadWord _ (by omega)) fun _ _ _ => bind (dassert _ _) fun _ _ _ => storeWord _ _ (by omega)) fun _ _ _ => ?_
    exact bind (subU _ _) fun _ _ _ => bind (dassert _ _) fun _ _ _ => bind (dassert _ _) fun _ _ _ => pure _

theorem initChunk {x w} (sl : Slice) (p : Nat) (h : x < sl.addr ∨ sl.addr + 32 ≤ x) (hp : p ≠ 0 → x < p + 8 ∨ p + 32 ≤ x) :
    Blind x (Blink.initChunk sl p) w := by
  unfold Blink.initChunk chunkCap loadEnd loadCum
  refine bind (dassert _ _) fun _ _ _ => bind (dassert _ _) fun _ _ _ => bind (addU _ _) fun _ _ _ => bind (addU _ _) fun _ _ _ =>
    bind ?_ fun _ _ _ => bind (storeWord _ _ (by omega)) fun _ _ _ => bind (storeWord _ _ (by omega)) fun _ _ _ =>
    bind (storeWord _ _ (by omega)) fun _ _ _ => bind (storeWord _ _ (by omega)) fun _ _ _ => pure _
  split
  · exact pure _
  · exact bind (bind (loadWord _ (by omega)) fun _ _ _ => bind (addU _ _) fun _ _ _ => subU _ _) fun _ _ _ =>
      bind (loadWord _ (by omega)) fun _ _ _ => addU _ _

theorem _root_.Blink.baseAlloc_apart {l w sl w'} (h : Blink.baseAlloc l w = .ok (some sl, w')) {x} (hx : w.Holds x) :
    l.size ≤ sl.len ∧ (x < sl.addr ∨ sl.addr + sl.len ≤ x) := by
  unfold Blink.baseAlloc at h
  cases ho : w.oracle w.calls with
  | none => rw [ho] at h; cases h
  | some s =>
    rw [ho] at h
    simp only at h
    split at h
    · rename_i hf
      cases h
      obtain ⟨B, hB, h1, h2⟩ := hx
      simp only [freshOk, Bool.and_eq_true, decide_eq_true_eq, List.all_eq_true] at hf
      have := hf.2 B hB
      omega
    · cases h

theorem baseAlloc {x w} (l : Layout) (hx : w.Holds x) : Blind x (Blink.baseAlloc l) w := by
  intro v
  have h : ∀ {sl w'}, Blink.baseAlloc l w = .ok (some sl, w') → l.size ≤ sl.len ∧ (x < sl.addr ∨ sl.addr + sl.len ≤ x) :=
    fun h => baseAlloc_apart h hx
  unfold Blink.baseAlloc at h ⊢
  show (match w.oracle w.calls with | none => _ | some s => if freshOk w l s then _ else _) = _
  cases ho : w.oracle w.calls with
  | none => rfl
  | some s =>
    rw [ho] at h
    simp only at h ⊢
    split
    · rename_i hf
      rw [if_pos hf] at h
      rw [poke_setBytes w v _ (h rfl).2]; rfl
    · rfl

theorem _root_.Blink.alignUp_ge {n size} (h1 : alignUp n HDR_ALIGN = some size) : n ≤ size := by
  have : HDR_ALIGN = 2 ^ 3 := rfl
  rw [this] at h1
  by_cases hlt : n + (2 ^ 3 - 1) < USIZE
  · rw [alignUp_eq (by omega) hlt] at h1
    injection h1 with h1
    have := Nat.mod_lt (n + (2 ^ 3 - 1)) (show 0 < 2 ^ 3 by omega)
    omega
  · rw [alignUp_none hlt] at h1; cases h1

theorem _root_.Blink.initChunk_at {sl p w c w'} (h : Blink.initChunk sl p w = .ok (c, w')) : c = sl.addr := by
  unfold Blink.initChunk at h
  obtain ⟨_, _, _, h⟩ := mbind_inv h
  obtain ⟨_, _, _, h⟩ := mbind_inv h
  obtain ⟨_, _, _, h⟩ := mbind_inv h
  obtain ⟨_, _, _, h⟩ := mbind_inv h
  obtain ⟨_, _, _, h⟩ := mbind_inv h
  obtain ⟨_, _, _, h⟩ := mbind_inv h
  obtain ⟨_, _, _, h⟩ := mbind_inv h
  obtain ⟨_, _, _, h⟩ := mbind_inv h
  obtain ⟨_, _, _, h⟩ := mbind_inv h
  cases h
  rfl

theorem allocChunk {x w} (n p : Nat) (hn : 32 ≤ n) (hx : w.Holds x) (hp : p ≠ 0 → x < p + 8 ∨ p + 32 ≤ x) :
    Blind x (Blink.allocChunk n p) w := by
  unfold Blink.allocChunk
  cases h1 : alignUp n HDR_ALIGN with
  | none => exact pure _
  | some size =>
    refine bind (baseAlloc _ hx) fun o w' ho => ?_
    cases o with
    | none => exact pure _
    | some sl =>
      have h2 := baseAlloc_apart ho hx
      have h3 := alignUp_ge h1
      simp only at h2
      exact bind (initChunk _ _ (by omega) hp) fun _ _ _ => pure _

theorem _root_.Blink.loadWord_world {a w v w'} (h : Blink.loadWord a w = .ok (v, w')) : w' = w := by
  unfold Blink.loadWord at h
  split at h
  · cases hd : decodeWord w.mem a with
    | none => rw [hd] at h; cases h
    | some u => rw [hd] at h; cases h; rfl
  · cases h

theorem _root_.Blink.dassert_world {p : Prop} [Decidable p] {s w u w'} (h : Blink.dassert p s w = .ok (u, w')) : w' = w := by
  unfold Blink.dassert at h
  split at h
  · cases h
  · cases h; rfl

theorem _root_.Blink.rootCum_world {root w o w'}
    (h : (if root = 0 then Pure.pure none else do let c ← loadCum root; Pure.pure (some c) : M (Option Nat)) w = .ok (o, w')) :
    w' = w := by
  split at h
  · cases h; rfl
  · obtain ⟨c, w1, h1, h2⟩ := mbind_inv h
    cases h2
    exact loadWord_world h1

theorem _root_.Blink.slowChunkSize_ge {rc m l n} (h : slowChunkSize rc m l = some n) : 32 ≤ n := by
  rw [slowChunkSize_eq] at h
  split at h
  · injection h with h
    subst h
    have h1 : 32 ≤ need rc m l := by unfold need; omega
    rename_i h2
    unfold roundChunk
    split
    · have := le_nextPow2 (n := need rc m l) (by omega); omega
    · split
      · have := (roundUp_facts (need rc m l) (a := 16384) (by decide)).1; omega
      · exact h1
  · cases h

theorem allocSlow {x w} (root m : Nat) (l : Layout) (hx : w.Holds x) (hr : root ≠ 0 → x < root + 8 ∨ root + 32 ≤ x) :
    Blind x (Blink.allocSlow root m l) w := by
  unfold Blink.allocSlow
  refine bind ?_ fun rc w1 h1 => ?_
  · split
    · exact pure _
    · exact bind (loadWord _ (by omega)) fun _ _ _ => pure _
  have := rootCum_world h1
  subst this
  cases hcs : slowChunkSize rc m l with
  | none => exact pure _
  | some n =>
    refine bind (dassert _ _) fun _ w2 h2 => ?_
    have := dassert_world h2
    subst this
    have hn := slowChunkSize_ge hcs
    refine bind (allocChunk n root hn hx hr) fun o w3 h3 => ?_
    cases o with
    | none => exact pure _
    | some c =>
      have hc : x < c ∨ c + 16 ≤ x := by
        unfold Blink.allocChunk at h3
        cases h4 : alignUp n HDR_ALIGN with
        | none => rw [h4] at h3; cases h3
        | some size =>
          rw [h4] at h3
          obtain ⟨o, w4, h5, h6⟩ := mbind_inv h3
          cases o with
          | none => cases h6
          | some sl =>
            obtain ⟨c', w5, h7, h8⟩ := mbind_inv h6
            cases h8
            have h9 := baseAlloc_apart h5 hx
            have h10 := alignUp_ge h4
            have h11 := initChunk_at h7
            simp only at h9
            omega
      refine bind (chunkAlloc c l hc) fun o _ _ => ?_
      cases o with
      | none => exact ub _
      | some s => exact pure _

theorem gotBlock {x w} (wr : Bool) (j : Job) (s : Slice) : Blind x (Blink.gotBlock wr j s) w := by
  unfold Blink.gotBlock
  split
  · exact pure _
  · exact bind (require _ _) fun _ _ _ => pure _

theorem copyByte {x w} (a b : Nat) (ha : x ≠ a) (hb : x ≠ b) : Blind x (Blink.copyByte a b) w := by
  intro v
  unfold Blink.copyByte
  show (if w.accessible a 1 = true ∧ w.accessible b 1 = true then _ else _) = _
  rw [w.poke_mem_ne v (Ne.symm ha)]
  split
  · rw [poke_setBytes w v _ (by omega)]; rfl
  · rfl

end Blind

/-! ### Steps of threads -/

/-- Bytes the next step of a thread may touch. -/
def Pc.sees (s : SS) (x : Nat) : Pc → Prop
  | .load c _ | .rload c _ _ _ | .free c _ _ => c ≤ x ∧ x < c + 8
  | .cas c _ _ | .rcas c _ _ _ _ => c ≤ x ∧ x < c + 16
  | .slow _ => ¬ s.w.Holds x ∨ (s.root ≠ 0 ∧ s.root + 8 ≤ x ∧ x < s.root + 32)
  | .copy _ p old new b k => k < min new.size old.size ∧ (x = p + k ∨ x = b.addr + k)
  | _ => False

theorem pk_bind {α} {x : Nat} {v : Byte} {w : World} {f : M α} (hf : Blind x f w)
    {G G' : α × World → Except Fault (Option (Option Resp × SS))}
    (hG : ∀ a w', f w = .ok (a, w') → G' (a, w'.poke x v) = pokeRes x v (G (a, w'))) :
    (f (w.poke x v) >>= G') = pokeRes x v (f w >>= G) := by
  rw [hf v]
  cases h : f w with
  | error e => rfl
  | ok p => obtain ⟨a, w'⟩ := p; exact hG a w' h

theorem go_blind {s : SS} {t : Nat} {x : Nat} (h : ¬ (s.pcs t).sees s x) (ch : Choice) (v : Byte) :
    goStep (s.poke x v) t ch = pokeRes x v (goStep s t ch) := by
  unfold goStep
  rw [show (s.poke x v).pcs t = s.pcs t from rfl]
  cases hp : s.pcs t with
  | idle => rfl
  | rd c =>
    simp only
    show (if s.writer = none then _ else _) = _
    split <;> rfl
  | load chunk j =>
    rw [hp] at h
    simp only [Pc.sees] at h
    exact pk_bind (Blind.loadRelaxed chunk _ _ (by omega)) fun a w' _ => rfl
  | cas chunk j cursor =>
    rw [hp] at h
    simp only [Pc.sees] at h
    refine pk_bind (Blind.loadWord (chunk + 8) (by omega)) fun e w1 _ => ?_
    refine pk_bind (Blind.tryBump _ _ _) fun b w2 _ => ?_
    cases b with
    | none => rfl
    | some q =>
      obtain ⟨aligned, next⟩ := q
      refine pk_bind (Blind.loadWord chunk (by omega)) fun cur w3 _ => ?_
      simp only
      split
      · refine pk_bind (Blind.storeWord chunk _ (by omega)) fun _ w4 _ => ?_
        refine pk_bind (Blind.subU _ _) fun _ w5 _ => ?_
        refine pk_bind (Blind.dassert _ _) fun _ w6 _ => ?_
        refine pk_bind (Blind.dassert _ _) fun _ w7 _ => ?_
        refine pk_bind (Blind.gotBlock _ _ _) fun _ w8 _ => ?_
        rfl
      · exact pk_bind (Blind.loadRelaxed chunk _ _ (by omega)) fun _ _ _ => rfl
  | rload chunk p old new =>
    rw [hp] at h
    simp only [Pc.sees] at h
    refine pk_bind (Blind.addU _ _) fun oe w1 _ => ?_
    refine pk_bind (Blind.loadRelaxed chunk _ _ (by omega)) fun cur w2 _ => ?_
    simp only
    split <;> rfl
  | rcas chunk p old new cursor =>
    rw [hp] at h
    simp only [Pc.sees] at h
    simp only
    cases checkedAdd p new.size with
    | none => rfl
    | some next =>
      refine pk_bind (Blind.loadWord (chunk + 8) (by omega)) fun e w1 _ => ?_
      simp only
      split
      · rfl
      · refine pk_bind (Blind.cellCas chunk _ _ (by omega)) fun ok w2 _ => ?_
        cases ok with
        | true =>
          refine pk_bind (Blind.subU _ _) fun _ w5 _ => ?_
          refine pk_bind (Blind.dassert _ _) fun _ w6 _ => ?_
          rfl
        | false => rfl
  | free chunk p n =>
    rw [hp] at h
    simp only [Pc.sees] at h
    refine pk_bind (Blind.addU _ _) fun oe w1 _ => ?_
    refine pk_bind (Blind.cellCas chunk _ _ (by omega)) fun ok w2 _ => ?_
    rfl
  | unlockSlow j => rfl
  | wr j =>
    simp only
    show (if s.writer = none ∧ s.readers = [] then _ else _) = _
    split <;> rfl
  | slow j =>
    rw [hp] at h
    simp only [Pc.sees] at h
    have h1 : s.w.Holds x := Classical.byContradiction fun hn => h (.inl hn)
    refine pk_bind (Blind.allocSlow s.root _ _ h1 (by omega)) fun q w1 _ => ?_
    obtain ⟨r, root⟩ := q
    cases r with
    | none => rfl
    | some b => exact pk_bind (Blind.gotBlock _ _ _) fun _ _ _ => rfl
  | copy wr p old new b k =>
    rw [hp] at h
    simp only [Pc.sees] at h
    simp only
    split
    · rename_i hk
      exact pk_bind (Blind.copyByte _ _ (fun he => h ⟨hk, .inl he⟩) (fun he => h ⟨hk, .inr he⟩)) fun _ _ _ => rfl
    · rfl
  | ret wr r =>
    simp only
    split <;> rfl

end Blink
