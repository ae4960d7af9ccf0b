import Verif.Spec.Global
import Verif.Spec.Exec
/-
  An executable version of histories of a global allocator, sound with respect to `GRun`. Only used to show that concrete,
  non-trivial cases meet the hypotheses of the property theorems.
-/
namespace Blink

def Owned.isB (p : Nat) (l : Layout) (b : Owned) : Bool :=
  decide (b.addr = p) && decide (b.size = l.size) && decide (b.align = l.align)

theorem Owned.isB_sound {b : Owned} {p : Nat} {l : Layout} (h : b.isB p l = true) : b.Is p l := by
  simp only [isB, Bool.and_eq_true, decide_eq_true_eq] at h
  exact ⟨h.1.1, h.1.2, h.2⟩

/-- Check legality. -/
def glegalB (K : GBook) : GOp → Bool
  | .alloc l => l.validB && decide (0 < l.size)
  | .allocZeroed l => l.validB && decide (0 < l.size)
  | .dealloc p l => (K.cur.find? (Owned.isB p l)).isSome
  | .realloc p l n => (K.cur.find? (Owned.isB p l)).isSome && decide (0 < n)
  | .reset => true
  | .blinkMode => true
  | .directMode => true
  | .write x _ => K.all.any (fun b => decide (b.addr ≤ x) && decide (x < b.addr + b.len))

theorem find_is {L : List Owned} {p : Nat} {l : Layout} (h : (L.find? (Owned.isB p l)).isSome = true) :
    ∃ b, L.find? (Owned.isB p l) = some b ∧ b ∈ L ∧ b.Is p l := by
  obtain ⟨b, hb⟩ := Option.isSome_iff_exists.mp h
  exact ⟨b, hb, List.mem_of_find?_eq_some hb, Owned.isB_sound (List.find?_some hb)⟩

theorem glegalB_sound {K : GBook} {op : GOp} (h : glegalB K op = true) : GLegal K op := by
  cases op with
  | alloc l =>
    simp only [glegalB, Bool.and_eq_true, decide_eq_true_eq] at h
    exact .alloc (Layout.validB_sound h.1) h.2
  | allocZeroed l =>
    simp only [glegalB, Bool.and_eq_true, decide_eq_true_eq] at h
    exact .allocZeroed (Layout.validB_sound h.1) h.2
  | dealloc p l => obtain ⟨b, _, h1, h2⟩ := find_is h; exact .dealloc h1 h2
  | realloc p l n =>
    simp only [glegalB, Bool.and_eq_true, decide_eq_true_eq] at h
    obtain ⟨b, _, h1, h2⟩ := find_is h.1
    exact .realloc h1 h2 h.2
  | reset => exact .reset
  | blinkMode => exact .blinkMode
  | directMode => exact .directMode
  | write x v =>
    simp only [glegalB, List.any_eq_true, Bool.and_eq_true, decide_eq_true_eq] at h
    obtain ⟨b, hb, hx⟩ := h
    exact .write hb hx

/-- The book after a call. -/
def gafter (K : GBook) : GOp → GResp → Option GBook
  | .alloc l, .ptr p => some (if p = 0 then K else K.add (granted p l))
  | .allocZeroed l, .ptr p => some (if p = 0 then K else K.add (granted p l))
  | .dealloc p l, .unit => (K.cur.find? (Owned.isB p l)).map K.del
  | .realloc p l n, .ptr q =>
    if q = 0 then some K else (K.cur.find? (Owned.isB p l)).map fun b => (K.del b).add (granted q ⟨n, l.align⟩)
  | .reset, .unit => some { K with blink := [] }
  | .reset, .panicked => some K
  | .blinkMode, .unit => some { K with blinkMode := true }
  | .directMode, .unit => some { K with blink := [], blinkMode := false }
  | .directMode, .panicked => some K
  | .write _ _, .unit => some K
  | _, _ => none

theorem gafter_sound {K : GBook} {op : GOp} {r : GResp} {K' : GBook} (h : gafter K op r = some K') : GAfter K op r K' := by
  unfold gafter at h
  split at h
  · cases h; split
    · subst_vars; exact .allocNull
    · exact .allocOk (by assumption)
  · cases h; split
    · subst_vars; exact .zeroedNull
    · exact .zeroedOk (by assumption)
  · rename_i p l
    cases hf : K.cur.find? (Owned.isB p l) with
    | none => rw [hf] at h; cases h
    | some b =>
      rw [hf] at h; cases h
      exact .dealloc (List.mem_of_find?_eq_some hf) (Owned.isB_sound (List.find?_some hf))
  · rename_i p l n q
    split at h
    · subst_vars; cases h; exact .reallocNull
    · cases hf : K.cur.find? (Owned.isB p l) with
      | none => rw [hf] at h; cases h
      | some b =>
        rw [hf] at h; cases h
        exact .reallocOk (List.mem_of_find?_eq_some hf) (Owned.isB_sound (List.find?_some hf)) (by assumption)
  all_goals first | (cases h; done) | (cases h; constructor)

/-- Check legality, run, update the book. -/
def gexec1 (g : GS) (K : GBook) (op : GOp) : Option (GResp × GS × GBook) :=
  if glegalB K op then
    match gstep g op with
    | .error _ => none
    | .ok (r, g') => (gafter K op r).map fun K' => (r, g', K')
  else none

theorem gexec1_sound {g K op r g' K'} (h : gexec1 g K op = some (r, g', K')) :
    GLegal K op ∧ gstep g op = .ok (r, g') ∧ GAfter K op r K' := by
  unfold gexec1 at h
  split at h
  · rename_i hl
    split at h
    · cases h
    · rename_i r1 g1 hs
      cases ha : gafter K op r1 with
      | none => rw [ha] at h; cases h
      | some K1 =>
        rw [ha] at h; cases h
        exact ⟨glegalB_sound hl, hs, gafter_sound ha⟩
  · cases h

/-- Run a list of calls. -/
def gexecAll (g : GS) (K : GBook) : List GOp → Option (GS × GBook)
  | [] => some (g, K)
  | op :: ops =>
    match gexec1 g K op with
    | none => none
    | some (_, g', K') => gexecAll g' K' ops

theorem GRun.trans {g0 K0 tr1 g1 K1 tr2 g2 K2} (h1 : GRun g0 K0 tr1 g1 K1) (h2 : GRun g1 K1 tr2 g2 K2) :
    GRun g0 K0 (tr1 ++ tr2) g2 K2 := by
  induction h2 with
  | nil => simpa using h1
  | snoc _ hl hs ha ih => rw [← List.append_assoc]; exact ih.snoc hl hs ha

theorem gexecAll_sound {g K ops g' K'} (h : gexecAll g K ops = some (g', K')) : ∃ tr, GRun g K tr g' K' := by
  induction ops generalizing g K with
  | nil => simp only [gexecAll, Option.some.injEq, Prod.mk.injEq] at h; obtain ⟨rfl, rfl⟩ := h; exact ⟨[], .nil⟩
  | cons op ops ih =>
    unfold gexecAll at h
    split at h
    · cases h
    rename_i r g1 K1 h1
    obtain ⟨a1, a2, a3⟩ := gexec1_sound h1
    have : GRun g K [(op, r)] g1 K1 := GRun.snoc (tr := []) .nil a1 a2 a3
    obtain ⟨tr, ht⟩ := ih h
    exact ⟨_, this.trans ht⟩

/-- A new global allocator in the demonstration world. -/
def gdemo (sizes : List Nat) (debug : Bool := true) : GS := ⟨demoWorld sizes debug, [], ⟨0, 256⟩, false, 0⟩

theorem gdemo_start (sizes : List Nat) (debug : Bool) : GStart (gdemo sizes debug) where
  enabled := rfl
  zero := rfl
  blink := ⟨rfl, ⟨by simp [gdemo, demoWorld], by simp [gdemo, demoWorld], by simp [gdemo, demoWorld]⟩,
    fun _ => ⟨show 0 < 256 by decide, show 256 ≤ 4611686018427387904 by decide, Nat.le_refl _⟩, rfl⟩
  dlog := rfl

/-- Check any decidable fact about the state and book before a call, the call's outcome and the fact that it is legal. -/
def gdemoAt (sizes : List Nat) (debug : Bool) (ops : List GOp) (op : GOp)
    (f : GS → GBook → Except Fault (GResp × GS) → Bool) : Bool :=
  match gexecAll (gdemo sizes debug) GBook.empty ops with
  | none => false
  | some (g, K) => glegalB K op && f g K (gstep g op)

theorem of_gdemoAt {sizes : List Nat} {debug : Bool} {ops : List GOp} {op : GOp} {f} (h : gdemoAt sizes debug ops op f = true) :
    ∃ g K, GReach (gdemo sizes debug) g K ∧ GLegal K op ∧ f g K (gstep g op) = true := by
  unfold gdemoAt at h
  split at h
  · cases h
  rename_i g K h1
  simp only [Bool.and_eq_true] at h
  exact ⟨g, K, ⟨gdemo_start sizes debug, gexecAll_sound h1⟩, glegalB_sound h.1, h.2⟩

end Blink
