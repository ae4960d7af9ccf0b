import Verif.Spec.Client
/-
  An executable version of histories, sound with respect to `Run`. Only used to show that concrete, non-trivial
  cases meet the hypotheses of the property theorems.
-/
namespace Blink

def Layout.validB (l : Layout) : Bool :=
  decide (l.align = 2 ^ l.align.log2) && decide (l.size + l.align ≤ ISIZE)

theorem Layout.validB_sound {l : Layout} (h : l.validB = true) : l.Valid := by
  simp only [validB, Bool.and_eq_true, decide_eq_true_eq] at h
  exact ⟨⟨_, h.1⟩, h.2⟩

def Owned.fitsB (p : Nat) (l : Layout) (b : Owned) : Bool :=
  decide (b.addr = p) && decide (b.align = l.align) && decide (b.size ≤ l.size) && decide (l.size ≤ b.len)

theorem Owned.fitsB_sound {b : Owned} {p : Nat} {l : Layout} (h : b.fitsB p l = true) : b.Fits p l := by
  simp only [fitsB, Bool.and_eq_true, decide_eq_true_eq] at h
  exact ⟨h.1.1.1, h.1.1.2, h.1.2, h.2⟩

/-- Check legality of a call and its result, update the ledger. -/
def execWith (res : Except Fault (Resp × St)) (L : List Owned) (op : Op) : Option (Resp × St × List Owned) :=
  match res with
  | .error _ => none
  | .ok (r, s') =>
    match op, r with
    | .allocate l, .block b => if l.validB then some (r, s', Owned.of b l :: L) else none
    | .allocate l, .err => if l.validB then some (r, s', L) else none
    | .allocateZeroed l, .block b => if l.validB then some (r, s', Owned.of b l :: L) else none
    | .allocateZeroed l, .err => if l.validB then some (r, s', L) else none
    | .resize p old new, .block b =>
      match L.find? (Owned.fitsB p old) with
      | some o => if new.validB then some (r, s', Owned.of b new :: L.erase o) else none
      | none => none
    | .resize p old new, .err =>
      match L.find? (Owned.fitsB p old) with
      | some _ => if new.validB then some (r, s', L) else none
      | none => none
    | .growZeroed p old new, .block b =>
      match L.find? (Owned.fitsB p old) with
      | some o => if new.validB && decide (old.size ≤ new.size) then some (r, s', Owned.of b new :: L.erase o) else none
      | none => none
    | .growZeroed p old new, .err =>
      match L.find? (Owned.fitsB p old) with
      | some _ => if new.validB && decide (old.size ≤ new.size) then some (r, s', L) else none
      | none => none
    | .deallocate p n, .unit =>
      match L.find? (fun b => decide (b.addr = p) && decide (b.size ≤ n) && decide (n ≤ b.len)) with
      | some o => some (r, s', L.erase o)
      | none => none
    | .reset, .unit => some (r, s', [])
    | .resetFinal, .unit => some (r, s', [])
    | .write x _, .unit =>
      if L.any (fun b => decide (b.addr ≤ x) && decide (x < b.addr + b.len)) then some (r, s', L) else none
    | _, _ => none

theorem execWith_sound {res L op r s' L'} (h : execWith res L op = some (r, s', L')) :
    Legal L op ∧ res = .ok (r, s') ∧ After L op r L' := by
  unfold execWith at h
  split at h
  · cases h
  split at h <;> (repeat' (first | split at h | cases h))
  all_goals first
    | exact ⟨.allocate (Layout.validB_sound ‹_›), rfl, by constructor⟩
    | exact ⟨.allocateZeroed (Layout.validB_sound ‹_›), rfl, by constructor⟩
    | exact ⟨.reset, rfl, by constructor⟩
    | exact ⟨.resetFinal, rfl, by constructor⟩
    | (rename_i h1 h2
       have hb := List.mem_of_find?_eq_some h1
       have hf := Owned.fitsB_sound (List.find?_some h1)
       exact ⟨.resize hb hf (Layout.validB_sound h2), rfl, by first | exact .resizeOk hb hf | exact .resizeErr⟩)
    | (rename_i h1 h2
       simp only [Bool.and_eq_true, decide_eq_true_eq] at h2
       have hb := List.mem_of_find?_eq_some h1
       have hf := Owned.fitsB_sound (List.find?_some h1)
       exact ⟨.growZeroed hb hf (Layout.validB_sound h2.1) h2.2, rfl, by
         first | exact .growZeroedOk hb hf | exact .growZeroedErr⟩)
    | (rename_i h1
       have hb := List.mem_of_find?_eq_some h1
       have hf := List.find?_some h1
       simp only [Bool.and_eq_true, decide_eq_true_eq] at hf
       exact ⟨.deallocate hb ⟨hf.1.1, hf.1.2, hf.2⟩, rfl, .deallocate hb ⟨hf.1.1, hf.1.2, hf.2⟩⟩)
    | (rename_i h1
       rw [List.any_eq_true] at h1
       obtain ⟨b, hb, h2⟩ := h1
       simp only [Bool.and_eq_true, decide_eq_true_eq] at h2
       exact ⟨.write hb h2, rfl, .write⟩)

/-- Check legality, run, update the ledger. -/
def exec1 (s : St) (L : List Owned) (op : Op) : Option (Resp × St × List Owned) := execWith (step s op) L op

theorem exec1_sound {s L op r s' L'} (h : exec1 s L op = some (r, s', L')) :
    Legal L op ∧ step s op = .ok (r, s') ∧ After L op r L' := execWith_sound h

/-- Run a list of calls. -/
def execAll (s : St) (L : List Owned) : List Op → Option (List Resp × St × List Owned)
  | [] => some ([], s, L)
  | op :: ops =>
    match exec1 s L op with
    | none => none
    | some (r, s', L') =>
      match execAll s' L' ops with
      | none => none
      | some (rs, s'', L'') => some (r :: rs, s'', L'')

theorem Run.trans {s0 L0 tr1 s1 L1 tr2 s2 L2} (h1 : Run s0 L0 tr1 s1 L1) (h2 : Run s1 L1 tr2 s2 L2) :
    Run s0 L0 (tr1 ++ tr2) s2 L2 := by
  induction h2 with
  | nil => simpa using h1
  | snoc _ hl hs ha ih => rw [← List.append_assoc]; exact ih.snoc hl hs ha

theorem execAll_sound {s L ops rs s' L'} (h : execAll s L ops = some (rs, s', L')) : Run s L (ops.zip rs) s' L' := by
  induction ops generalizing s L rs with
  | nil => simp only [execAll, Option.some.injEq, Prod.mk.injEq] at h; obtain ⟨rfl, rfl, rfl⟩ := h; exact .nil
  | cons op ops ih =>
    unfold execAll at h
    split at h
    · cases h
    rename_i r s1 L1 h1
    split at h
    · cases h
    rename_i rs1 s2 L2 h2
    simp only [Option.some.injEq, Prod.mk.injEq] at h
    obtain ⟨rfl, rfl, rfl⟩ := h
    obtain ⟨a1, a2, a3⟩ := exec1_sound h1
    have : Run s L [(op, r)] s1 L1 := Run.snoc (tr := []) .nil a1 a2 a3
    exact this.trans (ih h2)

/-! ### A concrete world -/

/-- An underlying allocator that answers request number `n` with a block of the `n`-th listed size at address
`4096 * (n + 1)`, and refuses when the list is exhausted or shows 0. One block at 64 is already held by somebody else. -/
def demoWorld (sizes : List Nat) (debug : Bool := true) : World where
  mem := fun _ => .uninit
  held := [⟨64, 64, ⟨64, 8⟩⟩]
  oracle := fun n => match sizes[n]? with
    | some (k + 1) => some ⟨65536 * (n + 1), k + 1⟩
    | _ => none
  calls := 0
  log := []
  top := 4611686018427387904
  debug := debug

def demoStart (sizes : List Nat) (m : Nat := 256) : St := ⟨demoWorld sizes, ⟨0, m⟩⟩

theorem demoStart_start (sizes : List Nat) (m : Nat) (h : 0 < m ∧ m ≤ 4611686018427387904) : Start (demoStart sizes m) where
  root := rfl
  world := ⟨by simp [demoStart, demoWorld], by simp [demoStart, demoWorld], by simp [demoStart, demoWorld]⟩
  dbg := fun _ => ⟨h.1, h.2, Nat.le_refl _⟩
  log := rfl

/-- A run that exists gives a reachable state. -/
theorem reach_of_exec {sizes : List Nat} {m : Nat} {ops : List Op} (hm : 0 < m ∧ m ≤ 4611686018427387904)
    {rs s L} (h : execAll (demoStart sizes m) [] ops = some (rs, s, L)) : Reach (demoStart sizes m) s L :=
  ⟨demoStart_start sizes m hm, _, execAll_sound h⟩

/-- Ledger and responses after a concrete run. -/
def demo (sizes : List Nat) (m : Nat) (ops : List Op) : Option (List Resp × List Owned) :=
  (execAll (demoStart sizes m) [] ops).map fun x => (x.1, x.2.2)

theorem reach_of_demo {sizes : List Nat} {m : Nat} {ops : List Op} {rs L} (hm : 0 < m ∧ m ≤ 4611686018427387904)
    (h : demo sizes m ops = some (rs, L)) : ∃ s, Reach (demoStart sizes m) s L := by
  unfold demo at h
  cases he : execAll (demoStart sizes m) [] ops with
  | none => rw [he] at h; cases h
  | some x =>
    rw [he] at h
    obtain ⟨rs1, s1, L1⟩ := x
    simp only [Option.map_some, Option.some.injEq, Prod.mk.injEq] at h
    obtain ⟨rfl, rfl⟩ := h
    exact ⟨s1, reach_of_exec hm he⟩

/-- Ledger before, and response of, one more call after a concrete run. -/
def demoStep (sizes : List Nat) (m : Nat) (ops : List Op) (op : Op) : Option (List Owned × Resp) :=
  match execAll (demoStart sizes m) [] ops with
  | none => none
  | some (_, s, L) =>
    match exec1 s L op with
    | none => none
    | some (r, _, _) => some (L, r)

theorem step_of_demo {sizes : List Nat} {m : Nat} {ops : List Op} {op : Op} {r L}
    (hm : 0 < m ∧ m ≤ 4611686018427387904) (h : demoStep sizes m ops op = some (L, r)) :
    ∃ s s', Reach (demoStart sizes m) s L ∧ Legal L op ∧ step s op = .ok (r, s') ∧ ∃ L', After L op r L' := by
  unfold demoStep at h
  split at h
  · cases h
  rename_i rs s1 L1 h1
  split at h
  · cases h
  rename_i r2 s2 L2 h2
  simp only [Option.some.injEq, Prod.mk.injEq] at h
  obtain ⟨rfl, rfl⟩ := h
  obtain ⟨a1, a2, a3⟩ := exec1_sound h2
  exact ⟨s1, s2, reach_of_exec hm h1, a1, a2, L2, a3⟩

/-- Check any decidable fact `f` about the state and ledger before a call, its response and the state after it. -/
def demoAt (sizes : List Nat) (m : Nat) (ops : List Op) (op : Op) (f : St → List Owned → Resp → St → Bool) : Bool :=
  match execAll (demoStart sizes m) [] ops with
  | none => false
  | some (_, s, L) =>
    match exec1 s L op with
    | none => false
    | some (r, s', _) => f s L r s'

theorem of_demoAt {sizes : List Nat} {m : Nat} {ops : List Op} {op : Op} {f}
    (hm : 0 < m ∧ m ≤ 4611686018427387904) (h : demoAt sizes m ops op f = true) :
    ∃ s L r s', Reach (demoStart sizes m) s L ∧ Legal L op ∧ step s op = .ok (r, s') ∧ (∃ L', After L op r L') ∧
      f s L r s' = true := by
  unfold demoAt at h
  split at h
  · cases h
  rename_i rs s1 L1 h1
  split at h
  · cases h
  rename_i r2 s2 L2 h2
  obtain ⟨a1, a2, a3⟩ := exec1_sound h2
  exact ⟨s1, L1, r2, s2, reach_of_exec hm h1, a1, a2, ⟨L2, a3⟩, h⟩

end Blink
