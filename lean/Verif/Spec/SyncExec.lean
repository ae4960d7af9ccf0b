import Verif.Spec.Sync
import Verif.Spec.Exec
/-
  An executable version of multi-threaded histories, sound with respect to `SRun`. Only used to show that concrete,
  non-trivial cases meet the hypotheses of the property theorems. Resets are left out.
-/
namespace Blink

/-- Check legality, make the step, update the book. -/
def sexec1 (s : SS) (K : Book) (a : Act) : Option (Option Resp × SS × Book) :=
  match sstep s a with
  | .ok (some (r, s')) =>
    match a, r with
    | .call t (.allocate l), none =>
      if l.validB && (K.busy t).isNone then
        some (r, s', { K with busy := put K.busy t (some (.allocate l, none)), snap := put K.snap t s.w.mem })
      else none
    | .call t (.resize p old new), none =>
      match K.owned.find? (Owned.fitsB p old) with
      | some b =>
        if new.validB && (K.busy t).isNone then
          some (r, s', { owned := K.owned.erase b, busy := put K.busy t (some (.resize p old new, some b)),
                         snap := put K.snap t s.w.mem })
        else none
      | none => none
    | .call t (.deallocate p n), none =>
      match K.owned.find? (fun b => decide (b.addr = p) && decide (b.size ≤ n) && decide (n ≤ b.len)) with
      | some b =>
        if (K.busy t).isNone then
          some (r, s', { owned := K.owned.erase b, busy := put K.busy t (some (.deallocate p n, some b)),
                         snap := put K.snap t s.w.mem })
        else none
      | none => none
    | .go _ _, none => some (r, s', K)
    | .go t _, some v =>
      match K.busy t with
      | some (c, ob) => some (r, s', { K with owned := gets c ob v ++ K.owned, busy := put K.busy t none })
      | none => none
    | .write x _, none =>
      if K.owned.any (fun b => decide (b.addr ≤ x) && decide (x < b.addr + b.len)) then some (r, s', K) else none
    | _, _ => none
  | _ => none

theorem sexec1_sound {s K a r s' K'} (h : sexec1 s K a = some (r, s', K')) :
    SLegal K a ∧ sstep s a = .ok (some (r, s')) ∧ SAfter s.w.mem K a r K' := by
  unfold sexec1 at h
  split at h
  case h_2 => cases h
  rename_i r1 s1 hs
  rw [hs]
  split at h <;> (repeat' (first | split at h | cases h))
  all_goals first
    | (rename_i h1
       simp only [Bool.and_eq_true, Option.isNone_iff_eq_none] at h1
       exact ⟨.allocate h1.2 (Layout.validB_sound h1.1), rfl, .allocate⟩)
    | (rename_i h1 h2
       simp only [Bool.and_eq_true, Option.isNone_iff_eq_none] at h2
       have hb := List.mem_of_find?_eq_some h1
       have hf := Owned.fitsB_sound (List.find?_some h1)
       exact ⟨.resize h2.2 hb hf (Layout.validB_sound h2.1), rfl, .resize hb hf⟩)
    | (rename_i h1 h2
       simp only [Option.isNone_iff_eq_none] at h2
       have hb := List.mem_of_find?_eq_some h1
       have hf := List.find?_some h1
       simp only [Bool.and_eq_true, decide_eq_true_eq] at hf
       exact ⟨.deallocate h2 hb ⟨hf.1.1, hf.1.2, hf.2⟩, rfl, .deallocate hb ⟨hf.1.1, hf.1.2, hf.2⟩⟩)
    | exact ⟨.go, rfl, .inside⟩
    | (rename_i h1; exact ⟨.go, rfl, .ret h1⟩)
    | (rename_i h1
       rw [List.any_eq_true] at h1
       obtain ⟨b, hb, h2⟩ := h1
       simp only [Bool.and_eq_true, decide_eq_true_eq] at h2
       exact ⟨.write hb h2, rfl, .write⟩)

/-- Run a list of actions. -/
def sexecAll (s : SS) (K : Book) : List Act → Option (List (Option Resp) × SS × Book)
  | [] => some ([], s, K)
  | a :: as =>
    match sexec1 s K a with
    | none => none
    | some (r, s', K') =>
      match sexecAll s' K' as with
      | none => none
      | some (rs, s'', K'') => some (r :: rs, s'', K'')

theorem SRun.trans {s0 L0 tr1 s1 L1 tr2 s2 L2} (h1 : SRun s0 L0 tr1 s1 L1) (h2 : SRun s1 L1 tr2 s2 L2) :
    SRun s0 L0 (tr1 ++ tr2) s2 L2 := by
  induction h2 with
  | nil => simpa using h1
  | snoc _ hl hs ha ih => rw [← List.append_assoc]; exact ih.snoc hl hs ha

theorem sexecAll_sound {s K as rs s' K'} (h : sexecAll s K as = some (rs, s', K')) : SRun s K (as.zip rs) s' K' := by
  induction as generalizing s K rs with
  | nil => simp only [sexecAll, Option.some.injEq, Prod.mk.injEq] at h; obtain ⟨rfl, rfl, rfl⟩ := h; exact .nil
  | cons a as ih =>
    unfold sexecAll at h
    split at h
    · cases h
    rename_i r s1 K1 h1
    split at h
    · cases h
    rename_i rs1 s2 K2 h2
    simp only [Option.some.injEq, Prod.mk.injEq] at h
    obtain ⟨rfl, rfl, rfl⟩ := h
    obtain ⟨a1, a2, a3⟩ := sexec1_sound h1
    have : SRun s K [(a, r)] s1 K1 := SRun.snoc (tr := []) .nil a1 a2 a3
    exact this.trans (ih h2)

/-- A fresh shared allocator in the world of `demoWorld`. -/
def sdemoStart (sizes : List Nat) (m : Nat := 256) : SS where
  w := demoWorld sizes
  root := 0
  minChunk := m
  readers := []
  writer := none
  seen := []
  pcs := fun _ => .idle

theorem sdemoStart_start (sizes : List Nat) (m : Nat) (h : 0 < m ∧ m ≤ 4611686018427387904) : SStart (sdemoStart sizes m) where
  root := rfl
  readers := rfl
  writer := rfl
  seen := rfl
  pcs := fun _ => rfl
  world := ⟨by simp [sdemoStart, demoWorld], by simp [sdemoStart, demoWorld], by simp [sdemoStart, demoWorld]⟩
  dbg := fun _ => ⟨h.1, h.2, Nat.le_refl _⟩
  log := rfl

/-- Check any decidable fact about the state and book after a concrete run. -/
def sdemoAt (sizes : List Nat) (m : Nat) (as : List Act) (f : SS → Book → Bool) : Bool :=
  match sexecAll (sdemoStart sizes m) Book.empty as with
  | none => false
  | some (_, s, K) => f s K

theorem of_sdemoAt {sizes : List Nat} {m : Nat} {as : List Act} {f}
    (hm : 0 < m ∧ m ≤ 4611686018427387904) (h : sdemoAt sizes m as f = true) :
    ∃ s K, SReach (sdemoStart sizes m) s K ∧ f s K = true := by
  unfold sdemoAt at h
  split at h
  · cases h
  rename_i rs s1 K1 h1
  exact ⟨s1, K1, ⟨sdemoStart_start sizes m hm, _, sexecAll_sound h1⟩, h⟩

/-- Only threads that made a call execute one. -/
theorem SRun.busy_of {s0 tr s K} (h : SRun s0 Book.empty tr s K) {t : Nat} (hb : K.busy t ≠ none) :
    ∃ c, Act.call t c ∈ tr.map (·.1) := by
  induction h with
  | nil => exact absurd rfl hb
  | @snoc tr s K a r s' K' hr hl hs ha ih =>
    have keep : K.busy t ≠ none → ∃ c, Act.call t c ∈ (tr ++ [(a, r)]).map (·.1) := fun h =>
      let ⟨c, hc⟩ := ih h
      ⟨c, by rw [List.map_append]; exact List.mem_append_left _ hc⟩
    have tab : ∀ {u : Nat} {x}, put K.busy u x t ≠ none → t = u ∨ K.busy t ≠ none := by
      intro u x hne
      by_cases hu : t = u
      · exact .inl hu
      · unfold put at hne; rw [if_neg hu] at hne; exact .inr hne
    cases ha with
    | @allocate u l => rcases tab hb with rfl | h
                       · exact ⟨_, by rw [List.map_append]; exact List.mem_append_right _ List.mem_cons_self⟩
                       · exact keep h
    | @resize u => rcases tab hb with rfl | h
                   · exact ⟨_, by rw [List.map_append]; exact List.mem_append_right _ List.mem_cons_self⟩
                   · exact keep h
    | @deallocate u => rcases tab hb with rfl | h
                       · exact ⟨_, by rw [List.map_append]; exact List.mem_append_right _ List.mem_cons_self⟩
                       · exact keep h
    | @ret u ch c ob r hb' =>
      rcases tab hb with rfl | h
      · simp [put] at hb
      · exact keep h
    | _ => exact keep hb

/-- As `sdemoAt`, and none of the threads `ts`, which make all the calls, executes one at the end. -/
def sdemoQuiet (sizes : List Nat) (m : Nat) (ts : List Nat) (as : List Act) (f : SS → Book → Bool) : Bool :=
  sdemoAt sizes m as (fun s K => f s K && ts.all fun t => (K.busy t).isNone) &&
  as.all fun a => match a with
    | .call t _ => ts.contains t
    | _ => true

theorem of_sdemoQuiet {sizes : List Nat} {m : Nat} {ts : List Nat} {as : List Act} {f}
    (hm : 0 < m ∧ m ≤ 4611686018427387904) (h : sdemoQuiet sizes m ts as f = true) :
    ∃ s K, SReach (sdemoStart sizes m) s K ∧ (∀ t, K.busy t = none) ∧ f s K = true := by
  unfold sdemoQuiet sdemoAt at h
  simp only [Bool.and_eq_true] at h
  obtain ⟨h1, h2⟩ := h
  split at h1
  · cases h1
  rename_i rs s1 K1 h3
  simp only [Bool.and_eq_true] at h1
  have hr := sexecAll_sound h3
  refine ⟨s1, K1, ⟨sdemoStart_start sizes m hm, _, hr⟩, fun t => ?_, h1.1⟩
  apply Classical.byContradiction
  intro hb
  obtain ⟨c, hc⟩ := hr.busy_of hb
  have hc' : Act.call t c ∈ as := by
    rw [List.mem_map] at hc
    obtain ⟨x, hx, he⟩ := hc
    have := (List.of_mem_zip hx).1
    rw [he] at this
    exact this
  rw [List.all_eq_true] at h2
  have ht := h2 _ hc'
  simp only [List.contains_iff_mem] at ht
  have := h1.2
  rw [List.all_eq_true] at this
  have := this t ht
  rw [Option.isNone_iff_eq_none] at this
  exact hb this

/-- Check a fact about a call in a concrete run: the actions `pre`, the call, the actions `mid` during which it does not return,
one more step of the caller. -/
def scallAt (sizes : List Nat) (m : Nat) (pre : List Act) (t : Nat) (c : Call) (mid : List Act)
    (f : SS → Option Resp → SS → Bool) : Bool :=
  match sexecAll (sdemoStart sizes m) Book.empty pre with
  | none => false
  | some (_, s, K) =>
    match sexec1 s K (.call t c) with
    | some (none, s1, K1) =>
      match sexecAll s1 K1 mid with
      | some (rs, s2, _) =>
        (mid.zip rs).all (fun x => match x with
          | (.go u _, some _) => u != t
          | _ => true) &&
        match sstep s2 (.go t ⟨0, false⟩) with
        | .ok (some (r, s3)) => f s2 r s3
        | _ => false
      | none => false
    | _ => false

theorem of_scallAt {sizes : List Nat} {m : Nat} {pre : List Act} {t : Nat} {c : Call} {mid : List Act} {f}
    (hm : 0 < m ∧ m ≤ 4611686018427387904) (h : scallAt sizes m pre t c mid f = true) :
    ∃ s K s1 K1 tr s2 K2 r s3, SReach (sdemoStart sizes m) s K ∧ SLegal K (.call t c) ∧
      sstep s (.call t c) = .ok (some (none, s1)) ∧ SAfter s.w.mem K (.call t c) none K1 ∧ SRun s1 K1 tr s2 K2 ∧
      (∀ ch r, (Act.go t ch, some r) ∉ tr) ∧ sstep s2 (.go t ⟨0, false⟩) = .ok (some (r, s3)) ∧ f s2 r s3 = true := by
  unfold scallAt at h
  split at h
  · cases h
  rename_i rs0 s K h0
  split at h
  case h_2 => cases h
  rename_i s1 K1 h1
  split at h
  case h_2 => cases h
  rename_i rs s2 K2 h2
  simp only [Bool.and_eq_true] at h
  obtain ⟨h3, h4⟩ := h
  split at h4
  case h_2 => cases h4
  rename_i r s3 h5
  obtain ⟨a1, a2, a3⟩ := sexec1_sound h1
  refine ⟨s, K, s1, K1, _, s2, K2, r, s3, ⟨sdemoStart_start sizes m hm, _, sexecAll_sound h0⟩, a1, a2, a3, sexecAll_sound h2, ?_,
    h5, h4⟩
  intro ch r hm
  rw [List.all_eq_true] at h3
  have := h3 _ hm
  simp at this

/-- `n` undisturbed steps of thread `t`. -/
def goes (t n : Nat) : List Act := List.replicate n (.go t fresh)

end Blink
