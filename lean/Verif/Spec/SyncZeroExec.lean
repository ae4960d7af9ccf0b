import Verif.Spec.SyncZero
import Verif.Spec.SyncExec
/-
  An executable version of the histories of `Spec/SyncZero.lean`, sound with respect to `ZRun`. Only used to show that concrete, non-trivial
  cases meet the hypotheses of the property theorems. Resets are left out.
-/
namespace Blink

/-- The book after a step of thread `t` with response `r`. -/
def zbookRet (K : ZBook) (t : Nat) : Option Resp → Option ZBook
  | none => some K
  | some v =>
    match K.busy t with
    | some (c, ob) => some { K with owned := zgets c ob v ++ K.owned, busy := put K.busy t none }
    | none => none

/-- Check that the action is legal and update the book. -/
def zbook (m : Nat → Byte) (K : ZBook) (a : ZAct) (r : Option Resp) : Option ZBook :=
  match a with
  | .base (.call t (.allocate l)) =>
    if r = none ∧ l.validB = true ∧ (K.busy t).isNone = true then some { K with busy := put K.busy t (some (.plain (.allocate l), none)) } else none
  | .base (.call t (.resize p old new)) =>
    match K.owned.find? (Owned.fitsB p old) with
    | some b =>
      if r = none ∧ new.validB = true ∧ (K.busy t).isNone = true then
        some { K with owned := K.owned.erase b, busy := put K.busy t (some (.plain (.resize p old new), some b)) }
      else none
    | none => none
  | .base (.go t _) => zbookRet K t r
  | .base (.write x _) =>
    if r = none ∧ K.owned.any (fun b => decide (b.addr ≤ x) && decide (x < b.addr + b.len)) = true then some K else none
  | .zcall t (.zeroed l) =>
    if r = none ∧ l.validB = true ∧ (K.busy t).isNone = true then
      some { K with busy := put K.busy t (some (.zeroed (.zeroed l), none)), snap := put K.snap t m }
    else none
  | .zcall t (.growZeroed p old new) =>
    match K.owned.find? (Owned.fitsB p old) with
    | some b =>
      if r = none ∧ new.validB = true ∧ (K.busy t).isNone = true ∧ old.size ≤ new.size then
        some { owned := K.owned.erase b, busy := put K.busy t (some (.zeroed (.growZeroed p old new), some b)), snap := put K.snap t m }
      else none
    | none => none
  | .zgo t => zbookRet K t r
  | _ => none

theorem zbookRet_sound {m K a t r K'} (ha : a.runs = some t) (h : zbookRet K t r = some K') : ZAfter m K a r K' := by
  cases r with
  | none => cases h; exact .inside ha
  | some v =>
    simp only [zbookRet] at h
    split at h
    · rename_i hb; cases h; exact .ret ha hb
    · cases h

theorem zbook_sound {m K a r K'} (h : zbook m K a r = some K') : ZLegal K a ∧ ZAfter m K a r K' := by
  unfold zbook at h
  split at h
  · split at h
    · rename_i h1; cases h; obtain ⟨rfl, h1, h2⟩ := h1
      exact ⟨.allocate (Option.isNone_iff_eq_none.mp h2) (Layout.validB_sound h1), .allocate⟩
    · cases h
  · split at h
    · rename_i b hf
      have hb := List.mem_of_find?_eq_some hf
      have hf := Owned.fitsB_sound (List.find?_some hf)
      split at h
      · rename_i h1; cases h; obtain ⟨rfl, h1, h2⟩ := h1
        exact ⟨.resize (Option.isNone_iff_eq_none.mp h2) hb hf (Layout.validB_sound h1), .resize hb hf⟩
      · cases h
    · cases h
  · exact ⟨.go, zbookRet_sound rfl h⟩
  · split at h
    · rename_i h1; cases h; obtain ⟨rfl, h1⟩ := h1
      rw [List.any_eq_true] at h1
      obtain ⟨b, hb, h2⟩ := h1
      simp only [Bool.and_eq_true, decide_eq_true_eq] at h2
      exact ⟨.write hb h2, .write⟩
    · cases h
  · split at h
    · rename_i h1; cases h; obtain ⟨rfl, h1, h2⟩ := h1
      exact ⟨.zeroed (Option.isNone_iff_eq_none.mp h2) (Layout.validB_sound h1), .zeroed⟩
    · cases h
  · split at h
    · rename_i b hf
      have hb := List.mem_of_find?_eq_some hf
      have hf := Owned.fitsB_sound (List.find?_some hf)
      split at h
      · rename_i h1; cases h; obtain ⟨rfl, h1, h2, h3⟩ := h1
        exact ⟨.growZeroed (Option.isNone_iff_eq_none.mp h2) hb hf (Layout.validB_sound h1) h3, .growZeroed hb hf⟩
      · cases h
    · cases h
  · exact ⟨.zgo, zbookRet_sound rfl h⟩
  · cases h

/-- Run a list of actions. -/
def zexecAll (z : ZSS) (K : ZBook) : List ZAct → Option (List (Option Resp) × ZSS × ZBook)
  | [] => some ([], z, K)
  | a :: as =>
    match zstep z a with
    | .ok (some (r, z')) =>
      match zbook z.s.w.mem K a r with
      | none => none
      | some K' =>
        match zexecAll z' K' as with
        | none => none
        | some (rs, z'', K'') => some (r :: rs, z'', K'')
    | _ => none

theorem ZRun.trans {z0 L0 tr1 z1 L1 tr2 z2 L2} (h1 : ZRun z0 L0 tr1 z1 L1) (h2 : ZRun z1 L1 tr2 z2 L2) : ZRun z0 L0 (tr1 ++ tr2) z2 L2 := by
  induction h2 with
  | nil => simpa using h1
  | snoc _ hl hs ha ih => rw [← List.append_assoc]; exact ih.snoc hl hs ha

theorem zexecAll_sound {z K as rs z' K'} (h : zexecAll z K as = some (rs, z', K')) : ZRun z K (as.zip rs) z' K' := by
  induction as generalizing z K rs with
  | nil => simp only [zexecAll, Option.some.injEq, Prod.mk.injEq] at h; obtain ⟨rfl, rfl, rfl⟩ := h; exact .nil
  | cons a as ih =>
    unfold zexecAll at h
    split at h
    case h_2 => cases h
    rename_i r z1 h1
    split at h
    · cases h
    rename_i K1 h2
    split at h
    · cases h
    rename_i rs1 z2 K2 h3
    simp only [Option.some.injEq, Prod.mk.injEq] at h
    obtain ⟨rfl, rfl, rfl⟩ := h
    obtain ⟨a1, a2⟩ := zbook_sound h2
    have : ZRun z K [(a, r)] z1 K1 := ZRun.snoc (tr := []) .nil a1 h1 a2
    exact this.trans (ih h3)

/-- Check a fact about the state and book after a concrete run from a fresh allocator. -/
def zdemoAt (sizes : List Nat) (m : Nat) (as : List ZAct) (f : ZSS → ZBook → Bool) : Bool :=
  match zexecAll (ZSS.start (sdemoStart sizes m)) ZBook.empty as with
  | none => false
  | some (_, z, K) => f z K

theorem of_zdemoAt {sizes m as f} (hm : 0 < m ∧ m ≤ 4611686018427387904) (h : zdemoAt sizes m as f = true) :
    ∃ z K, ZReach (sdemoStart sizes m) z K ∧ f z K = true := by
  unfold zdemoAt at h
  split at h
  · cases h
  rename_i rs z K h1
  exact ⟨z, K, ⟨sdemoStart_start sizes m hm, _, zexecAll_sound h1⟩, h⟩

/-- Check a fact about a call in a concrete run: the actions `pre`, the call, the actions `mid` during which it does not return, one more step
`a` of the caller. -/
def zcallAt (sizes : List Nat) (m : Nat) (pre : List ZAct) (t : Nat) (j : ZJob) (mid : List ZAct) (a : ZAct)
    (f : ZSS → Option Resp → ZSS → Bool) : Bool :=
  match zexecAll (ZSS.start (sdemoStart sizes m)) ZBook.empty pre with
  | none => false
  | some (_, z, K) =>
    match zstep z (.zcall t j) with
    | .ok (some (none, z1)) =>
      match zbook z.s.w.mem K (.zcall t j) none with
      | some K1 =>
        match zexecAll z1 K1 mid with
        | some (rs, z2, _) =>
          (mid.zip rs).all (fun x => decide (x.1.runs ≠ some t) || x.2.isNone) &&
          match zstep z2 a with
          | .ok (some (r, z3)) => f z r z3
          | _ => false
        | none => false
      | none => false
    | _ => false

theorem of_zcallAt {sizes m pre t j mid a f} (hm : 0 < m ∧ m ≤ 4611686018427387904) (h : zcallAt sizes m pre t j mid a f = true) :
    ∃ z K z1 K1 tr z2 K2 r z3, ZReach (sdemoStart sizes m) z K ∧ ZLegal K (.zcall t j) ∧ zstep z (.zcall t j) = .ok (some (none, z1)) ∧
      ZAfter z.s.w.mem K (.zcall t j) none K1 ∧ ZRun z1 K1 tr z2 K2 ∧ (∀ a r, a.runs = some t → (a, some r) ∉ tr) ∧
      zstep z2 a = .ok (some (r, z3)) ∧ f z r z3 = true := by
  unfold zcallAt at h
  split at h
  · cases h
  rename_i rs0 z K h0
  split at h
  case h_2 => cases h
  rename_i z1 h1
  split at h
  case h_2 => cases h
  rename_i K1 h1'
  split at h
  case h_2 => cases h
  rename_i rs z2 K2 h2
  simp only [Bool.and_eq_true] at h
  obtain ⟨h3, h4⟩ := h
  split at h4
  case h_2 => cases h4
  rename_i r z3 h5
  obtain ⟨a1, a2⟩ := zbook_sound h1'
  refine ⟨z, K, z1, K1, _, z2, K2, r, z3, ⟨sdemoStart_start sizes m hm, _, zexecAll_sound h0⟩, a1, h1, a2, zexecAll_sound h2, ?_, h5, h4⟩
  intro a r ha hm
  rw [List.all_eq_true] at h3
  have := h3 _ hm
  simp [ha] at this

end Blink
