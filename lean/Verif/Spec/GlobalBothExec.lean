import Verif.Spec.GlobalBoth
import Verif.Spec.GlobalProxyExec
import Verif.Spec.EnvExec
/-
  An executable version of the histories of `Spec/GlobalBoth.lean`, for examples only.
-/
namespace Blink

/-- The book after a legal action (`none` if it is not legal, or not covered). -/
def gdbook (m : Nat → Byte) (K : GPBook) (ts : List Nat) (a : GPAct) (r : Option GPResp) : Option (GPBook × List Nat) :=
  match a, r with
  | .glob (.call t c), none =>
    if gslegalB K.toGSBook ts (.call t c) && (K.pbusy t).isNone then
      (gsafter m K.toGSBook (.call t c) none).map fun G => ({ K with toGSBook := G }, (GAct.call t c).threads ++ ts)
    else none
  | a, r => gpbook m K ts a r

theorem gdbook_sound {m : Nat → Byte} {K : GPBook} {ts : List Nat} {a : GPAct} {r : Option GPResp} {K' ts'} (hf : K.Fine ts)
    (h : gdbook m K ts a r = some (K', ts')) : GDLegal K a ∧ GPAfter m K a r K' ∧ K'.Fine ts' := by
  unfold gdbook at h
  split at h
  · rename_i t c
    split at h
    · rename_i hl
      simp only [Bool.and_eq_true, Option.isNone_iff_eq_none] at hl
      cases hg : gsafter m K.toGSBook (.call t c) none with
      | none => rw [hg] at h; cases h
      | some G =>
        rw [hg] at h
        cases h
        have hs := gslegalB_sound hf.1 hl.1
        refine ⟨?_, .glob (r := none) (gsafter_sound hg), gsafter_threads hf.1 (gsafter_sound hg), hf.2⟩
        cases hm : K.blinkMode with
        | true => exact .covered (.call hs hm hl.2)
        | false => exact .direct hs hm hl.2
    · cases h
  · obtain ⟨h1, h2, h3⟩ := gpbook_sound hf h
    exact ⟨.covered h1, h2, h3⟩

/-- Run a list of actions, and steps of others. -/
def gdexecAll (x : GPS) (K : GPBook) (ts : List Nat) (O : List BaseBlk) :
    List (GPAct ⊕ EnvAct) → Option (List (GPAct × Option GPResp) × GPS × GPBook × List BaseBlk × List Nat)
  | [] => some ([], x, K, O, ts)
  | .inl a :: as =>
    match gpstep x a with
    | .ok (some (r, x')) =>
      match gdbook x.g.s.w.mem K ts a r with
      | none => none
      | some (K', ts') => (gdexecAll x' K' ts' O as).map fun p => ((a, r) :: p.1, p.2)
    | _ => none
  | .inr a :: as =>
    match envExec O x.g.s.w a with
    | none => none
    | some (O', w') => gdexecAll { x with g := { x.g with s := { x.g.s with w := w' } } } K ts O' as

theorem gdexecAll_sound {x0 K0 O0 tr0 x K O ts} (h0 : GDRun x0 K0 O0 tr0 x K O) (hf : K.Fine ts) {as tr x' K' O' ts'}
    (h : gdexecAll x K ts O as = some (tr, x', K', O', ts')) : GDRun x0 K0 O0 (tr0 ++ tr) x' K' O' ∧ K'.Fine ts' := by
  induction as generalizing tr0 x K O tr ts with
  | nil =>
    simp only [gdexecAll, Option.some.injEq, Prod.mk.injEq] at h
    obtain ⟨rfl, rfl, rfl, rfl, rfl⟩ := h
    rw [List.append_nil]
    exact ⟨h0, hf⟩
  | cons a as ih =>
    cases a with
    | inl a =>
      simp only [gdexecAll] at h
      split at h
      case h_2 => cases h
      rename_i r s1 hs
      split at h
      · cases h
      rename_i K1 ts1 h1
      rw [Option.map_eq_some_iff] at h
      obtain ⟨⟨tr1, p⟩, h2, h3⟩ := h
      cases h3
      obtain ⟨a1, a2, a3⟩ := gdbook_sound hf h1
      have := ih (h0.snoc a1 hs a2) a3 h2
      rwa [List.append_assoc] at this
    | inr a =>
      simp only [gdexecAll] at h
      split at h
      · cases h
      rename_i O1 w1 h1
      exact ih (h0.env (envExec_sound h1)) hf h

/-- Check any decidable fact about history, state, book and blocks of others after a concrete run. -/
def gddemoAt (sizes : List Nat) (debug : Bool) (as : List (GPAct ⊕ EnvAct))
    (f : List (GPAct × Option GPResp) → GPS → GPBook → List BaseBlk → List Nat → Bool) : Bool :=
  match gdexecAll (gpdemo sizes debug) GPBook.empty [] (gpdemo sizes debug).g.s.w.held as with
  | none => false
  | some (tr, x, K, O, ts) => f tr x K O ts

theorem of_gddemoAt {sizes : List Nat} {debug : Bool} {as f} (h : gddemoAt sizes debug as f = true) :
    ∃ tr x K O ts, GPStart (gpdemo sizes debug) ∧ GDRun (gpdemo sizes debug) GPBook.empty (gpdemo sizes debug).g.s.w.held tr x K O ∧ K.Fine ts ∧
      f tr x K O ts = true := by
  unfold gddemoAt at h
  split at h
  · cases h
  rename_i tr x K O ts h1
  obtain ⟨a1, a2⟩ := gdexecAll_sound .nil ⟨fun _ _ => rfl, fun _ _ => ⟨rfl, rfl⟩⟩ h1
  exact ⟨tr, x, K, O, ts, gpdemo_start sizes debug, a1, a2, h⟩

end Blink
