import Verif.Spec.GlobalSyncExec
/-
  Executable check of facts about one call in a concrete history of threads using a global allocator. Only used to show that concrete,
  non-trivial cases meet the hypotheses of the property theorems.
-/
namespace Blink

/-- Thread `t` got an answer. -/
def GAct.answersB (t : Nat) : GAct → Option GResp → Bool
  | .go u _, some _ => u == t
  | _, _ => false

/-- Run a list of actions during which thread `t` gets no answer. -/
def gsexecMid (t : Nat) (g : GSS) (K : GSBook) (ts : List Nat) : List GAct → Option (GSS × GSBook × List Nat)
  | [] => some (g, K, ts)
  | a :: as =>
    if gslegalB K ts a then
      match gsstep g a with
      | .ok (some (r, g')) =>
        if a.answersB t r then none else
          match gsafter g.s.w.mem K a r with
          | some K' => gsexecMid t g' K' (a.threads ++ ts) as
          | none => none
      | _ => none
    else none

theorem gsexecMid_sound {t g K ts as g' K' ts'} (hts : ∀ u, u ∉ ts → K.busy u = none) (h : gsexecMid t g K ts as = some (g', K', ts')) :
    (∃ tr, GSRun g K tr g' K' ∧ ∀ ch r, (GAct.go t ch, some r) ∉ tr) ∧ ∀ u, u ∉ ts' → K'.busy u = none := by
  induction as generalizing g K ts with
  | nil =>
    simp only [gsexecMid, Option.some.injEq, Prod.mk.injEq] at h
    obtain ⟨rfl, rfl, rfl⟩ := h
    exact ⟨⟨[], .nil, by simp⟩, hts⟩
  | cons a as ih =>
    unfold gsexecMid at h
    split at h
    case isFalse => cases h
    rename_i hl
    split at h
    case h_2 => cases h
    rename_i r g1 hs
    split at h
    case isTrue => cases h
    rename_i hq
    split at h
    case h_2 => cases h
    rename_i K1 ha
    have ha := gsafter_sound ha
    have h1 : GSRun g K [(a, r)] g1 K1 := GSRun.snoc (tr := []) .nil (gslegalB_sound hts hl) hs ha
    obtain ⟨⟨tr, ht, hn⟩, h2⟩ := ih (gsafter_threads hts ha) h
    refine ⟨⟨_, h1.trans ht, ?_⟩, h2⟩
    intro ch r' hm
    rcases List.mem_append.mp hm with hm | hm
    · rw [List.mem_singleton] at hm
      injection hm with h3 h4
      subst h3 h4
      simp [GAct.answersB] at hq
    · exact hn ch r' hm

/-- Check a fact about a call in a concrete run: the actions `pre`, the call, the actions `mid` during which it does not return,
one more step of the caller. -/
def gscallAt (sizes : List Nat) (debug : Bool) (pre : List GAct) (t : Nat) (c : GCall) (mid : List GAct)
    (f : GSBook → GSS → Option GResp → GSS → Bool) : Bool :=
  match gsexecAll (gsdemo sizes debug) GSBook.empty [] pre with
  | none => false
  | some (g, K, ts) =>
    gslegalB K ts (.call t c) &&
    match gsstep g (.call t c) with
    | .ok (some (none, g1)) =>
      match gsafter g.s.w.mem K (.call t c) none with
      | some K1 =>
        match gsexecMid t g1 K1 (t :: ts) mid with
        | some (g2, _, _) =>
          match gsstep g2 (.go t fresh) with
          | .ok (some (r, g3)) => f K g2 r g3
          | _ => false
        | none => false
      | none => false
    | _ => false

theorem of_gscallAt {sizes : List Nat} {debug : Bool} {pre : List GAct} {t : Nat} {c : GCall} {mid : List GAct} {f}
    (h : gscallAt sizes debug pre t c mid f = true) :
    ∃ g K g1 K1 tr g2 K2 r g3, GSReach (gsdemo sizes debug) g K ∧ GSLegal K (.call t c) ∧
      gsstep g (.call t c) = .ok (some (none, g1)) ∧ GSAfter g.s.w.mem K (.call t c) none K1 ∧ GSRun g1 K1 tr g2 K2 ∧
      (∀ ch r, (GAct.go t ch, some r) ∉ tr) ∧ gsstep g2 (.go t fresh) = .ok (some (r, g3)) ∧ f K g2 r g3 = true := by
  unfold gscallAt at h
  split at h
  · cases h
  rename_i g K ts h0
  simp only [Bool.and_eq_true] at h
  obtain ⟨hl, h⟩ := h
  split at h
  case h_2 => cases h
  rename_i g1 hs
  split at h
  case h_2 => cases h
  rename_i K1 ha
  split at h
  case h_2 => cases h
  rename_i g2 K2 ts2 h2
  split at h
  case h_2 => cases h
  rename_i r g3 h3
  obtain ⟨⟨tr0, hr0⟩, hts⟩ := gsexecAll_sound (fun _ _ => rfl) h0
  have ha := gsafter_sound ha
  obtain ⟨⟨tr, hr, hn⟩, _⟩ := gsexecMid_sound (gsafter_threads hts ha) h2
  exact ⟨g, K, g1, K1, tr, g2, K2, r, g3, ⟨gsdemo_start sizes debug, tr0, hr0⟩, gslegalB_sound hts hl, hs, ha, hr, hn, h3, h⟩

end Blink
