import Verif.Spec.GlobalSync
import Verif.Spec.GlobalExec
import Verif.Spec.SyncExec
/-
  An executable version of histories of threads using a global allocator, sound with respect to `GSRun`. Only used to show that
  concrete, non-trivial cases meet the hypotheses of the property theorems.
-/
namespace Blink

/-- Check legality; `ts` are the threads that ever made a call. -/
def gslegalB (K : GSBook) (ts : List Nat) : GAct → Bool
  | .call t (.alloc l) => (K.busy t).isNone && l.validB && decide (0 < l.size)
  | .call t (.allocZeroed l) => (K.busy t).isNone && l.validB && decide (0 < l.size)
  | .call t (.dealloc p l) => (K.busy t).isNone && (K.cur.find? (Owned.isB p l)).isSome
  | .call t (.realloc p l n) => (K.busy t).isNone && (K.cur.find? (Owned.isB p l)).isSome && decide (0 < n)
  | .go _ _ => true
  | .write x _ => K.all.any (fun b => decide (b.addr ≤ x) && decide (x < b.addr + b.len))
  | .reset => ts.all fun t => (K.busy t).isNone
  | .blinkMode => ts.all fun t => (K.busy t).isNone
  | .directMode => ts.all fun t => (K.busy t).isNone

theorem all_quiet {K : GSBook} {ts : List Nat} (hts : ∀ t, t ∉ ts → K.busy t = none) (h : (ts.all fun t => (K.busy t).isNone) = true) :
    ∀ t, K.busy t = none := by
  intro t
  by_cases ht : t ∈ ts
  · have := List.all_eq_true.mp h t ht
    simpa using this
  · exact hts t ht

theorem gslegalB_sound {K : GSBook} {ts : List Nat} (hts : ∀ t, t ∉ ts → K.busy t = none) {a : GAct} (h : gslegalB K ts a = true) :
    GSLegal K a := by
  cases a with
  | call t c =>
    cases c with
    | alloc l =>
      simp only [gslegalB, Bool.and_eq_true, decide_eq_true_eq, Option.isNone_iff_eq_none] at h
      exact .alloc h.1.1 (Layout.validB_sound h.1.2) h.2
    | allocZeroed l =>
      simp only [gslegalB, Bool.and_eq_true, decide_eq_true_eq, Option.isNone_iff_eq_none] at h
      exact .allocZeroed h.1.1 (Layout.validB_sound h.1.2) h.2
    | dealloc p l =>
      simp only [gslegalB, Bool.and_eq_true, Option.isNone_iff_eq_none] at h
      obtain ⟨b, _, h1, h2⟩ := find_is h.2
      exact .dealloc h.1 h1 h2
    | realloc p l n =>
      simp only [gslegalB, Bool.and_eq_true, decide_eq_true_eq, Option.isNone_iff_eq_none] at h
      obtain ⟨b, _, h1, h2⟩ := find_is h.1.2
      exact .realloc h.1.1 h1 h2 h.2
  | go t ch => exact .go
  | write x v =>
    simp only [gslegalB, List.any_eq_true, Bool.and_eq_true, decide_eq_true_eq] at h
    obtain ⟨b, hb, hx⟩ := h
    exact .write hb hx
  | reset => exact .reset (all_quiet hts h)
  | blinkMode => exact .blinkMode (all_quiet hts h)
  | directMode => exact .directMode (all_quiet hts h)

/-- The book after a step. -/
def gsafter (m : Nat → Byte) (K : GSBook) : GAct → Option GResp → Option GSBook
  | .call t (.alloc l), none => some { K with busy := put K.busy t (some (.alloc l, none)), snap := put K.snap t m }
  | .call t (.allocZeroed l), none => some { K with busy := put K.busy t (some (.allocZeroed l, none)), snap := put K.snap t m }
  | .call t (.dealloc p l), none => (K.cur.find? (Owned.isB p l)).map fun b =>
      { toGBook := K.del b, busy := put K.busy t (some (.dealloc p l, some b)), snap := put K.snap t m }
  | .call t (.realloc p l n), none => (K.cur.find? (Owned.isB p l)).map fun b =>
      { toGBook := K.del b, busy := put K.busy t (some (.realloc p l n, some b)), snap := put K.snap t m }
  | .go _ _, none => some K
  | .go t _, some r =>
    match K.busy t with
    | some (c, ob) => some { K with toGBook := K.addL (ggets c ob r), busy := put K.busy t none }
    | none => none
  | .write _ _, some .unit => some K
  | .reset, some .unit => some { K with blink := [] }
  | .reset, some .panicked => some K
  | .blinkMode, some .unit => some { K with blinkMode := true }
  | .directMode, some .unit => some { K with blink := [], blinkMode := false }
  | .directMode, some .panicked => some K
  | _, _ => none

theorem gsafter_sound {m : Nat → Byte} {K : GSBook} {a : GAct} {r : Option GResp} {K' : GSBook} (h : gsafter m K a r = some K') :
    GSAfter m K a r K' := by
  unfold gsafter at h
  split at h
  · cases h; exact .alloc
  · cases h; exact .allocZeroed
  · rename_i t p l
    cases hf : K.cur.find? (Owned.isB p l) with
    | none => rw [hf] at h; cases h
    | some b =>
      rw [hf] at h; cases h
      exact .dealloc (List.mem_of_find?_eq_some hf) (Owned.isB_sound (List.find?_some hf))
  · rename_i t p l n
    cases hf : K.cur.find? (Owned.isB p l) with
    | none => rw [hf] at h; cases h
    | some b =>
      rw [hf] at h; cases h
      exact .realloc (List.mem_of_find?_eq_some hf) (Owned.isB_sound (List.find?_some hf))
  · cases h; exact .inside
  · split at h
    · cases h; exact .ret (by assumption)
    · cases h
  all_goals first | (cases h; done) | (cases h; constructor)

/-- The threads that ever made a call. -/
def GAct.threads : GAct → List Nat
  | .call t _ => [t]
  | _ => []

theorem gsafter_threads {m : Nat → Byte} {K : GSBook} {ts : List Nat} {a : GAct} {r : Option GResp} {K' : GSBook}
    (hts : ∀ t, t ∉ ts → K.busy t = none) (h : GSAfter m K a r K') : ∀ t, t ∉ a.threads ++ ts → K'.busy t = none := by
  intro t ht
  have h1 : t ∉ ts := fun h => ht (List.mem_append_right _ h)
  have h2 : ∀ u c, a = .call u c → t ≠ u := by
    rintro u c rfl rfl
    exact ht (List.mem_append_left _ List.mem_cons_self)
  cases h with
  | alloc => exact (if_neg (h2 _ _ rfl)).trans (hts t h1)
  | allocZeroed => exact (if_neg (h2 _ _ rfl)).trans (hts t h1)
  | dealloc => exact (if_neg (h2 _ _ rfl)).trans (hts t h1)
  | realloc => exact (if_neg (h2 _ _ rfl)).trans (hts t h1)
  | @ret u _ _ _ _ hb =>
    by_cases he : t = u
    · subst he; exact if_pos rfl
    · exact (if_neg he).trans (hts t h1)
  | _ => exact hts t h1

/-- Run a list of actions. -/
def gsexecAll (g : GSS) (K : GSBook) (ts : List Nat) : List GAct → Option (GSS × GSBook × List Nat)
  | [] => some (g, K, ts)
  | a :: as =>
    if gslegalB K ts a then
      match gsstep g a with
      | .ok (some (r, g')) =>
        match gsafter g.s.w.mem K a r with
        | some K' => gsexecAll g' K' (a.threads ++ ts) as
        | none => none
      | _ => none
    else none

theorem GSRun.trans {g0 K0 tr1 g1 K1 tr2 g2 K2} (h1 : GSRun g0 K0 tr1 g1 K1) (h2 : GSRun g1 K1 tr2 g2 K2) :
    GSRun g0 K0 (tr1 ++ tr2) g2 K2 := by
  induction h2 with
  | nil => simpa using h1
  | snoc _ hl hs ha ih => rw [← List.append_assoc]; exact ih.snoc hl hs ha

theorem gsexecAll_sound {g K ts as g' K' ts'} (hts : ∀ t, t ∉ ts → K.busy t = none) (h : gsexecAll g K ts as = some (g', K', ts')) :
    (∃ tr, GSRun g K tr g' K') ∧ ∀ t, t ∉ ts' → K'.busy t = none := by
  induction as generalizing g K ts with
  | nil =>
    simp only [gsexecAll, Option.some.injEq, Prod.mk.injEq] at h
    obtain ⟨rfl, rfl, rfl⟩ := h
    exact ⟨⟨[], .nil⟩, hts⟩
  | cons a as ih =>
    unfold gsexecAll at h
    split at h
    · rename_i hl
      split at h
      · rename_i r g1 hs
        split at h
        · rename_i K1 ha
          have ha := gsafter_sound ha
          have : GSRun g K [(a, r)] g1 K1 := GSRun.snoc (tr := []) .nil (gslegalB_sound hts hl) hs ha
          obtain ⟨⟨tr, ht⟩, h2⟩ := ih (gsafter_threads hts ha) h
          exact ⟨⟨_, this.trans ht⟩, h2⟩
        · cases h
      · cases h
    · cases h

/-- A new global allocator in the demonstration world. -/
def gsdemo (sizes : List Nat) (debug : Bool := true) : GSS :=
  ⟨{ sdemoStart sizes 256 with w := demoWorld sizes debug }, [], false, 0, fun _ => .idle⟩

theorem gsdemo_start (sizes : List Nat) (debug : Bool) : GSStart (gsdemo sizes debug) where
  enabled := rfl
  zero := rfl
  blink :=
    { root := rfl, readers := rfl, writer := rfl, seen := rfl, pcs := fun _ => rfl
      world := ⟨by simp [gsdemo, demoWorld], by simp [gsdemo, demoWorld], by simp [gsdemo, demoWorld]⟩
      dbg := fun _ => ⟨show 0 < 256 by decide, show 256 ≤ 4611686018427387904 by decide, Nat.le_refl _⟩
      log := rfl }
  dlog := rfl
  pcs := fun _ => rfl

/-- Check any decidable fact about the state and book before an action, the action's outcome and the fact that it is legal. -/
def gsdemoAt (sizes : List Nat) (debug : Bool) (as : List GAct) (a : GAct)
    (f : GSS → GSBook → Except Fault (Option (Option GResp × GSS)) → Bool) : Bool :=
  match gsexecAll (gsdemo sizes debug) GSBook.empty [] as with
  | none => false
  | some (g, K, ts) => gslegalB K ts a && f g K (gsstep g a)

theorem of_gsdemoAt {sizes : List Nat} {debug : Bool} {as : List GAct} {a : GAct} {f} (h : gsdemoAt sizes debug as a f = true) :
    ∃ g K, GSReach (gsdemo sizes debug) g K ∧ GSLegal K a ∧ f g K (gsstep g a) = true := by
  unfold gsdemoAt at h
  split at h
  · cases h
  rename_i g K ts h1
  simp only [Bool.and_eq_true] at h
  obtain ⟨⟨tr, hr⟩, hts⟩ := gsexecAll_sound (fun _ _ => rfl) h1
  exact ⟨g, K, ⟨gsdemo_start sizes debug, tr, hr⟩, gslegalB_sound hts h.1, h.2⟩

/-- `n` undisturbed steps of thread `t`. -/
def ggoes (t n : Nat) : List GAct := List.replicate n (.go t fresh)

end Blink
