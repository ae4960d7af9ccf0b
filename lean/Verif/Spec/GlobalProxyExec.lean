import Verif.Spec.GlobalProxy
import Verif.Spec.GlobalSyncExec
import Verif.Spec.ProxyExec
/-
  An executable version of histories of a global allocator with proxies, sound with respect to `GPRun`. Only used to show that
  concrete, non-trivial cases meet the hypotheses of the property theorems. Identities of proxies are below 8.
-/
namespace Blink

/-- No proxy exists. -/
def GPBook.noneB (K : GPBook) : Bool := (List.range 8).all fun i => !K.live i

/-- Check legality; `ts` are the threads that ever called the global allocator. -/
def gplegalB (K : GPBook) (ts : List Nat) : GAct → Bool
  | .call t c => gslegalB K.toGSBook ts (.call t c) && K.blinkMode && (K.pbusy t).isNone
  | .go _ _ => true
  | .write x v => gslegalB K.toGSBook ts (.write x v) ||
      ((List.range 8).flatMap K.led).any fun b => decide (b.addr ≤ x) && decide (x < b.addr + b.len)
  | .reset => gslegalB K.toGSBook ts .reset && K.noneB
  | .blinkMode => gslegalB K.toGSBook ts .blinkMode
  | .directMode => gslegalB K.toGSBook ts .directMode && K.noneB

theorem GPBook.noneB_sound {K : GPBook} (hs : K.px.Small) (h : K.noneB = true) : ∀ i, K.live i = false := by
  intro i
  by_cases hi : i < 8
  · have := List.all_eq_true.mp h i (List.mem_range.mpr hi)
    simpa using this
  · exact (hs i (by omega)).1

theorem gplegalB_sound {K : GPBook} {ts : List Nat} (hts : ∀ t, t ∉ ts → K.busy t = none) (hs : K.px.Small) {a : GAct}
    (h : gplegalB K ts a = true) : GPLegal K (.glob a) := by
  cases a with
  | call t c =>
    simp only [gplegalB, Bool.and_eq_true, Option.isNone_iff_eq_none] at h
    exact .call (gslegalB_sound hts h.1.1) h.1.2 h.2
  | go t ch => exact .go
  | write x v =>
    simp only [gplegalB, Bool.or_eq_true] at h
    rcases h with h | h
    · exact .write (gslegalB_sound hts h)
    · rw [List.any_eq_true] at h
      obtain ⟨b, hb, h2⟩ := h
      simp only [Bool.and_eq_true, decide_eq_true_eq] at h2
      obtain ⟨i, _, hb⟩ := List.mem_flatMap.mp hb
      exact .pwrite hb h2
  | reset =>
    simp only [gplegalB, Bool.and_eq_true] at h
    exact .reset (gslegalB_sound hts h.1) (GPBook.noneB_sound hs h.2)
  | blinkMode => exact .blinkMode (gslegalB_sound hts h)
  | directMode =>
    simp only [gplegalB, Bool.and_eq_true] at h
    exact .directMode (gslegalB_sound hts h.1) (GPBook.noneB_sound hs h.2)

/-- The book after a legal action (`none` if it is not legal, or not covered). -/
def gpbook (m : Nat → Byte) (K : GPBook) (ts : List Nat) : GPAct → Option GPResp → Option (GPBook × List Nat)
  | .glob a, r =>
    if gplegalB K ts a then
      match r with
      | some (.proxy _) => none
      | some (.glob r) => (gsafter m K.toGSBook a (some r)).map fun G => ({ K with toGSBook := G }, a.threads ++ ts)
      | none => (gsafter m K.toGSBook a none).map fun G => ({ K with toGSBook := G }, a.threads ++ ts)
    else none
  | .proxy a, r =>
    if a.atProxy && a.proxy.all fun i => (K.busy i).isNone then
      match r with
      | some (.glob _) => none
      | some (.proxy r) => (pbook m K.px a (some r)).map fun P => ({ K with live := P.live, led := P.led, pbusy := P.pbusy }, ts)
      | none => (pbook m K.px a none).map fun P => ({ K with live := P.live, led := P.led, pbusy := P.pbusy }, ts)
    else none

/-- The bookkeeping of the executable version. -/
def GPBook.Fine (K : GPBook) (ts : List Nat) : Prop := (∀ t, t ∉ ts → K.busy t = none) ∧ K.px.Small

theorem pbook_fine {m : Nat → Byte} {K : GPBook} {ts : List Nat} {a : PAct} {r : Option Resp} {P : PBook} (hf : K.Fine ts)
    (h : pbook m K.px a r = some P) : GPBook.Fine { K with live := P.live, led := P.led, pbusy := P.pbusy } ts :=
  ⟨hf.1, fun t ht => ⟨(pbook_small h hf.2 t ht).1, rfl⟩⟩

theorem gpbook_sound {m : Nat → Byte} {K : GPBook} {ts : List Nat} {a : GPAct} {r : Option GPResp} {K' ts'} (hf : K.Fine ts)
    (h : gpbook m K ts a r = some (K', ts')) : GPLegal K a ∧ GPAfter m K a r K' ∧ K'.Fine ts' := by
  cases a with
  | glob a =>
    simp only [gpbook] at h
    split at h
    · rename_i hl
      split at h
      · cases h
      · rename_i r
        cases hg : gsafter m K.toGSBook a (some r) with
        | none => rw [hg] at h; cases h
        | some G =>
          rw [hg] at h
          cases h
          exact ⟨gplegalB_sound hf.1 hf.2 hl, .glob (r := some r) (gsafter_sound hg), gsafter_threads hf.1 (gsafter_sound hg), hf.2⟩
      · cases hg : gsafter m K.toGSBook a none with
        | none => rw [hg] at h; cases h
        | some G =>
          rw [hg] at h
          cases h
          exact ⟨gplegalB_sound hf.1 hf.2 hl, .glob (r := none) (gsafter_sound hg), gsafter_threads hf.1 (gsafter_sound hg), hf.2⟩
    · cases h
  | proxy a =>
    simp only [gpbook] at h
    split at h
    · rename_i hl
      simp only [Bool.and_eq_true] at hl
      have hb : ∀ i, a.proxy = some i → K.busy i = none := by
        intro i hi
        have := hl.2
        rw [hi] at this
        simpa using this
      split at h
      · cases h
      · rename_i r
        cases hg : pbook m K.px a (some r) with
        | none => rw [hg] at h; cases h
        | some P =>
          rw [hg] at h
          cases h
          exact ⟨.proxy hl.1 (pbook_sound hg).1 hb, .proxy (r := some r) (pbook_sound hg).2, pbook_fine hf hg⟩
      · cases hg : pbook m K.px a none with
        | none => rw [hg] at h; cases h
        | some P =>
          rw [hg] at h
          cases h
          exact ⟨.proxy hl.1 (pbook_sound hg).1 hb, .proxy (r := none) (pbook_sound hg).2, pbook_fine hf hg⟩
    · cases h

/-- Run a list of actions. -/
def gpexecAll (x : GPS) (K : GPBook) (ts : List Nat) : List GPAct → Option (List (Option GPResp) × GPS × GPBook × List Nat)
  | [] => some ([], x, K, ts)
  | a :: as =>
    match gpstep x a with
    | .ok (some (r, x')) =>
      match gpbook x.g.s.w.mem K ts a r with
      | none => none
      | some (K', ts') =>
        match gpexecAll x' K' ts' as with
        | none => none
        | some (rs, y) => some (r :: rs, y)
    | _ => none

theorem GPRun.trans {x0 K0 tr1 x1 K1 tr2 x2 K2} (h1 : GPRun x0 K0 tr1 x1 K1) (h2 : GPRun x1 K1 tr2 x2 K2) :
    GPRun x0 K0 (tr1 ++ tr2) x2 K2 := by
  induction h2 with
  | nil => simpa using h1
  | snoc _ hl hs ha ih => rw [← List.append_assoc]; exact ih.snoc hl hs ha

theorem gpexecAll_sound {x K ts as rs x' K' ts'} (hf : K.Fine ts) (h : gpexecAll x K ts as = some (rs, x', K', ts')) :
    GPRun x K (as.zip rs) x' K' ∧ K'.Fine ts' := by
  induction as generalizing x K ts rs with
  | nil =>
    simp only [gpexecAll, Option.some.injEq, Prod.mk.injEq] at h
    obtain ⟨rfl, rfl, rfl, rfl⟩ := h
    exact ⟨.nil, hf⟩
  | cons a as ih =>
    unfold gpexecAll at h
    split at h
    case h_2 => cases h
    rename_i r x1 h1
    split at h
    · cases h
    rename_i K1 ts1 h2
    split at h
    · cases h
    rename_i rs1 y h3
    obtain ⟨x2, K2, ts2⟩ := y
    simp only [Option.some.injEq, Prod.mk.injEq] at h
    obtain ⟨rfl, rfl, rfl, rfl⟩ := h
    obtain ⟨a1, a2, a3⟩ := gpbook_sound hf h2
    have : GPRun x K [(a, r)] x1 K1 := GPRun.snoc (tr := []) .nil a1 h1 a2
    obtain ⟨a4, a5⟩ := ih a3 h3
    exact ⟨this.trans a4, a5⟩

/-- A new global allocator in the demonstration world, with addresses below 2^61. -/
def gpdemo (sizes : List Nat) (debug : Bool := true) : GPS :=
  ⟨⟨{ sdemoStart sizes 256 with w := { demoWorld sizes debug with top := HUGE } }, [], false, 0, fun _ => .idle⟩, [0], fun _ => 0, fun _ => none⟩

theorem gpdemo_start (sizes : List Nat) (debug : Bool) : GPStart (gpdemo sizes debug) where
  glob := {
    enabled := rfl
    zero := rfl
    blink :=
      { root := rfl, readers := rfl, writer := rfl, seen := rfl, pcs := fun _ => rfl
        world := ⟨by simp [gpdemo, HUGE], by simp [gpdemo, demoWorld], by simp [gpdemo, demoWorld, HUGE]⟩
        dbg := fun _ => ⟨show 0 < 256 by decide, show 256 ≤ 4611686018427387904 by decide, by simp [gpdemo, HUGE]⟩
        log := rfl }
    dlog := rfl
    pcs := fun _ => rfl }
  top := Nat.le_refl _
  hist := rfl
  view := fun _ => rfl
  px := fun _ => rfl

/-- Check any decidable fact about responses, state and book after a concrete run. -/
def gpdemoAt (sizes : List Nat) (debug : Bool) (as : List GPAct) (f : List (Option GPResp) → GPS → GPBook → List Nat → Bool) : Bool :=
  match gpexecAll (gpdemo sizes debug) GPBook.empty [] as with
  | none => false
  | some (rs, x, K, ts) => f rs x K ts

theorem of_gpdemoAt {sizes : List Nat} {debug : Bool} {as : List GPAct} {f} (h : gpdemoAt sizes debug as f = true) :
    ∃ rs x K ts, GPStart (gpdemo sizes debug) ∧ GPRun (gpdemo sizes debug) GPBook.empty (as.zip rs) x K ∧ K.Fine ts ∧ f rs x K ts = true := by
  unfold gpdemoAt at h
  split at h
  · cases h
  rename_i rs x K ts h1
  obtain ⟨a1, a2⟩ := gpexecAll_sound ⟨fun _ _ => rfl, fun _ _ => ⟨rfl, rfl⟩⟩ h1
  exact ⟨rs, x, K, ts, gpdemo_start sizes debug, a1, a2, h⟩

/-- `n` undisturbed steps of thread `t` inside the global allocator. -/
def gpgoes (t n : Nat) : List GPAct := (ggoes t n).map .glob

/-- `n` undisturbed steps of thread `t` inside the `SyncBlinkAlloc` on behalf of its proxy. -/
def gppgoes (t n : Nat) : List GPAct := (pgoes t n).map .proxy

end Blink
