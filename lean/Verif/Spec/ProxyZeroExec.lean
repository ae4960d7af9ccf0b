import Verif.Spec.ProxyZero
import Verif.Spec.ProxyExec
/-
  An executable version of the histories of `Spec/ProxyZero.lean`, sound with respect to `ZPRun`. Only used to show that concrete,
  non-trivial cases meet the hypotheses of the property theorems.
-/
namespace Blink

/-- The book after a step of identity `i`, which executes a zeroed call, with response `r`. -/
def zpbookRet (V : ZPBook) (i : Nat) : Option Resp → Option ZPBook
  | none => if (V.zbusy i).isSome then some V else none
  | some v =>
    match V.zbusy i with
    | some (j, ob) =>
      some { V with k := { V.k with led := put V.k.led i (zgets (.zeroed j) ob v ++ V.k.led i) }, zbusy := put V.zbusy i none }
    | none => none

/-- The identity that makes a call is not executing a zeroed one. -/
def zpidle (V : ZPBook) (a : PAct) : Bool :=
  match a.proxy with
  | some i => (V.zbusy i).isNone
  | none =>
    match a with
    | .shared (.call t _) => (V.zbusy t).isNone
    | _ => true

/-- Check that the action is legal and update the book. -/
def zpbook (m : Nat → Byte) (V : ZPBook) (a : ZPAct) (r : Option Resp) : Option ZPBook :=
  match a with
  | .base (.shared (.go t ch)) =>
    if (V.zbusy t).isSome then zpbookRet V t r
    else
      match pbook m V.k (.shared (.go t ch)) r with
      | some k => if (V.zbusy t).isNone then some { V with k := k } else none
      | none => none
  | .base a =>
    if zpidle V a then
      match pbook m V.k a r with
      | some k => some { V with k := k }
      | none => none
    else none
  | .zcall i (.zeroed l) =>
    if V.k.readyB i = true ∧ (V.zbusy i).isNone = true ∧ l.modestB = true then some (V.enter m i (V.k.led i) (.zeroed l) none r) else none
  | .zcall i (.growZeroed p old new) =>
    match (V.k.led i).find? (Owned.fitsB p old) with
    | some b =>
      if V.k.readyB i = true ∧ (V.zbusy i).isNone = true ∧ new.modestB = true ∧ old.size ≤ new.size then
        some (V.enter m i ((V.k.led i).erase b) (.growZeroed p old new) (some b) r)
      else none
    | none => none
  | .zgo i => zpbookRet V i r

theorem zpbookRet_sound {m V a i r V'} (ha : a.Runs i) (h : zpbookRet V i r = some V') : ZPAfter m V a r V' := by
  cases r with
  | none =>
    simp only [zpbookRet] at h
    split at h
    · rename_i hb; cases h
      exact .inside ha (fun hn => by rw [hn] at hb; cases hb)
    · cases h
  | some v =>
    simp only [zpbookRet] at h
    split at h
    · rename_i hb; cases h; exact .ret ha hb
    · cases h

theorem zpidle_sound {V a} (h : zpidle V a = true) : (∀ i, a.proxy = some i → V.zbusy i = none) ∧
    ∀ t c, a = .shared (.call t c) → V.zbusy t = none := by
  unfold zpidle at h
  split at h
  · rename_i i hp
    refine ⟨fun u hu => ?_, ?_⟩
    · rw [hp] at hu; cases hu; exact Option.isNone_iff_eq_none.mp h
    · rintro t c rfl; cases hp
  · rename_i hp
    refine ⟨fun u hu => (by rw [hp] at hu; cases hu), ?_⟩
    rintro t c rfl
    exact Option.isNone_iff_eq_none.mp h

theorem zpbook_sound {m V a r V'} (h : zpbook m V a r = some V') : ZPLegal V a ∧ ZPAfter m V a r V' := by
  unfold zpbook at h
  split at h
  · rename_i t ch
    split at h
    · exact ⟨.base .go nofun nofun, zpbookRet_sound (.inr ⟨ch, rfl⟩) h⟩
    · split at h
      · rename_i k hk
        split at h
        · rename_i hz; cases h
          exact ⟨.base .go nofun nofun, .base (pbook_sound hk).2 fun u _ hu => by cases hu; exact Option.isNone_iff_eq_none.mp hz⟩
        · cases h
      · cases h
  · rename_i a hne
    split at h
    · rename_i hid
      split at h
      · rename_i k hk
        cases h
        exact ⟨.base (pbook_sound hk).1 (zpidle_sound hid).1 (zpidle_sound hid).2, .base (pbook_sound hk).2 fun t ch he => (hne t ch he).elim⟩
      · cases h
    · cases h
  · split at h
    · rename_i h1; cases h
      exact ⟨.zeroed (PBook.readyB_sound h1.1) (Option.isNone_iff_eq_none.mp h1.2.1) (Layout.modestB_sound h1.2.2), .zeroed⟩
    · cases h
  · split at h
    · rename_i b hf
      have hb := List.mem_of_find?_eq_some hf
      have hf := Owned.fitsB_sound (List.find?_some hf)
      split at h
      · rename_i h1; cases h
        exact ⟨.growZeroed (PBook.readyB_sound h1.1) (Option.isNone_iff_eq_none.mp h1.2.1) hb hf (Layout.modestB_sound h1.2.2.1) h1.2.2.2,
          .growZeroed hb hf⟩
      · cases h
    · cases h
  · exact ⟨.zgo, zpbookRet_sound (.inl rfl) h⟩

/-- Run a list of actions. -/
def zpexecAll (z : ZPS) (V : ZPBook) : List ZPAct → Option (List (ZPAct × Option Resp) × ZPS × ZPBook)
  | [] => some ([], z, V)
  | a :: as =>
    match zpstep z a with
    | .ok (some (r, z')) =>
      match zpbook z.p.s.w.mem V a r with
      | none => none
      | some V' =>
        match zpexecAll z' V' as with
        | none => none
        | some (tr, z'', V'') => some ((a, r) :: tr, z'', V'')
    | _ => none

theorem ZPRun.trans {z0 V0 tr1 z1 V1 tr2 z2 V2} (h1 : ZPRun z0 V0 tr1 z1 V1) (h2 : ZPRun z1 V1 tr2 z2 V2) :
    ZPRun z0 V0 (tr1 ++ tr2) z2 V2 := by
  induction h2 with
  | nil => simpa using h1
  | snoc _ hl hs ha ih => rw [← List.append_assoc]; exact ih.snoc hl hs ha

theorem zpexecAll_sound {z V as tr z' V'} (h : zpexecAll z V as = some (tr, z', V')) : ZPRun z V tr z' V' := by
  induction as generalizing z V tr with
  | nil =>
    simp only [zpexecAll, Option.some.injEq, Prod.mk.injEq] at h
    obtain ⟨rfl, rfl, rfl⟩ := h
    exact .nil
  | cons a as ih =>
    unfold zpexecAll at h
    split at h
    case h_2 => cases h
    rename_i r z1 h1
    split at h
    · cases h
    rename_i V1 h2
    split at h
    · cases h
    rename_i tr1 z2 V2 h3
    simp only [Option.some.injEq, Prod.mk.injEq] at h
    obtain ⟨rfl, rfl, rfl⟩ := h
    obtain ⟨a1, a2⟩ := zpbook_sound h2
    have : ZPRun z V [(a, r)] z1 V1 := ZPRun.snoc (tr := []) .nil a1 h1 a2
    exact this.trans (ih h3)

/-- Check any decidable fact about state and book after a concrete run. -/
def zpdemoAt (sizes : List Nat) (m : Nat) (as : List ZPAct) (f : ZPS → ZPBook → Bool) : Bool :=
  match zpexecAll (ZPS.start (pdemoStart sizes m)) ZPBook.empty as with
  | none => false
  | some (_, z, V) => f z V

theorem of_zpdemoAt {sizes : List Nat} {m : Nat} {as : List ZPAct} {f} (h : zpdemoAt sizes m as f = true)
    (hm : 0 < m ∧ m ≤ HUGE := by decide) : ∃ z V, ZPReach (pdemoStart sizes m) z V ∧ f z V = true := by
  unfold zpdemoAt at h
  split at h
  · cases h
  · rename_i tr z V he
    exact ⟨z, V, ⟨pdemoStart_start sizes m hm, tr, zpexecAll_sound he⟩, h⟩

/-- The same, with a call, what happens until it comes back, and the step in which it does. -/
def zpcallAt (sizes : List Nat) (m : Nat) (pre : List ZPAct) (c : ZPAct) (mid : List ZPAct) (a : ZPAct)
    (f : ZPS → ZPBook → List (ZPAct × Option Resp) → Option Resp → ZPS → Bool) : Bool :=
  match zpexecAll (ZPS.start (pdemoStart sizes m)) ZPBook.empty pre with
  | none => false
  | some (_, z, V) =>
    match zpstep z c with
    | .ok (some (none, z1)) =>
      match zpbook z.p.s.w.mem V c none with
      | none => false
      | some V1 =>
        match zpexecAll z1 V1 mid with
        | none => false
        | some (tr, z2, V2) =>
          match zpstep z2 a with
          | .ok (some (r, z3)) => f z2 V2 tr r z3
          | _ => false
    | _ => false

theorem of_zpcallAt {sizes : List Nat} {m : Nat} {pre : List ZPAct} {c : ZPAct} {mid : List ZPAct} {a : ZPAct} {f}
    (h : zpcallAt sizes m pre c mid a f = true) (hm : 0 < m ∧ m ≤ HUGE := by decide) :
    ∃ z V z1 V1 tr z2 V2 r z3, ZPReach (pdemoStart sizes m) z V ∧ ZPLegal V c ∧ zpstep z c = .ok (some (none, z1)) ∧
      ZPAfter z.p.s.w.mem V c none V1 ∧ ZPRun z1 V1 tr z2 V2 ∧ zpstep z2 a = .ok (some (r, z3)) ∧ f z2 V2 tr r z3 = true := by
  unfold zpcallAt at h
  split at h
  · cases h
  rename_i tr0 z V h1
  split at h
  case h_2 => cases h
  rename_i z1 h2
  split at h
  · cases h
  rename_i V1 h3
  split at h
  · cases h
  rename_i tr z2 V2 h4
  split at h
  case h_2 => cases h
  rename_i r z3 h5
  obtain ⟨a1, a2⟩ := zpbook_sound h3
  exact ⟨z, V, z1, V1, tr, z2, V2, r, z3, ⟨pdemoStart_start sizes m hm, tr0, zpexecAll_sound h1⟩, a1, h2, a2, zpexecAll_sound h4, h5, h⟩

end Blink
