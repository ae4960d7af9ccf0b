import Verif.Spec.Proxy
import Verif.Spec.SyncExec
/-
  An executable version of histories with proxies, sound with respect to `PRun`. Only used to show that concrete, non-trivial
  cases meet the hypotheses of the property theorems. Identities are below 8; shared resets are left out.
-/
namespace Blink

/-- `Layout.Modest`, decided. -/
def Layout.modestB (l : Layout) : Bool := l.validB && decide (l.size + l.align ≤ HUGE)

theorem Layout.modestB_sound {l : Layout} (h : l.modestB = true) : l.Modest := by
  simp only [Layout.modestB, Bool.and_eq_true, decide_eq_true_eq] at h
  exact ⟨Layout.validB_sound h.1, h.2⟩

/-- `PBook.Ready`, decided. -/
def PBook.readyB (K : PBook) (i : Nat) : Bool := K.live i && (K.pbusy i).isNone && (K.direct.busy i).isNone

theorem PBook.readyB_sound {K : PBook} {i} (h : K.readyB i = true) : K.Ready i := by
  simp only [PBook.readyB, Bool.and_eq_true, Option.isNone_iff_eq_none] at h
  exact ⟨h.1.1, h.1.2, h.2⟩

/-- The book after a legal action (`none` if it is not legal, or not covered). -/
def pbook (m : Nat → Byte) (K : PBook) (a : PAct) (r : Option Resp) : Option PBook :=
  match a, r with
  | .shared (.call t (.allocate l)), none =>
    if l.validB && (K.direct.busy t).isNone && (K.pbusy t).isNone && decide (t < 8) then
      some { K with direct := { K.direct with busy := put K.direct.busy t (some (.allocate l, none)), snap := put K.direct.snap t m } }
    else none
  | .shared (.call t (.resize p old new)), none =>
    match K.direct.owned.find? (Owned.fitsB p old) with
    | some b =>
      if new.validB && (K.direct.busy t).isNone && (K.pbusy t).isNone && decide (t < 8) then
        some { K with direct := { owned := K.direct.owned.erase b, busy := put K.direct.busy t (some (.resize p old new, some b)),
                                  snap := put K.direct.snap t m } }
      else none
    | none => none
  | .shared (.go _ _), none => some { K with direct := K.direct }
  | .shared (.go t _), some v =>
    match K.pbusy t, K.direct.busy t with
    | some (c, ob), _ => some { K with led := put K.led t (pgets c ob v ++ K.led t), pbusy := put K.pbusy t none }
    | none, some (c, ob) =>
      some { K with direct := { K.direct with owned := gets c ob v ++ K.direct.owned, busy := put K.direct.busy t none } }
    | none, none => none
  | .shared (.write x _), none =>
    if (K.direct.owned ++ (List.range 8).flatMap K.led).any (fun b => decide (b.addr ≤ x) && decide (x < b.addr + b.len)) then
      some { K with direct := K.direct }
    else none
  | .spawn i _, none => if !K.live i && decide (i < 8) then some { K with live := put K.live i true } else none
  | .allocate i l, r => if K.readyB i && l.modestB then some (K.enter i (K.led i) (.allocate l) none r) else none
  | .resize i p old new, r =>
    match (K.led i).find? (Owned.fitsB p old) with
    | some b =>
      if K.readyB i && new.modestB then some (K.enter i ((K.led i).erase b) (.resize p old new) (some b) r) else none
    | none => none
  | .reset i, some .unit => if K.readyB i then some { K with led := put K.led i [] } else none
  | .resetUnchecked i, r => if K.readyB i then some (K.enter i [] .resetUnchecked none r) else none
  | .drop i, some .unit => if K.readyB i then some { K with live := put K.live i false, led := put K.led i [] } else none
  | .sync _ _, none => some K
  | _, _ => none

theorem pbook_sound {m K a r K'} (h : pbook m K a r = some K') : PLegal K a ∧ PAfter m K a r K' := by
  unfold pbook at h
  split at h <;> (repeat' (first | split at h | cases h))
  · rename_i h1
    simp only [Bool.and_eq_true, Option.isNone_iff_eq_none, decide_eq_true_eq] at h1
    exact ⟨.call (.allocate h1.1.1.2 (Layout.validB_sound h1.1.1.1)) h1.1.2, .direct .allocate (.inl rfl)⟩
  · rename_i h1 h2
    simp only [Bool.and_eq_true, Option.isNone_iff_eq_none, decide_eq_true_eq] at h2
    have hb := List.mem_of_find?_eq_some h1
    have hf := Owned.fitsB_sound (List.find?_some h1)
    exact ⟨.call (.resize h2.1.1.2 hb hf (Layout.validB_sound h2.1.1.1)) h2.1.2, .direct (.resize hb hf) (.inl rfl)⟩
  · exact ⟨.go, .direct .inside (.inl rfl)⟩
  · rename_i h1
    exact ⟨.go, .back h1⟩
  · rename_i h1 h2
    exact ⟨.go, .direct (.ret h2) (.inr fun t ch he => by injection he with he _; subst he; exact h1)⟩
  · rename_i h1
    rw [List.any_eq_true] at h1
    obtain ⟨b, hb, h2⟩ := h1
    simp only [Bool.and_eq_true, decide_eq_true_eq] at h2
    refine ⟨?_, .direct .write (.inl rfl)⟩
    rcases List.mem_append.mp hb with hb | hb
    · exact .write (.write hb h2)
    · obtain ⟨i, _, hb⟩ := List.mem_flatMap.mp hb
      exact .pwrite hb h2
  · rename_i h1
    simp only [Bool.and_eq_true, Bool.not_eq_true', decide_eq_true_eq] at h1
    exact ⟨.spawn h1.1, .spawn⟩
  · rename_i h1
    simp only [Bool.and_eq_true] at h1
    exact ⟨.allocate (PBook.readyB_sound h1.1) (Layout.modestB_sound h1.2), .allocate⟩
  · rename_i h1 h2
    simp only [Bool.and_eq_true] at h2
    have hb := List.mem_of_find?_eq_some h1
    have hf := Owned.fitsB_sound (List.find?_some h1)
    exact ⟨.resize (PBook.readyB_sound h2.1) hb hf (Layout.modestB_sound h2.2), .resize hb hf⟩
  · rename_i h1
    exact ⟨.reset (PBook.readyB_sound h1), .reset⟩
  · rename_i h1
    exact ⟨.resetUnchecked (PBook.readyB_sound h1), .resetUnchecked⟩
  · rename_i h1
    exact ⟨.drop (PBook.readyB_sound h1), .drop⟩
  · exact ⟨.sync, .sync⟩

/-- Identities from 8 on are not in use. -/
def PBook.Small (K : PBook) : Prop := ∀ t, 8 ≤ t → K.live t = false ∧ K.direct.busy t = none

theorem PBook.Small.put_live {K : PBook} (h : K.Small) {i v} (hi : i < 8 ∨ v = false) : ∀ t, 8 ≤ t → put K.live i v t = false := by
  intro t ht
  simp only [put]
  split
  · rcases hi with hi | hi
    · omega
    · exact hi
  · exact (h t ht).1

theorem PBook.Small.put_busy {K : PBook} (h : K.Small) {i v} (hi : i < 8 ∨ v = none) : ∀ t, 8 ≤ t → put K.direct.busy i v t = none := by
  intro t ht
  simp only [put]
  split
  · rcases hi with hi | hi
    · omega
    · exact hi
  · exact (h t ht).2

theorem PBook.Small.enter {K : PBook} (h : K.Small) {i left c ob r} : (K.enter i left c ob r).Small := by
  cases r <;> exact h

theorem pbook_small {m K a r K'} (h : pbook m K a r = some K') (hs : K.Small) : K'.Small := by
  unfold pbook at h
  split at h <;> (repeat' (first | split at h | cases h))
  · rename_i h1
    simp only [Bool.and_eq_true, decide_eq_true_eq] at h1
    exact fun t ht => ⟨(hs t ht).1, hs.put_busy (.inl h1.2) t ht⟩
  · rename_i h1
    simp only [Bool.and_eq_true, decide_eq_true_eq] at h1
    exact fun t ht => ⟨(hs t ht).1, hs.put_busy (.inl h1.2) t ht⟩
  · exact hs
  · exact hs
  · exact fun t ht => ⟨(hs t ht).1, hs.put_busy (.inr rfl) t ht⟩
  · exact hs
  · rename_i h1
    simp only [Bool.and_eq_true, decide_eq_true_eq] at h1
    exact fun t ht => ⟨hs.put_live (.inl h1.2) t ht, (hs t ht).2⟩
  · exact hs.enter
  · exact hs.enter
  · exact hs
  · exact hs.enter
  · exact fun t ht => ⟨hs.put_live (.inr rfl) t ht, (hs t ht).2⟩
  · exact hs

/-- Run a list of actions. -/
def pexecAll (ps : PS) (K : PBook) : List PAct → Option (List (Option Resp) × PS × PBook)
  | [] => some ([], ps, K)
  | a :: as =>
    match pstep ps a with
    | .ok (some (r, ps')) =>
      match pbook ps.s.w.mem K a r with
      | none => none
      | some K' =>
        match pexecAll ps' K' as with
        | none => none
        | some (rs, ps'', K'') => some (r :: rs, ps'', K'')
    | _ => none

theorem PRun.trans {s0 K0 tr1 s1 K1 tr2 s2 K2} (h1 : PRun s0 K0 tr1 s1 K1) (h2 : PRun s1 K1 tr2 s2 K2) :
    PRun s0 K0 (tr1 ++ tr2) s2 K2 := by
  induction h2 with
  | nil => simpa using h1
  | snoc _ hl hs ha ih => rw [← List.append_assoc]; exact ih.snoc hl hs ha

theorem pexecAll_sound {ps K as rs ps' K'} (h : pexecAll ps K as = some (rs, ps', K')) :
    PRun ps K (as.zip rs) ps' K' ∧ (K.Small → K'.Small) := by
  induction as generalizing ps K rs with
  | nil =>
    simp only [pexecAll, Option.some.injEq, Prod.mk.injEq] at h
    obtain ⟨rfl, rfl, rfl⟩ := h
    exact ⟨.nil, id⟩
  | cons a as ih =>
    unfold pexecAll at h
    split at h
    case h_2 => cases h
    rename_i r ps1 h1
    split at h
    · cases h
    rename_i K1 h2
    split at h
    · cases h
    rename_i rs1 s2 K2 h3
    simp only [Option.some.injEq, Prod.mk.injEq] at h
    obtain ⟨rfl, rfl, rfl⟩ := h
    obtain ⟨a1, a2⟩ := pbook_sound h2
    have : PRun ps K [(a, r)] ps1 K1 := PRun.snoc (tr := []) .nil a1 h1 a2
    obtain ⟨a3, a4⟩ := ih h3
    exact ⟨this.trans a3, fun hs => a4 (pbook_small h2 hs)⟩

/-- A fresh shared allocator in a debug build in the world of `demoWorld`, with addresses below 2^61. -/
def pdemoStart (sizes : List Nat) (m : Nat := 1024) : PS where
  s := { sdemoStart sizes m with w := { demoWorld sizes with top := HUGE } }
  hist := [0]
  view := fun _ => 0
  px := fun _ => none

theorem pdemoStart_start (sizes : List Nat) (m : Nat) (h : 0 < m ∧ m ≤ HUGE) : PStart (pdemoStart sizes m) where
  shared := {
    root := rfl
    readers := rfl
    writer := rfl
    seen := rfl
    pcs := fun _ => rfl
    world := ⟨by simp [pdemoStart, HUGE], by simp [pdemoStart, demoWorld], by simp [pdemoStart, demoWorld, HUGE]⟩
    dbg := fun _ => ⟨h.1, Nat.le_trans h.2 (by decide), by simp [pdemoStart, HUGE]⟩
    log := rfl }
  top := Nat.le_refl _
  hist := rfl
  view := fun _ => rfl
  px := fun _ => rfl

/-- Check any decidable fact about responses, state and book after a concrete run. -/
def pdemoAt (sizes : List Nat) (m : Nat) (as : List PAct) (f : List (Option Resp) → PS → PBook → Bool) : Bool :=
  match pexecAll (pdemoStart sizes m) PBook.empty as with
  | none => false
  | some (rs, ps, K) => f rs ps K

theorem of_pdemoAt {sizes : List Nat} {m : Nat} {as : List PAct} {f} (h : pdemoAt sizes m as f = true)
    (hm : 0 < m ∧ m ≤ HUGE := by decide) :
    ∃ rs ps K, PStart (pdemoStart sizes m) ∧ PRun (pdemoStart sizes m) PBook.empty (as.zip rs) ps K ∧ K.Small ∧ f rs ps K = true := by
  unfold pdemoAt at h
  split at h
  · cases h
  rename_i rs s1 K1 h1
  obtain ⟨a1, a2⟩ := pexecAll_sound h1
  exact ⟨rs, s1, K1, pdemoStart_start sizes m hm, a1, a2 fun _ _ => ⟨rfl, rfl⟩, h⟩

/-- `n` undisturbed steps of identity `t` inside the shared allocator. -/
def pgoes (t n : Nat) : List PAct := (goes t n).map .shared

end Blink
