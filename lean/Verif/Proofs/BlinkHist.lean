import Verif.Proofs.BlinkView
/-
  Histories of a `Blink`: contents of references, and counting destructor runs.
-/
namespace Blink

theorem BReach.extend {b0 b bk tr b' bk'} (h : BReach b0 b bk) (hs : BSteps b0 b0.legal b bk tr b' bk') : BReach b0 b' bk' := by
  obtain ⟨h0, tr0, h1⟩ := h
  refine ⟨h0, tr0 ++ tr, ?_⟩
  induction hs with
  | nil => simpa using h1
  | snoc _ ho hl hst ha ih => rw [← List.append_assoc]; exact ih.snoc ho hl hst ha

theorem BReach.next {b0 b bk op resp b' bk'} (h : BReach b0 b bk) (ho : b.over = false) (hl : b0.legal bk op)
    (hs : bstep b op = .ok (resp, b')) (ha : BAfter b0.types b0.kind bk op resp bk') : BReach b0 b' bk' :=
  h.extend (BSteps.snoc (tr := []) .nil ho hl hs ha)

/-- Bytes of references do not change unless they are dropped or written by their owner. -/
theorem BReach.stable {b0 b bk tr b' bk'} (h : BReach b0 b bk) (hs : BSteps b0 b0.legal b bk tr b' bk') {r : Ref} (hr : r ∈ bk.refs)
    (hd : ∀ e ∈ tr, ¬ e.1.drops) :
    r ∈ bk'.refs ∧ ∀ x, r.Has x → (∀ e ∈ tr, ∀ v, e.1 ≠ .write x v) → b'.s.w.mem x = b.s.w.mem x := by
  induction hs with
  | nil => exact ⟨hr, fun _ _ _ => rfl⟩
  | @snoc tr b1 bk1 op rsp b2 bk2 hs ho hl hst ha ih =>
    obtain ⟨h1, h2⟩ := ih fun e he => hd e (List.mem_append_left _ he)
    have hop : ¬ op.drops := hd (op, rsp) (by simp)
    obtain ⟨cs, items, hw⟩ := (h.extend hs).wk
    refine ⟨ha.refs_mono hop h1, fun x hx hwr => ?_⟩
    rw [← h2 x hx fun e he => hwr e (List.mem_append_left _ he)]
    exact (hw.other hl hop hst).2.2.1 x r h1 hx (hwr (op, rsp) (by simp))

theorem Holds.of_same {m m' : Nat → Byte} {a size : Nat} {vs : List Nat} (h : Holds m a size vs)
    (hm : ∀ x, a ≤ x → x < a + vs.length * size → m' x = m x) : Holds m' a size vs := by
  intro i hi j hj
  have : i * size + size ≤ vs.length * size := by rw [← Nat.succ_mul]; exact Nat.mul_le_mul_right _ hi
  rw [hm _ (by omega) (by omega)]
  exact h i hi j hj

/-! ### Counting -/

theorem didDrop_append {tid : Nat} {l1 l2 : List DropEv} : didDrop tid (l1 ++ l2) = didDrop tid l1 + didDrop tid l2 := by
  simp [didDrop]

theorem toDrop_append {tid : Nat} {l1 l2 : List Ref} : toDrop tid (l1 ++ l2) = toDrop tid l1 + toDrop tid l2 := by
  simp [toDrop]

theorem didDrop_loose {tid : Nat} {l : List DropEv} (h : ∀ ev ∈ l, ∃ t v, ev = .loose t v) : didDrop tid l = 0 := by
  unfold didDrop
  rw [List.length_eq_zero_iff, List.filter_eq_nil_iff]
  intro ev hev
  obtain ⟨t, v, rfl⟩ := h ev hev
  simp [DropEv.isItem]

theorem didDrop_reverse {tid : Nat} {l : List DropEv} : didDrop tid l.reverse = didDrop tid l := by
  simp [didDrop, List.filter_reverse]

theorem didDrop_events {tid : Nat} {m : Nat → Byte} {r : Ref} : didDrop tid (r.events m) = if r.tid = tid then r.count else 0 := by
  unfold didDrop Ref.events
  rw [List.filter_map, List.length_map]
  by_cases h : r.tid = tid
  · rw [if_pos h, List.filter_eq_self.mpr]
    · exact List.length_range
    · intro k _
      simp [DropEv.isItem, h]
  · rw [if_neg h, List.length_eq_zero_iff, List.filter_eq_nil_iff]
    intro k _
    simp [DropEv.isItem, h]

theorem didDrop_owed {tid : Nat} {m : Nat → Byte} {refs : List Ref} : didDrop tid (owed m refs) = toDrop tid refs := by
  induction refs with
  | nil => rfl
  | cons r rs ih =>
    have hc : toDrop tid (r :: rs) = (if r.drop ∧ r.tid = tid then r.count else 0) + toDrop tid rs := by
      simp [toDrop]
    rw [hc, ← ih]
    unfold owed
    rw [List.filter_cons]
    by_cases hd : r.drop = true
    · rw [if_pos hd, List.flatMap_cons, didDrop_append, didDrop_events]
      simp [hd]
    · rw [if_neg hd]
      simp [hd]

theorem didDrop_prefix {tid : Nat} {l1 l2 : List DropEv} (h : l1 <+: l2) : didDrop tid l1 ≤ didDrop tid l2 := by
  obtain ⟨t, rfl⟩ := h
  rw [didDrop_append]
  exact Nat.le_add_right _ _

/-! The book of a replay agrees with the real one except for the direct blocks. -/

theorem bookAfter_congr {types kind kind' bk bk' op resp} (hr : bk'.refs = bk.refs) (hf : bk'.frames = bk.frames) :
    (bookAfter types kind' bk' op resp).refs = (bookAfter types kind bk op resp).refs ∧
    (bookAfter types kind' bk' op resp).frames = (bookAfter types kind bk op resp).frames := by
  obtain ⟨r1, d1, f1⟩ := bk
  obtain ⟨r2, d2, f2⟩ := bk'
  simp only at hr hf
  subst hr hf
  have hps : ∀ (x : List Ref) (d1 d2 : List Owned) (f : List FBook) (t : RTy) (nd : Bool) (a n : Nat),
      ((⟨x, d2, f⟩ : BBook).pushSlice t nd a n).refs = ((⟨x, d1, f⟩ : BBook).pushSlice t nd a n).refs ∧
      ((⟨x, d2, f⟩ : BBook).pushSlice t nd a n).frames = ((⟨x, d1, f⟩ : BBook).pushSlice t nd a n).frames := by
    intro x d1 d2 f t nd a n
    unfold BBook.pushSlice
    split <;> exact ⟨rfl, rfl⟩
  have hland : ∀ (x : List Ref) (d1 d2 : List Owned) (f : List FBook) (g : FBook),
      ((⟨x, d2, f⟩ : BBook).land types g resp).refs = ((⟨x, d1, f⟩ : BBook).land types g resp).refs ∧
      ((⟨x, d2, f⟩ : BBook).land types g resp).frames = ((⟨x, d1, f⟩ : BBook).land types g resp).frames := by
    intro x d1 d2 f g
    unfold BBook.land
    split <;> first | exact ⟨rfl, rfl⟩ | exact hps _ _ _ _ _ _ _ _
  cases op with
  | value => simp only [bookAfter]; split <;> exact ⟨rfl, rfl⟩
  | «with» => simp only [bookAfter]; split <;> exact ⟨rfl, rfl⟩
  | fromIter => simp only [bookAfter]; split <;> exact ⟨rfl, rfl⟩
  | copySlice => simp only [bookAfter]; split <;> exact ⟨rfl, rfl⟩
  | uninit => simp only [bookAfter]; split <;> exact ⟨rfl, rfl⟩
  | direct => exact ⟨rfl, rfl⟩
  | write => exact ⟨rfl, rfl⟩
  | reset => exact ⟨rfl, rfl⟩
  | send => exact ⟨rfl, rfl⟩
  | dropAll => exact ⟨rfl, rfl⟩
  | dropBlink => exact ⟨rfl, rfl⟩
  | ret => simp only [bookAfter]; cases f2 <;> first | exact ⟨rfl, rfl⟩ | exact hland _ _ _ _ _
  | panic => simp only [bookAfter]; cases f2 <;> first | exact ⟨rfl, rfl⟩ | exact hland _ _ _ _ _
  | hint => simp only [bookAfter]; cases f2 <;> first | exact ⟨rfl, rfl⟩ | exact hland _ _ _ _ _
  | next => simp only [bookAfter]; cases f2 <;> first | exact ⟨rfl, rfl⟩ | exact hland _ _ _ _ _
  | nth => simp only [bookAfter]; cases f2 <;> first | exact ⟨rfl, rfl⟩ | exact hland _ _ _ _ _

theorem BAfter.frames {types kind bk op resp bk'} (h : BAfter types kind bk op resp bk') :
    bk'.frames = (bookAfter types kind bk op resp).frames := by
  cases h <;> rfl

theorem made_drop {types bk op resp} (h : op.drops) : made types bk op resp = [] := by
  cases op <;> first | rfl | exact h.elim

/-- What replaying a history yields. -/
theorem replayed {b0 may tr b bk} (h : BSteps b0 may b0 ⟨[], [], []⟩ tr b bk) :
    (tr.foldl (replay b0.types) (⟨[], [], []⟩, [])).1.refs = bk.refs ∧ (tr.foldl (replay b0.types) (⟨[], [], []⟩, [])).1.frames = bk.frames := by
  induction h with
  | nil => exact ⟨rfl, rfl⟩
  | @snoc tr b1 bk1 op r b2 bk2 _ _ _ _ ha ih =>
    rw [List.foldl_append]
    simp only [List.foldl_cons, List.foldl_nil, replay]
    rw [ha.refs, ha.frames]
    exact bookAfter_congr ih.1 ih.2

theorem everMade_snoc {b0 may tr b bk op r} (h : BSteps b0 may b0 ⟨[], [], []⟩ tr b bk) :
    everMade b0.types (tr ++ [(op, r)]) = made b0.types bk op r ++ everMade b0.types tr := by
  unfold everMade
  rw [List.foldl_append]
  simp only [List.foldl_cons, List.foldl_nil, replay]
  congr 1
  exact (bookAfter_congr (bk := { bk with refs := [] })
    (bk' := { (tr.foldl (replay b0.types) (⟨[], [], []⟩, [])).1 with refs := [] }) rfl (replayed h).2).1

/-- Values created = values dropped + values still to be dropped, as long as no destructor panicked; otherwise some values are
never dropped. -/
theorem counted {b0 tr b bk} (h0 : BStart b0) (h : BSteps b0 b0.legal b0 ⟨[], [], []⟩ tr b bk) (tid : Nat) :
    didDrop tid b.drops + toDrop tid bk.refs ≤ toDrop tid (everMade b0.types tr) ∧
    ((∀ e ∈ tr, e.1.drops → e.2 = .unit) → didDrop tid b.drops + toDrop tid bk.refs = toDrop tid (everMade b0.types tr)) := by
  induction h with
  | nil => simp [h0.drops, everMade, didDrop, toDrop]
  | @snoc tr b1 bk1 op r b2 bk2 hs ho hl hst ha ih =>
    obtain ⟨cs, items, hw⟩ := (show BReach b0 b1 bk1 from ⟨h0, tr, hs⟩).wk
    rw [everMade_snoc hs, toDrop_append]
    by_cases hd : op.drops
    · rw [made_drop hd]
      have hrefs : bk2.refs = [] := by rw [drop_book ha hd]
      obtain ⟨out, evs, m, b', e1, e2, _, e3, e4, _⟩ := hw.drop hl hd
      rw [e1] at hst
      injection hst with hst
      injection hst with f1 f2
      subst f2
      rw [hrefs, e2, didDrop_append, didDrop_reverse]
      have hle := didDrop_prefix (tid := tid) e3
      rw [didDrop_owed] at hle
      have hz : toDrop tid [] = 0 := rfl
      refine ⟨by omega, fun hall => ?_⟩
      have hu : r = .unit := hall (op, r) (by simp) hd
      have hout : out = .fine := by
        rw [hu] at f1
        cases out <;> first | rfl | cases f1
      rw [e4 hout, didDrop_owed]
      have := ih.2 fun e he => hall e (List.mem_append_left _ he)
      omega
    · obtain ⟨e1, _⟩ := hw.other hl hd hst
      rw [e1, didDrop_append, didDrop_loose looseDrops_loose, ha.refs, refs_split hd, toDrop_append]
      have hm : (bookAfter b0.types b0.kind { bk1 with refs := [] } op r).refs = made b0.types bk1 op r := (bookAfter_congr rfl rfl).1
      rw [hm]
      refine ⟨by omega, fun hall => ?_⟩
      have := ih.2 fun e he => hall e (List.mem_append_left _ he)
      omega

end Blink
