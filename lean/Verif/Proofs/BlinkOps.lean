import Verif.Proofs.BlinkInv
/-
  The functions of `Blink`, one by one.
-/
namespace Blink

theorem mod0_add {a b n : Nat} (ha : a % n = 0) (hb : b % n = 0) : (a + b) % n = 0 := by
  rw [Nat.add_mod, ha, hb, Nat.zero_add, Nat.zero_mod]

/-! ### Slots -/

theorem slotGet_none {t : RTy} {a : Nat} {w : World} (h : ∀ d, t.disc = some d → (w.mem (a + d)).plain = true) :
    slotGet t a w = .ok (none, w) := by
  unfold slotGet
  split
  · rfl
  · rename_i d hd
    have := h d hd
    split
    · rename_i hm; rw [hm] at this; cases this
    · rename_i c i hm
      rw [hm] at this
      simp only [Byte.plain, decide_eq_true_eq] at this
      rw [if_neg (by omega)]
    · rfl

theorem slotGet_some {t : RTy} {a d e : Nat} {w : World} (hd : t.disc = some d) (h : w.mem (a + d) = .obj (2 * e + 1) d) :
    slotGet t a w = .ok (some e, w) := by
  unfold slotGet
  rw [hd]
  simp only [h]
  rw [if_pos (by omega), show (2 * e + 1) / 2 = e by omega]

theorem slotByte_plain (t : RTy) (v i : Nat) : (slotByte t (.ok v) i).plain = true := by
  show (if t.okOff ≤ i ∧ i < t.okOff + t.tsize then Byte.obj (2 * v) (i - t.okOff) else Byte.raw 0).plain = true
  split
  · simp [Byte.plain]
  · rfl

theorem slotByte_val {t : RTy} {v j : Nat} (hj : j < t.tsize) : slotByte t (.ok v) (t.okOff + j) = .obj (2 * v) j := by
  show (if _ then _ else _) = _
  rw [if_pos (by omega), show t.okOff + j - t.okOff = j by omega]

/-! ### `DropList::add` -/

theorem Wk.add {b0 b bk cs items E K m0} {r : Ref} {o : Owned} {rid : Nat} (h : Wk b0 b bk cs items (o :: E) K m0)
    (hd : r.drop = true) (hok : ItemOK b0.types b.s.w.mem ⟨r, some o, rid⟩) :
    ∃ b', b.add o.addr = .ok b' ∧ b'.drops = b.drops ∧ b'.over = b.over ∧ b'.frames = b.frames ∧
      b'.s.w.mem = setBytes b.s.w.mem (o.addr + 16) 8 (fun i => .word b.root i) ∧
      Wk b0 b' (bk.push r) cs (⟨r, some o, rid⟩ :: items) E K m0 := by
  obtain ⟨o', ho', hdo⟩ := hok.dr hd
  injection ho' with ho'
  subst ho'
  have hv := (valueOff_facts (h.start.types rid).align).1
  have hlen := hdo.len
  simp only at hlen
  obtain ⟨h1, h2⟩ := h.storeWord (a := o.addr + 16) (v := b.root) (by have := hdo.al; omega) (by omega) (by omega)
  refine ⟨{ b.setM (o.addr + 16) 8 (fun i => .word b.root i) with root := o.addr, adds := b.adds + 1 }, ?_, rfl, rfl, rfl, rfl, ?_⟩
  · unfold BState.add
    rw [ebind_ok' h1]
    rfl
  · refine h2.pushDrop hd ⟨hok.al, hok.inside, fun _ => ⟨o, rfl, ?_⟩⟩ (by omega) WordAt.set_same
    refine { hdo with cnt := hdo.cnt.set_out (by omega), fn := hdo.fn.set_out (by omega), disc := fun d hdd => ?_ }
    have := hdo.disc d hdd
    simp only [BState.setM] at *
    rw [setBytes_out (by omega)]
    exact this

/-! ### One value -/

/-- The reference to a value initialised in the block `blk`. -/
def valueAddr (t : RTy) (nd : Bool) (blk : Slice) : Nat := blk.addr + (if nd then 0 else valueOff t.align) + t.okOff

theorem Wk.finish {b0 b bk cs items K m0} {r : Nat} {nd : Bool} {re : Layout} {blk : Slice} {res : Res}
    (h : Wk b0 b bk cs items [Owned.of blk (emplaceLayout (b0.types r) nd re)] K m0) (hre : ReOK (b0.types r) re)
    (hlen : (emplaceLayout (b0.types r) nd re).size ≤ blk.len)
    (hfit : nd = true → (b0.types r).size ≤ (b0.types r).tsize ∧ (b0.types r).align ≤ (b0.types r).talign)
    (he : ∀ e, res = .err e → (b0.types r).disc ≠ none) :
    ∃ resp b' cs' items', b.finish r nd re blk res = .ok (resp, b') ∧ b'.drops = b.drops ∧ b'.over = b.over ∧
      b'.frames = b.frames ∧
      ((∃ v, res = .ok v ∧ resp = .ref (valueAddr (b0.types r) nd blk) ∧
        Wk b0 b' (bk.push ((b0.types r).ref nd (valueAddr (b0.types r) nd blk) 1)) cs' items' [] K m0 ∧
        Holds b'.s.w.mem (valueAddr (b0.types r) nd blk) (b0.types r).tsize [v]) ∨
       (∃ e, res = .err e ∧ resp = .failed e ∧ Wk b0 b' bk cs' items' [] K m0)) := by
  have hty : b.types = b0.types := h.types
  have ht := h.start.types r
  unfold BState.finish
  rw [hty]
  generalize hT : b0.types r = t at *
  have hv := valueOff_facts ht.align
  cases nd with
  | true =>
    simp only [if_true]
    have hl : emplaceLayout t true re = ⟨t.tsize, t.talign⟩ := rfl
    rw [hl] at h hlen
    simp only at hlen
    obtain ⟨f1, f2⟩ := hfit rfl
    have f3 := ht.okIn
    have hok0 : t.okOff = 0 := by omega
    have hal : blk.addr % t.align = 0 := h.al (o := Owned.of blk ⟨t.tsize, t.talign⟩) ht.align f2
    obtain ⟨w1, w2⟩ := h.writeIn (a := blk.addr) (n := t.size) (al := t.align) (f := slotByte t res) hal (Nat.le_refl _)
      (by omega)
    rw [ebind_ok' w1]
    simp only
    cases res with
    | ok v =>
      have hg : slotGet t blk.addr (b.setM blk.addr t.size (slotByte t (.ok v))).s.w =
          .ok (none, (b.setM blk.addr t.size (slotByte t (.ok v))).s.w) := by
        apply slotGet_none
        intro d hd
        simp only [BState.setM]
        rw [setBytes_in (ht.disc d hd)]
        exact slotByte_plain t v d
      rw [ebind_ok' (BState.mem_id hg)]
      refine ⟨_, b.setM blk.addr t.size (slotByte t (.ok v)), cs, ⟨t.ref true (valueAddr t true blk) 1, some (Owned.of blk ⟨t.tsize, t.talign⟩), 0⟩ :: items,
        rfl, rfl, rfl, rfl, .inl ⟨v, rfl, by simp [valueAddr], ?_, ?_⟩⟩
      · exact (w2.pushNoDrop (o := some _) (r := t.ref true (valueAddr t true blk) 1) rfl
          ⟨by
            simp only [RTy.ref, valueAddr, if_true, hok0, Nat.add_zero]
            exact h.al (o := Owned.of blk ⟨t.tsize, t.talign⟩) ht.talign (Nat.le_refl _),
          .inr ⟨_, rfl, by simp [RTy.ref, valueAddr, Owned.of, hok0], by
            simp only [RTy.ref, valueAddr, Owned.of, hok0, if_true]; omega⟩, fun hd => by cases hd⟩)
      · intro i hi j hj
        simp only [List.length_singleton] at hi
        have hi0 : i = 0 := by omega
        subst hi0
        simp only [BState.setM, valueAddr, if_true, hok0, Nat.zero_mul, Nat.add_zero]
        rw [setBytes_in (by omega)]
        have := slotByte_val (v := v) hj
        rw [hok0, Nat.zero_add] at this
        simpa using this
    | err e =>
      obtain ⟨d, hd⟩ := Option.ne_none_iff_exists'.mp (he e rfl)
      have hg : slotGet t blk.addr (b.setM blk.addr t.size (slotByte t (.err e))).s.w =
          .ok (some e, (b.setM blk.addr t.size (slotByte t (.err e))).s.w) := by
        apply slotGet_some hd
        simp only [BState.setM]
        rw [setBytes_in (ht.disc d hd)]
        rfl
      rw [ebind_ok' (BState.mem_id hg)]
      simp only
      have hdd := ht.disc d hd
      obtain ⟨s', cs', d1, d2⟩ := w2.dealloc (l := ⟨t.tsize, t.talign⟩) ⟨rfl, rfl, Nat.le_refl _, hlen⟩ (show 0 < t.tsize by omega)
      rw [ebind_ok' (show BState.dealloc _ blk.addr (emplaceLayout t true re) = _ from d1)]
      exact ⟨_, _, cs', items, rfl, rfl, rfl, rfl, .inr ⟨e, rfl, rfl, d2⟩⟩
  | false =>
    simp only [Bool.false_eq_true, if_false]
    have hl : emplaceLayout t false re = dropItem re.size re.align := rfl
    rw [hl] at h hlen
    obtain ⟨r1, r2⟩ := dropItem_room ht hre
    have hal8 : blk.addr % 8 = 0 := h.al (o := Owned.of blk (dropItem re.size re.align)) ⟨3, rfl⟩ (by simp only [Owned.of]; omega)
    have hal : blk.addr % t.align = 0 := h.al (o := Owned.of blk (dropItem re.size re.align)) ht.align (by simp only [Owned.of]; omega)
    have hal2 : (blk.addr + valueOff t.align) % t.align = 0 := by rw [Nat.add_mod, hal, hv.2]; simp
    obtain ⟨w1, w2⟩ := h.writeIn (a := blk.addr + valueOff t.align) (n := t.size) (al := t.align) (f := slotByte t res) hal2
      (by omega) (by omega)
    rw [ebind_ok' w1]
    simp only
    obtain ⟨i1, i2⟩ := w2.initDrops (count := 1) (fn := r) (by omega) (by omega)
    rw [ebind_ok' i1]
    simp only
    have hmem : ∀ i, i < t.size → ((b.setM (blk.addr + valueOff t.align) t.size (slotByte t res)).withM
        (record (b.setM (blk.addr + valueOff t.align) t.size (slotByte t res)).s.w.mem blk.addr 1 r 0)).s.w.mem
        (blk.addr + valueOff t.align + i) = slotByte t res i := by
      intro i hi
      simp only [BState.withM]
      rw [record_out (by omega)]
      simp only [BState.setM]
      rw [setBytes_in hi]
    generalize hb1 : (b.setM (blk.addr + valueOff t.align) t.size (slotByte t res)).withM
        (record (b.setM (blk.addr + valueOff t.align) t.size (slotByte t res)).s.w.mem blk.addr 1 r 0) = b1 at *
    have e1 : b1.drops = b.drops ∧ b1.over = b.over ∧ b1.frames = b.frames := by subst hb1; exact ⟨rfl, rfl, rfl⟩
    have ecnt : WordAt b1.s.w.mem blk.addr 1 := by subst hb1; exact record_cnt
    have efn : WordAt b1.s.w.mem (blk.addr + 8) r := by subst hb1; exact record_fn
    cases res with
    | ok v =>
      have hg : slotGet t (blk.addr + valueOff t.align) b1.s.w = .ok (none, b1.s.w) := by
        apply slotGet_none
        intro d hd
        rw [hmem d (ht.disc d hd)]
        exact slotByte_plain t v d
      rw [ebind_ok' (BState.mem_id hg)]
      simp only
      have f3 := ht.okIn
      have hva : valueAddr t false blk = blk.addr + valueOff t.align + t.okOff := rfl
      have hok : ItemOK b0.types b1.s.w.mem ⟨t.ref false (valueAddr t false blk) 1, some (Owned.of blk (dropItem re.size re.align)), r⟩ := by
        refine ⟨?_, .inr ⟨_, rfl, ?_, ?_⟩, fun _ => ⟨_, rfl, ?_⟩⟩
        · show valueAddr t false blk % t.talign = 0
          rw [hva]
          exact mod0_add (mod0_add (pow2_mod ht.talign ht.align ht.le hal) (pow2_mod ht.talign ht.align ht.le hv.2)) ht.okAl
        · simp only [RTy.ref, hva, Owned.of]; omega
        · simp only [RTy.ref, hva, Owned.of, Nat.one_mul]; omega
        · refine ⟨?_, ?_, ?_, .inr rfl, hal8, h.pos, ?_, ecnt, efn, ?_⟩
          · rw [hT]; rfl
          · rw [hT]; rfl
          · rw [hT]; rfl
          · rw [hT]; simp only [RTy.ref, Nat.one_mul, Owned.of]; omega
          · intro d hd
            rw [hT] at *
            show (b1.s.w.mem (blk.addr + valueOff t.align + d)).plain = true
            rw [hmem d (ht.disc d hd)]
            exact slotByte_plain t v d
      obtain ⟨b', a1, a2, a3, a4, a5, a6⟩ := i2.add (r := t.ref false (valueAddr t false blk) 1) rfl hok
      rw [ebind_ok' (show b1.add blk.addr = _ from a1)]
      refine ⟨_, b', cs, _, rfl, a2.trans e1.1, a3.trans e1.2.1, a4.trans e1.2.2, .inl ⟨v, rfl, by rw [hva], a6, ?_⟩⟩
      intro i hi j hj
      simp only [List.length_singleton] at hi
      have hi0 : i = 0 := by omega
      subst hi0
      rw [a5, show valueAddr t false blk + 0 * t.tsize + j = blk.addr + valueOff t.align + (t.okOff + j) by omega,
        setBytes_out (by simp only [Owned.of]; omega), hmem _ (by omega), slotByte_val hj]
      rfl
    | err e =>
      obtain ⟨d, hd⟩ := Option.ne_none_iff_exists'.mp (he e rfl)
      have hg : slotGet t (blk.addr + valueOff t.align) b1.s.w = .ok (some e, b1.s.w) := by
        apply slotGet_some hd
        rw [hmem d (ht.disc d hd)]
        rfl
      rw [ebind_ok' (BState.mem_id hg)]
      simp only
      obtain ⟨s', cs', d1, d2⟩ := i2.dealloc (l := dropItem re.size re.align) ⟨rfl, rfl, Nat.le_refl _, hlen⟩ (by omega)
      rw [ebind_ok' (show BState.dealloc b1 blk.addr (emplaceLayout t false re) = _ from d1)]
      exact ⟨_, _, cs', items, rfl, e1.1, e1.2.1, e1.2.2, .inr ⟨e, rfl, rfl, d2⟩⟩

end Blink
