import Verif.Proofs.BlinkOps
/-
  Collecting iterators.
-/
namespace Blink

/-- Nothing but memory, the allocator and the drop list changed. -/
structure SameLog (b b' : BState) : Prop where
  drops : b'.drops = b.drops
  over : b'.over = b.over
  frames : b'.frames = b.frames

theorem SameLog.refl (b : BState) : SameLog b b := ⟨rfl, rfl, rfl⟩

theorem SameLog.trans {b b1 b2 : BState} (h1 : SameLog b b1) (h2 : SameLog b1 b2) : SameLog b b2 :=
  ⟨h2.1.trans h1.1, h2.2.trans h1.2, h2.3.trans h1.3⟩

theorem Holds.nil {m a size} : Holds m a size [] := fun i hi => by simp at hi

theorem Holds.snoc {m a size vs x} (h : Holds m a size vs)
    (hx : ∀ j, j < size → m (a + vs.length * size + j) = .obj (2 * x) j) : Holds m a size (vs ++ [x]) := by
  intro i hi j hj
  rw [List.length_append, List.length_singleton] at hi
  by_cases hlt : i < vs.length
  · rw [List.getElem_append_left hlt]; exact h i hlt j hj
  · have : i = vs.length := by omega
    subst this
    rw [List.getElem_append_right (Nat.le_refl _)]
    simpa using hx j hj

/-- Where a slot after `vs` begins, nothing of `vs` is touched. -/
theorem Holds.set {m a size vs} {f : Nat → Byte} {n : Nat} (h : Holds m a size vs) :
    Holds (setBytes m (a + vs.length * size) n f) a size vs :=
  h.congr fun _ _ h2 => setBytes_out (.inl h2)

/-- `init_slice` and `DropList::add`. -/
theorem Wk.regSlice {b0 b bk cs items E K m0} {r : Nat} {blk : Slice} {l : Layout} {n : Nat}
    (h : Wk b0 b bk cs items (Owned.of blk l :: E) K m0) (hal : max 8 (b0.types r).align ≤ l.align)
    (hp : (b0.types r).disc = none) (hlen : arrOff (b0.types r) false + n * (b0.types r).size ≤ blk.len)
    (hd : b0.s.w.debug = true → n ≠ 0) :
    ∃ b1 b', b.initSlice r blk n = .ok (blk.addr + arrOff (b0.types r) false, b1) ∧ b1.add blk.addr = .ok b' ∧ SameLog b b' ∧
      (∀ x, blk.addr + 24 ≤ x → b'.s.w.mem x = b.s.w.mem x) ∧
      Wk b0 b' (bk.push ((b0.types r).ref false (blk.addr + arrOff (b0.types r) false) n)) cs
        (⟨(b0.types r).ref false (blk.addr + arrOff (b0.types r) false) n, some (Owned.of blk l), r⟩ :: items) E K m0 := by
  have ht := h.start.types r
  have hty : b.types = b0.types := h.types
  have hoff := arrOff_eq ht false
  simp only [Bool.false_eq_true, if_false] at hoff
  generalize hT : b0.types r = t at *
  have hv := valueOff_facts ht.align
  obtain ⟨p1, p2, p3⟩ := ht.plain hp
  rw [hoff] at hlen ⊢
  obtain ⟨i1, i2⟩ := h.initDrops (count := n) (fn := r) (by omega) (by omega)
  have hal8 : blk.addr % 8 = 0 := h.al (o := Owned.of blk l) ⟨3, rfl⟩ (by simp only [Owned.of]; omega)
  have hala : blk.addr % t.align = 0 := h.al (o := Owned.of blk l) ht.align (by simp only [Owned.of]; omega)
  generalize hb1 : b.withM (record b.s.w.mem blk.addr n r 0) = b1 at *
  have hm1 : b1.s.w.mem = record b.s.w.mem blk.addr n r 0 := by subst hb1; rfl
  have hok : ItemOK b0.types b1.s.w.mem ⟨t.ref false (blk.addr + valueOff t.align) n, some (Owned.of blk l), r⟩ := by
    refine ⟨?_, .inr ⟨_, rfl, ?_, ?_⟩, fun _ => ⟨_, rfl, ?_⟩⟩
    · show (blk.addr + valueOff t.align) % t.talign = 0
      rw [← p2]
      exact mod0_add hala hv.2
    · simp only [RTy.ref, Owned.of]; omega
    · simp only [RTy.ref, Owned.of]; rw [← p1]; omega
    · rw [hm1]
      refine ⟨?_, ?_, ?_, .inl ?_, hal8, h.pos, ?_, record_cnt, record_fn, ?_⟩
      · rw [hT]; rfl
      · rw [hT]; rfl
      · rw [hT, p3]; rfl
      · rw [hT]; exact hp
      · rw [hT]; simp only [RTy.ref, Owned.of]; omega
      · intro d hd'; rw [hT, hp] at hd'; cases hd'
  obtain ⟨b', a1, a2, a3, a4, a5, a6⟩ := i2.add (r := t.ref false (blk.addr + valueOff t.align) n) rfl hok
  have e1 : b1.drops = b.drops ∧ b1.over = b.over ∧ b1.frames = b.frames ∧ b1.types = b.types := by
    subst hb1; exact ⟨rfl, rfl, rfl, rfl⟩
  refine ⟨b1, b', ?_, a1, ⟨a2.trans e1.1, a3.trans e1.2.1, a4.trans e1.2.2.1⟩, ?_, a6⟩
  · unfold BState.initSlice
    rw [ebind_ok' (BState.mem_id (dassert_ok (fun hdb => hd (h.dbg.symm.trans hdb))))]
    simp only
    rw [ebind_ok' i1]
    simp only
    rw [e1.2.2.2, hty, hT, dropItem_zero ht.align]
    rfl
  · intro x hx
    rw [a5, hm1, setBytes_out (by simp only [Owned.of]; omega), record_out (by omega)]

/-- `Guard::flush`. -/
theorem Wk.flush {b0 b bk cs items K m0} {r : Nat} {nd : Bool} {g : Guard} {ph : Phase} {vs : List Nat} {ended : Bool}
    (h : Wk b0 b bk cs items (g.blk.map fun s => Owned.of s g.layout).toList K m0)
    (hp : (b0.types r).disc = none) (hsz : 0 < (b0.types r).size) (hc : vs.length = g.count)
    (hn : g.blk = none → g.count = 0)
    (hs : ∀ blk, g.blk = some blk → BlkOK b0.kind (b0.types r) b.s.w.mem nd g ph vs ended blk) :
    ∃ a b' cs' items', b.flush r nd g = .ok ((a, g.count), b') ∧ SameLog b b' ∧
      Wk b0 b' (bk.pushSlice (b0.types r) nd a g.count) cs' items' [] K m0 ∧
      Holds b'.s.w.mem a (b0.types r).tsize vs := by
  have ht := h.start.types r
  have hty : b.types = b0.types := h.types
  obtain ⟨p1, p2, p3⟩ := ht.plain hp
  unfold BState.flush
  rw [hty]
  cases hblk : g.blk with
  | none =>
    have hc0 := hn hblk
    rw [hblk] at h
    have : vs = [] := List.eq_nil_of_length_eq_zero (by omega)
    subst this
    refine ⟨(b0.types r).align, b, cs, items, by rw [hc0]; rfl, SameLog.refl b, ?_, Holds.nil⟩
    unfold BBook.pushSlice
    rw [if_pos ⟨hc0, by omega⟩]
    exact h
  | some blk =>
    have hb := hs blk hblk
    rw [hblk] at h
    simp only [Option.map_some, Option.toList] at h
    simp only
    by_cases hc0 : g.count = 0
    · rw [if_neg (by omega)]
      have : vs = [] := List.eq_nil_of_length_eq_zero (by omega)
      subst this
      obtain ⟨s', cs', d1, d2⟩ := h.dealloc (l := g.layout) ⟨rfl, rfl, Nat.le_refl _, hb.len⟩ hb.pos
      rw [ebind_ok' (show b.dealloc blk.addr g.layout = _ from d1)]
      refine ⟨(b0.types r).align, { b with s := s' }, cs', items, by rw [hc0]; rfl, ⟨rfl, rfl, rfl⟩, ?_, Holds.nil⟩
      unfold BBook.pushSlice
      rw [if_pos ⟨hc0, by omega⟩]
      exact d2
    · rw [if_pos hc0]
      cases nd with
      | true =>
        have hoff : arrOff (b0.types r) true = 0 := rfl
        have hh := hb.holds
        have hcnt := hb.cnt
        have hlen := hb.len
        have hal := hb.al
        simp only [if_true] at hal
        rw [hoff, Nat.add_zero] at hh
        rw [hoff, Nat.zero_add] at hcnt
        simp only [if_true]
        refine ⟨blk.addr, b, cs, ⟨(b0.types r).ref true blk.addr g.count, some (Owned.of blk g.layout), 0⟩ :: items, rfl, SameLog.refl b, ?_, ?_⟩
        · unfold BBook.pushSlice
          rw [if_neg (fun hx => hc0 hx.1)]
          refine h.pushNoDrop (o := some _) rfl ⟨?_, .inr ⟨_, rfl, ?_, ?_⟩, fun hd => by cases hd⟩
          · show blk.addr % (b0.types r).talign = 0
            exact h.al (o := Owned.of blk g.layout) ht.talign (by simp only [Owned.of]; omega)
          · simp [RTy.ref, Owned.of]
          · simp only [RTy.ref, Owned.of]; rw [← p1]; omega
        · rw [← p1]; exact hh
      | false =>
        have hcnt := hb.cnt
        have hlen := hb.len
        have hal := hb.al
        simp only [Bool.false_eq_true, if_false] at hal
        obtain ⟨b1, b', r1, r2, r3, r4, r5⟩ := h.regSlice (r := r) (n := g.count) (by omega) hp (by omega) (fun _ => hc0)
        simp only [Bool.false_eq_true, if_false]
        rw [ebind_ok' r1]
        simp only
        rw [ebind_ok' r2]
        refine ⟨_, b', cs, ⟨(b0.types r).ref false (blk.addr + arrOff (b0.types r) false) g.count, some (Owned.of blk g.layout), r⟩ :: items,
          rfl, r3, ?_, ?_⟩
        · unfold BBook.pushSlice
          rw [if_neg (fun hx => hc0 hx.1)]
          exact r5
        · rw [← p1]
          refine hb.holds.congr fun x hx _ => r4 x ?_
          have h1 := (valueOff_facts ht.align).1
          rw [arrOff_eq ht] at hx
          simp only [Bool.false_eq_true, if_false] at hx
          omega

theorem mul_succ_le {i n s : Nat} (h : i < n) : i * s + s ≤ n * s := by
  rw [← Nat.succ_mul]; exact Nat.mul_le_mul_right _ h

/-- What `fill` has set up when its loop begins. -/
structure Filled (t : RTy) (m : Nat → Byte) (nd : Bool) (g : Guard) (hint : Nat) (vs : List Nat) (blk : Slice) : Prop where
  blk_ : g.blk = some blk
  al : g.layout.align = if nd then t.align else max 8 t.align
  size : g.layout.size = arrOff t nd + hint * t.size
  pos : 0 < g.layout.size
  len : g.layout.size ≤ blk.len
  exact_ : nd = false → blk.len = g.layout.size
  lim : fillLimit nd g hint = hint
  cnt : vs.length = g.count
  le : g.count ≤ hint
  holds : Holds m (blk.addr + arrOff t nd) t.size vs

theorem Filled.blkOK {k t m nd g hint vs blk ended} (h : Filled t m nd g hint vs blk) :
    BlkOK k t m nd g (fillPhase g.count hint) vs ended blk := by
  have h1 := h.size
  have h2 := Nat.mul_le_mul_right t.size h.le
  refine ⟨h.al, h.pos, h.len, by omega, ?_, h.exact_, ?_, h.holds⟩
  · intro lim hl
    unfold fillPhase at hl
    split at hl
    · injection hl with hl; subst hl; exact ⟨by assumption, by omega⟩
    · cases hl
  · intro _ _
    unfold fillPhase
    constructor
    · intro lim hl
      split at hl
      · injection hl with hl; subst hl; omega
      · cases hl
    · intro hf
      split at hf
      · cases hf
      · have : g.count = hint := by have := h.le; omega
        rw [this]; omega

/-- `fill` up to its loop. -/
theorem Wk.fillStart {b0 b bk cs items K m0} {r : Nat} {nd : Bool} {g : Guard} {ph : Phase} {vs : List Nat} {ended : Bool}
    {hint : Nat} {om : Option Nat}
    (h : Wk b0 b bk cs items (g.blk.map fun s => Owned.of s g.layout).toList K m0)
    (hp : (b0.types r).disc = none) (hsz : 0 < (b0.types r).size) (hc : vs.length = g.count)
    (hn : g.blk = none → g.count = 0)
    (hs : ∀ blk, g.blk = some blk → BlkOK b0.kind (b0.types r) b.s.w.mem nd g ph vs ended blk)
    (hph : ph.isFill = false) (hfused : (nd = false ∨ b0.kind.isAny = true) → ended = false) (htells : nd = false → b0.kind.exact = true)
    (hh : g.count + om.toList.length ≤ hint) (hh0 : 0 < hint) :
    (∃ e, BadAnswer b.s.w e ∧ b.fillStart r nd g hint om = .error e) ∨
    (∃ b' cs', b.fillStart r nd g hint om = .ok (none, b') ∧ SameLog b b' ∧
      Wk b0 b' bk cs' items (g.blk.map fun s => Owned.of s g.layout).toList K m0 ∧
      ∀ blk, g.blk = some blk → BlkOK b0.kind (b0.types r) b'.s.w.mem nd g ph vs ended blk) ∨
    (∃ g' b' cs' blk, b.fillStart r nd g hint om = .ok (some g', b') ∧ SameLog b b' ∧
      Wk b0 b' bk cs' items (g'.blk.map fun s => Owned.of s g'.layout).toList K m0 ∧
      Filled (b0.types r) b'.s.w.mem nd g' hint (vs ++ om.toList) blk) := by
  have ht := h.start.types r
  have hty : b.types = b0.types := h.types
  obtain ⟨p1, p2, p3⟩ := ht.plain hp
  unfold BState.fillStart
  rw [hty]
  generalize hT : b0.types r = t at *
  dsimp only
  cases hl : fillLayout t nd hint with
  | none => exact .inr (.inl ⟨b, cs, rfl, SameLog.refl b, h, hs⟩)
  | some lo =>
    obtain ⟨l, off⟩ := lo
    obtain ⟨l1, l2, l3, l4⟩ := fillLayout_facts ht hl
    simp only
    rw [ebind_ok' (BState.mem_id (dassert_ok (fun _ => l2)))]
    simp only
    have hpos : 0 < l.size := by
      have := Nat.mul_pos hh0 hsz
      omega
    -- what happens once a block has been obtained
    have fin : ∀ (b1 : BState) (cs1 : List Chunk) (blk : Slice), SameLog b b1 →
        Wk b0 b1 bk cs1 items [Owned.of blk l] K m0 → l.size ≤ blk.len → (nd = false → blk.len = l.size) →
        Holds b1.s.w.mem (blk.addr + arrOff t nd) t.size vs →
        ∃ g' b' cs' blk', ((do
            let ((), b) ← b1.mem (dassert (l.size ≤ blk.len) "len == full_layout.size()")
            let cap := if l.size < blk.len then (blk.len - arrOff t nd) / t.size else hint
            let g : Guard := { g with blk := some blk, layout := l, cap := cap }
            match om with
            | none => pure (some g, b)
            | some x => do
              let ((), b) ← b.mem (dassert (g.count < g.cap) "self.count < self.cap")
              let ((), b) ← b.mem (Blink.writeIn blk (blk.addr + arrOff t nd + g.count * t.size) t.size t.align (slotByte t (.ok x)))
              pure (some { g with count := g.count + 1 }, b)) : Except Fault (Option Guard × BState)) = .ok (some g', b') ∧
          SameLog b b' ∧ Wk b0 b' bk cs' items (g'.blk.map fun s => Owned.of s g'.layout).toList K m0 ∧
          Filled t b'.s.w.mem nd g' hint (vs ++ om.toList) blk' := by
      intro b1 cs1 blk hsl hw hlen hex hho
      rw [ebind_ok' (BState.mem_id (dassert_ok (fun _ => hlen)))]
      have hlim : ∀ c k, fillLimit nd ⟨some blk, c, if l.size < blk.len then k else hint, l⟩ hint = hint := by
        intro c k
        unfold fillLimit
        cases nd with
        | true => rfl
        | false =>
          have := hex rfl
          simp only [Bool.false_eq_true, if_false]
          rw [if_neg (by omega)]
      cases om with
      | none =>
        simp only [Option.toList, List.append_nil, List.length_nil, Nat.add_zero] at *
        exact ⟨_, b1, cs1, blk, rfl, hsl, hw, ⟨rfl, l4, l3, hpos, hlen, hex, hlim _ _, hc, hh, hho⟩⟩
      | some x =>
        simp only [Option.toList, List.length_singleton] at *
        have hcap : g.count < if l.size < blk.len then (blk.len - arrOff t nd) / t.size else hint := by
          split
          · have : hint ≤ (blk.len - arrOff t nd) / t.size := (Nat.le_div_iff_mul_le hsz).mpr (by omega)
            omega
          · omega
        rw [ebind_ok' (BState.mem_id (dassert_ok (fun _ => hcap)))]
        simp only
        have hmul := mul_succ_le (s := t.size) (show g.count < hint by omega)
        have hala : blk.addr % t.align = 0 := hw.al (o := Owned.of blk l) ht.align (by
          simp only [Owned.of]; rw [l4]; split <;> omega)
        have hoffal : arrOff t nd % t.align = 0 := by
          rw [arrOff_eq ht]; split
          · exact Nat.zero_mod _
          · exact (valueOff_facts ht.align).2
        obtain ⟨w1, w2⟩ := hw.writeIn (a := blk.addr + arrOff t nd + g.count * t.size) (n := t.size) (al := t.align)
          (f := slotByte t (.ok x)) (mod0_add (mod0_add hala hoffal) (by rw [Nat.mul_mod, ht.mul, Nat.mul_zero, Nat.zero_mod]))
          (by omega) (by omega)
        rw [ebind_ok' w1]
        refine ⟨_, _, cs1, blk, rfl, ⟨hsl.1, hsl.2, hsl.3⟩, w2, ⟨rfl, l4, l3, hpos, hlen, hex, hlim _ _, ?_, hh, ?_⟩⟩
        · simp [hc]
        · apply Holds.snoc
          · simp only [BState.setM]
            rw [← hc]
            exact hho.set
          · intro j hj
            simp only [BState.setM]
            rw [hc, setBytes_in hj]
            have := slotByte_val (t := t) (v := x) (j := j) (by omega)
            rw [p3, Nat.zero_add] at this
            exact this
    cases hblk : g.blk with
    | none =>
      rw [hblk] at h
      simp only [Option.map_none, Option.toList] at h
      have hvs : vs = [] := List.eq_nil_of_length_eq_zero (by rw [hc]; exact hn hblk)
      rcases h.allocate l1 with ⟨e, hbad, he⟩ | ⟨o, s', cs', he, h1, h2⟩
      · left; exact ⟨e, hbad, by simp only; rw [ebind_err' he]⟩
      · right
        simp only
        rw [ebind_ok' he]
        simp only
        cases o with
        | none => left; exact ⟨_, cs', rfl, ⟨rfl, rfl, rfl⟩, h1 rfl, fun blk hb => by cases hb⟩
        | some blk =>
          right
          obtain ⟨h3, h4, h5⟩ := h2 blk rfl
          exact fin _ cs' blk ⟨rfl, rfl, rfl⟩ h3 h4 (fun hnd => h5 (htells hnd)) (by rw [hvs]; exact Holds.nil)
    | some old =>
      rw [hblk] at h
      simp only [Option.map_some, Option.toList] at h
      have hb := hs old hblk
      have hal := hb.al
      have hch : g.count * t.size ≤ hint * t.size := Nat.mul_le_mul_right _ (by omega)
      rcases h.grow (p := old.addr) (old := g.layout) (new := l) ⟨rfl, rfl, Nat.le_refl _, hb.len⟩ l1 hb.pos (fun ha => by
          have := (hb.full (.inr ha) (hfused (.inr ha))).2 hph
          omega) with ⟨e, hbad, he⟩ |
        ⟨q, s', cs', he, h1, h2⟩
      · left; exact ⟨e, hbad, by simp only; rw [ebind_err' he]⟩
      · right
        simp only
        rw [ebind_ok' he]
        simp only
        have hcnt := hb.cnt
        have hlen := hb.len
        cases q with
        | none =>
          left
          refine ⟨_, cs', rfl, ⟨rfl, rfl, rfl⟩, (h1 rfl).1, fun blk hb' => ?_⟩
          injection hb' with hb'
          subst hb'
          refine { hb with holds := hb.holds.congr fun x hx1 hx2 => (h1 rfl).2 _ List.mem_cons_self x ?_ }
          rw [hc] at hx2
          exact ⟨by simp only [Owned.of]; omega, by simp only [Owned.of]; omega⟩
        | some blk =>
          right
          obtain ⟨h3, h4, h5, h6⟩ := h2 blk rfl
          refine fin _ cs' blk ⟨rfl, rfl, rfl⟩ h3 h4 (fun hnd => h5 (htells hnd) ?_) ?_
          · have := (hb.full (.inl hnd) (hfused (.inl hnd))).2 hph
            omega
          · intro i hi j hj
            have hmul := mul_succ_le (s := t.size) hi
            rw [hc] at hmul
            have := hb.holds i hi j hj
            rw [Nat.add_assoc, Nat.add_assoc, ← Nat.add_assoc (arrOff t nd)] at this ⊢
            rw [← this]
            exact h6 _ (by omega)

end Blink
