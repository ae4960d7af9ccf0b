import Verif.Proofs.BlinkIter
/-
  Answers of the iterator.
-/
namespace Blink

/-- What the response of a waiting call says about the items. -/
def Told (t : RTy) (m : Nat → Byte) (f : FBook) : BResp → Prop
  | .slice a n => if t.tsize = 0 then n = f.taken % USIZE else n = f.got.length ∧ Holds m a t.tsize f.got
  | .iterErr a n x => ∃ vs, f.got = vs ++ x.toList ∧ n = vs.length ∧ Holds m a t.tsize vs
  | .panicked (some (a, n)) => ∃ vs, f.got = vs ++ f.pending ∧ n = vs.length ∧ Holds m a t.tsize vs
  | _ => True

theorem Wk.iterErr {b0 b bk cs items K m0} {r : Nat} {nd : Bool} {g : Guard} {ph : Phase} {vs : List Nat} {ended : Bool}
    {fb : FBook} {x : Option Nat}
    (h : Wk b0 b bk cs items (g.blk.map fun s => Owned.of s g.layout).toList K m0)
    (hp : (b0.types r).disc = none) (hsz : 0 < (b0.types r).size) (hc : vs.length = g.count)
    (hn : g.blk = none → g.count = 0)
    (hs : ∀ blk, g.blk = some blk → BlkOK b0.kind (b0.types r) b.s.w.mem nd g ph vs ended blk)
    (hr : fb.r = r) (hnd : fb.nd = nd) (hgot : fb.got = vs ++ x.toList) :
    ∃ resp b' cs' items', (do let ((a, n), b) ← b.flush r nd g; pure (.iterErr a n x, b) : Except Fault (BResp × BState)) = .ok (resp, b') ∧
      SameLog b b' ∧ Wk b0 b' (bk.land b0.types fb resp) cs' items' [] K m0 ∧ Told (b0.types r) b'.s.w.mem fb resp := by
  obtain ⟨a, b', cs', items', f1, f2, f3, f4⟩ := h.flush hp hsz hc hn hs
  rw [ebind_ok' f1]
  refine ⟨_, b', cs', items', rfl, f2, ?_, vs, hgot, hc.symm, f4⟩
  subst hr hnd
  exact f3

theorem Wk.iterWait {b0 b bk cs items K m0} {r : Nat} {nd : Bool} {g : Guard} {ph : Phase} {vs : List Nat}
    {fb : FBook}
    (h : Wk b0 b bk cs items (g.blk.map fun s => Owned.of s g.layout).toList K m0)
    (hf : IterOK b0.kind b0.types b.s.w.mem r nd g ph { fb with ask := (Frame.iter r nd g ph).ask } vs) :
    ∃ resp b' cs' items', b.wait (.iter r nd g ph) = .ok (resp, b') ∧
      b'.drops = b.drops ∧ b'.over = b.over ∧ Wk b0 b' (bk.land b0.types fb resp) cs' items' [] K m0 ∧
      Told (b0.types r) b'.s.w.mem fb resp := by
  refine ⟨.wait (Frame.iter r nd g ph).ask, { b with frames := .iter r nd g ph :: b.frames }, cs, items, rfl, rfl, rfl, ?_, trivial⟩
  refine Wk.wait (E := []) (f := .iter r nd g ph) (fb := { fb with ask := (Frame.iter r nd g ph).ask }) ?_ ⟨vs, hf⟩
  rw [List.append_nil]
  exact h

theorem Filled.iterOK {k types m r nd g hint vs blk} {fb : FBook} (h : Filled (types r) m nd g hint vs blk) (hr : fb.r = r) (hnd : fb.nd = nd)
    (hp : (types r).disc = none) (hsz : 0 < (types r).size) (hgot : fb.got = vs) (he : (nd = false ∨ k.isAny = true) → fb.ended = false)
    (ht : nd = false → k.exact = true) :
    IterOK k types m r nd g (fillPhase g.count (fillLimit nd g hint))
      { fb with ask := (Frame.iter r nd g (fillPhase g.count (fillLimit nd g hint))).ask } vs := by
  have hl := h.lim
  refine ⟨rfl, hr, hnd, hp, hsz, ?_, h.cnt, ?_, ?_, ?_, ?_, ht⟩
  · rw [hl]
    simp only [hgot]
    unfold fillPhase
    split <;> simp [Phase.extra]
  · intro hb; rw [h.blk_] at hb; cases hb
  · intro blk' hb
    rw [h.blk_] at hb
    injection hb with hb
    subst hb
    rw [hl]
    exact h.blkOK
  · intro hph
    unfold fillPhase at hph
    split at hph <;> cases hph
  · intro h1 h2
    rw [show ({ fb with ask := (Frame.iter r nd g (fillPhase g.count (fillLimit nd g hint))).ask } : FBook).ended = fb.ended from rfl,
      he h1] at h2
    cases h2

theorem sizeHintAndOne_gt {lower : Nat} {upper : Option Nat} {count h : Nat} (hs : sizeHintAndOne lower upper count = some h) :
    count + 1 ≤ h := by
  have aux : ∀ k, ((if k + 1 < USIZE then some (k + 1) else none) >>= fun h : Nat => if count + h < USIZE then some (count + h) else none) =
      some h → count + 1 ≤ h := by
    intro k hk
    by_cases h1 : k + 1 < USIZE
    · rw [if_pos h1, Option.bind_eq_bind, Option.bind_some] at hk
      split at hk
      · injection hk with hk; omega
      · cases hk
    · rw [if_neg h1] at hk; cases hk
  unfold sizeHintAndOne checkedAdd at hs
  exact aux _ hs

/-- `size_hint` returned. -/
theorem Wk.iterHint {b0 b bk cs items K m0} {r : Nat} {nd : Bool} {g : Guard} {ph : Phase} {vs : List Nat}
    {fb : FBook} {lower : Nat} {upper : Option Nat}
    (h : Wk b0 b bk cs items (g.blk.map fun s => Owned.of s g.layout).toList K m0)
    (hf : IterOK b0.kind b0.types b.s.w.mem r nd g ph fb vs) (hq : fb.ask = .sizeHint) :
    (∃ e, BadAnswer b.s.w e ∧ b.iterHint r nd g ph lower upper = .error e) ∨
    ∃ resp b' cs' items', b.iterHint r nd g ph lower upper = .ok (resp, b') ∧
      b'.drops = b.drops ∧ b'.over = b.over ∧ Wk b0 b' (bk.land b0.types fb resp) cs' items' [] K m0 ∧
      Told (b0.types r) b'.s.w.mem fb resp := by
  have hask := hf.ask
  rw [hq] at hask
  -- both places that call `fill`
  have go : ∀ (hint : Nat) (om : Option Nat), g.count + om.toList.length ≤ hint → 0 < hint → fb.got = vs ++ om.toList →
      ph.isFill = false → ((nd = false ∨ b0.kind.isAny = true) → fb.ended = false) →
      (∃ e, BadAnswer b.s.w e ∧ (do
        match ← b.fillStart r nd g hint om with
        | (some g, b) => b.wait (.iter r nd g (fillPhase g.count (fillLimit nd g hint)))
        | (none, b) => do
          let ((a, n), b) ← b.flush r nd g
          pure (.iterErr a n om, b) : Except Fault (BResp × BState)) = .error e) ∨
      ∃ resp b' cs' items', (do
        match ← b.fillStart r nd g hint om with
        | (some g, b) => b.wait (.iter r nd g (fillPhase g.count (fillLimit nd g hint)))
        | (none, b) => do
          let ((a, n), b) ← b.flush r nd g
          pure (.iterErr a n om, b) : Except Fault (BResp × BState)) = .ok (resp, b') ∧
        b'.drops = b.drops ∧ b'.over = b.over ∧ Wk b0 b' (bk.land b0.types fb resp) cs' items' [] K m0 ∧
        Told (b0.types r) b'.s.w.mem fb resp := by
    intro hint om hle hh0 hgot hph hend
    rcases h.fillStart hf.plain hf.sz hf.cnt (fun hb => (hf.none_ hb).1) hf.some_ hph hend hf.tells hle hh0 with ⟨e, hbad, he⟩ |
      ⟨b1, cs1, he, hl, hw, hb⟩ | ⟨g1, b1, cs1, blk, he, hl, hw, hF⟩
    · left; exact ⟨e, hbad, by rw [ebind_err' he]⟩
    · right
      rw [ebind_ok' he]
      simp only
      obtain ⟨resp, b', cs', items', e1, e2, e3, e4⟩ := hw.iterErr (x := om) hf.plain hf.sz hf.cnt (fun hb => (hf.none_ hb).1) hb hf.r_ hf.nd_ hgot
      exact ⟨resp, b', cs', items', e1, e2.drops.trans hl.drops, e2.over.trans hl.over, e3, e4⟩
    · right
      rw [ebind_ok' he]
      simp only
      obtain ⟨resp, b', cs', items', e1, e2, e3, e4, e5⟩ := hw.iterWait (fb := fb)
        (hF.iterOK hf.r_ hf.nd_ hf.plain hf.sz hgot hend hf.tells)
      exact ⟨resp, b', cs', items', e1, e2.trans hl.drops, e3.trans hl.over, e4, e5⟩
  unfold BState.iterHint
  have hgot := hf.got
  cases ph with
  | fill lim => cases hask
  | one => cases hask
  | hint0 =>
    simp only
    have hb := hf.hint0 rfl
    have hc0 := (hf.none_ hb).1
    have hend : (nd = false ∨ b0.kind.isAny = true) → fb.ended = false := fun h1 => by
      cases he : fb.ended with
      | false => rfl
      | true => exact absurd (hf.fused h1 he) (by simp)
    split
    · apply go (max lower FASTER_START) none
      · simp [hc0]
      · unfold FASTER_START; omega
      · simpa [Phase.extra] using hgot
      · rfl
      · exact hend
    · right
      obtain ⟨resp, b', cs', items', e1, e2, e3, e4, e5⟩ := h.iterWait (ph := .one) (fb := fb) (r := r) (nd := nd) (vs := vs)
        ⟨rfl, hf.r_, hf.nd_, hf.plain, hf.sz, by simpa [Phase.extra] using hgot, hf.cnt, fun hb => ⟨hc0, rfl⟩,
          fun blk hb' => (by rw [hb] at hb'; cases hb'), (by simp), fun _ _ => rfl, hf.tells⟩
      exact ⟨resp, b', cs', items', e1, e2, e3, e4, e5⟩
  | hint x =>
    simp only
    have hend : (nd = false ∨ b0.kind.isAny = true) → fb.ended = false := fun h1 => by
      cases he : fb.ended with
      | false => rfl
      | true => exact absurd (hf.fused h1 he) (by simp)
    split
    · right
      obtain ⟨resp, b', cs', items', e1, e2, e3, e4⟩ := h.iterErr (x := some x) hf.plain hf.sz hf.cnt (fun hb => (hf.none_ hb).1) hf.some_ hf.r_ hf.nd_ hgot
      exact ⟨resp, b', cs', items', e1, e2.drops, e2.over, e3, e4⟩
    · rename_i hh hs
      apply go hh (some x)
      · have := sizeHintAndOne_gt hs
        simp only [Option.toList, List.length_singleton]
        omega
      · have := sizeHintAndOne_gt hs
        omega
      · exact hgot
      · rfl
      · exact hend

/-- `next` returned. -/
theorem Wk.iterNext {b0 b bk cs items K m0} {r : Nat} {nd : Bool} {g : Guard} {ph : Phase} {vs : List Nat}
    {fb : FBook} {x : Option Nat}
    (h : Wk b0 b bk cs items (g.blk.map fun s => Owned.of s g.layout).toList K m0)
    (hf : IterOK b0.kind b0.types b.s.w.mem r nd g ph fb vs) (hq : fb.ask = .next) (hfused : (nd = false ∨ b0.kind.isAny = true) → fb.ended = true → x = none) :
    ∃ resp b' cs' items', b.iterNext r nd g ph x = .ok (resp, b') ∧
      b'.drops = b.drops ∧ b'.over = b.over ∧ Wk b0 b' (bk.land b0.types (fb.tell (.next x)) resp) cs' items' [] K m0 ∧
      Told (b0.types r) b'.s.w.mem (fb.tell (.next x)) resp := by
  have hask := hf.ask
  rw [hq] at hask
  have ht := h.start.types r
  have hty : b.types = b0.types := h.types
  obtain ⟨p1, p2, p3⟩ := ht.plain hf.plain
  have hgot := hf.got
  have hcnt := hf.cnt
  unfold BState.iterNext
  rw [hty]
  cases ph with
  | hint0 => cases hask
  | hint x => cases hask
  | fill lim =>
    simp only
    cases hblk : g.blk with
    | none => exact absurd (hf.none_ hblk).2 (by simp [Phase.isFill])
    | some blk =>
      have hb := hf.some_ blk hblk
      obtain ⟨hl1, hl2⟩ := hb.lim lim rfl
      have hlen := hb.len
      have hal := hb.al
      have hmul := mul_succ_le (s := (b0.types r).size) hl1
      rw [hblk] at h
      simp only [Option.map_some, Option.toList] at h
      have hala : blk.addr % (b0.types r).align = 0 := h.al (o := Owned.of blk g.layout) ht.align (by
        simp only [Owned.of]; rw [hal]; split <;> omega)
      have hoffal : arrOff (b0.types r) nd % (b0.types r).align = 0 := by
        rw [arrOff_eq ht]; split
        · exact Nat.zero_mod _
        · exact (valueOff_facts ht.align).2
      have hadr := mod0_add (mod0_add hala hoffal) (show (g.count * (b0.types r).size) % (b0.types r).align = 0 by
        rw [Nat.mul_mod, ht.mul, Nat.mul_zero, Nat.zero_mod])
      have hend : (nd = false ∨ b0.kind.isAny = true) → fb.ended = false := fun h1 => by
        cases he : fb.ended with
        | false => rfl
        | true => exact absurd (hf.fused h1 he) (by simp)
      simp only
      cases x with
      | some v =>
        simp only
        obtain ⟨w1, w2⟩ := h.writeIn (a := blk.addr + arrOff (b0.types r) nd + g.count * (b0.types r).size)
          (n := (b0.types r).size) (al := (b0.types r).align) (f := slotByte (b0.types r) (.ok v)) hadr (by omega) (by omega)
        rw [ebind_ok' w1]
        simp only
        have hF : IterOK b0.kind b0.types (b.setM (blk.addr + arrOff (b0.types r) nd + g.count * (b0.types r).size) (b0.types r).size
            (slotByte (b0.types r) (.ok v))).s.w.mem r nd ⟨some blk, g.count + 1, g.cap, g.layout⟩ (fillPhase (g.count + 1) lim)
            { fb.tell (.next (some v)) with
              ask := (Frame.iter r nd ⟨some blk, g.count + 1, g.cap, g.layout⟩ (fillPhase (g.count + 1) lim)).ask } (vs ++ [v]) := by
          refine ⟨rfl, hf.r_, hf.nd_, hf.plain, hf.sz, ?_, ?_, (fun hb => by cases hb), ?_, ?_, ?_, hf.tells⟩
          · simp only [FBook.tell]
            rw [hgot]
            unfold fillPhase
            split <;> simp [Phase.extra]
          · simp [hcnt]
          · intro blk' hb'
            injection hb' with hb'
            subst hb'
            refine ⟨hb.al, hb.pos, hb.len, ?_, ?_, hb.exact_, ?_, ?_⟩
            · simp only [Nat.add_mul, Nat.one_mul]; omega
            · intro lim' hl'
              unfold fillPhase at hl'
              split at hl'
              · injection hl' with hl'; subst hl'; exact ⟨by assumption, hl2⟩
              · cases hl'
            · intro h1 _
              have hfl := (hb.full h1 (hend h1)).1 lim rfl
              unfold fillPhase
              constructor
              · intro lim' hl'
                split at hl'
                · injection hl' with hl'; subst hl'; exact hfl
                · cases hl'
              · intro hi
                split at hi
                · cases hi
                · have : g.count + 1 = lim := by omega
                  simp only [this]; exact hfl
            · simp only [BState.setM]
              rw [← hcnt]
              apply Holds.snoc
              · exact hb.holds.set
              · intro j hj
                rw [setBytes_in hj]
                have := slotByte_val (t := b0.types r) (v := v) (j := j) (by omega)
                rw [p3, Nat.zero_add] at this
                exact this
          · intro hph
            unfold fillPhase at hph
            split at hph <;> cases hph
          · intro h1 h2
            simp only [FBook.tell, Option.isNone, Bool.or_false] at h2
            rw [hend h1] at h2
            cases h2
        exact Wk.iterWait (g := ⟨some blk, g.count + 1, g.cap, g.layout⟩) w2 hF
      | none =>
        have hF : ∀ m, Holds m (blk.addr + arrOff (b0.types r) nd) (b0.types r).size vs → IterOK b0.kind b0.types m r nd g .one
            { fb.tell (.next none) with ask := (Frame.iter r nd g .one).ask } vs := by
          intro m hm
          refine ⟨rfl, hf.r_, hf.nd_, hf.plain, hf.sz, ?_, hcnt, ?_, ?_, by simp, fun _ _ => rfl, hf.tells⟩
          · simpa [FBook.tell, Phase.extra] using hgot
          · intro hb'; rw [hblk] at hb'; cases hb'
          · intro blk' hb'
            rw [hblk] at hb'
            injection hb' with hb'
            subst hb'
            refine ⟨hb.al, hb.pos, hb.len, hb.cnt, by simp, hb.exact_, ?_, hm⟩
            intro _ h2
            simp [FBook.tell] at h2
        simp only
        split
        · obtain ⟨w1, w2⟩ := h.writeIn (a := blk.addr + arrOff (b0.types r) nd + g.count * (b0.types r).size)
            (n := (b0.types r).size) (al := (b0.types r).align) (f := fun _ => .raw 0) hadr (by omega) (by omega)
          rw [ebind_ok' w1]
          simp only
          have hw : Wk b0 (b.setM (blk.addr + arrOff (b0.types r) nd + g.count * (b0.types r).size) (b0.types r).size fun _ => .raw 0)
              bk cs items (g.blk.map fun s => Owned.of s g.layout).toList K m0 := by
            rw [hblk]; exact w2
          refine Wk.iterWait hw (hF _ ?_)
          simp only [BState.setM]
          rw [← hcnt]
          exact hb.holds.set
        · have hw : Wk b0 b bk cs items (g.blk.map fun s => Owned.of s g.layout).toList K m0 := by
            rw [hblk]; exact h
          exact Wk.iterWait hw (hF _ hb.holds)
  | one =>
    simp only
    cases x with
    | none =>
      simp only
      obtain ⟨a, b', cs', items', f1, f2, f3, f4⟩ := h.flush hf.plain hf.sz hf.cnt (fun hb => (hf.none_ hb).1) hf.some_
      rw [ebind_ok' f1]
      refine ⟨_, b', cs', items', rfl, f2.drops, f2.over, ?_, ?_⟩
      · have h1 := hf.r_
        have h2 := hf.nd_
        subst h1 h2
        exact f3
      · have hsz := hf.sz
        show if (b0.types r).tsize = 0 then _ else _
        rw [if_neg (by omega)]
        have : (fb.tell (.next none)).got = vs := by simpa [FBook.tell, Phase.extra] using hgot
        rw [this]
        exact ⟨hcnt.symm, f4⟩
    | some v =>
      simp only
      refine Wk.iterWait h (vs := vs) ⟨rfl, hf.r_, hf.nd_, hf.plain, hf.sz, ?_, hcnt, fun hb => ⟨(hf.none_ hb).1, rfl⟩, ?_, by simp, ?_, hf.tells⟩
      · simpa [FBook.tell, Phase.extra] using hgot
      · intro blk hb
        have h1 := hf.some_ blk hb
        refine ⟨h1.al, h1.pos, h1.len, h1.cnt, by simp, h1.exact_, ?_, h1.holds⟩
        intro h2 h3
        simp only [FBook.tell, Option.isNone, Bool.or_false] at h3
        exact ⟨by simp, (h1.full h2 h3).2⟩
      · intro h1 h2
        simp only [FBook.tell, Option.isNone, Bool.or_false] at h2
        exact absurd (hfused h1 h2) (by simp)

theorem Wk.withDrops {b0 b bk cs items E K m0} (h : Wk b0 b bk cs items E K m0) (d : List DropEv) (o : Bool) :
    Wk b0 { b with drops := d, over := o } bk cs items E K m0 := { h with }

/-- Destructors of local variables touch nothing. -/
theorem BState.dropLoose_eq (b : BState) (t : RTy) (v : Nat) :
    ∃ p, b.dropLoose t v = (p, { b with drops := t.loose v ++ b.drops }) := by
  unfold BState.dropLoose RTy.loose
  split
  · exact ⟨_, rfl⟩
  · exact ⟨_, rfl⟩

theorem Wk.forgetAll {b0 b bk cs items E K m0} (h : Wk b0 b bk cs items E K m0) : Wk b0 b bk cs items [] K m0 :=
  { h with inv := h.inv.sublist (List.sublist_append_right _ _) }

/-- The iterator panicked. -/
theorem Wk.iterPanic {b0 b bk cs items K m0} {r : Nat} {nd : Bool} {g : Guard} {ph : Phase} {vs : List Nat}
    {fb : FBook}
    (h : Wk b0 b bk cs items (g.blk.map fun s => Owned.of s g.layout).toList K m0)
    (hf : IterOK b0.kind b0.types b.s.w.mem r nd g ph fb vs) :
    ∃ resp b' cs' items', b.iterPanic r nd g ph = .ok (resp, b') ∧
      b'.drops = inFlight b0.types fb .panic ++ b.drops ∧ (b'.over = b.over ∨ (resp = .aborted ∧ b'.over = true)) ∧
      Wk b0 b' (bk.land b0.types fb resp) cs' items' [] K m0 ∧
      Told (b0.types r) b'.s.w.mem fb resp ∧
      (resp = .aborted ∨ (nd = true ∧ resp = .panicked none) ∨ (nd = false ∧ ∃ a n, resp = .panicked (some (a, n)))) := by
  have ht := h.start.types r
  have hty : b.types = b0.types := h.types
  obtain ⟨p1, p2, p3⟩ := ht.plain hf.plain
  have hsz := hf.sz
  have hpend : fb.pending = ph.extra := by
    unfold FBook.pending
    rw [hf.ask, hf.got]
    cases ph with
    | hint0 =>
      have := (hf.none_ (hf.hint0 rfl)).1
      have : vs = [] := List.eq_nil_of_length_eq_zero (by rw [hf.cnt]; exact this)
      subst this
      rfl
    | fill lim => rfl
    | one => rfl
    | hint x => simp [Frame.ask, Phase.extra]
  have hfl : inFlight b0.types fb .panic = ph.extra.flatMap (b0.types r).loose := by
    simp only [inFlight]
    rw [hf.r_, if_neg (by omega), hpend]
  have hst : ∃ p : Bool, b.iterPanic r nd g ph = (if p then
        pure (.aborted, { b with drops := ph.extra.flatMap (b0.types r).loose ++ b.drops, over := true })
      else if nd then pure (.panicked none, { b with drops := ph.extra.flatMap (b0.types r).loose ++ b.drops })
      else do
        let ((a, n), b) ← BState.flush { b with drops := ph.extra.flatMap (b0.types r).loose ++ b.drops } r nd g
        pure (.panicked (some (a, n)), b)) := by
    cases ph with
    | hint x =>
      obtain ⟨p, hp⟩ := b.dropLoose_eq (b0.types r) x
      refine ⟨p, ?_⟩
      unfold BState.iterPanic
      dsimp only
      rw [hty, hp]
      simp only [Phase.extra, List.flatMap_cons, List.flatMap_nil, List.append_nil, hty]
    | _ => exact ⟨false, rfl⟩
  obtain ⟨p, hp⟩ := hst
  rw [hp, hfl]
  have hw := h.withDrops (ph.extra.flatMap (b0.types r).loose ++ b.drops) b.over
  dsimp only
  cases p with
  | true =>
    rw [if_pos rfl]
    exact ⟨.aborted, _, cs, items, rfl, rfl, .inr ⟨rfl, rfl⟩, (h.withDrops _ _).forgetAll, trivial, .inl rfl⟩
  | false =>
    rw [if_neg (by simp)]
    cases hnd : nd with
    | true =>
      rw [if_pos rfl]
      exact ⟨.panicked none, _, cs, items, rfl, rfl, .inl rfl, hw.forgetAll, trivial, .inr (.inl ⟨rfl, rfl⟩)⟩
    | false =>
      rw [if_neg (by simp)]
      obtain ⟨a, b', cs', items', f1, f2, f3, f4⟩ := hw.flush (r := r) (nd := nd) (vs := vs) hf.plain hf.sz hf.cnt (fun hb => (hf.none_ hb).1) hf.some_
      rw [← hnd, ebind_ok' f1]
      refine ⟨_, b', cs', items', rfl, f2.drops, .inl f2.over, ?_, ⟨vs, by rw [hpend]; exact hf.got, hf.cnt.symm, f4⟩,
        .inr (.inr ⟨rfl, _, _, rfl⟩)⟩
      have h1 := hf.r_
      have h2 := hf.nd_
      subst h1
      rw [← h2] at f3
      exact f3

/-! ### Zero-sized items -/

theorem Wk.drainDone {b0 b bk cs items K m0} {r : Nat} {nd : Bool} {blk : Slice} {n : Nat} {fb : FBook} {d : DPhase} {k : Nat}
    (h : Wk b0 b bk cs items ((Frame.drain r nd blk k d).own b0.types).toList K m0)
    (hr : fb.r = r) (hnd : fb.nd = nd) (hp : (b0.types r).disc = none) (hsz : (b0.types r).size = 0)
    (hd : b0.s.w.debug = true → nd = false → n ≠ 0) (hlen : nd = false → (dropItem 0 (b0.types r).align).size ≤ blk.len)
    (hn : n = fb.taken % USIZE) :
    ∃ resp b' cs' items', b.drainDone r nd blk n = .ok (resp, b') ∧ SameLog b b' ∧
      Wk b0 b' (bk.land b0.types fb resp) cs' items' [] K m0 ∧ Told (b0.types r) b'.s.w.mem fb resp ∧ ∃ a, resp = .slice a n := by
  have ht := h.start.types r
  have hty : b.types = b0.types := h.types
  obtain ⟨p1, p2, p3⟩ := ht.plain hp
  have told : ∀ m a, Told (b0.types r) m fb (.slice a n) := by
    intro m a
    show if (b0.types r).tsize = 0 then _ else _
    rw [if_pos (by omega)]
    exact hn
  subst hr hnd
  unfold BState.drainDone
  cases hnd : fb.nd with
  | true =>
    rw [if_pos rfl]
    rw [hnd] at h
    simp only [Frame.own, if_true, Option.toList] at h
    refine ⟨.slice (b.types fb.r).align n, b, cs, ⟨(b0.types fb.r).ref true (b.types fb.r).align n, none, 0⟩ :: items, rfl, SameLog.refl b, ?_, told _ _, _, rfl⟩
    simp only [BBook.land, BBook.pushSlice]
    rw [if_neg (by omega), hnd]
    refine Wk.pushNoDrop (o := none) h rfl ⟨?_, .inl ?_, fun hd => by cases hd⟩
    · simp only [RTy.ref]
      rw [hty, ← p2]
      exact Nat.mod_self _
    · simp only [RTy.ref]; rw [← p1, hsz, Nat.mul_zero]
  | false =>
    rw [if_neg (by simp)]
    rw [hnd] at h
    simp only [Frame.own, Bool.false_eq_true, if_false, Option.toList] at h
    have hv := valueOff_facts ht.align
    have hoff := arrOff_eq ht false
    simp only [Bool.false_eq_true, if_false] at hoff
    have hdz := dropItem_zero ht.align
    have hl := hlen hnd
    obtain ⟨b1, b', r1, r2, r3, r4, r5⟩ := h.regSlice (r := fb.r) (n := n) (by rw [dropItem_align]; omega) hp
      (by rw [hsz, Nat.mul_zero]; omega) (fun hd' => hd hd' hnd)
    rw [ebind_ok' r1]
    dsimp only
    rw [ebind_ok' r2]
    refine ⟨_, b', cs, ⟨(b0.types fb.r).ref false (blk.addr + arrOff (b0.types fb.r) false) n, some (Owned.of blk (dropItem 0 (b0.types fb.r).align)), fb.r⟩ :: items, rfl, r3, ?_, told _ _, _, rfl⟩
    simp only [BBook.land, BBook.pushSlice]
    rw [if_neg (by omega), hnd]
    exact r5

theorem Wk.drainWait {b0 b bk cs items K m0} {r : Nat} {nd : Bool} {blk : Slice} {k k' : Nat} {d d' : DPhase} {fb : FBook}
    (h : Wk b0 b bk cs items ((Frame.drain r nd blk k d).own b0.types).toList K m0)
    (hf : DrainOK b0.types b0.s.w.debug r nd blk k' d' { fb with ask := (Frame.drain r nd blk k' d').ask }) :
    ∃ resp b' cs' items', b.wait (.drain r nd blk k' d') = .ok (resp, b') ∧
      b'.drops = b.drops ∧ b'.over = b.over ∧ Wk b0 b' (bk.land b0.types fb resp) cs' items' [] K m0 ∧
      Told (b0.types r) b'.s.w.mem fb resp ∧ ∃ q, resp = .wait q := by
  refine ⟨.wait (Frame.drain r nd blk k' d').ask, { b with frames := .drain r nd blk k' d' :: b.frames }, cs, items, rfl, rfl, rfl, ?_, trivial, _, rfl⟩
  refine Wk.wait (E := []) (f := .drain r nd blk k' d') (fb := { fb with ask := (Frame.drain r nd blk k' d').ask }) ?_ hf
  rw [List.append_nil]
  exact h

theorem Wk.drainHint {b0 b bk cs items K m0} {r : Nat} {nd : Bool} {blk : Slice} {k lower : Nat} {fb : FBook}
    (h : Wk b0 b bk cs items ((Frame.drain r nd blk k .hint).own b0.types).toList K m0)
    (hf : DrainOK b0.types b0.s.w.debug r nd blk k .hint fb) :
    ∃ resp b' cs' items', b.drainHint r nd blk k lower = .ok (resp, b') ∧
      b'.drops = b.drops ∧ b'.over = b.over ∧ Wk b0 b' (bk.land b0.types fb resp) cs' items' [] K m0 ∧
      Told (b0.types r) b'.s.w.mem fb resp ∧ ∃ q, resp = .wait q := by
  unfold BState.drainHint
  split
  · exact h.drainWait ⟨rfl, hf.r_, hf.nd_, hf.plain, hf.sz, hf.dbg_, hf.len, hf.lt, hf.cnt, by simp⟩
  · rename_i hl0
    have hmin : b0.s.w.debug = true → min lower (USIZE - 1 - k) ≠ 0 := by
      intro hd
      have h1 := hf.dbg_ hd
      have h2 := hf.cnt
      have h3 : fb.taken % USIZE = fb.taken := Nat.mod_eq_of_lt (by omega)
      omega
    dsimp only
    rw [ebind_ok' (BState.mem_id (dassert_ok (fun hd => hmin (h.dbg ▸ hd))))]
    refine h.drainWait ⟨rfl, hf.r_, hf.nd_, hf.plain, hf.sz, hf.dbg_, hf.len, hf.lt, hf.cnt, ?_⟩
    intro l hl
    injection hl with hl
    subst hl
    have := hf.lt
    exact ⟨by omega, hmin⟩

/-- `next` or `nth` returned; `k` items were asked for. -/
theorem Wk.drainNext {b0 b bk cs items K m0} {r : Nat} {nd : Bool} {blk : Slice} {d : Nat} {ph : DPhase} {fb : FBook} {op : BOp}
    {x : Option Nat} (k : Option Nat)
    (hop : (k = none ∧ op = .next x ∧ ph = .next) ∨ (∃ l, k = some l ∧ op = .nth x ∧ ph = .nth l))
    (h : Wk b0 b bk cs items ((Frame.drain r nd blk d ph).own b0.types).toList K m0)
    (hf : DrainOK b0.types b0.s.w.debug r nd blk d ph fb)
    (hz : b0.s.w.debug = true → (k = none → fb.taken + 2 < USIZE) ∧ (nd = false → x = none → fb.taken ≠ 0)) :
    ∃ resp b' cs' items', b.drainNext r nd blk d k x = .ok (resp, b') ∧
      b'.drops = inFlight b0.types fb op ++ b.drops ∧ b'.over = b.over ∧
      Wk b0 b' (bk.land b0.types (fb.tell op) resp) cs' items' [] K m0 ∧
      Told (b0.types r) b'.s.w.mem (fb.tell op) resp ∧
      (resp = .panicked none ∨ (∃ a n, resp = .slice a n) ∨ ∃ q, resp = .wait q) := by
  have ht := h.start.types r
  have hty : b.types = b0.types := h.types
  obtain ⟨p1, p2, p3⟩ := ht.plain hf.plain
  have hsz := hf.sz
  have hlt := hf.lt
  have htr : (fb.tell op).r = r ∧ (fb.tell op).nd = nd := by
    rcases hop with ⟨_, rfl, _⟩ | ⟨l, _, rfl, _⟩
    · exact ⟨hf.r_, hf.nd_⟩
    · have h1 := hf.r_; have h2 := hf.nd_
      simp only [FBook.tell]; split <;> exact ⟨h1, h2⟩
  unfold BState.drainNext
  cases x with
  | none =>
    have htk : (fb.tell op).taken = fb.taken := by
      rcases hop with ⟨_, rfl, _⟩ | ⟨l, _, rfl, _⟩
      · rfl
      · simp only [FBook.tell]; split <;> rfl
    have hfl : inFlight b0.types fb op = [] := by
      rcases hop with ⟨_, rfl, _⟩ | ⟨l, _, rfl, _⟩ <;> rfl
    obtain ⟨resp, b', cs', items', e1, e2, e3, e4, a, e5⟩ := h.drainDone (n := d) (fb := fb.tell op) htr.1 htr.2 hf.plain hf.sz
      (fun hd hn => by
        have h1 := (hz hd).2 hn rfl
        have h2 := hf.dbg_ hd
        have h3 := hf.cnt
        rw [Nat.mod_eq_of_lt (by omega)] at h3
        omega) hf.len
      (by rw [htk]; exact hf.cnt)
    refine ⟨resp, b', cs', items', e1, ?_, e2.over, e3, e4, .inr (.inl ⟨a, d, e5⟩)⟩
    rw [hfl, e2.drops]; rfl
  | some v =>
    have hfl : inFlight b0.types fb op = (b0.types r).loose v := by
      rcases hop with ⟨_, rfl, _⟩ | ⟨l, _, rfl, _⟩
      · simp only [inFlight, hf.r_]; rw [if_pos (by omega)]
      · simp only [inFlight, hf.r_]; rw [if_pos (by omega)]
    obtain ⟨p, hp⟩ := b.dropLoose_eq (b0.types r) v
    have hw := h.withDrops ((b0.types r).loose v ++ b.drops) b.over
    dsimp only
    rw [hty, hp, hfl]
    dsimp only
    cases p with
    | true =>
      rw [if_pos rfl]
      exact ⟨.panicked none, _, cs, items, rfl, rfl, rfl, hw.forgetAll, trivial, .inl rfl⟩
    | false =>
      rw [if_neg (by simp)]
      rcases hop with ⟨rfl, rfl, _⟩ | ⟨l, rfl, rfl, rfl⟩
      · dsimp only
        rw [ebind_ok' (BState.mem_id (dassert_ok (fun hd => by
          have hd : b0.s.w.debug = true := hw.dbg ▸ hd
          have h1 := (hz hd).1 rfl
          have h3 := hf.cnt
          rw [Nat.mod_eq_of_lt (by omega)] at h3
          omega)))]
        dsimp only
        obtain ⟨resp, b', cs', items', e1, e2, e3, e4, e5, e6⟩ := hw.drainWait (fb := fb.tell (.next (some v))) (k' := (d + 1) % USIZE) (d' := .hint)
          ⟨rfl, hf.r_, hf.nd_, hf.plain, hf.sz, fun hd => by
            have h1 := (hz hd).1 rfl
            simp only [FBook.tell, Option.given]; omega, hf.len, Nat.mod_lt _ (by decide), by
            have := hf.cnt
            simp only [FBook.tell, Option.given]; omega, by simp⟩
        exact ⟨resp, b', cs', items', e1, e2, e3, e4, e5, .inr (.inr e6)⟩
      · dsimp only
        have hask := hf.ask
        have hnth := (hf.nth l rfl).1
        have hnz := (hf.nth l rfl).2
        have hcn := hf.cnt
        simp only [Frame.ask] at hask
        have htk : ((fb.tell (.nth (some v))).taken) % USIZE = (d + l) % USIZE ∧ (l ≠ 0 → (d + l) = (d + l) % USIZE) := by
          simp only [FBook.tell, hask, Option.given]
          constructor
          · omega
          · intro _; omega
        have hl0 : d + l = (d + l) % USIZE := by omega
        split
        · rename_i hmax
          obtain ⟨resp, b', cs', items', e1, e2, e3, e4, a, e5⟩ := hw.drainDone (n := USIZE - 1) (fb := fb.tell (.nth (some v))) htr.1 htr.2 hf.plain hf.sz (fun _ _ => by decide) hf.len
            (by rw [htk.1]; omega)
          exact ⟨resp, b', cs', items', e1, e2.drops, e2.over, e3, e4, .inr (.inl ⟨a, _, e5⟩)⟩
        · obtain ⟨resp, b', cs', items', e1, e2, e3, e4, e5, e6⟩ := hw.drainWait (fb := fb.tell (.nth (some v))) (k' := d + l) (d' := .hint)
            ⟨rfl, htr.1, htr.2, hf.plain, hf.sz, fun hd => by
              show (fb.tell (.nth (some v))).taken + 1 < USIZE
              have h1 := hf.dbg_ hd
              have h2 := hnz hd
              rw [Nat.mod_eq_of_lt (by omega)] at hcn
              simp only [FBook.tell, hask, Option.given]
              omega, hf.len, by omega, by
              show d + l = (fb.tell (.nth (some v))).taken % USIZE
              rw [htk.1]; exact hl0, by simp⟩
          exact ⟨resp, b', cs', items', e1, e2, e3, e4, e5, .inr (.inr e6)⟩

end Blink
