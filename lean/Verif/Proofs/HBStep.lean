import Verif.Proofs.HB
/-
  Preservation of the invariant about accesses.
-/
namespace Blink

theorem HB.Step.acc {h h' : HB} {s s' : SS} {K : Book} {t : Nat} {a : Act} {r : Option Resp} (hh : h.Step s K t a r s' h') {x e}
    (ha : h'.Acc x e) : (h.Acc x e ∧ ¬ NewMem s s' x) ∨ (e = h.clock ∧ Touches s a x) := by
  rcases ha with ha | ha | ha
  · rcases (hh.reads x e).mp ha with ⟨h1, h2⟩ | ⟨h1, h2, _⟩
    · exact .inl ⟨.inl h1, h2⟩
    · exact .inr ⟨h1, h2⟩
  · rcases (hh.writes x e).mp ha with ⟨h1, h2⟩ | ⟨h1, h2, _⟩
    · exact .inl ⟨.inr (.inl h1), h2⟩
    · exact .inr ⟨h1, h2.touches⟩
  · rcases (hh.atoms x e).mp ha with ⟨h1, h2⟩ | ⟨h1, h2, _⟩
    · exact .inl ⟨.inr (.inr h1), h2⟩
    · exact .inr ⟨h1, h2⟩

/-- How an action that is not a reset can access the byte at `x`. -/
inductive Access (s s' : SS) (K : Book) (B : Nat → List Owned) (t : Nat) (a : Act) (x : Nat) : Prop
  | cursor (hb : K.busy t ≠ none) (h1 : Atomic s a x) (h2 : s.root ≠ 0) (h3 : s.root ≤ x) (h4 : x < s.root + 8)
  | header (hb : K.busy t ≠ none) (h1 : ¬ Atomic s a x) (h2 : s.root ≠ 0) (h3 : s.root + 8 ≤ x) (h4 : x < s.root + 32)
  | chunk (hb : K.busy t ≠ none) (h1 : ¬ Atomic s a x) (h2 : ¬ s.w.Holds x) (h3 : s'.writer = some t)
  | block (hb : K.busy t ≠ none) (h1 : ¬ Atomic s a x) (b : Owned) (h2 : b ∈ B t) (h3 : b.Has x)
  | client (h1 : ¬ Atomic s a x) (b : Owned) (h2 : b ∈ K.owned) (h3 : b.Has x) (h4 : ∃ v, a = .write x v)

/-- What is known about the allocator's bytes is kept by actions that are not resets. -/
theorem HB.MemCore.advance {s0 s s' cs cs' K K' KG B B' t a r} {h h' : HB} (hm : h.MemCore s B) (w : h.WF)
    (hi : SInv s0 s cs K B) (hi' : SInv s0 s' cs' K' B') (hh : h.Step s KG t a r s' h') (g : GoLock s s' t a) (ha : a.resets = false)
    (hroom : ∀ x, s'.InRoom x → s.InRoom x ∨ ¬ s.w.Holds x)
    (hheads : ∀ Bk ∈ openBlocks s'.w.log, Bk ∈ openBlocks s.w.log ∨ ∀ x, Bk.addr ≤ x → x < Bk.addr + Bk.len → ¬ s.w.Holds x)
    (hhead : ∀ Bk, (openBlocks s'.w.log).head? = some Bk → (openBlocks s.w.log).head? = some Bk ∨
      ∀ x, Bk.addr ≤ x → x < Bk.addr + Bk.len → ¬ s.w.Holds x)
    (hacc : ∀ x, Touches s a x → Access s s' K B t a x)
    (hst : ∀ x, Writes s a x → s.w.Holds x → ¬ Atomic s a x → InUsed cs x 1)
    (hother : ∀ u, u ≠ t → B' u = B u)
    (hblk : ∀ b ∈ B' t, ∀ x e, b.Has x → h.Acc x e → ¬ NewMem s s' x → h.view t e) : h'.MemCore s' B' := by
  have hpub : ∀ {e}, h.Pub s e → h'.Pub s' e := fun he => hh.pub w g ha he
  have hnow : s'.writer = some t → h'.Pub s' h.clock := fun h1 => .inr (.inr (.inr ⟨t, h1, hh.now⟩))
  have hnew : ∀ {x}, Touches s a x → ¬ s.w.Holds x → ¬ Atomic s a x ∧ h'.Pub s' h.clock := by
    intro x hx hn
    cases hacc x hx with
    | cursor _ _ h2 h3 h4 => exact absurd (hi.headHeld h2 h3 (by omega)) hn
    | header _ _ h2 h3 h4 => exact absurd (hi.headHeld h2 (by omega) h4) hn
    | chunk _ h1 _ h3 => exact ⟨h1, hnow h3⟩
    | block _ _ b h2 h3 => exact absurd (hi.used (hi.blkUsed h2 h3)).1 hn
    | client _ b h2 h3 _ => exact absurd (hi.used (hi.ownedUsed h2 h3)).1 hn
  refine ⟨?_, ?_, ?_, ?_, ?_⟩
  · intro x e hx he
    rcases hh.acc he with ⟨he, hn⟩ | ⟨rfl, htx⟩
    · rcases hroom x hx with h1 | h1
      · exact hpub (hm.room x e h1 he)
      · exact absurd ⟨hi'.roomHeld hx, h1⟩ hn
    · rcases hroom x hx with h1 | h1
      · exfalso
        obtain ⟨c, tl, hcs, hrt, r1, r2, r3⟩ := hi.inRoom h1
        cases hacc x htx with
        | cursor _ _ h2 h3 h4 => omega
        | header _ _ h2 h3 h4 => omega
        | chunk _ _ h2 h3 => exact h2 (hi.roomHeld h1)
        | block _ _ b h2 h3 => exact hi.roomUsed h1 (hi.blkUsed h2 h3)
        | client _ b h2 h3 _ => exact hi.roomUsed h1 (hi.ownedUsed h2 h3)
      · exact (hnew htx h1).2
  · intro Bk hB x e h1 h2 he
    obtain ⟨q1, q2⟩ := hi'.hdrHeld hB h1 h2
    rcases (hh.writes x e).mp he with ⟨he, hn⟩ | ⟨rfl, he, hat⟩
    · rcases hheads Bk hB with h3 | h3
      · exact hpub (hm.hdrW Bk h3 x e h1 h2 he)
      · exact absurd ⟨q1, h3 x h1 q2⟩ hn
    · rcases hheads Bk hB with h3 | h3
      · exact absurd (hst x he (hi.hdrHeld h3 h1 h2).1 hat) (hi.hdrUsed h3 h1 h2)
      · exact (hnew he.touches (h3 x h1 q2)).2
  · intro Bk hB x e h1 h2 he
    obtain ⟨q1, q2⟩ := hi'.hdrHeld (hi'.headRoot hB).1 h1 (by omega)
    rcases (hh.reads x e).mp he with ⟨he, hn⟩ | ⟨rfl, he, hat⟩
    · rcases hhead Bk hB with h3 | h3
      · exact hpub (hm.hdrR Bk h3 x e h1 h2 he)
      · exact absurd ⟨q1, h3 x h1 q2⟩ hn
    · rcases hhead Bk hB with h3 | h3
      · exfalso
        obtain ⟨h4, h5⟩ := hi.headRoot h3
        cases hacc x he with
        | cursor _ c1 => exact hat c1
        | header _ _ c2 c3 c4 => omega
        | chunk _ _ c2 c3 => exact c2 (hi.hdrHeld h4 h1 (by omega)).1
        | block _ _ b c2 c3 => exact hi.hdrUsed h4 h1 (by omega) (hi.blkUsed c2 c3)
        | client _ b c2 c3 _ => exact hi.hdrUsed h4 h1 (by omega) (hi.ownedUsed c2 c3)
      · exact (hnew he (h3 x h1 q2)).2
  · intro Bk hB x e h1 h2 he
    obtain ⟨q1, q2⟩ := hi'.hdrHeld hB h1 h2
    rcases (hh.atoms x e).mp he with ⟨he, hn⟩ | ⟨rfl, he, hat⟩
    · rcases hheads Bk hB with h3 | h3
      · exact (hm.hdrA Bk h3 x e h1 h2 he).imp_left hpub
      · exact absurd ⟨q1, h3 x h1 q2⟩ hn
    · rcases hheads Bk hB with h3 | h3
      · cases hacc x he with
        | cursor _ _ c2 c3 c4 =>
          have := hi.hdrRoot h3 h1 h2 c2 c3 (by omega)
          exact .inr (by omega)
        | header _ c1 => exact absurd hat c1
        | chunk _ c1 => exact absurd hat c1
        | block _ c1 => exact absurd hat c1
        | client c1 => exact absurd hat c1
      · exact absurd hat (hnew he (h3 x h1 q2)).1
  · intro u b hb x e hx he
    by_cases hut : u = t
    · subst hut
      rcases hh.acc he with ⟨he, hn⟩ | ⟨rfl, htx⟩
      · exact hh.mono (hblk b hb x e hx he hn)
      · exact hh.now
    · rw [hother u hut] at hb
      rcases hh.acc he with ⟨he, hn⟩ | ⟨rfl, htx⟩
      · exact hh.mono (hm.blk u b hb x e hx he)
      · exfalso
        have hu := hi.blkUsed hb hx
        cases hacc x htx with
        | cursor _ _ h2 h3 h4 => have := (hi.used hu).2 h2; omega
        | header _ _ h2 h3 h4 => have := (hi.used hu).2 h2; omega
        | chunk _ _ h2 h3 => exact h2 (hi.used hu).1
        | block _ _ b' h2 h3 => exact hi.blkBlk (Ne.symm hut) hb hx h2 h3
        | client _ b' h2 h3 _ => exact hi.blkOwned hb hx h2 h3

/-- The invariant about accesses is kept by actions that are not resets. -/
theorem HB.MemInv.advance {s0 s s' cs K K' B B' t a r} {h h' : HB} (hm : h.MemInv s K B) (w : h.WF)
    (hi : SInv s0 s cs K B) (hh : h.Step s K t a r s' h') (ha : a.resets = false)
    (hacc : ∀ x, Touches s a x → Access s s' K B t a x)
    (hown : ∀ b ∈ K'.owned, ∀ x, b.Has x → (b ∈ K.owned ∧ ¬ Gives K r x a) ∨ (Gives K r x a ∧ b ∈ B t))
    (hbusy : ∀ u, K.busy u ≠ none → K'.busy u ≠ none ∨ u = t ∧ r ≠ none) (hcore : h'.MemCore s' B') : h'.MemInv s' K' B' := by
  have hep : h'.epoch = h.epoch := by rw [hh.epoch, ha]; rfl
  refine ⟨hcore, ?_, ?_⟩
  · intro b hb x e hx he
    rcases hown b hb x hx with ⟨hb, hg⟩ | ⟨hg, hb⟩
    · rw [(hh.since x).2 hg]
      have hu := hi.ownedUsed hb hx
      rcases hh.acc he with ⟨he, hn⟩ | ⟨rfl, htx⟩
      · rcases hm.own b hb x e hx he with h1 | h1 | ⟨h1, h2⟩
        · exact .inl h1
        · exact .inr (.inl ((hh.pastOld (w.since x)).mpr h1))
        · exact .inr (.inr ⟨(hh.mine x e).mpr (.inl ⟨h1, hn⟩), h2⟩)
      · cases hacc x htx with
        | cursor _ _ h2 h3 h4 => have := (hi.used hu).2 h2; omega
        | header _ _ h2 h3 h4 => have := (hi.used hu).2 h2; omega
        | chunk _ _ h2 h3 => exact absurd (hi.used hu).1 h2
        | block _ _ b' h2 h3 => exact absurd hx (hi.blkOwned h2 h3 hb)
        | client _ b' h2 h3 h4 => exact .inr (.inr ⟨(hh.mine x _).mpr (.inr ⟨rfl, h4⟩), w.since x⟩)
    · rw [(hh.since x).1 hg]
      rcases hh.acc he with ⟨he, hn⟩ | ⟨rfl, htx⟩
      · exact .inr (.inl (hh.pastNew.mpr (.inl (hm.blk t b hb x e hx he))))
      · exact .inl rfl
  · intro x e he
    rw [hep]
    have busy : ∀ {u}, K.busy u ≠ none → h'.view u e → (u = t → r ≠ none → e = h.clock ∨ h.before s t a e) →
        (∃ n, h'.rets n ∧ (e = n ∨ h'.past n e)) ∨ ∃ u, K'.busy u ≠ none ∧ h'.view u e := by
      intro u h1 h2 h3
      rcases hbusy u h1 with h4 | ⟨rfl, h4⟩
      · exact .inr ⟨u, h4, h2⟩
      · exact .inl ⟨h.clock, (hh.rets _).mpr (.inr ⟨rfl, h4⟩), (h3 rfl h4).imp_right hh.pastNew.mpr⟩
    rcases hh.acc he with ⟨he, hn⟩ | ⟨rfl, htx⟩
    · rcases hm.all x e he with h1 | ⟨n, h1, h2⟩ | h1 | h1 | ⟨u, h1, h2⟩
      · exact .inl ((hh.mine x e).mpr (.inl ⟨h1, hn⟩))
      · exact .inr (.inl ⟨n, (hh.rets n).mpr (.inl h1), h2.imp_right (hh.pastOld (w.rets n h1)).mpr⟩)
      · exact .inr (.inr (.inl h1))
      · exact .inr (.inr (.inr (.inl ((hh.pastOld w.epoch).mpr h1))))
      · rcases busy h1 (hh.mono h2) (fun hut _ => by subst hut; exact .inr (.inl h2)) with h3 | h3
        · exact .inr (.inl h3)
        · exact .inr (.inr (.inr (.inr h3)))
    · have hb : K.busy t ≠ none → h'.mine x h.clock ∨ (∃ n, h'.rets n ∧ (h.clock = n ∨ h'.past n h.clock)) ∨ h.clock = h.epoch ∨
          h'.past h.epoch h.clock ∨ ∃ u, K'.busy u ≠ none ∧ h'.view u h.clock := by
        intro hb
        rcases busy hb hh.now (fun _ _ => .inl rfl) with h3 | h3
        · exact .inr (.inl h3)
        · exact .inr (.inr (.inr (.inr h3)))
      cases hacc x htx with
      | cursor h1 => exact hb h1
      | header h1 => exact hb h1
      | chunk h1 => exact hb h1
      | block h1 => exact hb h1
      | client _ b h2 h3 h4 => exact .inl ((hh.mine x _).mpr (.inr ⟨rfl, h4⟩))

/-! ### Each kind of event -/

theorem HInv.start {s0 : SS} (h0 : SStart s0) (t0 : Nat) : HInv s0 s0 Book.empty (HB.start t0) := by
  refine ⟨.start t0, ⟨fun u hu => absurd rfl hu, ?_, ?_⟩, _, _, h0.inv, ?_⟩
  · intro u _ e he; exact he.elim
  · intro u _ e he; exact (he.elim id id).elim
  · have hn : ∀ x e, ¬ (HB.start t0).Acc x e := by rintro x e (h | h | h) <;> exact h
    exact ⟨⟨fun x e _ h => (hn x e h).elim, fun _ _ x e _ _ h => (hn x e (.inr (.inl h))).elim,
      fun _ _ x e _ _ h => (hn x e (.inl h)).elim, fun _ _ x e _ _ h => (hn x e (.inr (.inr h))).elim,
      fun _ _ _ x e _ h => (hn x e h).elim⟩, fun _ _ x e _ h => (hn x e h).elim, fun x e h => (hn x e h).elim⟩

theorem HInv.sync {s0 s K h} (hv : HInv s0 s K h) (t u : Nat) : HInv s0 s K (h.sync t u) := by
  obtain ⟨w, l, cs, B, hi, hm⟩ := hv
  have pub : ∀ {e}, h.Pub s e → (h.sync t u).Pub s e := by
    rintro e (h1 | h1 | h1 | ⟨v, h1, h2⟩)
    · exact .inl h1
    · exact .inr (.inl h1)
    · exact .inr (.inr (.inl h1))
    · exact .inr (.inr (.inr ⟨v, h1, .inl h2⟩))
  refine ⟨w.sync t u, ⟨fun v hv => .inl (l.busy v hv), fun v hv e he => .inl (l.rd v hv e he), fun v hv e he => .inl (l.wr v hv e he)⟩,
    cs, B, hi, ?_⟩
  exact ⟨⟨fun x e h1 h2 => pub (hm.room x e h1 h2), fun Bk h1 x e h2 h3 h4 => pub (hm.hdrW Bk h1 x e h2 h3 h4),
    fun Bk h1 x e h2 h3 h4 => pub (hm.hdrR Bk h1 x e h2 h3 h4), fun Bk h1 x e h2 h3 h4 => (hm.hdrA Bk h1 x e h2 h3 h4).imp_left pub,
    fun v b h1 x e h2 h3 => .inl (hm.blk v b h1 x e h2 h3)⟩, fun b h1 x e h2 h3 => hm.own b h1 x e h2 h3, fun x e h1 => by
      rcases hm.all x e h1 with h2 | h2 | h2 | h2 | ⟨v, h2, h3⟩
      · exact .inl h2
      · exact .inr (.inl h2)
      · exact .inr (.inr (.inl h2))
      · exact .inr (.inr (.inr (.inl h2)))
      · exact .inr (.inr (.inr (.inr ⟨v, h2, .inl h3⟩)))⟩

theorem HInv.read {s0 s K h} (hv : HInv s0 s K h) {t x b} (ho : b ∈ K.owned) (hx : b.Has x) : HInv s0 s K (h.read t x) := by
  obtain ⟨w, l, cs, B, hi, hm⟩ := hv
  have po : ∀ {n e}, n < h.clock → h.past n e → (h.read t x).past n e := by
    intro n e hn hp
    show (if n = h.clock then h.view t e else h.past n e)
    rwa [if_neg (by omega)]
  have pub : ∀ {e}, h.Pub s e → (h.read t x).Pub s e := by
    rintro e (h1 | h1 | h1 | ⟨v, h1, h2⟩)
    · exact .inl h1
    · exact .inr (.inl (po w.epoch h1))
    · exact .inr (.inr (.inl h1))
    · exact .inr (.inr (.inr ⟨v, h1, .inl h2⟩))
  have hu := hi.ownedUsed ho hx
  have acc : ∀ {y e}, (h.read t x).Acc y e → h.Acc y e ∨ y = x ∧ e = h.clock := by
    rintro y e ((h1 | h1) | h1 | h1)
    · exact .inl (.inl h1)
    · exact .inr h1
    · exact .inl (.inr (.inl h1))
    · exact .inl (.inr (.inr h1))
  refine ⟨w.read t x, ⟨fun v hv => .inl (l.busy v hv), fun v hv e he => .inl (l.rd v hv e he), fun v hv e he => .inl (l.wr v hv e he)⟩,
    cs, B, hi, ⟨?_, ?_, ?_, ?_, ?_⟩, ?_, ?_⟩
  · intro y e h1 h2
    rcases acc h2 with h2 | ⟨rfl, rfl⟩
    · exact pub (hm.room y e h1 h2)
    · exact absurd hu (hi.roomUsed h1)
  · exact fun Bk h1 y e h2 h3 h4 => pub (hm.hdrW Bk h1 y e h2 h3 h4)
  · intro Bk h1 y e h2 h3 h4
    rcases h4 with h4 | ⟨rfl, rfl⟩
    · exact pub (hm.hdrR Bk h1 y e h2 h3 h4)
    · exact absurd hu (hi.hdrUsed (hi.headRoot h1).1 h2 (by omega))
  · exact fun Bk h1 y e h2 h3 h4 => (hm.hdrA Bk h1 y e h2 h3 h4).imp_left pub
  · intro v b' h1 y e h2 h3
    rcases acc h3 with h3 | ⟨rfl, rfl⟩
    · exact .inl (hm.blk v b' h1 y e h2 h3)
    · exact absurd hx (hi.blkOwned h1 h2 ho)
  · intro b' h1 y e h2 h3
    rcases acc h3 with h3 | ⟨rfl, rfl⟩
    · rcases hm.own b' h1 y e h2 h3 with h4 | h4 | ⟨h4, h5⟩
      · exact .inl h4
      · exact .inr (.inl (po (w.since y) h4))
      · exact .inr (.inr ⟨.inl h4, h5⟩)
    · exact .inr (.inr ⟨.inr ⟨rfl, rfl⟩, w.since y⟩)
  · intro y e h3
    rcases acc h3 with h3 | ⟨rfl, rfl⟩
    · rcases hm.all y e h3 with h2 | ⟨n, h2, h4⟩ | h2 | h2 | ⟨v, h2, h3⟩
      · exact .inl (.inl h2)
      · exact .inr (.inl ⟨n, h2, h4.imp_right (po (w.rets n h2))⟩)
      · exact .inr (.inr (.inl h2))
      · exact .inr (.inr (.inr (.inl (po w.epoch h2))))
      · exact .inr (.inr (.inr (.inr ⟨v, h2, .inl h3⟩)))
    · exact .inl (.inr ⟨rfl, rfl⟩)

/-- The invariant of the allocator after a step that was possible. -/
theorem SInv.afterAct {s0 s cs K B} (hi : SInv s0 s cs K B) {a r s' K'} (hl : SLegal K a) (hs : sstep s a = .ok (some (r, s')))
    (ha : SAfter s.w.mem K a r K') : ∃ cs' B', SInv s0 s' cs' K' B' := by
  rcases hi.step hl with ⟨e, _, he⟩ | he | ⟨r', s1, cs', he, _, hK⟩
  · rw [hs] at he; cases he
  · rw [hs] at he; cases he
  · rw [hs] at he
    injection he with he; injection he with he; injection he with he1 he2
    subst he1 he2
    obtain ⟨B', hB'⟩ := hK K' ha
    exact ⟨cs', B', hB'⟩

/-- Somebody who may access a byte of an owned block for writing has seen all accesses to it. -/
theorem HB.MemInv.owns {h : HB} {s K B} (hm : h.MemInv s K B) (w : h.WF) {b} (hb : b ∈ K.owned) {x} (hx : b.Has x) {t}
    (ho : h.Owns t x true) {e} (he : h.Acc x e) : h.view t e := by
  rcases hm.own b hb x e hx he with rfl | h1 | ⟨h1, h2⟩
  · exact ho.1
  · exact w.viewC _ _ _ ho.1 h1
  · exact ho.2 e h2 h1 (.inl rfl)

/-- Somebody who may access a byte of an owned block for reading has seen all writes and atomic accesses to it. -/
theorem HB.MemInv.ownsR {h : HB} {s K B} (hm : h.MemInv s K B) (w : h.WF) {b} (hb : b ∈ K.owned) {x} (hx : b.Has x) {t}
    (ho : h.Owns t x false) {e} (he : h.writes x e ∨ h.atoms x e) : h.view t e := by
  rcases hm.own b hb x e hx (.inr he) with rfl | h1 | ⟨h1, h2⟩
  · exact ho.1
  · exact w.viewC _ _ _ ho.1 h1
  · exact ho.2 e h2 h1 (.inr (he.resolve_right (w.plain x e h1)))

/-- Whoever resets has seen all accesses. -/
theorem HB.MemInv.resetter {h : HB} {s K B} (hm : h.MemInv s K B) (w : h.WF) (hq : ∀ u, K.busy u = none) {t}
    (hd : h.view t h.epoch ∧ (∀ e, h.rets e → h.view t e) ∧ ∀ x e, h.mine x e → h.view t e) {x e} (he : h.Acc x e) : h.view t e := by
  obtain ⟨d1, d2, d3⟩ := hd
  rcases hm.all x e he with h1 | ⟨n, h1, rfl | h2⟩ | rfl | h1 | ⟨u, h1, _⟩
  · exact d3 x e h1
  · exact d2 _ h1
  · exact w.viewC _ _ _ (d2 n h1) h2
  · exact d1
  · exact w.viewC _ _ _ d1 h1
  · exact absurd (hq u) h1

theorem HInv.reset {s0 s K h} (hv : HInv s0 s K h) {t a r s' K' h'} (hl : SLegal K a) (ha : a.resets = true)
    (hd : h.view t h.epoch ∧ (∀ e, h.rets e → h.view t e) ∧ ∀ x e, h.mine x e → h.view t e)
    (hs : sstep s a = .ok (some (r, s'))) (hK : SAfter s.w.mem K a r K') (hh : h.Step s K t a r s' h')
    (hsame : s'.readers = s.readers ∧ s'.writer = s.writer ∧ s'.pcs = s.pcs) (hq : ∀ u, K.busy u = none)
    (hK' : K'.owned = [] ∧ ∀ u, K'.busy u = none) : HInv s0 s' K' h' := by
  obtain ⟨w, l, cs, B, hi, hm⟩ := hv
  obtain ⟨cs', B', hi'⟩ := hi.afterAct hl hs hK
  have hng : ∀ u ch, a ≠ .go u ch := by rintro u ch rfl; cases ha
  have g : GoLock s s' t a := .of_same hsame.1 hsame.2.1 hng
  have hep : h'.epoch = h.clock := by rw [hh.epoch, ha]; rfl
  have key : ∀ {x e}, h'.Acc x e → e = h'.epoch ∨ h'.past h'.epoch e := by
    intro x e he
    rw [hep]
    rcases hh.acc he with ⟨he, _⟩ | ⟨h1, _⟩
    · exact .inr (hh.pastNew.mpr (.inl (hm.resetter w hq hd he)))
    · exact .inl h1
  have pub : ∀ {x e}, h'.Acc x e → h'.Pub s' e := fun he => (key he).imp_right .inl
  refine ⟨hh.wf w, l.step hh g (fun u hu => absurd (hK'.2 u) hu) (fun _ => hK'.2), cs', B', hi', ?_⟩
  refine ⟨⟨fun x e _ he => pub he, fun _ _ x e _ _ he => pub (.inr (.inl he)), fun _ _ x e _ _ he => pub (.inl he),
    fun _ _ x e _ _ he => .inl (pub (.inr (.inr he))), ?_⟩, ?_, ?_⟩
  · intro u b hb
    rw [(hi'.busy_none (hK'.2 u)).2] at hb; cases hb
  · intro b hb; rw [hK'.1] at hb; cases hb
  · intro x e he
    rcases key he with h1 | h1
    · exact .inr (.inr (.inl h1))
    · exact .inr (.inr (.inr (.inl h1)))

theorem HInv.call {s0 s K h} (hv : HInv s0 s K h) {t c r s' K' h'} (hl : SLegal K (.call t c)) (hd : h.Duty K t (.call t c))
    (hs : sstep s (.call t c) = .ok (some (r, s'))) (hK : SAfter s.w.mem K (.call t c) r K')
    (hh : h.Step s K t (.call t c) r s' h') : HInv s0 s' K' h' := by
  obtain ⟨w, l, cs, B, hi, hm⟩ := hv
  obtain ⟨cs', B', hi'⟩ := hi.afterAct hl hs hK
  have hs' : s' = s.setPc t (.rd c) := by
    simp only [sstep] at hs
    split at hs
    · injection hs with hs; injection hs with hs; injection hs with _ hs; exact hs.symm
    · cases hs
  have g : GoLock s s' t (.call t c) := .of_same (by rw [hs']; rfl) (by rw [hs']; rfl) (fun _ _ => by simp)
  have hbz : ∀ u, u ≠ t → K'.busy u = K.busy u := by
    intro u hu
    cases hK <;> exact put_ne _ _ hu
  have hother : ∀ u, u ≠ t → B' u = B u := by
    intro u hu
    rw [hi'.has u, hi.has u, hbz u hu, hs', SS.setPc_ne _ _ hu]
  have hown : ∀ b ∈ K'.owned, b ∈ K.owned := by
    intro b hb
    cases hK with
    | allocate => exact hb
    | resize => exact List.mem_of_mem_erase hb
    | deallocate => exact List.mem_of_mem_erase hb
  have hblk : ∀ b ∈ B' t, b ∈ K.owned ∧ ∀ x, b.Has x → h.Owns t x true := by
    intro b hb
    rw [hi'.has t, hs', SS.setPc_same] at hb
    cases hK with
    | allocate =>
      dsimp only at hb; rw [put_same] at hb; cases hb
    | resize ho hf =>
      dsimp only at hb; rw [put_same] at hb
      simp only [Pc.has, List.mem_singleton] at hb
      subst hb
      exact ⟨ho, hd.2 b ho hf⟩
    | deallocate ho hf =>
      dsimp only at hb; rw [put_same] at hb
      simp only [Pc.has, List.mem_singleton] at hb
      subst hb
      exact ⟨ho, hd.2 b ho hf⟩
  have hde : h.view t h.epoch := by
    cases c with
    | allocate => exact hd
    | resize => exact hd.1
    | deallocate => exact hd.1
  have hq : K.busy t = none := by cases hl <;> assumption
  have hrt : r = none := by cases hK <;> rfl
  refine ⟨hh.wf w, l.step hh g ?_ (by simp [Act.resets]), cs', B', hi', ?_⟩
  · intro u hu
    by_cases hut : u = t
    · exact .inr ⟨hut, hde⟩
    · rw [hbz u hut] at hu; exact .inl hu
  · refine hm.advance w hi hh rfl (fun x hx => absurd hx touches_call) ?_ ?_
      (hm.toMemCore.advance w hi hi' hh g rfl ?_ ?_ ?_ (fun x hx => absurd hx touches_call)
        (fun x hx => absurd hx.touches touches_call) hother ?_)
    rotate_left 2
    · intro x hx
      left
      rw [hs'] at hx
      exact hx
    · intro Bk hB; rw [hs'] at hB; exact .inl hB
    · intro Bk hB; rw [hs'] at hB; exact .inl hB
    · intro b hb x e hx he _
      obtain ⟨h1, h2⟩ := hblk b hb
      exact hm.owns w h1 hx (h2 x hx) he
    · intro b hb x hx
      exact .inl ⟨hown b hb, fun hg => hg⟩
    · intro u hu
      left
      rwa [hbz u (by rintro rfl; exact hu hq)]

theorem HInv.write {s0 s K h} (hv : HInv s0 s K h) {t x v r s' K' h'} (hl : SLegal K (.write x v))
    (hs : sstep s (.write x v) = .ok (some (r, s'))) (hK : SAfter s.w.mem K (.write x v) r K')
    (hh : h.Step s K t (.write x v) r s' h') : HInv s0 s' K' h' := by
  obtain ⟨w, l, cs, B, hi, hm⟩ := hv
  obtain ⟨cs', B', hi'⟩ := hi.afterAct hl hs hK
  have hs' : s' = { s with w := { s.w with mem := setBytes s.w.mem x 1 (fun _ => v) } } := by
    injection hs with hs; injection hs with hs; injection hs with _ hs; exact hs.symm
  obtain ⟨b, ho, hx⟩ : ∃ b, b ∈ K.owned ∧ b.Has x := by cases hl with | write ho hx => exact ⟨_, ho, hx⟩
  have hKK : K' = K := by cases hK; rfl
  subst hKK
  have g : GoLock s s' t (.write x v) := .of_same (by rw [hs']) (by rw [hs']) (fun _ _ => by simp)
  have hsame : ∀ u, B' u = B u := by
    intro u
    rw [hi'.has u, hi.has u, hs']
  have hu := hi.ownedUsed ho hx
  have sum : GoSum s s' False (B t) (B' t) := .of_used hi (.inr hu) (by rw [hs']) (by rw [hs']) (by
    rw [hsame t]; exact fun b hb x hx => ⟨b, hb, hx⟩)
  refine ⟨hh.wf w, l.step hh g (fun u hu => .inl hu) (by simp [Act.resets]), cs', B', hi', ?_⟩
  have hacc : ∀ y, Touches s (.write x v) y → Access s s' K' B t (.write x v) y := by
    intro y hy
    have := touches_write hy
    subst this
    exact .client (fun h => h) b ho hx ⟨v, rfl⟩
  refine hm.advance w hi hh rfl hacc ?_ (fun u hu => .inl hu)
    (hm.toMemCore.advance w hi hi' hh g rfl sum.room sum.heads sum.head hacc ?_ (fun u _ => hsame u) ?_)
  rotate_left
  · intro y hy _ _
    have := touches_write hy.touches
    subst this
    exact hu
  · intro b hb y e hy he _
    rw [hsame t] at hb
    exact hm.blk t b hb y e hy he
  · intro b hb y hy
    exact .inl ⟨hb, fun hg => hg⟩

theorem HInv.go {s0 s K h} (hv : HInv s0 s K h) {t ch r s' K' h'} (hs : goStep s t ch = .ok (some (r, s')))
    (hK : SAfter s.w.mem K (.go t ch) r K') (hh : h.Step s K t (.go t ch) r s' h') : HInv s0 s' K' h' := by
  obtain ⟨w, l, cs, B, hi, hm⟩ := hv
  obtain ⟨cs', B', hi'⟩ := hi.afterAct (.go (t := t) (ch := ch)) hs hK
  have g := hi.goLock hs
  have hbz : ∀ u, u ≠ t → K'.busy u = K.busy u := by
    intro u hu
    cases hK with
    | inside => rfl
    | ret => exact put_ne _ _ hu
  have hother : ∀ u, u ≠ t → B' u = B u := by
    intro u hu
    rw [hi'.has u, hi.has u, hbz u hu, hi.goOther hs hu]
  have hbt : (s.pcs t).holdsR = true ∨ (s.pcs t).holdsW = true → K.busy t ≠ none := by
    intro h1 hn
    rw [(hi.busy_none hn).1] at h1
    rcases h1 with h1 | h1 <;> cases h1
  have sum : GoSum s s' ((s.pcs t).holdsR = true ∨ (s.pcs t).holdsW = true) (B t) (B' t) := by
    cases hK with
    | inside =>
      rw [hi'.has t]
      exact hi.goSum hs rfl
    | ret hb =>
      obtain ⟨h1, h2, _⟩ := hi.goRet hs
      refine .of_world h1 h2 ?_
      rw [(hi'.busy_none (put_same _ _ _)).2]
      intro b hb; cases hb
  refine ⟨hh.wf w, l.step hh g ?_ (by simp [Act.resets]), cs', B', hi', ?_⟩
  · intro u hu
    left
    cases hK with
    | inside => exact hu
    | ret hb =>
      intro hn
      apply hu
      by_cases hut : u = t
      · subst hut; exact put_same _ _ _
      · exact (put_ne _ _ hut).trans hn
  have hacc : ∀ x, Touches s (.go t ch) x → Access s s' K B t (.go t ch) x := by
    intro x hx
    obtain ⟨h1, h2⟩ := hi.access hx
    have hb := hbt h1
    rcases h2 with ⟨h2, h3, h4, h5⟩ | ⟨h2, h3, h4, h5⟩ | ⟨h2, h3, j, h4⟩ | ⟨h2, b, h3, h4⟩
    · exact .cursor hb h2 h3 h4 h5
    · exact .header hb h2 h3 h4 h5
    · refine .chunk hb h2 h3 ?_
      rcases g.keep t ((hi.lock.wr t).mpr (by rw [h4]; rfl)) with h5 | ⟨_, h5⟩
      · exact h5
      · have : (match s.pcs t with | .ret true _ => True | _ => False) := h5
        rw [h4] at this; exact this.elim
    · exact .block hb h2 b h3 h4
  refine hm.advance w hi hh rfl hacc ?_ ?_ (hm.toMemCore.advance w hi hi' hh g rfl sum.room sum.heads sum.head hacc ?_ hother ?_)
  rotate_left 2
  · intro x hx hh1 hat
    rcases hi.stores hx hh1 with ⟨h2, _⟩ | ⟨_, b, h3, h4⟩
    · exact absurd h2 hat
    · exact hi.blkUsed h3 h4
  · intro b hb x e hx he hn
    rcases sum.blocks b hb x hx with ⟨b0, h1, h2⟩ | ⟨h1, h2⟩ | h1
    · exact hm.blk t b0 h1 x e h2 he
    · exact l.pub w hi h1 (hm.room x e h2 he)
    · exact absurd ⟨(hi'.used (hi'.blkUsed hb hx)).1, h1⟩ hn
  · intro b hb x hx
    cases hK with
    | inside => exact .inl ⟨hb, fun ⟨_, _, _, _, h, _⟩ => by cases h⟩
    | @ret _ _ c ob v hbs =>
      obtain ⟨_, _, wr, hpc⟩ := hi.goRet hs
      have hg : ∀ b, b ∈ gets c ob v ↔ b ∈ B t := by
        intro b
        rw [hi.has t, hbs, hpc]
        cases c <;> cases ob <;> cases v <;> exact Iff.rfl
      rcases List.mem_append.mp hb with h1 | h1
      · exact .inr ⟨⟨c, ob, v, hbs, rfl, b, h1, hx⟩, (hg b).mp h1⟩
      · refine .inl ⟨h1, ?_⟩
        rintro ⟨c', ob', v', e1, e2, b', e3, e4⟩
        rw [hbs] at e1
        injection e1 with e1
        injection e1 with e1 e1'
        injection e2 with e2
        subst e1 e1' e2
        exact hi.blkOwned ((hg b').mp e3) e4 h1 hx
  · intro u hu
    cases hK with
    | inside => exact .inl hu
    | ret hb =>
      by_cases hut : u = t
      · exact .inr ⟨hut, by simp⟩
      · left
        rw [hbz u hut]; exact hu

theorem HInv.act {s0 s K h} (hv : HInv s0 s K h) {t a r s' K' h'} (hl : SLegal K a) (hb : a.By t) (hd : h.Duty K t a)
    (hs : sstep s a = .ok (some (r, s'))) (hK : SAfter s.w.mem K a r K') (hh : h.Step s K t a r s' h') : HInv s0 s' K' h' := by
  have hrs : ∀ {k : Bool}, resetStep s k = .ok (some (r, s')) → s'.readers = s.readers ∧ s'.writer = s.writer ∧ s'.pcs = s.pcs := by
    intro k hk
    unfold resetStep at hk
    cases har : arenaReset s.root k s.w with
    | error e => rw [ebind_err har] at hk; cases hk
    | ok q =>
      rw [ebind_ok har] at hk
      injection hk with hk; injection hk with hk; injection hk with _ hk
      subst hk
      exact ⟨rfl, rfl, rfl⟩
  cases a with
  | call u c =>
    have : u = t := hb
    subst this
    exact hv.call hl hd hs hK hh
  | go u ch =>
    have : u = t := hb
    subst this
    exact hv.go hs hK hh
  | write x v => exact hv.write hl hs hK hh
  | reset =>
    have hq : ∀ u, K.busy u = none := by cases hl with | reset h => exact h
    exact hv.reset hl rfl hd hs hK hh (hrs hs) hq (by cases hK; exact ⟨rfl, hq⟩)
  | resetUnchecked =>
    have hq : ∀ u, K.busy u = none := by cases hl with | resetUnchecked h => exact h
    refine hv.reset hl rfl hd hs hK hh ?_ hq (by cases hK; exact ⟨rfl, hq⟩)
    simp only [sstep] at hs
    split at hs
    · exact hrs hs
    · cases hs
  | resetFinal =>
    have hq : ∀ u, K.busy u = none := by cases hl with | resetFinal h => exact h
    exact hv.reset hl rfl hd hs hK hh (hrs hs) hq (by cases hK; exact ⟨rfl, hq⟩)

theorem HRun.inv {s0 t0 s K h} (h0 : SStart s0) (hr : HRun s0 t0 s K h) : HInv s0 s K h := by
  induction hr with
  | start => exact .start h0 t0
  | act _ hl hb hd hs ha hh ih => exact ih.act hl hb hd hs ha hh
  | read _ ho hx _ ih => exact ih.read ho hx
  | sync _ t u ih => exact ih.sync t u

end Blink
