import Verif.Proofs.ProxyHBBack
/-
  All histories keep the invariant behind the absence of data races.
-/
namespace Blink

section
variable {p0 ps ps' : PS} {K K' : PBook} {KS : Book} {cs pend : Nat → List Chunk} {h h' : HB} {t : Nat}

/-- Whoever executes code of the shared allocator is inside a call. -/
theorem PInv.isInside (hi : PInv p0 ps K KS cs pend) {ch : Choice} {x : Nat} (hT : Touches ps.s (.go t ch) x) : K.Inside t := by
  obtain ⟨scs, B, sinv⟩ := hi.reach.inv
  have hb : KS.busy t ≠ none := by
    intro hn
    have h1 := (sinv.access hT).1
    rw [(sinv.busy_none hn).1] at h1
    rcases h1 with h1 | h1 <;> cases h1
  by_cases hp : K.pbusy t = none
  · left; rw [hi.busyD hp]; exact hb
  · exact .inr hp

/-- A step inside the shared allocator. -/
theorem PHInv.inside (hi : PHInv p0 ps K h KS cs pend) {ch : Choice} {s' : SS} (hs : sstep ps.s (.go t ch) = .ok (some (none, s')))
    (hh : h.Step ps.s K.direct t (.go t ch) none s' h') : PHOk p0 { ps with s := s' } K h' := by
  have inv' := hi.inv.goInside hs
  obtain ⟨inv, core, mem⟩ := hi
  obtain ⟨scs, B, sinv⟩ := inv.reach.inv
  obtain ⟨scs', B', sinv'⟩ := inv'.reach.inv
  have hg : ∀ x, ¬ Gives K.direct none x (.go t ch) := by rintro x ⟨_, _, _, _, h, _⟩; cases h
  refine ⟨KS, cs, pend, inv', core.go sinv sinv' hs hh (fun _ _ => rfl) (.inl ⟨rfl, rfl⟩), ?_⟩
  refine mem.advance core.wf (hh.ev rfl) (fun _ _ _ h => h) (fun _ _ _ h => h) ?_ (fun _ x _ _ => hg x) ?_ ?_
    (fun _ hT => .inr (.inl (inv.isInside hT))) (fun _ h => .inl h) (fun _ h => h)
  · intro j x _ hx hT
    obtain ⟨o, ho, hox⟩ := inv.regOwned hx
    exact absurd hox (sinv.goTouch hT ho)
  · intro x e hx he _
    rcases mem.prox t x e hx he with h1 | ⟨b, h1, h2, h3, h4⟩
    · exact .inl h1
    · exact .inr ⟨b, h1, h2, h3, h4, hg x⟩
  · intro b x hb hx
    refine .inr ⟨hg x, ⟨b, hb, hx⟩, fun hT => ?_⟩
    obtain ⟨o, ho, hox⟩ := inv.hasOwned hb hx
    exact absurd hox (sinv.goTouch hT ho)

/-- A direct call returns. -/
theorem PHInv.ret (hi : PHInv p0 ps K h KS cs pend) {ch : Choice} {v : Resp} {s' : SS} (hs : sstep ps.s (.go t ch) = .ok (some (some v, s')))
    (hstep : pstep ps (.shared (.go t ch)) = .ok (some (some v, { ps with s := s' })))
    (hpc : (ps.px t).map Proxy.pc = none ∨ (ps.px t).map Proxy.pc = some .idle) (hpb : K.pbusy t = none)
    (ha : PAfter ps.s.w.mem K (.shared (.go t ch)) (some v) K')
    (hh : h.Step ps.s K.direct t (.go t ch) (some v) s' h') : PHOk p0 { ps with s := s' } K' h' := by
  obtain ⟨KS', cs', pend', inv', eff, hcs, hk⟩ := hi.inv.after .go hstep ha
  obtain ⟨inv, core, mem⟩ := hi
  obtain ⟨scs, B, sinv⟩ := inv.reach.inv
  obtain ⟨scs', B', sinv'⟩ := inv'.reach.inv
  have hput : KPut K KS cs pend t KS' pend' := by
    rcases hk with ⟨j, hj, hk⟩ | ⟨_, _, _, hn⟩
    · injection hj with hj; subst hj; exact hk
    · exact absurd hs (hn t ch v s' rfl)
  have hreg : ∀ {j x}, Reg cs' pend' j x → Reg cs pend j x := by
    intro j x hx
    rcases reg_sub hcs hk hx with h1 | ⟨q, h1, h2, _⟩
    · exact h1
    · exfalso
      apply h2
      by_cases hj : j = t
      · subst hj
        rw [PS.chunksAfter_ret hs] at h1
        rcases hpc with hpc | hpc <;> rw [hpc] at h1 <;> split at h1 <;> first | exact h1 | (rename_i hq; cases hq)
      · rw [PS.chunksAfter_ne hj] at h1; exact h1
  cases ha with
  | back hb => rw [hpb] at hb; cases hb
  | @direct _ _ D hsa hr =>
    cases hsa with
    | @ret _ _ c ob _ hb =>
      have hbS : KS.busy t = some (c, ob) := by rw [← inv.busyD hpb]; exact hb
      have hbn : KS'.busy t = none := by rw [← inv'.busyD (t := t) hpb]; exact put_same _ _ _
      obtain ⟨_, _, wr, hret⟩ := sinv.goRet hs
      have hB : B t = gets c ob v := by rw [sinv.has t, hret, hbS, Pc.has_ret]
      have hg : ∀ x, Gives K.direct (some v) x (.go t ch) ↔ ∃ b ∈ gets c ob v, b.Has x := by
        intro x
        constructor
        · rintro ⟨c', ob', v', h1, h2, h3⟩
          rw [hb] at h1
          injection h1 with h1; injection h1 with h1 h1'
          injection h2 with h2
          subst h1 h1' h2
          exact h3
        · exact fun h => ⟨c, ob, v, hb, rfl, h⟩
      have hnew : ∀ x, Gives K.direct (some v) x (.go t ch) → ∀ o ∈ KS.owned, ¬ o.Has x := by
        intro x hx o ho
        obtain ⟨b, hbm, hbx⟩ := (hg x).mp hx
        rw [← hB] at hbm
        exact sinv.blkOwned hbm hbx ho
      have hfree : ∀ j x, Reg cs pend j x → ¬ Gives K.direct (some v) x (.go t ch) := by
        intro j x hx hgx
        obtain ⟨o, ho, hox⟩ := inv.regOwned hx
        exact hnew x hgx o ho hox
      refine ⟨KS', cs', pend', inv', core.go sinv sinv' hs hh hput.busy (.inr ⟨by simp, hbn⟩), ?_⟩
      refine mem.advance core.wf (hh.ev rfl) (fun _ _ _ h => hreg h) (fun _ _ _ h => h) ?_ (fun j x _ hx => hfree j x (hreg hx)) ?_ ?_
        (fun _ _ => .inr (.inr (by simp))) ?_ (fun _ h => h)
      · intro j x _ hx hT
        obtain ⟨o, ho, hox⟩ := inv.regOwned (hreg hx)
        exact absurd hox (sinv.goTouch hT ho)
      · intro x e hx he _
        rcases mem.prox t x e (hreg hx) he with h1 | ⟨b, h1, h2, h3, h4⟩
        · exact .inl h1
        · exact .inr ⟨b, h1, h2, h3, h4, hfree t x (hreg hx)⟩
      · intro b x hb hx
        by_cases hgx : Gives K.direct (some v) x (.go t ch)
        · left
          refine ⟨hgx, fun e he _ => ?_⟩
          obtain ⟨b', hb', hbx'⟩ := (hg x).mp hgx
          rw [← hB, sinv.has t] at hb'
          exact core.mem.blk t b' hb' x e hbx' he
        · right
          have hb0 : K.Has b := by
            rcases hb with hb | hb
            · rcases List.mem_append.mp hb with hb | hb
              · exact absurd ((hg x).mpr ⟨b, hb, hx⟩) hgx
              · exact .inl hb
            · exact .inr hb
          refine ⟨hgx, ⟨b, hb0, hx⟩, fun hT => ?_⟩
          obtain ⟨o, ho, hox⟩ := inv.hasOwned hb0 hx
          exact absurd hox (sinv.goTouch hT ho)
      · intro u hu
        by_cases hut : u = t
        · exact .inr ⟨hut, by simp⟩
        · left
          rcases hu with hu | hu
          · left
            show put K.direct.busy t none u ≠ none
            rw [put_ne _ _ hut]; exact hu
          · exact .inr hu

/-- A direct call begins. -/
theorem PHInv.call (hi : PHInv p0 ps K h KS cs pend) {c : Call} {r : Option Resp} (hl : PLegal K (.shared (.call t c))) (hd : h.Duty K.direct t (.call t c))
    (hs : pstep ps (.shared (.call t c)) = .ok (some (r, ps'))) (ha : PAfter ps.s.w.mem K (.shared (.call t c)) r K')
    (hh : h.Step ps.s K.direct t (.call t c) r ps'.s h') : PHOk p0 ps' K' h' := by
  obtain ⟨KS', cs', pend', inv', eff, hcs, hk⟩ := hi.inv.after hl hs ha
  obtain ⟨inv, core, mem⟩ := hi
  obtain ⟨scs, B, sinv⟩ := inv.reach.inv
  have hreg : ∀ {j x}, Reg cs' pend' j x → Reg cs pend j x := fun hx => reg_own hcs hk (by simp) hx
  have hput : ∀ u, u ≠ t → KS'.busy u = KS.busy u := by
    rcases hk with ⟨j, hj, hk⟩ | ⟨hk, _⟩
    · injection hj with hj; subst hj; exact hk.busy
    · exact fun u _ => hk u
  have hpb : K.pbusy t = none ∧ K.direct.busy t = none := by
    cases hl with
    | call h hp => exact ⟨hp, by cases h <;> assumption⟩
    | sreset ha _ _ => rcases ha with h | h | h <;> cases h
  have hps : ps'.s = ps.s.setPc t (.rd c) := by
    simp only [pstep, sstep] at hs
    split at hs
    · injection hs with hs; injection hs with hs; injection hs with _ hs
      subst hs; rfl
    · cases hs
  have hde : h.view t h.epoch := by
    cases c with
    | allocate l => exact hd
    | resize p old new => exact hd.1
    | deallocate p n => exact hd.1
  -- the book
  have book : (∀ b ∈ K'.direct.owned, b ∈ K.direct.owned) ∧ K'.led = K.led ∧ K'.pbusy = K.pbusy ∧ K'.live = K.live ∧
      (∀ u, u ≠ t → K'.direct.busy u = K.direct.busy u) ∧
      ∀ b ∈ (Pc.rd c).has (K'.direct.busy t), b ∈ K.direct.owned ∧ ∀ x, b.Has x → h.Owns t x true := by
    cases ha with
    | direct hsa _ =>
      cases hsa with
      | allocate =>
        refine ⟨fun _ h => h, rfl, rfl, rfl, fun u hu => put_ne _ _ hu, ?_⟩
        intro b hb
        simp only [put_same] at hb
        cases hb
      | @resize _ b0 p old new ho hf =>
        refine ⟨fun _ h => List.mem_of_mem_erase h, rfl, rfl, rfl, fun u hu => put_ne _ _ hu, ?_⟩
        intro b hb
        simp only [put_same] at hb
        have : b = b0 := by simpa [Pc.has] using hb
        subst this
        exact ⟨ho, hd.2 b ho hf⟩
      | @deallocate _ b0 p n ho hf =>
        refine ⟨fun _ h => List.mem_of_mem_erase h, rfl, rfl, rfl, fun u hu => put_ne _ _ hu, ?_⟩
        intro b hb
        simp only [put_same] at hb
        have : b = b0 := by simpa [Pc.has] using hb
        subst this
        exact ⟨ho, hd.2 b ho hf⟩
  obtain ⟨b1, b2, b3, b4, b5, b6⟩ := book
  have hT : ∀ x, ¬ Touches ps.s (.call t c) x := fun x => touches_call
  obtain ⟨scs', B', sinv'⟩ := inv'.reach.inv
  refine ⟨KS', cs', pend', inv', ?_, ?_⟩
  · rw [hps] at sinv' hh ⊢
    refine core.call sinv sinv' hh hput hde ?_
    intro b hb x e hx he
    rw [← inv'.busyD (by rw [b3]; exact hpb.1)] at hb
    obtain ⟨h1, h2⟩ := b6 b hb
    exact mem.owns core.wf (.inl h1) hx (h2 x hx) he
  · refine mem.advance core.wf (hh.ev rfl) (fun _ _ _ h => hreg h) (fun _ _ _ h => by rw [b2]; exact h) (fun _ x _ _ h => absurd h (hT x))
      (fun _ x _ _ h => h) ?_ ?_ (fun x h => absurd h (hT x)) ?_ (fun _ h => by rw [b4] at h; exact h)
    · intro x e hx he _
      rcases mem.prox t x e (hreg hx) he with h1 | ⟨b, h1, h2, h3, h4⟩
      · exact .inl h1
      · exact .inr ⟨b, by rw [b2]; exact h1, h2, h3, h4, fun h => h⟩
    · intro b x hb hx
      refine .inr ⟨fun h => h, ⟨b, ?_, hx⟩, fun h => absurd h (hT x)⟩
      rcases hb with hb | hb
      · exact .inl (b1 b hb)
      · rw [b2] at hb; exact .inr hb
    · intro u hu
      left
      have hut : u ≠ t := by
        rintro rfl
        rcases hu with hu | hu
        · exact hu hpb.2
        · exact hu hpb.1
      unfold PBook.Inside at hu ⊢
      rw [b3, b5 u hut]; exact hu

/-- Somebody stores a byte into a block they hold. -/
theorem PHInv.write (hi : PHInv p0 ps K h KS cs pend) {y : Nat} {v : Byte} {r : Option Resp} (hl : PLegal K (.shared (.write y v)))
    (hs : pstep ps (.shared (.write y v)) = .ok (some (r, ps'))) (ha : PAfter ps.s.w.mem K (.shared (.write y v)) r K')
    (hh : h.Step ps.s K.direct t (.write y v) r ps'.s h') : PHOk p0 ps' K' h' := by
  obtain ⟨KS', cs', pend', inv', eff, hcs, hk⟩ := hi.inv.after hl hs ha
  obtain ⟨inv, core, mem⟩ := hi
  obtain ⟨scs, B, sinv⟩ := inv.reach.inv
  obtain ⟨scs', B', sinv'⟩ := inv'.reach.inv
  have hreg : ∀ {j x}, Reg cs' pend' j x → Reg cs pend j x := fun hx => reg_own hcs hk (by simp) hx
  have hput : ∀ u, KS'.busy u = KS.busy u := by
    rcases hk with ⟨j, hj, _⟩ | ⟨hk, _⟩
    · cases hj
    · exact hk
  have hK : K' = K := by
    cases ha with
    | direct hsa _ => cases hsa; rfl
  subst hK
  have hps : ps'.s = { ps.s with w := { ps.s.w with mem := setBytes ps.s.w.mem y 1 (fun _ => v) } } := by
    injection hs with hs; injection hs with hs; injection hs with _ hs
    subst hs; rfl
  obtain ⟨b, hb, hy⟩ : ∃ b, K'.Has b ∧ b.Has y := by
    cases hl with
    | write h => cases h with | write ho hx => exact ⟨_, .inl ho, hx⟩
    | pwrite hb hx => exact ⟨_, .inr ⟨_, hb⟩, hx⟩
    | sreset ha _ _ => rcases ha with h | h | h <;> cases h
  have hT : ∀ x, Touches ps.s (.write y v) x → x = y := fun x => touches_write
  have hm : h'.mine y h.clock := (hh.mine y _).mpr (.inr ⟨rfl, v, rfl⟩)
  obtain ⟨o, ho, hoy⟩ := inv.hasOwned hb hy
  refine ⟨KS', cs', pend', inv', core.write sinv sinv' hps ho hoy hh hput, ?_⟩
  refine mem.advance core.wf (hh.ev rfl) (fun _ _ _ h => hreg h) (fun _ _ _ h => h) ?_ (fun _ _ _ _ h => h) ?_ ?_ ?_ (fun _ h => .inl h) (fun _ h => h)
  · intro j x _ hx hx'
    have := hT x hx'
    subst this
    refine ⟨hm, b, ?_, hy⟩
    rcases hb with hb | ⟨i, hb⟩
    · exact (inv.sepD hb hy (hreg hx)).elim
    · by_cases hij : j = i
      · subst hij; exact hb
      · exact (inv.sep hij (inv.led_inCs (.inl hb) hy) (hreg hx)).elim
  · intro x e hx he _
    rcases mem.prox t x e (hreg hx) he with h1 | ⟨b, h1, h2, h3, h4⟩
    · exact .inl h1
    · exact .inr ⟨b, h1, h2, h3, h4, fun h => h⟩
  · intro b x hb hx
    exact .inr ⟨fun h => h, ⟨b, hb, hx⟩, fun hx' => by rw [hT x hx']; exact hm⟩
  · intro x hx'
    exact .inl (by rw [hT x hx']; exact hm)

theorem resetStep_lock {s s' : SS} {k r} (h : resetStep s k = .ok (some (r, s'))) : s'.readers = s.readers ∧ s'.writer = s.writer := by
  obtain ⟨⟨root, w⟩, _, h2⟩ := ebind_inv h
  injection h2 with h2; injection h2 with h2; injection h2 with _ h2
  subst h2
  exact ⟨rfl, rfl⟩

/-- The shared allocator is reset. -/
theorem PHInv.reset (hi : PHInv p0 ps K h KS cs pend) {a : Act} {r : Option Resp} (hr : a.isReset) (hl : PLegal K (.shared a)) (hd : h.Duty K.direct t a)
    (hs : pstep ps (.shared a) = .ok (some (r, ps'))) (ha : PAfter ps.s.w.mem K (.shared a) r K')
    (hh : h.Step ps.s K.direct t a r ps'.s h') : PHOk p0 ps' K' h' := by
  obtain ⟨KS', cs', pend', inv', eff, hcs, hk⟩ := hi.inv.after hl hs ha
  obtain ⟨inv, core, mem⟩ := hi
  obtain ⟨scs', B', sinv'⟩ := inv'.reach.inv
  have hres : a.resets = true := by rcases hr with rfl | rfl | rfl <;> rfl
  have hduty : h.view t h.epoch ∧ (∀ e, h.rets e → h.view t e) ∧ ∀ x e, h.mine x e → h.view t e := by
    rcases hr with rfl | rfl | rfl <;> exact hd
  have hq : (∀ i, K.live i = false) ∧ ∀ u, K.direct.busy u = none := by
    cases hl with
    | call _ _ => rcases hr with h | h | h <;> cases h
    | go => rcases hr with h | h | h <;> cases h
    | write _ => rcases hr with h | h | h <;> cases h
    | pwrite _ _ => rcases hr with h | h | h <;> cases h
    | sreset _ h hn =>
      refine ⟨hn, ?_⟩
      rcases hr with rfl | rfl | rfl <;> cases h <;> assumption
  have dead : ∀ i, K.led i = [] ∧ K.pbusy i = none := by
    intro i
    have := inv.px i
    rw [hq.1 i] at this
    exact ⟨this.dead.2.1, this.dead.2.2.1⟩
  have book : K'.direct.owned = [] ∧ K'.direct.busy = K.direct.busy ∧ K'.led = K.led ∧ K'.pbusy = K.pbusy ∧ K'.live = K.live := by
    cases ha with
    | direct hsa _ => cases hsa <;> first | exact ⟨rfl, rfl, rfl, rfl, rfl⟩ | (rcases hr with h | h | h <;> cases h; done)
    | back _ => rcases hr with h | h | h <;> cases h
  obtain ⟨b1, b2, b3, b4, b5⟩ := book
  have dead' : ∀ i, cs' i = [] ∧ pend' i = [] := by
    intro i
    have := inv'.px i
    rw [b5, hq.1 i] at this
    exact this.dead.2.2.2.2
  have hin : ∀ u, ¬ K.Inside u := by
    rintro u (hu | hu)
    · exact hu (hq.2 u)
    · exact hu (dead u).2
  have hall : ∀ x e, h.Acc x e → h.view t e := fun x e he => mem.resetter core.wf hin hduty he
  have hlk : ps'.s.readers = ps.s.readers ∧ ps'.s.writer = ps.s.writer := by
    have key : ∀ {s'}, sstep ps.s a = .ok (some (r, s')) → s'.readers = ps.s.readers ∧ s'.writer = ps.s.writer := by
      intro s' h1
      rcases hr with rfl | rfl | rfl
      · exact resetStep_lock h1
      · simp only [sstep] at h1
        split at h1
        · exact resetStep_lock h1
        · cases h1
      · exact resetStep_lock h1
    have : pstep ps (.shared a) = (do
        match ← sstep ps.s a with
        | none => pure none
        | some (r, s') => pure (some (r, { ps with s := s' }))) := by rcases hr with rfl | rfl | rfl <;> rfl
    rw [this] at hs
    obtain ⟨o, h1, h2⟩ := ebind_inv hs
    match o, h1, h2 with
    | some (r1, s1), h1, h2 =>
      injection h2 with h2; injection h2 with h2; injection h2 with h2 h3
      subst h2 h3
      exact key h1
  refine ⟨KS', cs', pend', inv', ?_, ?_⟩
  · refine core.reset sinv' hres hall hh hlk.1 hlk.2 ?_
    intro u
    rw [← inv'.busyD (by rw [b4]; exact (dead u).2), b2]
    exact hq.2 u
  · refine ⟨?_, ?_, ?_, ?_⟩
    · rintro i x e ⟨c, hc, _⟩
      rw [(dead' i).1, (dead' i).2] at hc; cases hc
    · rintro b x e (hb | ⟨i, hb⟩)
      · rw [b1] at hb; cases hb
      · rw [b3, (dead i).1] at hb; cases hb
    · exact fun x e he => .inr (.inr ((hh.resetAcc hres hall he).imp_right .inl))
    · intro i hi
      rw [b5, hq.1 i] at hi; cases hi

theorem PHInv.shared (hi : PHInv p0 ps K h KS cs pend) {a : Act} {r : Option Resp} (hl : PLegal K (.shared a)) (hb : a.By t)
    (hd : h.Duty K.direct t a) (hn : ∀ ch p v s', a = .go t ch → ¬ ps.Answers t ch p v s')
    (hs : pstep ps (.shared a) = .ok (some (r, ps'))) (ha : PAfter ps.s.w.mem K (.shared a) r K')
    (hh : h.Step ps.s K.direct t a r ps'.s h') : PHOk p0 ps' K' h' := by
  cases a with
  | call u c => cases (show u = t from hb); exact hi.call hl hd hs ha hh
  | write x v => exact hi.write hl hs ha hh
  | reset => exact hi.reset (.inl rfl) hl hd hs ha hh
  | resetUnchecked => exact hi.reset (.inr (.inl rfl)) hl hd hs ha hh
  | resetFinal => exact hi.reset (.inr (.inr rfl)) hl hd hs ha hh
  | go u ch =>
    cases (show u = t from hb)
    have hs0 := hs
    simp only [pstep] at hs
    obtain ⟨o, h1, h2⟩ := ebind_inv hs
    match o, h1, h2 with
    | none, h1, h2 => cases h2
    | some (none, s1), h1, h2 =>
      injection h2 with h2; injection h2 with h2; injection h2 with h2 h3
      subst h2 h3
      have hK : K' = K := by
        cases ha with
        | direct hsa _ => cases hsa; rfl
      subst hK
      exact hi.inside h1 hh
    | some (some v, s1), h1, h2 =>
      have hpx : ((ps.px t).map Proxy.pc = none ∨ (ps.px t).map Proxy.pc = some .idle) ∧ K.pbusy t = none := by
        cases hp : ps.px t with
        | none => exact ⟨.inl rfl, hi.inv.absent hp⟩
        | some p =>
          by_cases hpc : p.pc = .idle
          · exact ⟨.inr (by simp [hpc]), hi.inv.at_idle hp hpc⟩
          · exact absurd ⟨hp, hpc, h1⟩ (hn ch p v s1 rfl)
      have hps : r = some v ∧ ps' = { ps with s := s1 } := by
        dsimp only at h2
        split at h2
        · rename_i p hp
          rcases hpx.1 with hq | hq
          · rw [hp] at hq; cases hq
          · rw [hp] at hq
            injection hq with hq
            rw [if_pos hq] at h2
            injection h2 with h2; injection h2 with h2; injection h2 with h2 h3
            exact ⟨h2.symm, h3.symm⟩
        · injection h2 with h2; injection h2 with h2; injection h2 with h2 h3
          exact ⟨h2.symm, h3.symm⟩
      obtain ⟨rfl, rfl⟩ := hps
      exact hi.ret h1 hs0 hpx.1 hpx.2 ha hh

/-- A proxy is created. -/
theorem PHInv.spawn (hi : PHInv p0 ps K h KS cs pend) {i k : Nat} {r : Option Resp} (hl : PLegal K (.spawn i k)) (hd : h.PDuty K (.spawn i k))
    (hs : pstep ps (.spawn i k) = .ok (some (r, ps'))) (ha : PAfter ps.s.w.mem K (.spawn i k) r K') : PHOk p0 ps' K' h := by
  obtain ⟨KS', cs', pend', inv', eff, hcs, hk⟩ := hi.inv.after hl hs ha
  obtain ⟨inv, core, mem⟩ := hi
  have hput : ∀ u, u ≠ i → KS'.busy u = KS.busy u := by
    rcases hk with ⟨j, hj, hk⟩ | ⟨hk, _⟩
    · injection hj with hj; subst hj; exact hk.busy
    · exact fun u _ => hk u
  have hps : ps'.s = ps.s := by
    simp only [pstep] at hs
    split at hs
    · cases hs
    · split at hs
      · injection hs with hs; injection hs with hs; injection hs with _ hs
        subst hs; rfl
      · cases hs
  have hpb : K.pbusy i = none := by
    have := inv.px i
    cases hl with
    | spawn h => rw [h] at this; exact this.dead.2.2.1
  cases ha with
  | spawn =>
    refine ⟨KS', cs', pend', inv', ?_, ?_⟩
    · rw [hps]
      refine core.congr fun u => ?_
      by_cases hu : u = i
      · subst hu
        rw [← inv'.busyD (t := u) hpb, ← inv.busyD hpb]
      · exact hput u hu
    · refine mem.weaken (fun j x hx => reg_own hcs hk (by simp) hx) rfl rfl rfl ?_
      intro j hj
      by_cases hji : j = i
      · subst hji; exact hd
      · exact mem.known j (by rw [← hj]; exact (put_ne _ _ hji).symm)

/-- Accesses to `max_local_alloc`, and what callers synchronise. -/
theorem PHInv.quiet (hi : PHInv p0 ps K h KS cs pend) {a : PAct} {r : Option Resp} (hq : (∃ u v, a = .updateMax u v) ∨ ∃ u v, a = .sync u v)
    (hl : PLegal K a) (hs : pstep ps a = .ok (some (r, ps'))) (ha : PAfter ps.s.w.mem K a r K') :
    K' = K ∧ ∃ KS' cs' pend', PInv p0 ps' K' KS' cs' pend' ∧ h.Core ps'.s KS' ∧ h.PMem K (Reg cs' pend') := by
  obtain ⟨KS', cs', pend', inv', eff, hcs, hk⟩ := hi.inv.after hl hs ha
  obtain ⟨inv, core, mem⟩ := hi
  have hput : ∀ u, KS'.busy u = KS.busy u := by
    rcases hk with ⟨j, hj, _⟩ | ⟨hk, _⟩
    · rcases hq with ⟨u, v, rfl⟩ | ⟨u, v, rfl⟩ <;> cases hj
    · exact hk
  have hps : ps'.s = ps.s := by
    rcases hq with ⟨u, v, rfl⟩ | ⟨u, v, rfl⟩ <;>
    · injection hs with hs; injection hs with hs; injection hs with _ hs
      subst hs; rfl
  have hK : K' = K := by
    rcases hq with ⟨u, v, rfl⟩ | ⟨u, v, rfl⟩ <;> cases ha <;> rfl
  refine ⟨hK, KS', cs', pend', inv', ?_, ?_⟩
  · rw [hps]; exact core.congr hput
  · refine mem.weaken (fun j x hx => reg_own hcs hk ?_ hx) rfl rfl rfl mem.known
    rcases hq with ⟨u, v, rfl⟩ | ⟨u, v, rfl⟩ <;> simp

/-- Somebody reads a byte of a block. -/
theorem PHInv.read (hi : PHInv p0 ps K h KS cs pend) {x : Nat} {b : Owned} (ho : K.Has b) (hx : b.Has x) : PHOk p0 ps K (h.read t x) := by
  obtain ⟨inv, core, mem⟩ := hi
  obtain ⟨scs, B, sinv⟩ := inv.reach.inv
  have hm : (h.read t x).mine x h.clock := .inr ⟨rfl, rfl⟩
  have hown : ∀ y, y = x → ∃ o ∈ KS.owned, o.Has y := by rintro y rfl; exact inv.hasOwned ho hx
  refine ⟨KS, cs, pend, inv, ?_, ?_⟩
  · exact core.local sinv (HB.read_local core.wf t x) hown rfl rfl rfl (fun _ _ => rfl) rfl (fun y hy => absurd rfl hy) (fun _ _ => rfl)
      (core.lock.busy t) (core.mem.blk t)
  · refine mem.advance core.wf (HB.read_ev core.wf t x) (fun _ _ _ h => h) (fun _ _ _ h => h) ?_ (fun _ _ _ _ h => h) ?_ ?_ ?_ (fun _ h => .inl h) (fun _ h => h)
    · rintro j y _ hy rfl
      refine ⟨hm, b, ?_, hx⟩
      rcases ho with hb | ⟨i, hb⟩
      · exact (inv.sepD hb hx hy).elim
      · by_cases hij : j = i
        · subst hij; exact hb
        · exact (inv.sep hij (inv.led_inCs (.inl hb) hx) hy).elim
    · intro y e hy he _
      rcases mem.prox t y e hy he with h1 | ⟨b, h1, h2, h3, h4⟩
      · exact .inl h1
      · exact .inr ⟨b, h1, h2, h3, h4, fun h => h⟩
    · intro b y hb hy
      exact .inr ⟨fun h => h, ⟨b, hb, hy⟩, fun he => by rw [he]; exact hm⟩
    · intro y he
      exact .inl (by rw [he]; exact hm)

end

/-- All histories keep it. -/
theorem PHRun.inv {p0 : PS} (h0 : PStart p0) {t0 ps K h} (hr : PHRun p0 t0 ps K h) : PHOk p0 ps K h := by
  induction hr with
  | start => exact PHOk.start h0 t0
  | shared _ hl hb hd hn hs ha hh ih => obtain ⟨KS, cs, pend, hi⟩ := ih; exact hi.shared hl hb hd hn hs ha hh
  | back _ hv hh1 hs ha hh ih => obtain ⟨KS, cs, pend, hi⟩ := ih; exact hi.back hv hh1 hs ha hh
  | own _ hl hp hd hs ha hh ih => obtain ⟨KS, cs, pend, hi⟩ := ih; exact hi.own hl hp hd hs ha hh
  | spawn _ hl hd hs ha ih => obtain ⟨KS, cs, pend, hi⟩ := ih; exact hi.spawn hl hd hs ha
  | updateMax _ hl hs ha ih =>
    obtain ⟨KS, cs, pend, hi⟩ := ih
    obtain ⟨rfl, KS', cs', pend', h1, h2, h3⟩ := hi.quiet (.inl ⟨_, _, rfl⟩) hl hs ha
    exact ⟨KS', cs', pend', h1, h2, h3⟩
  | sync _ t u hs ha ih =>
    obtain ⟨KS, cs, pend, hi⟩ := ih
    obtain ⟨rfl, KS', cs', pend', h1, h2, h3⟩ := hi.quiet (.inr ⟨_, _, rfl⟩) .sync hs ha
    exact ⟨KS', cs', pend', h1, h2.sync t u, h3.sync t u⟩
  | tell _ t u ih =>
    obtain ⟨KS, cs, pend, h1, h2, h3⟩ := ih
    exact ⟨KS, cs, pend, h1, h2.sync t u, h3.sync t u⟩
  | read _ ho hx _ ih => obtain ⟨KS, cs, pend, hi⟩ := ih; exact hi.read ho hx

end Blink
