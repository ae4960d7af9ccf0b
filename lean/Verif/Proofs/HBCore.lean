import Verif.Proofs.HBStep
/-
  What is known about the accesses of the shared allocator's own bytes, when some of the blocks it gave out belong to proxies. Other than
  in `HInv` nothing is said here about the blocks in the hands of callers.
-/
namespace Blink

/-- The part of the invariant about the allocator itself. -/
structure HB.Core (h : HB) (s : SS) (K : Book) : Prop where
  wf : h.WF
  lock : h.LockInv s K
  mem : h.MemCore s (fun t => (s.pcs t).has (K.busy t))

theorem HB.Core.congr {h : HB} {s K K'} (hc : h.Core s K) (hb : ∀ u, K'.busy u = K.busy u) : h.Core s K' := by
  obtain ⟨w, l, m⟩ := hc
  refine ⟨w, ⟨fun u hu => l.busy u (by rw [← hb]; exact hu), l.rd, l.wr⟩, ?_⟩
  have : (fun t => (s.pcs t).has (K'.busy t)) = (fun t => (s.pcs t).has (K.busy t)) := by funext t; rw [hb]
  rw [this]; exact m

theorem SInv.hasB {s0 s cs K B} (hi : SInv s0 s cs K B) : B = fun t => (s.pcs t).has (K.busy t) := funext hi.has

theorem HB.Core.start {s0 : SS} (h0 : SStart s0) (t0 : Nat) : (HB.start t0).Core s0 Book.empty := by
  obtain ⟨w, l, cs, B, hi, hm⟩ := HInv.start h0 t0
  have := hi.hasB
  subst this
  exact ⟨w, l, hm.toMemCore⟩

theorem HB.Pub.sync {h : HB} {s e} (he : h.Pub s e) (t u : Nat) : (h.sync t u).Pub s e := by
  rcases he with h1 | h1 | h1 | ⟨v, h1, h2⟩
  · exact .inl h1
  · exact .inr (.inl h1)
  · exact .inr (.inr (.inl h1))
  · exact .inr (.inr (.inr ⟨v, h1, .inl h2⟩))

theorem HB.Core.sync {h : HB} {s K} (hc : h.Core s K) (t u : Nat) : (h.sync t u).Core s K := by
  obtain ⟨w, l, hm⟩ := hc
  refine ⟨w.sync t u, ⟨fun v hv => .inl (l.busy v hv), fun v hv e he => .inl (l.rd v hv e he), fun v hv e he => .inl (l.wr v hv e he)⟩, ?_⟩
  exact ⟨fun x e h1 h2 => (hm.room x e h1 h2).sync t u, fun Bk h1 x e h2 h3 h4 => (hm.hdrW Bk h1 x e h2 h3 h4).sync t u,
    fun Bk h1 x e h2 h3 h4 => (hm.hdrR Bk h1 x e h2 h3 h4).sync t u,
    fun Bk h1 x e h2 h3 h4 => (hm.hdrA Bk h1 x e h2 h3 h4).imp_left fun hp => hp.sync t u,
    fun v b h1 x e h2 h3 => .inl (hm.blk v b h1 x e h2 h3)⟩

/-- A step inside the allocator. -/
theorem HB.Core.go {s0 s s' cs cs' K K' KG B B' t ch r rG} {h h' : HB} (hc : h.Core s K) (hi : SInv s0 s cs K B) (hi' : SInv s0 s' cs' K' B')
    (hs : goStep s t ch = .ok (some (r, s'))) (hh : h.Step s KG t (.go t ch) rG s' h')
    (hbz : ∀ u, u ≠ t → K'.busy u = K.busy u) (hbt : (r = none ∧ K'.busy t = K.busy t) ∨ (r ≠ none ∧ K'.busy t = none)) :
    h'.Core s' K' := by
  obtain ⟨w, l, hm⟩ := hc
  have hB := hi.hasB
  have hB' := hi'.hasB
  rw [← hB] at hm
  have g := hi.goLock hs
  have hother : ∀ u, u ≠ t → B' u = B u := by
    intro u hu
    rw [hi'.has u, hi.has u, hbz u hu, hi.goOther hs hu]
  have hb1 : (s.pcs t).holdsR = true ∨ (s.pcs t).holdsW = true → K.busy t ≠ none := by
    intro h1 hn
    rw [(hi.busy_none hn).1] at h1
    rcases h1 with h1 | h1 <;> cases h1
  have sum : GoSum s s' ((s.pcs t).holdsR = true ∨ (s.pcs t).holdsW = true) (B t) (B' t) := by
    rcases hbt with ⟨rfl, hbt⟩ | ⟨hr, hbt⟩
    · rw [hi'.has t, hbt]
      exact hi.goSum hs rfl
    · obtain ⟨v, rfl⟩ := Option.ne_none_iff_exists'.mp hr
      obtain ⟨h1, h2, _⟩ := hi.goRet hs
      refine .of_world h1 h2 ?_
      rw [(hi'.busy_none hbt).2]
      intro b hb; cases hb
  refine ⟨hh.wf w, l.step hh g ?_ (by simp [Act.resets]), ?_⟩
  · intro u hu
    left
    by_cases hut : u = t
    · subst hut
      rcases hbt with ⟨_, hbt⟩ | ⟨_, hbt⟩
      · rwa [hbt] at hu
      · exact absurd hbt hu
    · rwa [hbz u hut] at hu
  rw [← hB']
  refine hm.advance w hi hi' hh g rfl sum.room sum.heads sum.head ?_ ?_ hother ?_
  · intro x hx
    obtain ⟨h1, h2⟩ := hi.access hx
    have hb := hb1 h1
    rcases h2 with ⟨h2, h3, h4, h5⟩ | ⟨h2, h3, h4, h5⟩ | ⟨h2, h3, j, h4⟩ | ⟨h2, b, h3, h4⟩
    · exact .cursor hb h2 h3 h4 h5
    · exact .header hb h2 h3 h4 h5
    · refine .chunk hb h2 h3 ?_
      rcases g.keep t ((hi.lock.wr t).mpr (by rw [h4]; rfl)) with h5 | ⟨_, h5⟩
      · exact h5
      · have : (match s.pcs t with | .ret true _ => True | _ => False) := h5
        rw [h4] at this; exact this.elim
    · exact .block hb h2 b h3 h4
  · intro x hx hh1 hat
    rcases hi.stores hx hh1 with ⟨h2, _⟩ | ⟨_, b, h3, h4⟩
    · exact absurd h2 hat
    · exact hi.blkUsed h3 h4
  · intro b hb x e hx he hn
    rcases sum.blocks b hb x hx with ⟨b0, h1, h2⟩ | ⟨h1, h2⟩ | h1
    · exact hm.blk t b0 h1 x e h2 he
    · exact l.pub w hi h1 (hm.room x e h2 he)
    · exact absurd ⟨(hi'.used (hi'.blkUsed hb hx)).1, h1⟩ hn

/-- The call of a thread begins. -/
theorem HB.Core.call {s0 s cs cs' K K' KG B B' t c rG} {h h' : HB} (hc : h.Core s K) (hi : SInv s0 s cs K B)
    (hi' : SInv s0 (s.setPc t (.rd c)) cs' K' B') (hh : h.Step s KG t (.call t c) rG (s.setPc t (.rd c)) h')
    (hbz : ∀ u, u ≠ t → K'.busy u = K.busy u) (hde : h.view t h.epoch)
    (hblk : ∀ b ∈ (Pc.rd c).has (K'.busy t), ∀ x e, b.Has x → h.Acc x e → h.view t e) : h'.Core (s.setPc t (.rd c)) K' := by
  obtain ⟨w, l, hm⟩ := hc
  have hB := hi.hasB
  have hB' := hi'.hasB
  rw [← hB] at hm
  have g : GoLock s (s.setPc t (.rd c)) t (.call t c) := .of_same rfl rfl (fun _ _ => by simp)
  have hother : ∀ u, u ≠ t → B' u = B u := by
    intro u hu
    rw [hi'.has u, hi.has u, hbz u hu, SS.setPc_ne _ _ hu]
  refine ⟨hh.wf w, l.step hh g ?_ (by simp [Act.resets]), ?_⟩
  · intro u hu
    by_cases hut : u = t
    · exact .inr ⟨hut, hde⟩
    · rw [hbz u hut] at hu; exact .inl hu
  rw [← hB']
  refine hm.advance w hi hi' hh g rfl ?_ ?_ ?_ (fun x hx => absurd hx touches_call)
        (fun x hx => absurd hx.touches touches_call) hother ?_
  · exact fun x hx => .inl hx
  · exact fun Bk hB => .inl hB
  · exact fun Bk hB => .inl hB
  · intro b hb x e hx he _
    rw [hi'.has t, SS.setPc_same] at hb
    exact hblk b hb x e hx he

/-- The owner of a block stores a byte. -/
theorem HB.Core.write {s0 s s' cs cs' K K' KG B B' t x v rG} {h h' : HB} (hc : h.Core s K) (hi : SInv s0 s cs K B) (hi' : SInv s0 s' cs' K' B')
    (hs' : s' = { s with w := { s.w with mem := setBytes s.w.mem x 1 (fun _ => v) } }) {b : Owned} (ho : b ∈ K.owned) (hx : b.Has x)
    (hh : h.Step s KG t (.write x v) rG s' h') (hbz : ∀ u, K'.busy u = K.busy u) : h'.Core s' K' := by
  obtain ⟨w, l, hm⟩ := hc
  have hB := hi.hasB
  have hB' := hi'.hasB
  rw [← hB] at hm
  have g : GoLock s s' t (.write x v) := .of_same (by rw [hs']) (by rw [hs']) (fun _ _ => by simp)
  have hsame : ∀ u, B' u = B u := by
    intro u
    rw [hi'.has u, hi.has u, hs', hbz]
  have hu := hi.ownedUsed ho hx
  have sum : GoSum s s' False (B t) (B' t) := .of_used hi (.inr hu) (by rw [hs']) (by rw [hs']) (by
    rw [hsame t]; exact fun b hb x hx => ⟨b, hb, hx⟩)
  refine ⟨hh.wf w, l.step hh g (fun u hu => .inl (by rwa [hbz] at hu)) (by simp [Act.resets]), ?_⟩
  rw [← hB']
  refine hm.advance w hi hi' hh g rfl sum.room sum.heads sum.head ?_ ?_ (fun u _ => hsame u) ?_
  · intro y hy
    have := touches_write hy
    subst this
    exact .client (fun h => h) b ho hx ⟨v, rfl⟩
  · intro y hy _ _
    have := touches_write hy.touches
    subst this
    exact hu
  · intro b hb y e hy he _
    rw [hsame t] at hb
    exact hm.blk t b hb y e hy he

/-- Accesses of a reset. -/
theorem HB.Step.resetAcc {h h' : HB} {s s' : SS} {KG : Book} {t a rG} (hh : h.Step s KG t a rG s' h') (ha : a.resets = true)
    (hd : ∀ x e, h.Acc x e → h.view t e) {x e} (he : h'.Acc x e) : e = h'.epoch ∨ h'.past h'.epoch e := by
  have hep : h'.epoch = h.clock := by rw [hh.epoch, ha]; rfl
  rw [hep]
  rcases hh.acc he with ⟨he, _⟩ | ⟨h1, _⟩
  · exact .inr (hh.pastNew.mpr (.inl (hd x e he)))
  · exact .inl h1

/-- The allocator is reset by somebody who has seen everything. -/
theorem HB.Core.reset {s0 s s' cs' K K' KG B' t a rG} {h h' : HB} (hc : h.Core s K) (hi' : SInv s0 s' cs' K' B')
    (ha : a.resets = true) (hd : ∀ x e, h.Acc x e → h.view t e) (hh : h.Step s KG t a rG s' h')
    (hrd : s'.readers = s.readers) (hwr : s'.writer = s.writer) (hK' : ∀ u, K'.busy u = none) : h'.Core s' K' := by
  obtain ⟨w, l, hm⟩ := hc
  have hng : ∀ u ch, a ≠ .go u ch := by rintro u ch rfl; cases ha
  have g : GoLock s s' t a := .of_same hrd hwr hng
  have pub : ∀ {x e}, h'.Acc x e → h'.Pub s' e := fun he => (hh.resetAcc ha hd he).imp_right .inl
  refine ⟨hh.wf w, l.step hh g (fun u hu => absurd (hK' u) hu) (fun _ => hK'), ?_⟩
  refine ⟨fun x e _ he => pub he, fun _ _ x e _ _ he => pub (.inr (.inl he)), fun _ _ x e _ _ he => pub (.inl he),
    fun _ _ x e _ _ he => .inl (pub (.inr (.inr he))), ?_⟩
  intro u b hb
  have hb : b ∈ (s'.pcs u).has (K'.busy u) := hb
  rw [← hi'.has u, (hi'.busy_none (hK' u)).2] at hb; cases hb

/-- An event outside the allocator: identity `i` accesses the bytes `T`. -/
structure HB.Local (h : HB) (i : Nat) (T : Nat → Prop) (h' : HB) : Prop where
  wf : h'.WF
  mono : ∀ u e, h.view u e → h'.view u e
  now : h'.view i h.clock
  past : ∀ n e, n < h.clock → (h'.past n e ↔ h.past n e)
  lockR : ∀ e, h'.lockR e ↔ h.lockR e
  lockW : ∀ e, h'.lockW e ↔ h.lockW e
  reads : ∀ x e, h'.reads x e → h.reads x e ∨ e = h.clock ∧ T x
  writes : ∀ x e, h'.writes x e → h.writes x e ∨ e = h.clock ∧ T x
  atoms : ∀ x e, h'.atoms x e → h.atoms x e
  epoch : h'.epoch = h.epoch

theorem HB.Local.acc {h h' : HB} {i T} (hl : h.Local i T h') {x e} (he : h'.Acc x e) : h.Acc x e ∨ e = h.clock ∧ T x := by
  rcases he with he | he | he
  · exact (hl.reads x e he).imp_left .inl
  · exact (hl.writes x e he).imp_left fun h => .inr (.inl h)
  · exact .inl (.inr (.inr (hl.atoms x e he)))

theorem HB.read_local {h : HB} (w : h.WF) (t x : Nat) : h.Local t (· = x) (h.read t x) where
  wf := w.read t x
  mono := fun _ _ hv => .inl hv
  now := .inr ⟨rfl, rfl⟩
  past := by
    intro n e hn
    show (if n = h.clock then h.view t e else h.past n e) ↔ _
    rw [if_neg (by omega)]
  lockR := fun _ => .rfl
  lockW := fun _ => .rfl
  reads := fun y e he => he.imp_right fun h => ⟨h.2, h.1⟩
  writes := fun y e he => .inl he
  atoms := fun y e he => he
  epoch := rfl

/-- Identity `i` accesses blocks it got from the allocator, and may then begin a call. -/
theorem HB.Core.local {s0 s s' cs K K' B i T} {h h' : HB} (hc : h.Core s K) (hi : SInv s0 s cs K B)
    (hl : h.Local i T h') (hT : ∀ x, T x → ∃ b ∈ K.owned, b.Has x) (hrd : s'.readers = s.readers) (hwr : s'.writer = s.writer)
    (hrt : s'.root = s.root) (hpc : ∀ u, u ≠ i → s'.pcs u = s.pcs u) (hw : s'.w = { s.w with mem := s'.w.mem })
    (hmem : ∀ x, s'.w.mem x ≠ s.w.mem x → ∃ b ∈ K.owned, b.Has x) (hbz : ∀ u, u ≠ i → K'.busy u = K.busy u)
    (hbi : K'.busy i ≠ none → h.view i h.epoch)
    (hblk : ∀ b ∈ (s'.pcs i).has (K'.busy i), ∀ x e, b.Has x → h.Acc x e → h.view i e) : h'.Core s' K' := by
  obtain ⟨w, l, hm⟩ := hc
  have hB := hi.hasB
  rw [← hB] at hm
  have hused : ∀ x, T x → InUsed cs x 1 := by
    intro x hx
    obtain ⟨b, hb, hbx⟩ := hT x hx
    exact hi.ownedUsed hb hbx
  have pub : ∀ {e}, h.Pub s e → h'.Pub s' e := by
    rintro e (h1 | h1 | h1 | ⟨v, h1, h2⟩)
    · exact .inl (by rw [hl.epoch]; exact h1)
    · exact .inr (.inl (by rw [hl.epoch]; exact (hl.past _ _ w.epoch).mpr h1))
    · exact .inr (.inr (.inl ((hl.lockW e).mpr h1)))
    · exact .inr (.inr (.inr ⟨v, by rw [hwr]; exact h1, hl.mono _ _ h2⟩))
  have hlog : s'.w.log = s.w.log := by rw [hw]
  have room : ∀ x, s'.InRoom x → s.InRoom x := by
    intro x ⟨p, e, h3, h4⟩
    refine ⟨p, e, ?_, h4⟩
    have ha := (AInv.setMem (m' := s'.w.mem) hi.arena fun c hc y h1 h2 => by
      apply Classical.byContradiction
      intro hne
      obtain ⟨b, hb, hbx⟩ := hmem y hne
      have := hi.arena.used_not_hdr (hi.ownedUsed hb hbx) hc
      omega).room' (m := s'.minChunk)
    unfold SS.toLocal at h3
    rw [hw, hrt, hi.root, ha] at h3
    rw [hi.room]
    exact h3
  refine ⟨hl.wf, ⟨?_, ?_, ?_⟩, ?_, ?_, ?_, ?_, ?_⟩
  · intro u hu
    rw [hl.epoch]
    by_cases hui : u = i
    · subst hui; exact hl.mono _ _ (hbi hu)
    · rw [hbz u hui] at hu; exact hl.mono _ _ (l.busy u hu)
  · intro u hu e he
    rw [hrd] at hu
    exact hl.mono _ _ (l.rd u hu e ((hl.lockW e).mp he))
  · intro u hu e he
    rw [hwr] at hu
    exact hl.mono _ _ (l.wr u hu e (he.imp (hl.lockW e).mp (hl.lockR e).mp))
  · intro x e h1 h2
    have h1 := room x h1
    rcases hl.acc h2 with h2 | ⟨rfl, hT2⟩
    · exact pub (hm.room x e h1 h2)
    · exact absurd (hused x hT2) (hi.roomUsed h1)
  · intro Bk h1 x e h2 h3 h4
    rw [hlog] at h1
    rcases hl.writes x e h4 with h4 | ⟨rfl, hT2⟩
    · exact pub (hm.hdrW Bk h1 x e h2 h3 h4)
    · exact absurd (hused x hT2) (hi.hdrUsed h1 h2 h3)
  · intro Bk h1 x e h2 h3 h4
    rw [hlog] at h1
    rcases hl.reads x e h4 with h4 | ⟨rfl, hT2⟩
    · exact pub (hm.hdrR Bk h1 x e h2 h3 h4)
    · exact absurd (hused x hT2) (hi.hdrUsed (hi.headRoot h1).1 h2 (by omega))
  · intro Bk h1 x e h2 h3 h4
    rw [hlog] at h1
    exact (hm.hdrA Bk h1 x e h2 h3 (hl.atoms x e h4)).imp_left pub
  · intro u b hb x e hx he
    by_cases hui : u = i
    · subst hui
      rcases hl.acc he with he | ⟨rfl, hT2⟩
      · exact hl.mono _ _ (hblk b hb x e hx he)
      · exact hl.now
    · have hb : b ∈ (s'.pcs u).has (K'.busy u) := hb
      rw [hpc u hui, hbz u hui, ← hi.has u] at hb
      rcases hl.acc he with he | ⟨rfl, hT2⟩
      · exact hl.mono _ _ (hm.blk u b hb x e hx he)
      · obtain ⟨o, ho, hox⟩ := hT x hT2
        exact absurd hox (hi.blkOwned hb hx ho)

end Blink
