import Verif.Proofs.ProxyHBOwn
/-
  Answers of the shared allocator to proxies keep the invariant behind the absence of data races.
-/
namespace Blink

/-- A thread about to return has what its caller gets. -/
theorem Pc.has_ret (c : Call) (ob : Option Owned) (wr : Bool) (v : Resp) : (Pc.ret wr v).has (some (c, ob)) = gets c ob v := by
  cases c <;> cases v <;> first | rfl | (cases ob <;> rfl)

theorem PInv.waiting {p0 ps K KS cs pend} (h : PInv p0 ps K KS cs pend) {i : Nat} {p : Proxy} (hp : ps.px i = some p) (hpc : p.pc ≠ .idle) :
    K.pbusy i ≠ none ∧ K.direct.busy i = none ∧ K.live i = true := by
  have hx := h.px i
  rw [hp] at hx
  generalize K.live i = z1 at *
  generalize K.led i = z2 at hx
  generalize K.pbusy i = z3 at *
  generalize K.direct.busy i = z4 at *
  generalize KS.busy i = z5 at hx
  generalize pend i = z6 at hx
  generalize cs i = z7 at hx
  cases hx with
  | idle => exact absurd rfl hpc
  | alloc => exact ⟨by simp, rfl, rfl⟩
  | resize => exact ⟨by simp, rfl, rfl⟩
  | chain => exact ⟨by simp, rfl, rfl⟩

/-- What the answer to proxy `t` does to the book. -/
structure BackBook (K : PBook) (t : Nat) (ch : Choice) (r : Option Resp) (K' : PBook) : Prop where
  direct : K'.direct = K.direct
  others : ∀ j, j ≠ t → K'.led j = K.led j ∧ K'.pbusy j = K.pbusy j
  live : K'.live = K.live
  keeps : ∀ b ∈ K.led t, b ∈ K'.led t
  left : ∀ b ∈ K'.led t, ∀ x, b.Has x → b ∈ K.led t ∨ PGives K r x (.shared (.go t ch))
  gives : ∀ x, PGives K r x (.shared (.go t ch)) → ∃ b ∈ K'.led t, b.Has x
  new : (K'.led t).Pairwise Owned.Apart → ∀ x, PGives K r x (.shared (.go t ch)) → ∀ b ∈ K.led t, ¬ b.Has x
  waits : r = none → K'.pbusy t ≠ none

theorem BackBook.of {m : Nat → Byte} {K K' : PBook} {t : Nat} {ch : Choice} {r : Option Resp} (hw : K.pbusy t ≠ none)
    (ha : PAfter m K (.shared (.go t ch)) r K') : BackBook K t ch r K' := by
  cases ha with
  | direct hsa hr =>
    have hr : r = none := hr.resolve_right fun h => hw (h t ch rfl)
    subst hr
    cases hsa
    have hg : ∀ x, ¬ PGives K none x (.shared (.go t ch)) := by rintro x ⟨_, _, _, _, h, _⟩; cases h
    exact ⟨rfl, fun _ _ => ⟨rfl, rfl⟩, rfl, fun _ h => h, fun _ h _ _ => .inl h, fun x h => absurd h (hg x),
      fun _ x h => absurd h (hg x), fun _ => hw⟩
  | @back _ _ c ob v hb =>
    have hg : ∀ x, PGives K (some v) x (.shared (.go t ch)) ↔ ∃ b ∈ pgets c ob v, b.Has x := by
      intro x
      constructor
      · rintro ⟨c', ob', v', h1, h2, h3⟩
        rw [hb] at h1
        injection h1 with h1; injection h1 with h1 h1'
        injection h2 with h2
        subst h1 h1' h2
        exact h3
      · exact fun h => ⟨c, ob, v, hb, rfl, h⟩
    refine ⟨rfl, fun j hj => ⟨put_ne _ _ hj, put_ne _ _ hj⟩, rfl, ?_, ?_, ?_, ?_, fun h => by cases h⟩
    · intro b hb
      simp only [put_same]
      exact List.mem_append_right _ hb
    · intro b hb x hx
      simp only [put_same] at hb
      rcases List.mem_append.mp hb with hb | hb
      · exact .inr ((hg x).mpr ⟨b, hb, hx⟩)
      · exact .inl hb
    · intro x hx
      obtain ⟨b, hb, hx⟩ := (hg x).mp hx
      exact ⟨b, by simp only [put_same]; exact List.mem_append_left _ hb, hx⟩
    · intro hp x hx b hb hbx
      obtain ⟨b', hb', hx'⟩ := (hg x).mp hx
      simp only [put_same] at hp
      exact (List.pairwise_append.mp hp).2.2 b' hb' b hb x ⟨hx', hbx⟩

section
variable {p0 ps ps' : PS} {K K' : PBook} {KS : Book} {cs pend : Nat → List Chunk} {t : Nat} {ch : Choice} {p : Proxy} {v : Resp} {s1 : SS}

/-- After the shared allocator returned and before the proxy goes on. -/
structure Mid (p0 : PS) (K : PBook) (KS : Book) (cs pend : Nat → List Chunk) (t : Nat) (s1 : SS) (h1 : HB) (KS1 : Book) (R : Nat → Prop) : Prop where
  reach : SReach p0.s s1 KS1
  busy : ∀ u, u ≠ t → KS1.busy u = KS.busy u
  idle : s1.pcs t = .idle
  core : h1.Core s1 KS1
  owned : ∀ x, R x → ∃ b ∈ KS1.owned, b.Has x
  apart : ∀ x, R x → ∀ o ∈ KS.owned, ¬ o.Has x
  mem : h1.PMem K (fun j x => Reg cs pend j x ∨ j = t ∧ R x)

/-- First half of an answer: the shared allocator returns. -/
theorem PHInv.answer {h h1 : HB} (hi : PHInv p0 ps K h KS cs pend) (hv : ps.Answers t ch p v s1)
    (hh1 : h.Step ps.s K.direct t (.go t ch) none s1 h1) :
    ∃ KS1 R, Mid p0 K KS cs pend t s1 h1 KS1 R ∧ (∀ o ∈ KS.owned, o ∈ KS1.owned) ∧
      ∀ sl, v = .block sl → ∀ x, sl.addr ≤ x → x < sl.addr + sl.len → R x := by
  obtain ⟨hp, hpc, ho⟩ := hv
  obtain ⟨inv, core, mem⟩ := hi
  obtain ⟨hw, _, _⟩ := inv.waiting hp hpc
  obtain ⟨_, hid, c, ob, hb⟩ := inv.reach.ret_w ho
  obtain ⟨scs, B, sinv⟩ := inv.reach.inv
  have hr1 : SReach p0.s s1 { KS with owned := gets c ob v ++ KS.owned, busy := put KS.busy t none } := by
    obtain ⟨h0, tr, hr⟩ := inv.reach
    exact ⟨h0, _, hr.snoc .go ho (.ret hb)⟩
  obtain ⟨scs1, B1, sinv1⟩ := hr1.inv
  obtain ⟨_, _, wr, hret⟩ := sinv.goRet ho
  have hB : B t = gets c ob v := by rw [sinv.has t, hret, hb, Pc.has_ret]
  have hnew : ∀ b ∈ gets c ob v, ∀ x, b.Has x → ∀ o ∈ KS.owned, ¬ o.Has x := by
    intro b hbm x hx o ho
    rw [← hB] at hbm
    exact sinv.blkOwned hbm hx ho
  have hg : ∀ x, ¬ Gives K.direct none x (.go t ch) := by rintro x ⟨_, _, _, _, h, _⟩; cases h
  refine ⟨_, fun x => ∃ b ∈ gets c ob v, b.Has x, ⟨hr1, fun u hu => put_ne _ _ hu, hid, ?_, ?_, ?_, ?_⟩,
    fun o ho => List.mem_append_right _ ho, ?_⟩
  · exact core.go sinv sinv1 ho hh1 (fun u hu => put_ne _ _ hu) (.inr ⟨by simp, put_same _ _ _⟩)
  · exact fun x ⟨b, hb, hx⟩ => ⟨b, List.mem_append_left _ hb, hx⟩
  · exact fun x ⟨b, hb, hx⟩ => hnew b hb x hx
  · refine mem.advance core.wf (hh1.ev rfl) ?_ (fun _ _ _ h => h) ?_ (fun _ x _ _ => hg x) ?_ ?_ (fun _ _ => .inr (.inl (.inr hw)))
      (fun _ h => .inl h) (fun _ h => h)
    · rintro j x hj (h1 | ⟨h1, _⟩)
      · exact h1
      · exact absurd h1 hj
    · rintro j x hj (h1 | ⟨h1, _⟩) hT
      · obtain ⟨o, ho, hox⟩ := inv.regOwned h1
        exact absurd hox (sinv.goTouch hT ho)
      · exact absurd h1 hj
    · rintro x e (h1 | ⟨_, b, h1, h2⟩) he _
      · rcases mem.prox t x e h1 he with h3 | ⟨b, h3, h4, h5, h6⟩
        · exact .inl h3
        · exact .inr ⟨b, h3, h4, h5, h6, hg x⟩
      · left
        rw [← hB, sinv.has t] at h1
        exact core.mem.blk t b h1 x e h2 he
    · intro b x hb hx
      refine .inr ⟨hg x, ⟨b, hb, hx⟩, fun hT => ?_⟩
      obtain ⟨o, ho, hox⟩ := inv.hasOwned hb hx
      exact absurd hox (sinv.goTouch hT ho)
  · rintro sl rfl x h1 h2
    obtain ⟨o, ho, e1, e2⟩ := sinv.ret_block hret
    rw [hB] at ho
    exact ⟨o, ho, by omega, by omega⟩

/-- What the proxy touches then. -/
theorem PInv.back_reg (h : PInv p0 ps K KS cs pend) (hv : ps.Answers t ch p v s1) {R : Nat → Prop}
    (hR : ∀ sl, v = .block sl → ∀ x, sl.addr ≤ x → x < sl.addr + sl.len → R x) {x : Nat}
    (hT : TouchesBy (fun q => q.resume t p.a v p.pc) { ps with s := s1 } x) : Reg cs pend t x ∨ R x := by
  rcases h.back_touch hv hT with h1 | ⟨sl, h1, h2, h3⟩ | ⟨c, b, h1, h2⟩
  · exact .inl (h.inHdr h1)
  · exact .inr (hR sl h1 x h2 h3)
  · exact .inl (h.led_inCs (.inr ⟨c, h1⟩) h2)

/-- Chunks of the proxy afterwards are chunks from before or the block it was given. -/
theorem PInv.back_chunks (ho : sstep ps.s (.go t ch) = .ok (some (some v, s1))) {KS' : Book} {cs' pend' : Nat → List Chunk}
    (hcs : CsAfter ps (.shared (.go t ch)) cs cs') (hk : KAfter ps K KS cs pend (.shared (.go t ch)) KS' pend') {R : Nat → Prop}
    (hR : ∀ sl, v = .block sl → ∀ x, sl.addr ≤ x → x < sl.addr + sl.len → R x) {x : Nat} (hx : Reg cs' pend' t x) :
    Reg cs pend t x ∨ R x := by
  rcases reg_sub hcs hk hx with h1 | ⟨q, h1, h2, h3⟩
  · exact .inl h1
  · right
    rw [PS.chunksAfter_ret ho] at h1
    split at h1
    · rcases List.mem_cons.mp h1 with rfl | h1
      · exact hR _ rfl x h3.1 h3.2
      · exact absurd h1 h2
    · rcases List.mem_cons.mp h1 with rfl | h1
      · exact hR _ rfl x h3.1 h3.2
      · exact absurd h1 h2
    · exact absurd h1 h2

/-- All accesses to what the proxy returns then are known. -/
theorem PHInv.back_gives {h h1 : HB} {r : Option Resp} (hi : PHInv p0 ps K h KS cs pend) (hv : ps.Answers t ch p v s1)
    (hh1 : h.Step ps.s K.direct t (.go t ch) none s1 h1)
    (hs : PS.resume { ps with s := s1 } t p.a v p.pc = .ok (some (r, ps'))) (ha : PAfter ps.s.w.mem K (.shared (.go t ch)) r K')
    {x : Nat} (hg : PGives K r x (.shared (.go t ch))) {e : Nat} (he : h1.Acc x e) : h1.view t e := by
  obtain ⟨KS1, R, mid, _, hsl⟩ := hi.answer hv hh1
  obtain ⟨hp, hpc, ho⟩ := hv
  obtain ⟨hw, _, _⟩ := hi.inv.waiting hp hpc
  have hstep : pstep ps (.shared (.go t ch)) = .ok (some (r, ps')) := by rw [pstep_go_wait ho hp hpc]; exact hs
  obtain ⟨KS', cs', pend', inv', eff, hcs, hk⟩ := hi.inv.after .go hstep ha
  have book := BackBook.of hw ha
  obtain ⟨b, hb, hbx⟩ := book.gives x hg
  have hR := PInv.back_chunks ho hcs hk hsl (inv'.led_inCs (.inl hb) hbx)
  rcases mid.mem.prox t x e (hR.imp_right fun h => ⟨rfl, h⟩) he with h2 | ⟨b, h2, h3, _⟩
  · exact h2
  · exact absurd h3 (book.new (inv'.ledApart t) x hg b h2)

/-- The shared allocator answers a proxy. -/
theorem PHInv.back {h h1 h' : HB} {r : Option Resp} (hi : PHInv p0 ps K h KS cs pend) (hv : ps.Answers t ch p v s1)
    (hh1 : h.Step ps.s K.direct t (.go t ch) none s1 h1)
    (hs : PS.resume { ps with s := s1 } t p.a v p.pc = .ok (some (r, ps'))) (ha : PAfter ps.s.w.mem K (.shared (.go t ch)) r K')
    (hh : h1.Own t (fun q => q.resume t p.a v p.pc) { ps with s := s1 } (fun x => PGives K r x (.shared (.go t ch))) r h') :
    PHOk p0 ps' K' h' := by
  obtain ⟨KS1, R, mid, hsub, hsl⟩ := hi.answer hv hh1
  have hT : ∀ x, TouchesBy (fun q => q.resume t p.a v p.pc) { ps with s := s1 } x → Reg cs pend t x ∨ R x := fun x hx => hi.inv.back_reg hv hsl hx
  have htouch := fun x => hi.inv.back_touch (x := x) hv
  obtain ⟨hp, hpc, ho⟩ := hv
  obtain ⟨hw, hdb, hlv⟩ := hi.inv.waiting hp hpc
  have hstep : pstep ps (.shared (.go t ch)) = .ok (some (r, ps')) := by rw [pstep_go_wait ho hp hpc]; exact hs
  obtain ⟨KS', cs', pend', inv', eff, hcs, hk⟩ := hi.inv.after .go hstep ha
  have hput : KPut K KS cs pend t KS' pend' := by
    rcases hk with ⟨j, hj, hk⟩ | ⟨_, _, _, hn⟩
    · injection hj with hj; subst hj; exact hk
    · exact absurd ho (hn t ch v s1 rfl)
  have book := BackBook.of hw ha
  have inv := hi.inv
  obtain ⟨scs1, B1, sinv1⟩ := mid.reach.inv
  obtain ⟨scs', B', sinv'⟩ := inv'.reach.inv
  have w := mid.core.wf
  have owned : ∀ x, Reg cs pend t x ∨ R x → ∃ b ∈ KS1.owned, b.Has x := by
    rintro x (hx | hx)
    · obtain ⟨o, ho, hox⟩ := inv.regOwned hx
      exact ⟨o, hsub o ho, hox⟩
    · exact mid.owned x hx
  have regs : ∀ {j x}, j ≠ t → Reg cs' pend' j x → Reg cs pend j x := by
    intro j x hj hx
    rcases reg_sub hcs hk hx with h1 | ⟨q, h1, h2, _⟩
    · exact h1
    · rw [PS.chunksAfter_ne hj] at h1
      exact absurd h1 h2
  have regt : ∀ {x}, Reg cs' pend' t x → Reg cs pend t x ∨ R x := fun hx => PInv.back_chunks ho hcs hk hsl hx
  have sep : ∀ {j x}, j ≠ t → Reg cs pend t x ∨ R x → Reg cs pend j x → False := by
    rintro j x hj (h1 | h1) h2
    · exact inv.sep hj h1 h2
    · obtain ⟨o, ho, hox⟩ := inv.regOwned h2
      exact mid.apart x h1 o ho hox
  have known : ∀ {x e}, Reg cs pend t x ∨ R x → h1.Acc x e →
      h1.view t e ∨ ∃ b ∈ K.led t, b.Has x ∧ h1.mine x e ∧ h1.since x < e ∧ ¬ PGives K r x (.shared (.go t ch)) := by
    intro x e hx he
    rcases mid.mem.prox t x e (hx.imp_right fun h => ⟨rfl, h⟩) he with h2 | ⟨b, h2, h3, h4, h5⟩
    · exact .inl h2
    · exact .inr ⟨b, h2, h3, h4, h5, fun hg => book.new (inv'.ledApart t) x hg b h2 h3⟩
  obtain ⟨f1, f2, f3, f4, f5⟩ := (Frames.resume { ps with s := s1 } t p.a v p.pc).facts hs
  refine ⟨KS', cs', pend', inv', ?_, ?_⟩
  · refine mid.core.local sinv1 (hh.local w) (fun x hx => owned x (hT x hx)) f1 f2 f3 f4 (PS.resume_mem hs)
      (fun x hx => owned x (hT x (.of_changed hs hx))) (fun u hu => by rw [hput.busy u hu, mid.busy u hu]) (fun _ => mid.mem.known t hlv) ?_
    intro b hb x e hx he
    have hbz : ∃ c, KS'.busy t = some (c, some b) := by
      have : ps'.s.pcs t = .idle ∨ ∃ c, ps'.s.pcs t = .rd c := by
        rcases f5 with h2 | h2
        · exact .inl (h2.trans mid.idle)
        · exact .inr h2
      generalize KS'.busy t = z at hb ⊢
      rcases this with hpc | ⟨c, hpc⟩ <;>
      · rw [hpc] at hb
        match z, hb with
        | some (c, some b'), hb =>
          have : b = b' := by cases c <;> simpa [Pc.has] using hb
          subst this
          exact ⟨c, rfl⟩
        | some (c, none), hb => cases c <;> cases hb
        | none, hb => cases hb
    obtain ⟨c, hbz⟩ := hbz
    obtain ⟨hled, _⟩ := inv'.lent hbz (by rw [book.direct]; exact hdb)
    rcases hput.gave c b hbz with ⟨d, hdm, rfl⟩ | hbd
    · have hR : Reg cs pend t x := ⟨d, hdm, (Chunk.own_has ((inv.px t).ok d hdm)).mp hx⟩
      rcases known (.inl hR) he with h2 | ⟨b, hb, _⟩
      · exact h2
      · have := book.keeps b hb
        rw [hled] at this; cases this
    · rw [← book.direct] at hbd
      rw [← sinv'.has t] at hb
      exact absurd hx (sinv'.blkOwned hb hx (inv'.tiles.memD hbd))
  · refine mid.mem.advance w (hh.ev w) (fun j x hj hx => .inl (regs hj hx)) (fun j hj b hb => by rw [(book.others j hj).1]; exact hb) ?_ ?_ ?_ ?_ ?_ ?_ ?_
    · intro j x hj hx ht
      exact (sep hj (hT x ht) (regs hj hx)).elim
    · intro j x hj hx hg
      obtain ⟨b, hb, hbx⟩ := book.gives x hg
      exact inv'.sep hj (inv'.led_inCs (.inl hb) hbx) hx
    · intro x e hx he _
      rcases known (regt hx) he with h2 | ⟨b, h2, h3⟩
      · exact .inl h2
      · exact .inr ⟨b, book.keeps b h2, h3⟩
    · intro b x hb hx
      by_cases hg : PGives K r x (.shared (.go t ch))
      · left
        refine ⟨hg, fun e he _ => ?_⟩
        obtain ⟨b', hb', hbx'⟩ := book.gives x hg
        rcases known (regt (inv'.led_inCs (.inl hb') hbx')) he with h2 | ⟨_, _, _, _, _, h5⟩
        · exact h2
        · exact absurd hg h5
      · right
        refine ⟨hg, ?_⟩
        rcases hb with hb | ⟨j, hb⟩
        · rw [book.direct] at hb
          refine ⟨⟨b, .inl hb, hx⟩, fun ht => ?_⟩
          rcases hT x ht with h2 | h2
          · exact (inv.sepD hb hx h2).elim
          · exact absurd hx (mid.apart x h2 b (inv.tiles.memD hb))
        · by_cases hj : j = t
          · subst hj
            have hb0 := (book.left b hb x hx).resolve_right hg
            refine ⟨⟨b, .inr ⟨j, hb0⟩, hx⟩, fun ht => ?_⟩
            exfalso
            rcases htouch x ht with h2 | ⟨sl, h2, h3, h4⟩ | ⟨c, b', h2, h3⟩
            · exact inv.used_hdr (inv.led_used (.inl hb0) hx) h2
            · obtain ⟨o, ho, hox⟩ := inv.regOwned (inv.led_inCs (.inl hb0) hx)
              exact mid.apart x (hsl sl h2 x h3 h4) o ho hox
            · have := (inv.px j).led.apart
              rw [h2] at this
              exact (List.pairwise_cons.mp this).1 b hb0 x ⟨h3, hx⟩
          · rw [(book.others j hj).1] at hb
            exact ⟨⟨b, .inr ⟨j, hb⟩, hx⟩, fun ht => (sep hj (hT x ht) (inv.led_inCs (.inl hb) hx)).elim⟩
    · intro x _
      cases r with
      | none => exact .inr (.inl (.inr (book.waits rfl)))
      | some v => exact .inr (.inr (by simp))
    · intro u hu
      by_cases hut : u = t
      · subst hut
        cases r with
        | none => exact .inl (.inr (book.waits rfl))
        | some v => exact .inr ⟨rfl, by simp⟩
      · left
        unfold PBook.Inside at hu ⊢
        rw [book.direct, (book.others u hut).2]
        exact hu
    · intro j hj
      rw [book.live] at hj; exact hj

end

end Blink
