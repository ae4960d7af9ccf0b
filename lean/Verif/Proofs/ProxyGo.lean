import Verif.Proofs.ProxyStep
/-
  Steps inside the shared allocator, and what proxies do with its answers.
-/
namespace Blink

theorem SReach.owned_range {s0 s K} (h : SReach s0 s K) {b : Owned} (hb : b ∈ K.owned) : b.addr + b.len < s.w.top := by
  obtain ⟨_, _, _, B, _, hB, h1, h2⟩ := C22_layout_and_memory h hb
  obtain ⟨cs, _, hi⟩ := h.inv
  have := hi.arena.held.rng B hB
  omega

/-- Bytes of a block just obtained from the shared allocator are nobody's. -/
theorem SReach.fresh {s0 s' : SS} {KS KS1 : Book} {o : Owned}
    (h1 : SReach s0 s' KS1) (ho : KS1.owned = o :: KS.owned) {b : Owned} (hb : b ∈ KS.owned) : o.Apart b := by
  have := C22_no_overlap h1
  rw [ho, List.pairwise_cons] at this
  exact this.1 b hb

/-- A proxy builds a chunk in the block it was given. -/
theorem PInv.newChunk {p0 ps K KS cs pend} (h : PInv p0 ps K KS cs pend) {t R m : Nat} {ch : Choice} {l : Layout} {sl : Slice} {s' : SS}
    (hb : KS.busy t = some (.allocate ⟨R, 8⟩, none)) (hs : sstep ps.s (.go t ch) = .ok (some (some (.block sl), s')))
    (hv : VInv ps.s.w (cs t)) (hm : m ≤ HUGE) (hl : l.Modest) (hn : NoFit (cs t) l) (hR : chunkReq (rootCum (cs t)) m l = some R)
    (hpend : pend t = []) (hz : ps.s.w.debug = true → 32 < sl.len) :
    ∃ V w' s c, V.mem = ps.s.w.mem ∧ AInv V (cs t) [] ∧ AllocRes V (cs t) m l (some s) w' (c :: cs t) ∧ AInv w' (c :: cs t) [] ∧
      newChunkAlloc (rootOf (cs t)) sl l ps.s.w = .ok (s, { ps.s.w with mem := w'.mem }) ∧ w'.top = ps.s.w.top ∧ w'.debug = ps.s.w.debug ∧
      (∀ a n, w'.accessible a n = true → ps.s.w.accessible a n = true) ∧ c.start = sl.addr ∧ c.end_ = sl.addr + sl.len ∧
      (∀ x, w'.mem x ≠ ps.s.w.mem x → sl.addr ≤ x ∧ x < sl.addr + sl.len) ∧
      ∀ m'' : Nat → Byte, (∀ x, m'' x ≠ ps.s.w.mem x → sl.addr ≤ x ∧ x < sl.addr + sl.len) →
        ((∀ b x, b.Has x → K.Holds (.shared (.go t ch)) b → m'' x = ps.s.w.mem x) ∧
          ∀ j x, InCs (cs j ++ pend j) x → m'' x = ps.s.w.mem x) ∧
        ∀ (K' : PBook) (q : BA) (led' : List Owned), q.root = sl.addr → q.minChunk ≤ HUGE → VInv { ps.s.w with mem := m'' } (c :: cs t) →
          LOK (c :: cs t) led' →
          K' = { K with led := put K.led t led', pbusy := put K.pbusy t none } → K.live t = true → K.direct.busy t = none →
          ∃ KS' cs' pend', PInv p0 ({ ps with s := { s' with w := { ps.s.w with mem := m'' } } }.setPx t (some ⟨q, .idle⟩)) K' KS' cs' pend' ∧ cs' = put cs t (c :: cs t) ∧ KPut K KS cs pend t KS' pend' := by
  obtain ⟨e1, e2, _⟩ := h.reach.ret_w hs
  have hRv := reqBound hv h.top hm hl hR
  obtain ⟨h0, tr, hr⟩ := h.reach
  have hreach : SReach p0.s s' { KS with owned := Owned.of sl ⟨R, 8⟩ :: KS.owned, busy := put KS.busy t none } :=
    ⟨h0, _, hr.snoc .go hs (.ret hb)⟩
  obtain ⟨f1, f2, f3, B, _, f5, f6, f7⟩ := C22_layout_and_memory hreach (b := Owned.of sl ⟨R, 8⟩) List.mem_cons_self
  have f8 := hreach.owned_range (b := Owned.of sl ⟨R, 8⟩) List.mem_cons_self
  have hfr : ∀ b ∈ KS.owned, (Owned.of sl ⟨R, 8⟩).Apart b := fun b hb => hreach.fresh rfl hb
  rw [e1] at f5 f8
  simp only [Owned.of] at f1 f2 f3 f6 f7 f8
  have hR0 := (chunkReq_facts hR).1
  have htop := h.top
  obtain ⟨V, w', s, c, g1, g2, g3, g4, g5, g6, g7, g8, g9, g10, g11, g12⟩ := newChunk_core hv (h.acc_left t)
    (needBound hv h.top hm hl) hz hl.1 hn hR hRv
    f3 f1 f2 (by simp only [HUGE] at htop; omega) f8 (by
      intro c hc
      have hok := hv.ok c hc
      have := hok.lo; have := hok.hi
      have ha := hfr c.own (h.tiles.mem (i := t) (List.mem_map_of_mem (List.mem_append_left _ hc)))
      have := Owned.apart_ends ha (by simp only [Owned.of]; unfold need at hR0; omega) (by simp only [Chunk.own]; omega)
      simp only [Owned.of, Chunk.own] at this
      omega) ⟨B, f5, f6, f7⟩
  refine ⟨V, w', s, c, g1, g2, g3, g4, g5, g6, g7, g8, g9, g10, g12, ?_⟩
  intro m'' hm''
  have hout : ∀ o ∈ KS.owned, ∀ x, o.Has x → m'' x = ps.s.w.mem x := by
    intro o ho x hx
    apply Classical.byContradiction
    intro hne
    exact hfr o ho x ⟨hm'' x hne, hx⟩
  refine ⟨⟨?_, ?_⟩, ?_⟩
  · intro b x hx hb
    obtain ⟨o, ho, hox⟩ := h.holds hb hx
    exact hout o ho x hox
  · intro j x hx
    obtain ⟨o, ho, hox⟩ := h.inCs hx
    exact hout o (h.tiles.mem (i := j) ho) x hox
  · intro K' q led' hq hqm hV hL hK hlive hbd
    subst hK
    refine ⟨_, _, _, h.upd t (csi := c :: cs t) (pendi := []) (KS' := { KS with owned := Owned.of sl ⟨R, 8⟩ :: KS.owned, busy := put KS.busy t none }) ?_ h.hist ?_ ?_ ?_ ?_ h.snap, rfl,
      fun u hu => put_ne _ _ hu, fun _ _ hb => by (dsimp only at hb; rw [put_same] at hb; cases hb), fun u hu => put_ne _ _ hu,
      fun c hc => by (rw [put_same] at hc; cases hc)⟩
    · have := hreach.setMem (m' := m'') (by
        intro x hx
        rw [e1] at hx
        exact ⟨_, List.mem_cons_self, hm'' x hx⟩)
      rw [e1] at this
      exact this
    · intro Rr hRr
      refine ⟨[], ?_⟩
      rw [hpend] at hRr
      simp only [List.append_nil, List.map_cons, List.cons_append] at *
      rw [g11]
      exact (List.Perm.cons _ hRr).trans List.perm_middle.symm
    · intro u hu x hx
      obtain ⟨o, ho, hox⟩ := h.inCs hx
      exact hout o (h.tiles.mem (i := u) ho) x hox
    · intro u hu
      exact ⟨PS.setPx_ne _ _ hu, rfl, put_ne _ _ hu, put_ne _ _ hu, rfl, put_ne _ _ hu⟩
    · rw [PS.setPx_same]
      dsimp only
      rw [put_same, put_same, put_same, hlive, hbd]
      have : q = ⟨rootOf (c :: cs t), q.minChunk⟩ := by
        cases q; simp only at hq; rw [hq, ← g9]; rfl
      rw [this]
      exact .idle hV hL hqm

/-- The shared allocator answers with a block that has no room beyond the header: this can only be the first chunk of a proxy created with
chunk size 0, for zero bytes. -/
theorem PInv.noRoomChunk {p0 ps K KS cs pend} (h : PInv p0 ps K KS cs pend) {t R m : Nat} {ch : Choice} {l : Layout} {sl : Slice}
    {s' : SS} (hb : KS.busy t = some (.allocate ⟨R, 8⟩, none)) (hs : sstep ps.s (.go t ch) = .ok (some (some (.block sl), s')))
    (hR : chunkReq (rootCum (cs t)) m l = some R) (hd : ps.s.w.debug = true) (hz : ¬ 32 < sl.len) :
    cs t = [] ∧ m = 0 ∧ l.size = 0 ∧ l.align ≤ 8 ∧
      newChunkAlloc (rootOf (cs t)) sl l ps.s.w = .error (.dbg "init_chunk: len > size_of::<Self>()") := by
  obtain ⟨h0, tr, hr⟩ := h.reach
  have hreach : SReach p0.s s' { KS with owned := Owned.of sl ⟨R, 8⟩ :: KS.owned, busy := put KS.busy t none } :=
    ⟨h0, _, hr.snoc .go hs (.ret hb)⟩
  obtain ⟨f1, f2, _⟩ := C22_layout_and_memory hreach (b := Owned.of sl ⟨R, 8⟩) List.mem_cons_self
  simp only [Owned.of] at f1 f2
  have hR0 := (chunkReq_facts hR).1
  have hfacts : cs t = [] ∧ m = 0 ∧ l.size = 0 ∧ l.align ≤ 8 := by
    have ha : l.align ≤ 8 := by
      apply Classical.byContradiction
      intro ha
      unfold need at hR0
      rw [if_pos (by omega)] at hR0
      omega
    unfold need at hR0
    rw [if_neg (by omega)] at hR0
    cases hc : cs t with
    | nil =>
      rw [hc, show rootCum [] = none from rfl] at hR0
      simp only at hR0
      exact ⟨rfl, by omega, by omega, ha⟩
    | cons c t' =>
      rw [hc, show rootCum (c :: t') = some c.cum from rfl] at hR0
      simp only at hR0
      omega
  refine ⟨hfacts.1, hfacts.2.1, hfacts.2.2.1, hfacts.2.2.2, ?_⟩
  unfold newChunkAlloc
  rw [bind_ok (a := ()) (w' := { ps.s.w with mem := setBytes ps.s.w.mem sl.addr sl.len (fun _ => .uninit) }) rfl]
  apply bind_err
  unfold initChunk
  have ha : isAlignedTo sl.addr HDR_ALIGN = true := by
    have h1 := hreach.owned_range (b := Owned.of sl ⟨R, 8⟩) List.mem_cons_self
    rw [hreach.top, ← h.reach.top] at h1
    have h2 := h.top
    simp only [Owned.of, HUGE] at h1 h2
    have := isAlignedTo_eq (v := sl.addr) (k := 3) (by omega) (by omega)
    rw [show (2 : Nat) ^ 3 = 8 from rfl] at this
    rw [show HDR_ALIGN = 8 from rfl, this]
    exact decide_eq_true f1
  rw [bind_ok (dassert_ok fun _ => ha)]
  apply bind_err
  exact if_pos ⟨hd, by simp only [HDR_SIZE]; exact hz⟩

theorem pstep_go_wait {ps : PS} {t ch r s' p} (hs : sstep ps.s (.go t ch) = .ok (some (some r, s'))) (hp : ps.px t = some p)
    (hpc : p.pc ≠ .idle) : pstep ps (.shared (.go t ch)) = PS.resume { ps with s := s' } t p.a r p.pc := by
  simp only [pstep]
  rw [ebind_ok hs]
  simp only [hp, if_neg hpc]

/-- The shared allocator refused the block a proxy waits for: the proxy is as before its call. -/
theorem PInv.refused {p0 ps K KS cs pend} (h : PInv p0 ps K KS cs pend) {t R : Nat} {ch : Choice} {r : Resp} {s' : SS} {q : BA}
    {led' : List Owned} (hb : KS.busy t = some (.allocate ⟨R, 8⟩, none)) (hs : sstep ps.s (.go t ch) = .ok (some (some r, s')))
    (hr : ∀ b, r ≠ .block b) (hv : VInv ps.s.w (cs t)) (hL : LOK (cs t) led') (hm : q.minChunk ≤ HUGE) (hq : q.root = rootOf (cs t))
    (hpend : pend t = []) (hlive : K.live t = true) (hbd : K.direct.busy t = none) :
    ∃ KS' cs' pend', PInv p0 ({ ps with s := { s' with w := s'.w } }.setPx t (some ⟨q, .idle⟩))
      { K with led := put K.led t led', pbusy := put K.pbusy t none } KS' cs' pend' ∧ cs' = put cs t (cs t) ∧ KPut K KS cs pend t KS' pend' := by
  obtain ⟨e1, e2, _⟩ := h.reach.ret_w hs
  obtain ⟨h0, tr, hr'⟩ := h.reach
  have hg : gets (.allocate ⟨R, 8⟩) none r = [] := by
    cases r with
    | block b => exact absurd rfl (hr b)
    | unit => rfl
    | err => rfl
  have hreach : SReach p0.s s' { KS with owned := gets (.allocate ⟨R, 8⟩) none r ++ KS.owned, busy := put KS.busy t none } :=
    ⟨h0, _, hr'.snoc .go hs (.ret hb)⟩
  refine ⟨_, _, _, h.upd t (csi := cs t) (pendi := []) (KS' := { KS with owned := gets (.allocate ⟨R, 8⟩) none r ++ KS.owned, busy := put KS.busy t none }) hreach h.hist ?_ ?_ ?_ ?_ h.snap, rfl,
      fun u hu => put_ne _ _ hu, fun _ _ hb => by (dsimp only at hb; rw [put_same] at hb; cases hb), fun u hu => put_ne _ _ hu,
      fun c hc => by (rw [put_same] at hc; cases hc)⟩
  · intro Rr hRr
    refine ⟨[], ?_⟩
    rw [hpend] at hRr
    rw [hg]
    simpa using hRr
  · intro u hu x hx
    show s'.w.mem x = _
    rw [e1]
  · intro u hu
    exact ⟨PS.setPx_ne _ _ hu, rfl, put_ne _ _ hu, put_ne _ _ hu, rfl, put_ne _ _ hu⟩
  · rw [PS.setPx_same]
    dsimp only
    show PxOK s'.w _ _ _ _ _ _ _ _
    rw [put_same, put_same, put_same, hlive, hbd, e1]
    have : q = ⟨rootOf (cs t), q.minChunk⟩ := by cases q; simp only at hq; rw [hq]
    rw [this]
    exact .idle hv hL hm

theorem PS.chunksAfter_ne {ps : PS} {t j : Nat} {ch L} (hj : j ≠ t) : ps.chunksAfter (.shared (.go t ch)) j L = L := if_neg hj

theorem PS.chunksAfter_ret {ps : PS} {t : Nat} {ch L} {r : Resp} {s'} (hs : sstep ps.s (.go t ch) = .ok (some (some r, s'))) :
    ps.chunksAfter (.shared (.go t ch)) t L = (match (generalizing := false) r, (ps.px t).map Proxy.pc with
      | .block b, some (.alloc _) => (b.addr, b.len) :: L
      | .block b, some (.resize _ _ _) => (b.addr, b.len) :: L
      | _, _ => L) := by
  simp only [PS.chunksAfter, if_true]
  rw [hs]
  cases r with
  | block b =>
    cases ps.px t with
    | none => rfl
    | some p => simp only [Option.map_some]; cases p.pc <;> rfl
  | unit => rfl
  | err => rfl

theorem PS.chunksAfter_err {ps : PS} {t : Nat} {ch L} {r : Resp} {s'} (hs : sstep ps.s (.go t ch) = .ok (some (some r, s')))
    (hr : ∀ b, r ≠ .block b) : ps.chunksAfter (.shared (.go t ch)) t L = L := by
  rw [PS.chunksAfter_ret hs]
  cases r with
  | block b => exact absurd rfl (hr b)
  | unit => rfl
  | err => rfl

theorem PS.chunksAfter_inside {ps : PS} {t j : Nat} {ch L s'} (hs : sstep ps.s (.go t ch) = .ok (some (none, s'))) :
    ps.chunksAfter (.shared (.go t ch)) j L = L := by
  simp only [PS.chunksAfter]
  rw [hs]
  split <;> rfl

theorem PInv.resume {p0 ps K KS cs pend} (h : PInv p0 ps K KS cs pend) {t : Nat} {ch : Choice} {r : Resp} {s' : SS} {p : Proxy}
    (hs : sstep ps.s (.go t ch) = .ok (some (some r, s'))) (hp : ps.px t = some p) (hpc : p.pc ≠ .idle) :
    (∃ e, ps.EmptyChunk (.shared (.go t ch)) e ∧ pstep ps (.shared (.go t ch)) = .error e) ∨
    ∃ r ps', pstep ps (.shared (.go t ch)) = .ok (some (r, ps')) ∧ PEff ps K cs pend (.shared (.go t ch)) r ps' ∧
      ∀ K', PAfter ps.s.w.mem K (.shared (.go t ch)) r K' → ∃ KS' cs' pend', PInv p0 ps' K' KS' cs' pend' ∧ CsAfter ps (.shared (.go t ch)) cs cs' ∧
        KAfter ps K KS cs pend (.shared (.go t ch)) KS' pend' := by
  obtain ⟨e1, e2, _⟩ := h.reach.ret_w hs
  have hnr : ¬ (PAct.shared (.go t ch)).isReset := by
    rintro ⟨a, h1, h2⟩
    injection h1 with h1; subst h1
    rcases h2 with h2 | h2 | h2 <;> cases h2
  rw [pstep_go_wait hs hp hpc]
  have hx := h.px t
  generalize hkb : KS.busy t = kb at hx
  generalize hdb : K.direct.busy t = db at hx
  generalize hpb : K.pbusy t = pb at hx
  generalize hlv : K.live t = lv at hx
  generalize hld : K.led t = ld at hx
  generalize hpd : pend t = pd at hx
  generalize hcs : cs t = csi at hx
  rw [hp] at hx
  cases hx with
  | idle => exact absurd rfl hpc
  | @alloc _ m _ l R hv hL hm hl hn hR =>
    subst hcs
    by_cases hblk : ∃ sl, r = .block sl
    · obtain ⟨sl, rfl⟩ := hblk
      by_cases hz : ps.s.w.debug = true ∧ ¬ 32 < sl.len
      · obtain ⟨z1, z2, z3, z4, z5⟩ := h.noRoomChunk hkb hs hR hz.1 hz.2
        refine .inl ⟨_, ⟨hz.1, rfl, t, ch, l, rfl, ?_, z3, z4⟩, ?_⟩
        · rw [hp, z1, z2]; rfl
        · rw [← e1] at z5
          simp only [PS.resume]
          rw [ebind_err z5]
      replace hz : ps.s.w.debug = true → 32 < sl.len := fun hd => Classical.byContradiction fun hn => hz ⟨hd, hn⟩
      obtain ⟨V, w', s, c, g1, g2, g3, g4, g5, g6, g7, g8, g9, g10, g12, key⟩ := h.newChunk hkb hs hv hm hl hn hR hpd hz
      obtain ⟨⟨k1, k3⟩, k2⟩ := key w'.mem g12
      rw [← e1] at g5
      simp only [PS.resume]
      rw [ebind_ok g5]
      refine .inr ⟨_, _, rfl, ⟨?_, ?_, ?_, fun hne => absurd rfl (hne _), fun j x hx => k3 j x hx.right, fun j x hx _ _ => k3 j x hx⟩, ?_⟩
      · intro b x hx hb _ _
        exact k1 b x hx hb
      · rintro p' old new s2 hr2 (⟨i, h1⟩ | ⟨t', ch', ob, h1, h2⟩)
        · cases h1
        · injection h1 with h1; injection h1 with h1 _; subst h1
          rw [hpb] at h2; cases h2
      · intro _
        show NoFrees ps.s.w { s'.w with mem := w'.mem }
        rw [e1]
        exact (NoFrees.refl _).mem _
      · intro K' hK
        cases hK with
        | direct _ hr =>
          rcases hr with hr | hr
          · cases hr
          · have := hr _ _ rfl; rw [hpb] at this; cases this
        | back hb =>
          rw [hpb] at hb
          injection hb with hb; injection hb with hb1 hb2
          subst hb1; subst hb2
          rw [e1]
          exact CsAfter.put (k2 _ ⟨sl.addr, m⟩ _ rfl hm (VInv.of g4 rfl g6) (by
            rw [hld]; exact hL.alloc g2 hl.1 g3) rfl hlv hdb) (by
              rw [PS.chunksAfter_ret hs, hp, List.map_cons, Chunk.span, g9, g10, Nat.add_sub_cancel_left]; rfl) fun _ _ => PS.chunksAfter_ne
    · have hne : ∀ b, r ≠ .block b := fun b hb => hblk ⟨b, hb⟩
      have he : PS.resume { ps with s := s' } t ⟨rootOf (cs t), m⟩ r (.alloc l) =
          PS.answer { ps with s := s' } t ⟨rootOf (cs t), m⟩ s'.w .err := by
        cases r with
        | block b => exact absurd rfl (hne b)
        | unit => rfl
        | err => rfl
      simp only [he]
      refine .inr ⟨_, _, rfl, ⟨?_, ?_, ?_, fun hne => absurd rfl (hne _), fun _ x _ => by show s'.w.mem x = _; rw [e1], fun _ x _ _ _ => by show s'.w.mem x = _; rw [e1]⟩, ?_⟩
      · intro b x hx hb _ _
        show s'.w.mem x = _
        rw [e1]
      · intro _ _ _ _ h1; cases h1
      · intro _
        show NoFrees ps.s.w s'.w
        rw [e1]; exact NoFrees.refl _
      · intro K' hK
        cases hK with
        | direct _ hr =>
          rcases hr with hr | hr
          · cases hr
          · have := hr _ _ rfl; rw [hpb] at this; cases this
        | back hb =>
          rw [hpb] at hb
          injection hb with hb; injection hb with hb1 hb2
          subst hb1; subst hb2
          exact CsAfter.put (h.refused (q := ⟨rootOf (cs t), m⟩) hkb hs hne hv (by rw [hld]; exact hL) hm rfl hpd hlv hdb)
            (PS.chunksAfter_err hs hne).symm fun _ _ => PS.chunksAfter_ne
  | @resize _ m _ p old new b R hv hL hm hl hf hn hR =>
    subst hcs
    by_cases hblk : ∃ sl, r = .block sl
    · obtain ⟨sl, rfl⟩ := hblk
      have hz : ps.s.w.debug = true → 32 < sl.len := by
        intro hd
        apply Classical.byContradiction
        intro hz
        obtain ⟨_, _, _, d, hd', _⟩ := hL.each b List.mem_cons_self
        rw [(h.noRoomChunk hkb hs hR hd hz).1] at hd'
        cases hd'
      obtain ⟨V, w', s, c, g1, g2, g3, g4, g5, g6, g7, g8, g9, g10, g12, key⟩ := h.newChunk hkb hs hv hm hl hn.2.2 hR hpd hz
      obtain ⟨b1, b2, b3, b4⟩ := hL.each b List.mem_cons_self
      obtain ⟨f1, f2, f3, f4⟩ := hf
      have hu : InUsed (cs t) p old.size := by
        rw [← f1]
        exact b4.sub (by omega) (by omega)
      obtain ⟨c1, c2⟩ := copy_spec g2 hl.1 hu g3 g4
      have hfr := g3.fresh g2 hl.1
      have hm2 : ∀ x, setBytes w'.mem s.addr (min new.size old.size) (fun i => w'.mem (p + i)) x ≠ ps.s.w.mem x →
          sl.addr ≤ x ∧ x < sl.addr + sl.len := by
        intro x hx
        obtain ⟨q1, _, ⟨d, t', q2, q3, q4⟩, _⟩ := hfr
        injection q2 with q2 _; subst q2
        have hok := (g4.ok c List.mem_cons_self).hi
        by_cases hin : s.addr ≤ x ∧ x < s.addr + min new.size old.size
        · omega
        · rw [setBytes_out (by omega)] at hx
          exact g12 x hx
      obtain ⟨⟨k1, k3⟩, k2⟩ := key _ hm2
      have c3 := ((Lift.copyNonoverlapping p s.addr (min new.size old.size)).run (w := { ps.s.w with mem := w'.mem }) c1 rfl g7 g8).1
      have hcopy : ∀ k, k < min new.size old.size →
          setBytes w'.mem s.addr (min new.size old.size) (fun i => w'.mem (p + i)) (s.addr + k) = ps.s.w.mem (p + k) := by
        intro k hk
        rw [setBytes_in hk]
        rw [g3.frame_used g2 (hu.sub (by omega) (by omega)), g1]
      rw [← e1] at g5 c3
      simp only [PS.resume]
      rw [ebind_ok g5]
      simp only
      show _ ∨ ∃ r ps', (copyNonoverlapping p s.addr (min new.size old.size) { s'.w with mem := w'.mem } >>= _) = _ ∧ _
      rw [ebind_ok c3]
      refine .inr ⟨_, _, rfl, ⟨?_, ?_, ?_, fun hne => absurd rfl (hne _), fun j x hx => k3 j x hx.right, fun j x hx _ _ => k3 j x hx⟩, ?_⟩
      · intro b x hx hb _ _
        exact k1 b x hx hb
      · rintro p' old' new' s2 hr2 (⟨i, h1⟩ | ⟨t', ch', ob, h1, h2⟩)
        · cases h1
        · injection h1 with h1; injection h1 with h1 _; subst h1
          rw [hpb] at h2
          injection h2 with h2; injection h2 with h2 _
          injection h2 with i1 i2 i3
          subst i1; subst i2; subst i3
          injection hr2 with hr2; injection hr2 with hr2
          subst hr2
          exact hcopy
      · intro _
        refine NoFrees.mem (w' := s'.w) ?_ _
        rw [e1]; exact NoFrees.refl _
      · intro K' hK
        cases hK with
        | direct _ hr =>
          rcases hr with hr | hr
          · cases hr
          · have := hr _ _ rfl; rw [hpb] at this; cases this
        | back hb =>
          rw [hpb] at hb
          injection hb with hb; injection hb with hb1 hb2
          subst hb1; subst hb2
          rw [e1]
          refine CsAfter.put (k2 _ ⟨sl.addr, m⟩ (pgets (.resize p old new) (some b) (.block s) ++ K.led t) rfl hm (VInv.of c2 rfl g6) ?_ rfl hlv hdb)
            (by rw [PS.chunksAfter_ret hs, hp, List.map_cons, Chunk.span, g9, g10, Nat.add_sub_cancel_left]; rfl) fun _ _ => PS.chunksAfter_ne
          have := (hL.alloc g2 hl.1 g3).erase b
          rw [hld]
          refine ⟨?_, ?_⟩
          · intro o ho
            refine (hL.alloc g2 hl.1 g3).each o ?_
            simp only [pgets, List.cons_append, List.nil_append, List.mem_cons] at ho ⊢
            rcases ho with ho | ho
            · exact .inl ho
            · exact .inr (.inr ho)
          · refine (hL.alloc g2 hl.1 g3).apart.sublist ?_
            exact (List.Sublist.refl _).cons_cons _ |>.trans ((List.sublist_cons_self _ _).cons_cons _)
    · have hne : ∀ b, r ≠ .block b := fun b hb => hblk ⟨b, hb⟩
      have he : PS.resume { ps with s := s' } t ⟨rootOf (cs t), m⟩ r (.resize p old new) =
          PS.answer { ps with s := s' } t ⟨rootOf (cs t), m⟩ s'.w .err := by
        cases r with
        | block b => exact absurd rfl (hne b)
        | unit => rfl
        | err => rfl
      simp only [he]
      refine .inr ⟨_, _, rfl, ⟨?_, ?_, ?_, fun hne => absurd rfl (hne _), fun _ x _ => by show s'.w.mem x = _; rw [e1], fun _ x _ _ _ => by show s'.w.mem x = _; rw [e1]⟩, ?_⟩
      · intro b x hx hb _ _
        show s'.w.mem x = _
        rw [e1]
      · intro _ _ _ _ h1; cases h1
      · intro _
        show NoFrees ps.s.w s'.w
        rw [e1]; exact NoFrees.refl _
      · intro K' hK
        cases hK with
        | direct _ hr =>
          rcases hr with hr | hr
          · cases hr
          · have := hr _ _ rfl; rw [hpb] at this; cases this
        | back hb =>
          rw [hpb] at hb
          injection hb with hb; injection hb with hb1 hb2
          subst hb1; subst hb2
          exact CsAfter.put (h.refused (q := ⟨rootOf (cs t), m⟩) hkb hs hne hv (by rw [hld]; exact hL) hm rfl hpd hlv hdb)
            (PS.chunksAfter_err hs hne).symm fun _ _ => PS.chunksAfter_ne
  | @chain c m _ p n b hv hP hm hcur =>
    obtain ⟨h0, tr, hr⟩ := h.reach
    have hreach : SReach p0.s s' { KS with owned := gets (.deallocate p n) (some b) r ++ KS.owned, busy := put KS.busy t none } :=
      ⟨h0, _, hr.snoc .go hs (.ret hkb)⟩
    have hg : gets (.deallocate p n) (some b) r = [] := by cases r <;> rfl
    have hacc : Acc ps.s.w pd := fun d hd => h.acc t d (by rw [hcs, hpd]; exact List.mem_append_right _ hd)
    obtain ⟨r', ps', q1, q2, q3, q4⟩ := h.chainStep (i := t) (m := m) (c := c) (P := pd) (KS1 := { KS with owned := gets (.deallocate p n) (some b) r ++ KS.owned, busy := put KS.busy t none }) (ps1 := { ps with s := s' })
      (w := s'.w) rfl rfl hreach (put_same _ _ _) (fun u hu => put_ne _ _ hu) (by
        intro R hR
        refine ⟨[], ?_⟩
        rw [hcs, hpd] at hR
        rw [hg]
        simpa using hR) (fun u _ x _ => by rw [e1]) (by rw [e1]; exact hv) (by rw [e1]; exact hP) (by rw [e1]; exact hacc) hm hcur (fun d hd => List.mem_append_right _ (by rw [hpd]; exact hd))
    simp only [PS.resume]
    refine .inr ⟨r', ps', q1, ⟨?_, ?_, ?_, fun hne => absurd rfl (hne _), fun _ _ _ => by rw [q2, e1], fun _ _ _ _ _ => by rw [q2, e1]⟩, ?_⟩
    · intro b x hx hb _ _
      rw [q2, e1]
    · intro _ _ _ s hx
      rcases q3 with q3 | q3 <;> rw [q3] at hx <;> cases hx
    · intro _
      rw [q2, e1]; exact NoFrees.refl _
    · intro K' hK
      have hspan : [c].map Chunk.span = ps.chunksAfter (.shared (.go t ch)) t ((cs t).map Chunk.span) := by
        rw [PS.chunksAfter_ret hs, hp, hcs]
        cases r <;> rfl
      rcases q3 with q3 | q3
      · subst q3
        cases hK with
        | direct hS hr =>
          cases hS with
          | inside => exact CsAfter.put (q4 _ rfl (fun u hu => ⟨rfl, rfl, rfl⟩) hlv hld hdb hpb) hspan fun _ _ => PS.chunksAfter_ne
      · subst q3
        cases hK with
        | direct _ hr =>
          rcases hr with hr | hr
          · cases hr
          · have := hr _ _ rfl; rw [hpb] at this; cases this
        | back hb =>
          rw [hpb] at hb
          injection hb with hb; injection hb with hb1 hb2
          subst hb1; subst hb2
          refine CsAfter.put (q4 _ rfl (fun u hu => ⟨rfl, put_ne _ _ hu, put_ne _ _ hu⟩) hlv ?_ hdb ?_) hspan fun _ _ => PS.chunksAfter_ne
          · dsimp only; rw [put_same, hld]; rfl
          · dsimp only; rw [put_same]; rfl

theorem PInv.go {p0 ps K KS cs pend} (h : PInv p0 ps K KS cs pend) {t : Nat} {ch : Choice} : PGood p0 ps K KS cs pend (.shared (.go t ch)) := by
  obtain ⟨cs0, B0, hi⟩ := h.reach.inv
  have hnr : ¬ (PAct.shared (.go t ch)).isReset := by
    rintro ⟨a, h1, h2⟩
    injection h1 with h1; subst h1
    rcases h2 with h2 | h2 | h2 <;> cases h2
  have hnr' : Act.go t ch ≠ .reset ∧ Act.go t ch ≠ .resetUnchecked ∧ Act.go t ch ≠ .resetFinal := by simp
  rcases hi.step (.go (t := t) (ch := ch)) with ⟨e, hbad, he⟩ | he | ⟨r, s', cs', he, -⟩
  · exact .inl ⟨e, .inl hbad, by simp only [pstep]; rw [ebind_err he]⟩
  · exact .inr (.inl (by simp only [pstep]; rw [ebind_ok he]; rfl))
  have hfr : ∀ o ∈ KS.owned, ∀ x, o.Has x → s'.w.mem x = ps.s.w.mem x :=
    fun o ho x hx => C23_frame h.reach .go he ho hx (by simp) hnr'
  have hq : NoFrees ps.s.w s'.w := (hi.go_res he).quiet hi
  have hframe : ∀ b x, b.Has x → K.Holds (.shared (.go t ch)) b → s'.w.mem x = ps.s.w.mem x := by
    intro b x hx hb
    obtain ⟨o, ho, hox⟩ := h.holds hb hx
    exact hfr o ho x hox
  have hkp : ∀ j x, InCs (cs j ++ pend j) x → s'.w.mem x = ps.s.w.mem x := by
    intro j x hx
    obtain ⟨o, ho, hox⟩ := h.inCs hx
    exact hfr o (h.tiles.mem (i := j) ho) x hox
  obtain ⟨h0, tr, hr⟩ := h.reach
  cases r with
  | none =>
    have hp : pstep ps (.shared (.go t ch)) = .ok (some (none, { ps with s := s' })) := by
      simp only [pstep]; rw [ebind_ok he]; rfl
    refine .inr (.inr ⟨_, _, hp, ⟨fun b x hx hb _ _ => hframe b x hx hb, ?_, fun _ => hq, fun hne => absurd rfl (hne _), fun j x hx => hkp j x hx.right, fun j x hx _ _ => hkp j x hx⟩, ?_⟩)
    · intro _ _ _ _ h1; cases h1
    · intro K' hK
      cases hK with
      | direct hS _ =>
        cases hS with
        | inside =>
          have hreach : SReach p0.s s' KS := ⟨h0, _, hr.snoc .go he .inside⟩
          refine ⟨KS, cs, pend, ⟨hreach, ?_, h.hist, h.tiles, ?_, h.snap⟩, fun _ => (PS.chunksAfter_inside he).symm,
            .inr ⟨fun _ => rfl, fun _ => rfl, rfl, fun t' ch' r' s1 h1 h2 => by
              injection h1 with h1; injection h1 with h1 h1'; subst h1; subst h1'
              rw [he] at h2; cases h2⟩⟩
          · show s'.w.top ≤ _
            rw [hreach.top, ← h.reach.top]; exact h.top
          · intro u
            refine (h.px u).frame (hreach.top.trans h.reach.top.symm) ?_
            intro x hx
            obtain ⟨o, ho, hox⟩ := h.inCs hx
            exact hfr o (h.tiles.mem (i := u) ho) x hox
  | some r =>
    by_cases hw : ∃ p, ps.px t = some p ∧ p.pc ≠ .idle
    · obtain ⟨p, h1, h2⟩ := hw
      rcases h.resume he h1 h2 with ⟨e, g1, g2⟩ | hg
      · exact .inl ⟨e, .inr g1, g2⟩
      · exact .inr (.inr hg)
    · have hp : pstep ps (.shared (.go t ch)) = .ok (some (some r, { ps with s := s' })) := by
        simp only [pstep]; rw [ebind_ok he]
        simp only
        cases hpx : ps.px t with
        | none => rfl
        | some p =>
          have hpc : p.pc = .idle := Classical.byContradiction fun hne => hw ⟨p, hpx, hne⟩
          simp only [if_pos hpc]; rfl
      have hpb : K.pbusy t = none := by
        have hx := h.px t
        generalize hpb : K.pbusy t = pb at hx
        generalize hpx : ps.px t = px at hx
        generalize K.live t = lv at hx
        generalize K.led t = ld at hx
        generalize K.direct.busy t = db at hx
        generalize KS.busy t = kb at hx
        generalize cs t = csi at hx
        generalize pend t = pd at hx
        rw [hpx] at hw
        cases hx with
        | absent => rfl
        | idle => rfl
        | alloc => exact absurd ⟨_, rfl, by simp⟩ hw
        | resize => exact absurd ⟨_, rfl, by simp⟩ hw
        | chain => exact absurd ⟨_, rfl, by simp⟩ hw
      refine .inr (.inr ⟨_, _, hp, ⟨fun b x hx hb _ _ => hframe b x hx hb, ?_, fun _ => hq, fun hne => absurd rfl (hne _), fun j x hx => hkp j x hx.right, fun j x hx _ _ => hkp j x hx⟩, ?_⟩)
      · rintro _ _ _ _ _ (⟨i, h1⟩ | ⟨t', ch', ob, h1, h2⟩)
        · cases h1
        · injection h1 with h1; injection h1 with h1 _; subst h1
          rw [hpb] at h2; cases h2
      · intro K' hK
        cases hK with
        | back hb => rw [hpb] at hb; cases hb
        | direct hS _ =>
          cases hS with
          | ret hb =>
            have hbK : KS.busy t = _ := (h.busyD hpb).symm.trans hb
            refine ⟨_, cs, pend, h.direct hpb ⟨h0, _, hr.snoc .go he (.ret hbK)⟩ hfr
              (fun u hu => ⟨put_ne _ _ hu, put_ne _ _ hu⟩) (by dsimp only; rw [put_same, put_same]) ?_ (fun u hu => h.snap u fun he => hu (by
                by_cases hut : u = t
                · subst hut; exact put_same _ _ _
                · exact (put_ne _ _ hut).trans he)), ?_,
              .inl ⟨t, rfl, .same (fun u hu => put_ne _ _ hu) fun c b hb => by (dsimp only at hb; rw [put_same] at hb; cases hb)⟩⟩
            rotate_left
            · intro j
              by_cases hj : j = t
              · subst hj
                rw [PS.chunksAfter_ret he]
                cases hpx : ps.px j with
                | none => cases r <;> rfl
                | some p =>
                  have hpc : p.pc = .idle := Classical.byContradiction fun hne => hw ⟨p, hpx, hne⟩
                  simp only [Option.map_some, hpc]
              · exact (PS.chunksAfter_ne hj).symm
            intro X hX
            dsimp only
            rw [List.append_assoc]
            exact hX.append_left _

theorem PInv.step {p0 ps K KS cs pend} (h : PInv p0 ps K KS cs pend) {a : PAct} (hl : PLegal K a) : PGood p0 ps K KS cs pend a := by
  cases hl with
  | call hl hp => exact h.call hl hp
  | go => exact h.go
  | write hl => cases hl with
    | write hb hx => exact h.write hx (.inl hb)
  | pwrite hb hx => exact h.write hx (.inr ⟨_, hb⟩)
  | sreset ha hl hn => exact h.sreset ha hl hn
  | spawn hl => exact h.spawn hl
  | allocate hr hl => exact h.allocate hr hl
  | resize hr hb hf hl => exact h.resize hr hb hf hl
  | deallocate hr hb hf => exact h.deallocate hr hb hf
  | reset hr => exact h.reset hr
  | resetUnchecked hr => exact h.resetUnchecked hr
  | drop hr => exact h.drop hr
  | updateMax hv => exact h.updateMax hv
  | sync => exact h.syncs

theorem PRun.inv {p0 ps K tr} (h0 : PStart p0) (h : PRun p0 PBook.empty tr ps K) : ∃ KS cs pend, PInv p0 ps K KS cs pend := by
  induction h with
  | nil => exact ⟨_, _, _, h0.inv⟩
  | snoc h hl hs ha ih =>
    obtain ⟨KS, cs, pend, hi⟩ := ih
    rcases hi.step hl with ⟨e, _, he⟩ | he | ⟨r, ps', he, _, hK⟩
    · rw [he] at hs; cases hs
    · rw [he] at hs; cases hs
    · rw [he] at hs
      injection hs with hs; injection hs with hs; injection hs with h1 h2
      subst h1; subst h2
      obtain ⟨KS', cs', pend', hi', _⟩ := hK _ ha
      exact ⟨KS', cs', pend', hi'⟩

theorem PReach.inv {p0 ps K} (h : PReach p0 ps K) : ∃ KS cs pend, PInv p0 ps K KS cs pend := by
  obtain ⟨h0, tr, hr⟩ := h
  exact hr.inv h0

theorem PReach.eff {p0 ps K a r ps'} (h : PReach p0 ps K) (hl : PLegal K a) (hs : pstep ps a = .ok (some (r, ps'))) :
    ∃ KS cs pend, PInv p0 ps K KS cs pend ∧ PEff ps K cs pend a r ps' := by
  obtain ⟨KS, cs, pend, hi⟩ := h.inv
  rcases hi.step hl with ⟨e, _, he⟩ | he | ⟨r', ps1, he, hE, _⟩
  · rw [he] at hs; cases hs
  · rw [he] at hs; cases hs
  · rw [he] at hs
    injection hs with hs; injection hs with hs; injection hs with h1 h2
    subst h1; subst h2
    exact ⟨KS, cs, pend, hi, hE⟩

end Blink
