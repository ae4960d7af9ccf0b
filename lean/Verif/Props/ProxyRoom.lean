import Verif.Props.Proxy
import Verif.Props.Growth
/-
  C69: a proxy serves requests from its own chunk while there is room, asks the shared allocator only when there is none, and
  fails only if the shared allocator does. Resetting a proxy makes the whole newest chunk available again.
  `PS.room` reads the unused part of the newest chunk of a proxy from the chunk's header.
-/
namespace Blink

/-- The unused part `[pos, end)` of the newest chunk of proxy `i`, as recorded in the chunk's header. -/
def PS.room (ps : PS) (i : Nat) : Option (Nat × Nat) :=
  match ps.px i with
  | none => none
  | some p => St.room ⟨ps.s.w, p.a⟩

/-- The layout fits into the unused part of the newest chunk of proxy `i`. -/
def PS.Fits (ps : PS) (i : Nat) (l : Layout) : Prop :=
  ∃ pos e q, ps.room i = some (pos, e) ∧ pos ≤ q ∧ q % l.align = 0 ∧ q + l.size ≤ e

/-- The `cumulative_size` recorded in the header of the newest chunk of proxy `i`, 0 if it has none. -/
def PS.recorded (ps : PS) (i : Nat) : Nat :=
  match ps.px i with
  | none => 0
  | some p => if p.a.root = 0 then 0 else (decodeWord ps.s.w.mem (p.a.root + 24)).getD 0

theorem VInv.room {w : World} {cs m} (h : VInv w cs) :
    St.room ⟨w, ⟨rootOf cs, m⟩⟩ = cs.head?.map (fun c => (c.cursor, c.end_)) := by
  unfold St.room
  cases cs with
  | nil => rfl
  | cons c t =>
    have hne : rootOf (c :: t) ≠ 0 := by rw [Ne, rootOf_eq_zero h.ok]; simp
    rw [if_neg hne]
    have h1 : HdrAt w.mem c (rootOf t) := h.rep.1
    simp only [rootOf, decodeWord_of h1.1, decodeWord_of h1.2.1, List.head?_cons, Option.map_some]

theorem PS.room_of {ps : PS} {i cs m pc} (hp : ps.px i = some ⟨⟨rootOf cs, m⟩, pc⟩) (h : VInv ps.s.w cs) :
    ps.room i = cs.head?.map (fun c => (c.cursor, c.end_)) := by
  unfold PS.room
  rw [hp]
  exact h.room

theorem PS.recorded_of {ps : PS} {i cs m pc} (hp : ps.px i = some ⟨⟨rootOf cs, m⟩, pc⟩) (h : VInv ps.s.w cs) :
    ps.recorded i = (rootCum cs).getD 0 := by
  unfold PS.recorded
  rw [hp]
  cases cs with
  | nil => rfl
  | cons c t =>
    have hne : rootOf (c :: t) ≠ 0 := by rw [Ne, rootOf_eq_zero h.ok]; simp
    have h1 : HdrAt ps.s.w.mem c (rootOf t) := h.rep.1
    simp only [if_neg hne]
    simp only [rootOf, decodeWord_of h1.2.2.2, rootCum, List.head?_cons, Option.map_some, Option.getD_some]

/-- What `PReach` says about a proxy that is ready. -/
theorem PReach.ready {p0 ps K} (h : PReach p0 ps K) {i} (hr : K.Ready i) :
    ∃ KS cs pend m, PInv p0 ps K KS cs pend ∧ ps.px i = some ⟨⟨rootOf (cs i), m⟩, .idle⟩ ∧ VInv ps.s.w (cs i) ∧ LOK (cs i) (K.led i) ∧
      m ≤ HUGE ∧ ps.s.pcs i = .idle := by
  obtain ⟨KS, cs, pend, hi⟩ := h.inv
  obtain ⟨r1, r2, r3⟩ := hr
  have hpx := hi.px i
  rw [r1, r2] at hpx
  obtain ⟨m, hpx', hv, hL, hm, hbusy, hpend⟩ := hpx.ready
  rw [r3] at hbusy
  exact ⟨KS, cs, pend, m, hi, hpx', hv, hL, hm, hi.reach.busy_none hbusy.symm⟩

theorem fits_bump {w : World} {c : Chunk} {t q} {l : Layout} (hv : VInv w (c :: t)) (ht : w.top ≤ HUGE) (hl : l.Modest)
    (h1 : c.cursor ≤ q) (h2 : q % l.align = 0) (h3 : q + l.size ≤ c.end_) : bump c.cursor c.end_ l = some (roundUp c.cursor l.align) := by
  refine bump_of_fit hl.1 h1 h2 h3 ?_
  have hc := hv.ok c List.mem_cons_self
  have := hc.hi; have := hc.lo
  have h5 := hv.held.rng c.blk (by simp [VW])
  have : (VW w (c :: t)).top = w.top := rfl
  have h6 := hl.2
  simp only [Chunk.blk] at h5
  simp only [HUGE] at *
  omega

/-- C69: while the newest chunk of a proxy has room for the layout, `allocate` succeeds at once: it takes the first aligned address
of the room, and nothing happens at the shared allocator nor at the underlying one. -/
theorem C69_room {p0 ps : PS} {K : PBook} (h : PReach p0 ps K) {i : Nat} {l : Layout} (hl : PLegal K (.allocate i l)) {pos e q : Nat}
    (hroom : ps.room i = some (pos, e)) (h1 : pos ≤ q) (h2 : q % l.align = 0) (h3 : q + l.size ≤ e) :
    ∃ b ps', pstep ps (.allocate i l) = .ok (some (some (.block b), ps')) ∧ pos ≤ b.addr ∧ b.addr ≤ q ∧ b.addr % l.align = 0 ∧
      b.len = l.size ∧ ps'.room i = some (b.addr + l.size, e) ∧ ps'.px = ps.px ∧ ps'.s.pcs = ps.s.pcs ∧ ps'.s.w.log = ps.s.w.log ∧
      ps'.hist = ps.hist := by
  cases hl with
  | allocate hrdy hmod =>
  obtain ⟨KS, cs, pend, m, hi, hp, hv, hL, hm, hidle⟩ := h.ready hrdy
  rw [PS.room_of hp hv] at hroom
  have hacc := hi.acc_left i
  generalize cs i = csi at *
  cases csi with
  | nil => cases hroom
  | cons c t =>
    simp only [List.head?_cons, Option.map_some, Option.some.injEq, Prod.mk.injEq] at hroom
    obtain ⟨rfl, rfl⟩ := hroom
    have hb := fits_bump hv hi.top hmod h1 h2 h3
    rcases allocFast_core hv hacc hmod.1 (m := m) with ⟨s, w', cs', he, hres, hA, ht, hown, hroot, hmem⟩ | ⟨_, hno⟩
    · cases hres with
      | slow hnf => rw [hnf c t rfl] at hb; cases hb
      | fast c' t' a hcs hb' =>
        injection hcs with e1 e2
        subst e1; subst e2
        have hf := bump_facts hmod.1 hb'
        refine ⟨⟨a, l.size⟩, { ps with s := { ps.s with w := { ps.s.w with mem := (setCursor (VW ps.s.w (c :: t)) c (a + l.size)).mem } } }.setPx i
          (some ⟨⟨rootOf (c :: t), m⟩, .idle⟩),
          by simp only [pstep, hp]; rw [ebind_ok he]; rfl, hf.1, bump_le hmod.1 hb' h1 h2, hf.2.2.1, rfl, ?_, ?_, rfl, rfl, rfl⟩
        · have := PS.room_of (ps := { ps with s := { ps.s with w := { ps.s.w with mem := (setCursor (VW ps.s.w (c :: t)) c (a + l.size)).mem } } }.setPx i (some ⟨⟨rootOf (c :: t), m⟩, .idle⟩))
            (i := i) (cs := { c with cursor := a + l.size } :: t) (m := m) (pc := .idle) (PS.setPx_same _ _ _) (VInv.of hA rfl ht)
          exact this
        · funext u
          by_cases hu : u = i
          · subst hu; rw [PS.setPx_same]; exact hp.symm
          · exact PS.setPx_ne _ _ hu
    · rw [hno c t rfl] at hb; cases hb

theorem not_fits_noFit {ps : PS} {i cs m pc} {l : Layout} (hp : ps.px i = some ⟨⟨rootOf cs, m⟩, pc⟩) (hv : VInv ps.s.w cs)
    (hl : l.Valid) (hno : ¬ ps.Fits i l) : NoFit cs l := by
  intro c t hcs
  subst hcs
  cases hb : bump c.cursor c.end_ l with
  | none => rfl
  | some a =>
    have hf := bump_facts hl hb
    exact absurd ⟨c.cursor, c.end_, a, PS.room_of hp hv, hf.1, hf.2.2.1, hf.2.2.2⟩ hno

/-- The size of a chunk request of a proxy with chunks `cs`. -/
theorem req_exists {w : World} {cs m} {l : Layout} (hv : VInv w cs) (ht : w.top ≤ HUGE) (hm : m ≤ HUGE) (hl : l.Modest) :
    ∃ R, chunkReq (rootCum cs) m l = some R := by
  cases hR : chunkReq (rootCum cs) m l with
  | some R => exact ⟨R, rfl⟩
  | none =>
    exfalso
    have h1 := chunkReq_none hR
    have h7 : ∀ c, rootCum cs = some c → c ≤ HUGE := by
      intro c hc
      cases cs with
      | nil => cases hc
      | cons d t =>
        injection hc with hc
        have h8 := sum_cap_lt hv.tail
        have h9 := hv.cum.1
        have : (VW w t).top = w.top := rfl
        omega
    have h10 : need (rootCum cs) m l ≤ HUGE + HUGE + 128 := by
      have := hl.2
      unfold need
      cases hc : rootCum cs with
      | none => simp only; split <;> omega
      | some c =>
        have := h7 c hc
        simp only; split <;> omega
    simp only [HUGE] at *
    omega

theorem need_recorded {cs : List Chunk} {m : Nat} {l : Layout} :
    need (rootCum cs) m l ≤ max m ((rootCum cs).getD 0) + max l.size 64 + l.align + 32 ∧ l.size + 32 ≤ need (rootCum cs) m l := by
  unfold need
  cases rootCum cs with
  | none => simp only [Option.getD_none]; split <;> omega
  | some c => simp only [Option.getD_some]; split <;> omega

/-- C69: if the layout does not fit into the newest chunk of the proxy, `allocate` asks the shared allocator for one block, large
enough for the layout and not much larger than what the proxy had before and the layout together. It does not fail without
asking. -/
theorem C69_no_room {p0 ps : PS} {K : PBook} (h : PReach p0 ps K) {i : Nat} {l : Layout} (hl : PLegal K (.allocate i l))
    (hno : ¬ ps.Fits i l) {p : Proxy} (hp : ps.px i = some p) :
    ∃ R ps', pstep ps (.allocate i l) = .ok (some (none, ps')) ∧ ps'.s.pcs i = .rd (.allocate ⟨R, 8⟩) ∧ l.size + 32 ≤ R ∧
      R < max p.a.minChunk (ps.recorded i) + max l.size 64 + l.align + 32 + 16392 ∧ ps'.s.w = ps.s.w ∧ ps'.room i = ps.room i ∧
      ps'.hist = ps.hist := by
  cases hl with
  | allocate hrdy hmod =>
  obtain ⟨KS, cs, pend, m, hi, hp', hv, hL, hm, hidle⟩ := h.ready hrdy
  rw [hp'] at hp
  injection hp with hp
  subst hp
  have hacc := hi.acc_left i
  have hnf := not_fits_noFit hp' hv hmod.1 hno
  obtain ⟨R, hR⟩ := req_exists hv hi.top hm hmod
  have hreq := chunkRequest_core hv hacc (needBound hv hi.top hm hmod) fun R hR => reqBound hv hi.top hm hmod hR
  rcases allocFast_core hv hacc hmod.1 (m := m) with ⟨s, w', cs', he, hres, hA, ht, hown, hroot, hmem⟩ | ⟨he, _⟩
  · exfalso
    cases hres with
    | slow hnf' hsl =>
      cases hsl with
      | ok => simp at hown
    | fast c t a hcs hb => rw [hnf c t hcs] at hb; cases hb
  · have h1 := (chunkReq_facts hR).1
    have h2 := (req_tight hR).1
    have h3 := need_recorded (cs := cs i) (m := m) (l := l)
    refine ⟨R, { ps with s := { ps.s with w := ps.s.w }.setPc i (.rd (.allocate ⟨R, 8⟩)) }.setPx i (some ⟨⟨rootOf (cs i), m⟩, .alloc l⟩),
      ?_, SS.setPc_same _ _ _, by omega, ?_, rfl, ?_, rfl⟩
    · simp only [pstep, hp']
      rw [ebind_ok he]
      simp only
      rw [ebind_ok hreq, hR]
      simp only [PS.ask]
      rw [if_pos hidle]; rfl
    · rw [PS.recorded_of hp' hv]
      simp only
      omega
    · rw [PS.room_of hp' hv]
      exact PS.room_of (pc := .alloc l) (PS.setPx_same _ _ _) hv

/-- The layout of the block that a call of a proxy is to return. -/
def PCall.wants : PCall → Option Layout
  | .allocate l => some l
  | .resize _ _ new => some new
  | .resetUnchecked => none

theorem AllocRes.newOne {V w' : World} {cs m l s c} (hr : AllocRes V cs m l (some s) w' (c :: cs)) :
    s = ⟨roundUp (c.start + 32) l.align, l.size⟩ ∧ c.cursor = roundUp (c.start + 32) l.align + l.size ∧
      bump (c.start + 32) c.end_ l = some s.addr := by
  generalize hds : c :: cs = ds at hr
  generalize ho : some s = o at hr
  cases hr with
  | fast c' t a hcs hb =>
    have h1 := congrArg List.length hds
    have h2 := congrArg List.length hcs
    simp only [List.length_cons] at h1 h2
    omega
  | slow hb hsl =>
    cases hsl with
    | tooBig => cases ho
    | refused => cases ho
    | ok R sl m' h _ hf hb hm hu =>
      injection hds with e1 e2
      injection ho with ho
      subst ho; subst e1
      exact ⟨rfl, rfl, hb⟩

/-- C69: a proxy waiting for memory gives its caller exactly what the shared allocator gave: a failure if that failed (and then the
proxy is as before), else the first aligned address behind the header of the new chunk, whose rest becomes the proxy's room (in a
debug build, if the chunk is longer than the header, see `C69_empty_chunk`). -/
theorem C69_answer {p0 ps : PS} {K : PBook} (h : PReach p0 ps K) {i : Nat} {c : PCall} {ob : Option Owned} {l : Layout}
    (hb : K.pbusy i = some (c, ob)) (hw : c.wants = some l) {ch : Choice} {rs : Resp} {s' : SS}
    (hs : sstep ps.s (.go i ch) = .ok (some (some rs, s'))) :
    ((∀ sl, rs ≠ .block sl) → ∃ ps', pstep ps (.shared (.go i ch)) = .ok (some (some .err, ps')) ∧ ps'.room i = ps.room i ∧
      ps'.s.w = ps.s.w ∧ ps'.hist = ps.hist) ∧
    ∀ sl, rs = .block sl → (ps.s.w.debug = true → 32 < sl.len) →
      ∃ b ps', pstep ps (.shared (.go i ch)) = .ok (some (some (.block b), ps')) ∧ sl.addr + 32 ≤ b.addr ∧
      b.addr < sl.addr + 32 + l.align ∧ b.addr % l.align = 0 ∧ b.len = l.size ∧ b.addr + l.size ≤ sl.addr + sl.len ∧
      ps'.room i = some (b.addr + l.size, sl.addr + sl.len) ∧ ps'.hist = ps.hist := by
  obtain ⟨KS, cs, pend, hi⟩ := h.inv
  obtain ⟨e1, e2, _⟩ := hi.reach.ret_w hs
  have hx := hi.px i
  generalize hkb : KS.busy i = kb at hx
  generalize hdb : K.direct.busy i = db at hx
  generalize hlv : K.live i = lv at hx
  generalize hld : K.led i = ld at hx
  generalize hpd : pend i = pd at hx
  generalize hcs : cs i = csi at hx
  generalize hpx : ps.px i = px at hx
  rw [hb] at hx
  cases hx with
  | chain => cases hw
  | @alloc _ m _ l' R hv hL hm hl hn hR =>
    injection hw with hw
    subst hw; subst hcs
    have hgo := pstep_go_wait hs hpx (by simp)
    refine ⟨?_, ?_⟩
    · intro hne
      have he : PS.resume { ps with s := s' } i ⟨rootOf (cs i), m⟩ rs (.alloc l') =
          PS.answer { ps with s := s' } i ⟨rootOf (cs i), m⟩ s'.w .err := by
        cases rs with
        | block b => exact absurd rfl (hne b)
        | unit => rfl
        | err => rfl
      refine ⟨_, hgo.trans (he.trans rfl), ?_, e1, rfl⟩
      rw [PS.room_of hpx hv]
      exact PS.room_of (pc := .idle) (PS.setPx_same _ _ _) (show VInv s'.w _ by rw [e1]; exact hv)
    · rintro sl rfl hz
      obtain ⟨V, w', s, d, g1, g2, g3, g4, g5, g6, g7, g8, g9, g10, g12, key⟩ := hi.newChunk hkb hs hv hm hl hn hR hpd hz
      rw [← e1] at g5
      obtain ⟨k1, k2, k3⟩ := g3.newOne
      have hf := bump_facts hl.1 k3
      refine ⟨s, _, hgo.trans (by simp only [PS.resume]; rw [ebind_ok g5]; rfl), ?_⟩
      subst k1
      simp only [g9, g10] at hf ⊢
      refine ⟨hf.1, hf.2.1, hf.2.2.1, trivial, hf.2.2.2, ?_, rfl⟩
      rw [PS.room_of (cs := d :: cs i) (m := m) (pc := .idle) (by rw [PS.setPx_same, ← g9]; rfl) (VInv.of g4 rfl (g6.trans (by rw [← e1]; rfl)))]
      simp only [List.head?_cons, Option.map_some, k2, g9, g10]
  | @resize _ m _ p old new b R hv hL hm hl hf hn hR =>
    injection hw with hw
    subst hw; subst hcs
    have hgo := pstep_go_wait hs hpx (by simp)
    refine ⟨?_, ?_⟩
    · intro hne
      have he : PS.resume { ps with s := s' } i ⟨rootOf (cs i), m⟩ rs (.resize p old new) =
          PS.answer { ps with s := s' } i ⟨rootOf (cs i), m⟩ s'.w .err := by
        cases rs with
        | block b => exact absurd rfl (hne b)
        | unit => rfl
        | err => rfl
      refine ⟨_, hgo.trans (he.trans rfl), ?_, e1, rfl⟩
      rw [PS.room_of hpx hv]
      exact PS.room_of (pc := .idle) (PS.setPx_same _ _ _) (show VInv s'.w _ by rw [e1]; exact hv)
    · rintro sl rfl hz
      obtain ⟨V, w', s, d, g1, g2, g3, g4, g5, g6, g7, g8, g9, g10, g12, key⟩ := hi.newChunk hkb hs hv hm hl hn.2.2 hR hpd hz
      obtain ⟨b1, b2, b3, b4⟩ := hL.each b List.mem_cons_self
      obtain ⟨f1, f2, f3, f4⟩ := hf
      have hu : InUsed (cs i) p old.size := by
        rw [← f1]
        exact b4.sub (by omega) (by omega)
      obtain ⟨c1, c2⟩ := copy_spec g2 hl.1 hu g3 g4
      have c3 := ((Lift.copyNonoverlapping p s.addr (min new.size old.size)).run (w := { ps.s.w with mem := w'.mem }) c1 rfl g7 g8).1
      rw [← e1] at g5 c3
      obtain ⟨k1, k2, k3⟩ := g3.newOne
      have hf := bump_facts hl.1 k3
      refine ⟨s, _, hgo.trans (by
        simp only [PS.resume]; rw [ebind_ok g5]
        simp only
        show (copyNonoverlapping p s.addr (min new.size old.size) { s'.w with mem := w'.mem } >>= _) = _
        rw [ebind_ok c3]; rfl), ?_⟩
      have hroom := PS.room_of (ps := PS.setPx { ps with s := { s' with w := { s'.w with mem := _ } } } i (some ⟨⟨sl.addr, m⟩, .idle⟩)) (i := i)
        (cs := d :: cs i) (m := m) (pc := .idle) (by rw [PS.setPx_same, ← g9]; rfl) (VInv.of c2 rfl (g6.trans (by rw [← e1]; rfl)))
      subst k1
      simp only [g9, g10] at hf ⊢
      refine ⟨hf.1, hf.2.1, hf.2.2.1, trivial, hf.2.2.2, ?_, rfl⟩
      simp only [g9] at hroom
      refine hroom.trans ?_
      simp only [List.head?_cons, Option.map_some, k2, g9, g10]

/-- C69: in a debug build a chunk no longer than the header fails an assertion instead. That happens only to a proxy without chunks
that started with chunk size 0 and was asked for zero bytes. -/
theorem C69_empty_chunk {p0 ps : PS} {K : PBook} (h : PReach p0 ps K) {i : Nat} {c : PCall} {ob : Option Owned} {l : Layout}
    (hb : K.pbusy i = some (c, ob)) (hw : c.wants = some l) {ch : Choice} {sl : Slice} {s' : SS}
    (hs : sstep ps.s (.go i ch) = .ok (some (some (.block sl), s'))) (hd : ps.s.w.debug = true) (hz : sl.len ≤ 32) :
    ∃ e, pstep ps (.shared (.go i ch)) = .error e ∧ ps.EmptyChunk (.shared (.go i ch)) e := by
  obtain ⟨KS, cs, pend, hi⟩ := h.inv
  obtain ⟨e1, _, _⟩ := hi.reach.ret_w hs
  have hx := hi.px i
  generalize hkb : KS.busy i = kb at hx
  generalize hdb : K.direct.busy i = db at hx
  generalize hlv : K.live i = lv at hx
  generalize hld : K.led i = ld at hx
  generalize hpd : pend i = pd at hx
  generalize hcs : cs i = csi at hx
  generalize hpx : ps.px i = px at hx
  rw [hb] at hx
  cases hx with
  | chain => cases hw
  | @alloc _ m _ l' R hv hL hm hl hn hR =>
    subst hcs
    obtain ⟨f1, f2, f3, f4, f5⟩ := hi.noRoomChunk hkb hs hR hd (by omega)
    refine ⟨_, ?_, hd, rfl, i, ch, l', rfl, ?_, f3, f4⟩
    · rw [pstep_go_wait hs hpx (by simp)]
      simp only [PS.resume]
      exact ebind_err (by rw [show s'.w = ps.s.w from e1]; exact f5)
    · rw [hpx, f1, f2]; rfl
  | @resize _ m _ p old new b R hv hL hm hl hf hn hR =>
    subst hcs
    obtain ⟨f1, _⟩ := hi.noRoomChunk hkb hs hR hd (by omega)
    obtain ⟨_, _, _, d, hd', _⟩ := hL.each b List.mem_cons_self
    rw [f1] at hd'; cases hd'

/-- C69: resetting a proxy always works, keeps its newest chunk and makes all of it available again. The shared allocator is not
called. -/
theorem C69_reset {p0 ps : PS} {K : PBook} (h : PReach p0 ps K) {i : Nat} (hl : PLegal K (.reset i)) {p : Proxy}
    (hp : ps.px i = some p) :
    ∃ ps', pstep ps (.reset i) = .ok (some (some .unit, ps')) ∧ ps'.px i = some p ∧ ps'.s.pcs = ps.s.pcs ∧
      ps'.room i = (ps.room i).map (fun x => (p.a.root + 32, x.2)) ∧ (0 < p.a.root → (ps.room i).isSome = true) := by
  cases hl with
  | reset hrdy =>
  obtain ⟨KS, cs, pend, m, hi, hp', hv, hL, hm, hidle⟩ := h.ready hrdy
  rw [hp'] at hp
  injection hp with hp
  subst hp
  have hacc := hi.acc_left i
  rw [PS.room_of hp' hv]
  simp only [pstep, hp']
  rw [ebind_ok (lastChunkSize_core hv hacc)]
  simp only
  generalize cs i = csi at *
  cases csi with
  | nil =>
    have : arenaResetLeak (rootOf []) true ps.s.w = .ok (rootOf [], ps.s.w) := rfl
    rw [ebind_ok this]
    refine ⟨_, rfl, PS.setPx_same _ _ _, rfl, ?_, fun h => absurd h (Nat.lt_irrefl _)⟩
    exact PS.room_of (pc := .idle) (cs := []) (PS.setPx_same _ _ _) (show VInv ps.s.w [] from hv)
  | cons c t =>
    obtain ⟨m', he, hv1, hv2, hmem⟩ := chunkReset_core hv hacc
    have hne : rootOf (c :: t) ≠ 0 := by rw [Ne, rootOf_eq_zero hv.ok]; simp
    have : arenaResetLeak (rootOf (c :: t)) true ps.s.w = .ok (c.start, { ps.s.w with mem := m' }) := by
      unfold arenaResetLeak
      rw [if_pos rfl, if_neg hne]
      exact bind_ok he
    rw [ebind_ok this]
    refine ⟨_, rfl, PS.setPx_same _ _ _, rfl, ?_, fun _ => rfl⟩
    exact Eq.trans (PS.room_of (pc := .idle) (cs := [c.rewind]) (m := m) (by exact PS.setPx_same _ _ _) (by exact hv1)) rfl

/-- C69: `reset_unchecked` of a proxy rewinds its newest chunk in the same way, before it gives the others back. -/
theorem C69_reset_unchecked {p0 ps : PS} {K : PBook} (h : PReach p0 ps K) {i : Nat} (hl : PLegal K (.resetUnchecked i)) {p : Proxy}
    (hp : ps.px i = some p) :
    ∃ r ps' p', pstep ps (.resetUnchecked i) = .ok (some (r, ps')) ∧ (r = none ∨ r = some .unit) ∧ ps'.px i = some p' ∧ p'.a = p.a ∧
      ps'.room i = (ps.room i).map (fun x => (p.a.root + 32, x.2)) := by
  cases hl with
  | resetUnchecked hrdy =>
  obtain ⟨KS, cs, pend, m, hi, hp', hv, hL, hm, hidle⟩ := h.ready hrdy
  rw [hp'] at hp
  injection hp with hp
  subst hp
  have hacc := hi.acc_left i
  rw [PS.room_of hp' hv]
  simp only [pstep, hp']
  generalize cs i = csi at *
  cases csi with
  | nil =>
    rw [if_pos (show rootOf [] = 0 from rfl)]
    refine ⟨_, _, _, rfl, .inr rfl, PS.setPx_same _ _ _, rfl, ?_⟩
    exact PS.room_of (pc := .idle) (cs := []) (PS.setPx_same _ _ _) (show VInv ps.s.w [] from hv)
  | cons c t =>
    obtain ⟨m', he, hv1, hv2, hmem⟩ := chunkReset_core hv hacc
    have hne : rootOf (c :: t) ≠ 0 := by rw [Ne, rootOf_eq_zero hv.ok]; simp
    rw [if_neg hne]
    show ∃ r ps' p', (chunkReset c.start ps.s.w >>= _) = _ ∧ _
    rw [ebind_ok he]
    simp only
    rw [freeNext_eq hv2 hacc.cons]
    cases t with
    | nil =>
      refine ⟨_, _, _, rfl, .inr rfl, PS.setPx_same _ _ _, rfl, ?_⟩
      exact Eq.trans (PS.room_of (pc := .idle) (cs := [c.rewind]) (m := m) (by exact PS.setPx_same _ _ _) (by exact hv1)) rfl
    | cons d t =>
      refine ⟨_, _, _, if_pos hidle, .inl rfl, PS.setPx_same _ _ _, rfl, ?_⟩
      exact Eq.trans (PS.room_of (pc := .chain (rootOf t)) (cs := [c.rewind]) (m := m) (by exact PS.setPx_same _ _ _) (by exact hv1)) rfl

/-- C69: while `reset_unchecked` gives the older chunks back, the proxy's newest chunk stays rewound; when it returns, all of the
newest chunk is available. -/
theorem C69_reset_unchecked_rest {p0 ps ps' : PS} {K : PBook} (h : PReach p0 ps K) {i : Nat} {ob : Option Owned}
    (hb : K.pbusy i = some (.resetUnchecked, ob)) {p : Proxy} (hp : ps.px i = some p) :
    (∃ e, ps.room i = some (p.a.root + 32, e)) ∧ ∀ {ch r}, pstep ps (.shared (.go i ch)) = .ok (some (r, ps')) →
      (r = none ∨ r = some .unit) ∧ ps'.room i = ps.room i ∧ ∃ p', ps'.px i = some p' ∧ p'.a = p.a := by
  obtain ⟨KS, cs, pend, hi⟩ := h.inv
  have hx := hi.px i
  generalize hkb : KS.busy i = kb at hx
  generalize hdb : K.direct.busy i = db at hx
  generalize hlv : K.live i = lv at hx
  generalize hld : K.led i = ld at hx
  generalize hpd : pend i = pd at hx
  generalize hcs : cs i = csi at hx
  rw [hb, hp] at hx
  cases hx with
  | @chain c m _ q n b hv hP hm hcur =>
  have hroom := PS.room_of (cs := [c]) hp hv
  refine ⟨?_, ?_⟩
  · refine ⟨c.end_, hroom.trans ?_⟩
    simp only [List.head?_cons, Option.map_some, hcur]
  · intro ch r hs
    have hmem : ∀ (w : World), w.top = ps.s.w.top → (∀ x, InCs (cs i) x → w.mem x = ps.s.w.mem x) → VInv w [c] := by
      intro w ht hw
      refine hv.frame ht fun d hd x h1 h2 => hw x ⟨d, by rw [hcs]; exact hd, h1, h2⟩
    have hfin : ∀ {ps2 : PS} {pc}, ps2.s.w.top = ps.s.w.top → (∀ x, InCs (cs i) x → ps2.s.w.mem x = ps.s.w.mem x) →
        ps2.px i = some ⟨⟨c.start, m⟩, pc⟩ → ps2.room i = ps.room i ∧ ∃ p', ps2.px i = some p' ∧ p'.a = ⟨c.start, m⟩ := by
      intro ps2 pc h1 h2 h3
      exact ⟨(PS.room_of (cs := [c]) h3 (hmem _ h1 h2)).trans hroom.symm, _, h3, rfl⟩
    obtain ⟨cs0, B0, hi0⟩ := hi.reach.inv
    rcases hi0.step (.go (t := i) (ch := ch)) with ⟨e, hbad, he⟩ | he | ⟨rs, s', cs', he, -⟩
    · simp only [pstep] at hs; rw [ebind_err he] at hs; cases hs
    · simp only [pstep] at hs; rw [ebind_ok he] at hs; cases hs
    · cases rs with
      | none =>
        simp only [pstep] at hs
        rw [ebind_ok he] at hs
        injection hs with hs; injection hs with hs; injection hs with h1 h2
        subst h1; subst h2
        have ht : s'.w.top = ps.s.w.top := by
          obtain ⟨h0, tr, hr⟩ := hi.reach
          exact (SReach.top ⟨h0, _, hr.snoc .go he .inside⟩).trans (SReach.top ⟨h0, _, hr⟩).symm
        refine ⟨.inl rfl, hfin (ps2 := { ps with s := s' }) ht ?_ hp⟩
        intro x hx
        obtain ⟨o, ho, hox⟩ := hi.inCs (i := i) hx.left
        exact C23_frame hi.reach .go he (hi.tiles.mem (i := i) ho) hox (by simp) (by simp)
      | some rs =>
        obtain ⟨e1, e2, _⟩ := hi.reach.ret_w he
        rw [pstep_go_wait he hp (by simp)] at hs
        simp only [PS.resume] at hs
        have hacc : Acc ps.s.w pd := fun d hd => hi.acc i d (by rw [hcs, hpd]; exact List.mem_append_right _ hd)
        rw [freeNext_eq (ps := { ps with s := s' }) (w := s'.w) (P := pd) (by rw [e1]; exact hP) (by rw [e1]; exact hacc)] at hs
        cases pd with
        | nil =>
          injection hs with hs; injection hs with hs; injection hs with h1 h2
          subst h1; subst h2
          exact ⟨.inr rfl, hfin (by show s'.w.top = _; rw [e1]) (fun x _ => by show s'.w.mem x = _; rw [e1]) (PS.setPx_same _ _ _)⟩
        | cons d t =>
          simp only [PS.ask] at hs
          rw [if_pos e2] at hs
          injection hs with hs; injection hs with hs; injection hs with h1 h2
          subst h1; subst h2
          exact ⟨.inl rfl, hfin (by show s'.w.top = _; rw [e1]) (fun x _ => by show s'.w.mem x = _; rw [e1]) (PS.setPx_same _ _ _)⟩

theorem PS.setPx_self {ps ps1 : PS} {i : Nat} {q : Proxy} (h : ps.px i = some q) (h1 : ps1.px = ps.px) : (ps1.setPx i (some q)).px = ps.px := by
  funext u
  by_cases hu : u = i
  · subst hu; rw [PS.setPx_same]; exact h.symm
  · rw [PS.setPx_ne _ _ hu, h1]

theorem resize_used {K : PBook} {i p : Nat} {old new : Layout} {cs : List Chunk} (hL : LOK cs (K.led i))
    (hl : PLegal K (.resize i p old new)) : K.Ready i ∧ new.Modest ∧ InUsed cs p old.size := by
  cases hl with
  | resize hrdy hb hf hmod =>
    obtain ⟨f1, f2, f3, f4⟩ := hf
    exact ⟨hrdy, hmod, (hL.each _ hb).2.2.2.sub (by omega) (by omega)⟩

theorem PLegal.resize_ready {K : PBook} {i p : Nat} {old new : Layout} (hl : PLegal K (.resize i p old new)) : K.Ready i := by
  cases hl; assumption

/-- C69: making a block of a proxy smaller, with an alignment that is not larger, leaves it in place and changes nothing. -/
theorem C69_shrink {p0 ps : PS} {K : PBook} (h : PReach p0 ps K) {i p : Nat} {old new : Layout} (hl : PLegal K (.resize i p old new))
    (hs : new.size ≤ old.size) (ha : new.align ≤ old.align) :
    ∃ ps', pstep ps (.resize i p old new) = .ok (some (some (.block ⟨p, old.size⟩), ps')) ∧ ps'.s = ps.s ∧ ps'.px = ps.px ∧
      ps'.hist = ps.hist := by
  obtain ⟨KS, cs, pend, m, hi, hp, hv, hL, hm, hidle⟩ := h.ready hl.resize_ready
  obtain ⟨_, hmod, hu⟩ := resize_used hL hl
  rcases resizeFast_core hv (hi.acc_left i) hmod.1 hu (m := m) with ⟨s, w', cs', he, hres, hA, ht, hown, hroot, hmem⟩ | ⟨_, hno⟩
  · simp only [pstep, hp]
    rw [ebind_ok he]
    cases hres with
    | same => exact ⟨_, rfl, rfl, PS.setPx_self hp rfl, rfl⟩
    | grow => omega
    | move _ _ _ hn => exact absurd ⟨ha, hs⟩ hn
  · exact absurd ⟨ha, hs⟩ hno.1

/-- C69: the block that ends where the room of the proxy begins grows in place if the room is large enough. -/
theorem C69_grow {p0 ps : PS} {K : PBook} (h : PReach p0 ps K) {i p : Nat} {old new : Layout} (hl : PLegal K (.resize i p old new))
    {e : Nat} (hroom : ps.room i = some (p + old.size, e)) (hs : old.size < new.size) (ha : new.align ≤ old.align)
    (hfit : p + new.size ≤ e) :
    ∃ ps', pstep ps (.resize i p old new) = .ok (some (some (.block ⟨p, new.size⟩), ps')) ∧ ps'.room i = some (p + new.size, e) ∧
      ps'.px = ps.px ∧ ps'.s.pcs = ps.s.pcs ∧ ps'.s.w.log = ps.s.w.log ∧ ps'.hist = ps.hist := by
  obtain ⟨KS, cs, pend, m, hi, hp, hv, hL, hm, hidle⟩ := h.ready hl.resize_ready
  obtain ⟨_, hmod, hu⟩ := resize_used hL hl
  rw [PS.room_of hp hv] at hroom
  have hcore := resizeFast_core hv (hi.acc_left i) hmod.1 hu (m := m)
  generalize cs i = csi at *
  cases csi with
  | nil => cases hroom
  | cons c t =>
    simp only [List.head?_cons, Option.map_some, Option.some.injEq, Prod.mk.injEq] at hroom
    obtain ⟨r1, rfl⟩ := hroom
    rcases hcore with ⟨s, w', cs', he, hres, hA, ht, hown, hroot, hmem⟩ | ⟨_, hno⟩
    · simp only [pstep, hp]
      rw [ebind_ok he]
      cases hres with
      | same => omega
      | grow c' t' hcs =>
        injection hcs with e1 e2
        subst e1; subst e2
        refine ⟨_, rfl, ?_, PS.setPx_self hp rfl, rfl, rfl, rfl⟩
        exact Eq.trans (PS.room_of (cs := { c with cursor := p + new.size } :: t) (m := m) (pc := .idle) (by exact PS.setPx_same _ _ _)
          (by exact VInv.of hA rfl ht)) rfl
      | move _ _ _ _ hg => exact absurd ⟨ha, r1, hfit⟩ (hg c t rfl)
    · exact absurd ⟨ha, r1, hfit⟩ (hno.2.1 c t rfl)

/-- C69: a block that can stay in place neither because it shrinks nor because it is the last one moves within the proxy's own chunk
if that has room. The shared allocator is not called. -/
theorem C69_move {p0 ps : PS} {K : PBook} (h : PReach p0 ps K) {i p : Nat} {old new : Layout} (hl : PLegal K (.resize i p old new))
    (hn : ¬ (new.size ≤ old.size ∧ new.align ≤ old.align)) {pos e q : Nat} (hroom : ps.room i = some (pos, e))
    (hg : ¬ (new.align ≤ old.align ∧ pos = p + old.size ∧ p + new.size ≤ e)) (h1 : pos ≤ q) (h2 : q % new.align = 0)
    (h3 : q + new.size ≤ e) :
    ∃ b ps', pstep ps (.resize i p old new) = .ok (some (some (.block b), ps')) ∧ pos ≤ b.addr ∧ b.addr ≤ q ∧ b.addr % new.align = 0 ∧
      b.len = new.size ∧ ps'.room i = some (b.addr + new.size, e) ∧ ps'.px = ps.px ∧ ps'.s.pcs = ps.s.pcs ∧
      ps'.s.w.log = ps.s.w.log ∧ ps'.hist = ps.hist := by
  obtain ⟨KS, cs, pend, m, hi, hp, hv, hL, hm, hidle⟩ := h.ready hl.resize_ready
  obtain ⟨_, hmod, hu⟩ := resize_used hL hl
  rw [PS.room_of hp hv] at hroom
  have hcore := resizeFast_core hv (hi.acc_left i) hmod.1 hu (m := m)
  generalize cs i = csi at *
  cases csi with
  | nil => cases hroom
  | cons c t =>
    simp only [List.head?_cons, Option.map_some, Option.some.injEq, Prod.mk.injEq] at hroom
    obtain ⟨rfl, rfl⟩ := hroom
    have hb := fits_bump hv hi.top hmod h1 h2 h3
    rcases hcore with ⟨s, w', cs', he, hres, hA, ht, hown, hroot, hmem⟩ | ⟨_, hno⟩
    · simp only [pstep, hp]
      rw [ebind_ok he]
      cases hres with
      | same a1 a2 => exact absurd ⟨a2, a1⟩ hn
      | grow c' t' hcs a1 a2 a3 a4 =>
        injection hcs with e1 e2
        subst e1
        exact absurd ⟨a1, a3, a4⟩ hg
      | move _ _ _ _ _ hr =>
        cases hr with
        | slow hnf => rw [hnf c t rfl] at hb; cases hb
        | fast c' t' a hcs hb' =>
          injection hcs with e1 e2
          subst e1; subst e2
          have hf := bump_facts hmod.1 hb'
          refine ⟨_, _, rfl, hf.1, bump_le hmod.1 hb' h1 h2, hf.2.2.1, rfl, ?_, PS.setPx_self hp rfl, rfl, rfl, rfl⟩
          exact Eq.trans (PS.room_of (cs := { c with cursor := a + new.size } :: t) (m := m) (pc := .idle) (by exact PS.setPx_same _ _ _)
            (by exact VInv.of hA rfl ht)) rfl
    · rw [hno.2.2 c t rfl] at hb; cases hb

/-- C69: otherwise `resize` asks the shared allocator for one block, as `allocate` does. -/
theorem C69_resize_no_room {p0 ps : PS} {K : PBook} (h : PReach p0 ps K) {i p : Nat} {old new : Layout}
    (hl : PLegal K (.resize i p old new)) (hn : ¬ (new.size ≤ old.size ∧ new.align ≤ old.align))
    (hg : ∀ e, ps.room i = some (p + old.size, e) → ¬ (new.align ≤ old.align ∧ p + new.size ≤ e)) (hno : ¬ ps.Fits i new) {q : Proxy}
    (hq : ps.px i = some q) :
    ∃ R ps', pstep ps (.resize i p old new) = .ok (some (none, ps')) ∧ ps'.s.pcs i = .rd (.allocate ⟨R, 8⟩) ∧ new.size + 32 ≤ R ∧
      R < max q.a.minChunk (ps.recorded i) + max new.size 64 + new.align + 32 + 16392 ∧ ps'.s.w = ps.s.w ∧ ps'.room i = ps.room i ∧
      ps'.hist = ps.hist := by
  obtain ⟨KS, cs, pend, m, hi, hp, hv, hL, hm, hidle⟩ := h.ready hl.resize_ready
  obtain ⟨_, hmod, hu⟩ := resize_used hL hl
  rw [hp] at hq
  injection hq with hq
  subst hq
  have hacc := hi.acc_left i
  have hnf := not_fits_noFit hp hv hmod.1 hno
  have hroom := PS.room_of hp hv
  obtain ⟨R, hR⟩ := req_exists hv hi.top hm hmod
  have hreq := chunkRequest_core hv hacc (needBound hv hi.top hm hmod) fun R hR => reqBound hv hi.top hm hmod hR
  rcases resizeFast_core hv hacc hmod.1 hu (m := m) with ⟨s, w', cs', he, hres, hA, ht, hown, hroot, hmem⟩ | ⟨he, _⟩
  · exfalso
    generalize hcs : cs i = csi at hres hnf hown hroom
    cases hres with
    | same a1 a2 => exact hn ⟨a2, a1⟩
    | grow c t hc a1 a2 a3 a4 =>
      subst hc
      exact hg c.end_ (by rw [hroom]; simp only [List.head?_cons, Option.map_some, a3]) ⟨a1, a4⟩
    | move _ _ _ _ _ hr =>
      cases hr with
      | slow hnf' hsl =>
        cases hsl with
        | ok => simp at hown
      | fast c t a hc hb => rw [hnf c t hc] at hb; cases hb
  · have h1 := (chunkReq_facts hR).1
    have h2 := (req_tight hR).1
    have h3 := need_recorded (cs := cs i) (m := m) (l := new)
    refine ⟨R, { ps with s := { ps.s with w := ps.s.w }.setPc i (.rd (.allocate ⟨R, 8⟩)) }.setPx i (some ⟨⟨rootOf (cs i), m⟩, .resize p old new⟩),
      ?_, SS.setPc_same _ _ _, by omega, ?_, rfl, ?_, rfl⟩
    · simp only [pstep, hp]
      rw [ebind_ok he]
      simp only
      rw [ebind_ok hreq, hR]
      simp only [PS.ask]
      rw [if_pos hidle]; rfl
    · rw [PS.recorded_of hp hv]
      simp only
      omega
    · rw [hroom]
      exact PS.room_of (pc := .resize p old new) (PS.setPx_same _ _ _) hv

/-- C69: giving a block of a proxy back, and dropping a proxy, always work and call nobody. -/
theorem C69_deallocate {p0 ps : PS} {K : PBook} (h : PReach p0 ps K) {i p n : Nat} (hl : PLegal K (.deallocate i p n)) :
    ∃ ps', pstep ps (.deallocate i p n) = .ok (some (some .unit, ps')) ∧ ps'.s = ps.s ∧ ps'.px = ps.px ∧ ps'.hist = ps.hist := by
  cases hl with
  | deallocate hrdy hb hf =>
  obtain ⟨KS, cs, pend, m, hi, hp, hv, hL, hm, hidle⟩ := h.ready hrdy
  have hu : InUsed (cs i) p n := (hL.each _ hb).2.2.2.sub (by omega) (by omega)
  simp only [pstep, hp]
  rw [ebind_ok (deallocate_core hv (hi.acc_left i) hu)]
  exact ⟨_, rfl, rfl, PS.setPx_self hp rfl, rfl⟩

theorem C69_drop {p0 ps : PS} {K : PBook} (h : PReach p0 ps K) {i : Nat} (hl : PLegal K (.drop i)) :
    ∃ ps', pstep ps (.drop i) = .ok (some (some .unit, ps')) ∧ ps'.s = ps.s ∧ ps'.px i = none ∧ ∀ u, u ≠ i → ps'.px u = ps.px u := by
  cases hl with
  | drop hrdy =>
  obtain ⟨KS, cs, pend, m, hi, hp, hv, hL, hm, hidle⟩ := h.ready hrdy
  simp only [pstep, hp]
  rw [ebind_ok (lastChunkSize_core hv (hi.acc_left i))]
  simp only
  rw [ebind_ok (show arenaResetLeak (rootOf (cs i)) false ps.s.w = .ok (0, ps.s.w) from rfl)]
  simp only
  rw [ebind_ok (dassert_ok fun _ => trivial)]
  exact ⟨_, rfl, rfl, PS.setPx_same _ _ _, fun u hu => PS.setPx_ne _ _ hu⟩

/-! ### Concrete cases -/

/-- Proxy 0 has a chunk with a block of 100 bytes at its start. -/
def proomActs : List PAct := [.spawn 0 0, .allocate 0 ⟨100, 8⟩] ++ pgoes 0 5

theorem proom_demo {f : PS → PBook → Bool} (as : List PAct)
    (h : pdemoAt [4096, 8192] 1024 as (fun _ ps K => f ps K) = true) :
    ∃ p0 ps K, PReach p0 ps K ∧ f ps K = true := by
  obtain ⟨rs, ps, K, h0, hr, _, hf⟩ := of_pdemoAt h
  exact ⟨_, ps, K, ⟨h0, _, hr⟩, hf⟩

/-- The hypotheses of `C69_room` can be met: 124 bytes are left, 60 are asked for with an alignment of 16. -/
example : ∃ p0 ps K, PReach p0 ps K ∧ PLegal K (.allocate 0 ⟨60, 16⟩) ∧ ps.room 0 = some (65700, 65824) ∧ 65700 ≤ 65712 ∧
    65712 % 16 = 0 ∧ 65712 + 60 ≤ 65824 := by
  obtain ⟨p0, ps, K, h, hf⟩ := proom_demo (f := fun ps K => K.readyB 0 && decide (ps.room 0 = some (65700, 65824))) proomActs (by decide +kernel)
  simp only [Bool.and_eq_true, decide_eq_true_eq] at hf
  exact ⟨p0, ps, K, h, .allocate (PBook.readyB_sound hf.1) (Layout.modestB_sound (by decide)), hf.2, by decide, by decide, by decide⟩

/-- The hypotheses of `C69_no_room` can be met: 300 bytes do not fit. -/
example : ∃ p0 ps K, PReach p0 ps K ∧ PLegal K (.allocate 0 ⟨300, 16⟩) ∧ ¬ ps.Fits 0 ⟨300, 16⟩ ∧
    ps.px 0 = some ⟨⟨65568, 0⟩, .idle⟩ := by
  obtain ⟨p0, ps, K, h, hf⟩ := proom_demo (f := fun ps K => K.readyB 0 && decide (ps.room 0 = some (65700, 65824)) &&
    decide (ps.px 0 = some ⟨⟨65568, 0⟩, .idle⟩)) proomActs (by decide +kernel)
  simp only [Bool.and_eq_true, decide_eq_true_eq] at hf
  refine ⟨p0, ps, K, h, .allocate (PBook.readyB_sound hf.1.1) (Layout.modestB_sound (by decide)), ?_, hf.2⟩
  rintro ⟨pos, e, q, h1, h2, h3, h4⟩
  rw [hf.1.2] at h1
  injection h1 with h1; injection h1 with h1 h1'
  subst h1; subst h1'
  simp only at h4
  omega

/-- The hypotheses of `C69_answer` can be met, and the shared allocator answers with a block. -/
example : ∃ p0 ps K ps' s', PReach p0 ps K ∧ K.pbusy 0 = some (.allocate ⟨100, 8⟩, none) ∧
    (PCall.allocate ⟨100, 8⟩).wants = some ⟨100, 8⟩ ∧
    sstep ps.s (.go 0 fresh) = .ok (some (some (.block ⟨65568, 256⟩), s')) ∧
    pstep ps (.shared (.go 0 fresh)) = .ok (some (some (.block ⟨65600, 100⟩), ps')) := by
  obtain ⟨p0, ps, K, h, hf⟩ := proom_demo (f := fun ps K => decide (K.pbusy 0 = some (.allocate ⟨100, 8⟩, none)) &&
    (match sstep ps.s (.go 0 fresh), pstep ps (.shared (.go 0 fresh)) with
    | .ok (some (some r, _)), .ok (some (some r', _)) => decide (r = .block ⟨65568, 256⟩) && decide (r' = .block ⟨65600, 100⟩)
    | _, _ => false)) ([.spawn 0 0, .allocate 0 ⟨100, 8⟩] ++ pgoes 0 4) (by decide +kernel)
  simp only [Bool.and_eq_true, decide_eq_true_eq] at hf
  obtain ⟨h1, h2⟩ := hf
  split at h2
  · rename_i r s' r' ps' e1 e2
    simp only [Bool.and_eq_true, decide_eq_true_eq] at h2
    obtain ⟨rfl, rfl⟩ := h2
    exact ⟨p0, ps, K, ps', s', h, h1, rfl, e1, e2⟩
  · cases h2

/-- The hypotheses of `C69_reset` can be met by a proxy with two chunks, as can those of `C69_reset_unchecked` and `C69_drop`. -/
example : ∃ p0 ps K, PReach p0 ps K ∧ PLegal K (.reset 0) ∧ PLegal K (.resetUnchecked 0) ∧ PLegal K (.drop 0) ∧
    ps.px 0 = some ⟨⟨65824, 0⟩, .idle⟩ ∧ ps.room 0 = some (66156, 66336) := by
  obtain ⟨p0, ps, K, h, hf⟩ := proom_demo (f := fun ps K => K.readyB 0 && decide (ps.room 0 = some (66156, 66336)) &&
    decide (ps.px 0 = some ⟨⟨65824, 0⟩, .idle⟩)) (proomActs ++ [.allocate 0 ⟨50, 8⟩, .allocate 0 ⟨300, 16⟩] ++ pgoes 0 4) (by decide +kernel)
  simp only [Bool.and_eq_true, decide_eq_true_eq] at hf
  have hr := PBook.readyB_sound hf.1.1
  exact ⟨p0, ps, K, h, .reset hr, .resetUnchecked hr, .drop hr, hf.2, hf.1.2⟩

/-- The hypotheses of `C69_reset_unchecked_rest` can be met: the same proxy in the middle of `reset_unchecked`. -/
example : ∃ p0 ps K, PReach p0 ps K ∧ K.pbusy 0 = some (.resetUnchecked, none) ∧ ps.px 0 = some ⟨⟨65824, 0⟩, .chain 0⟩ := by
  obtain ⟨p0, ps, K, h, hf⟩ := proom_demo (f := fun ps K => decide (K.pbusy 0 = some (.resetUnchecked, none)) &&
    decide (ps.px 0 = some ⟨⟨65824, 0⟩, .chain 0⟩))
    (proomActs ++ [.allocate 0 ⟨50, 8⟩, .allocate 0 ⟨300, 16⟩] ++ pgoes 0 4 ++ [.resetUnchecked 0]) (by decide +kernel)
  simp only [Bool.and_eq_true, decide_eq_true_eq] at hf
  exact ⟨p0, ps, K, h, hf.1, hf.2⟩

/-- The hypotheses of `C69_shrink`, `C69_grow`, `C69_move`, `C69_resize_no_room` and `C69_deallocate` can be met: the block of 100
bytes is the last one of its chunk, in which 124 bytes are left. -/
example : ∃ p0 ps K, PReach p0 ps K ∧ ps.room 0 = some (65700, 65824) ∧ PLegal K (.resize 0 65600 ⟨100, 8⟩ ⟨50, 4⟩) ∧
    (PLegal K (.resize 0 65600 ⟨100, 8⟩ ⟨200, 8⟩) ∧ ps.room 0 = some (65600 + 100, 65824) ∧ 65600 + 200 ≤ 65824) ∧
    (PLegal K (.resize 0 65600 ⟨100, 8⟩ ⟨90, 64⟩) ∧ 65700 ≤ 65728 ∧ 65728 % 64 = 0 ∧ 65728 + 90 ≤ 65824 ∧ ¬ (64 ≤ 8)) ∧
    (PLegal K (.resize 0 65600 ⟨100, 8⟩ ⟨500, 8⟩) ∧ ¬ ps.Fits 0 ⟨500, 8⟩) ∧ PLegal K (.deallocate 0 65600 100) := by
  obtain ⟨p0, ps, K, h, hf⟩ := proom_demo (f := fun ps K => K.readyB 0 && decide (ps.room 0 = some (65700, 65824)) &&
    decide (K.led 0 = [⟨65600, 100, 100, 8⟩])) proomActs (by decide +kernel)
  simp only [Bool.and_eq_true, decide_eq_true_eq] at hf
  have hr := PBook.readyB_sound hf.1.1
  have hb : (⟨65600, 100, 100, 8⟩ : Owned) ∈ K.led 0 := by rw [hf.2]; exact List.mem_cons_self
  have hfit : (⟨65600, 100, 100, 8⟩ : Owned).Fits 65600 ⟨100, 8⟩ := Owned.fitsB_sound (by decide)
  refine ⟨p0, ps, K, h, hf.1.2, .resize hr hb hfit (Layout.modestB_sound (by decide)),
    ⟨.resize hr hb hfit (Layout.modestB_sound (by decide)), hf.1.2, by decide⟩,
    ⟨.resize hr hb hfit (Layout.modestB_sound (by decide)), by decide, by decide, by decide, by decide⟩,
    ⟨.resize hr hb hfit (Layout.modestB_sound (by decide)), ?_⟩, .deallocate hr hb ⟨rfl, by decide, by decide⟩⟩
  rintro ⟨pos, e, q, h1, h2, h3, h4⟩
  rw [hf.1.2] at h1
  injection h1 with h1; injection h1 with h1 h1'
  subst h1; subst h1'
  simp only at h4
  omega

end Blink
