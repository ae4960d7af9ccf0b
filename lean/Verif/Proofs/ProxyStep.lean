import Verif.Proofs.ProxyInv
/-
  Every step of the shared allocator with its proxies preserves the invariant.
-/
namespace Blink

/-! ### Bounds -/

theorem roundChunk_lt {n : Nat} (h : n < USIZE) : roundChunk n < n + 32768 := by
  unfold roundChunk
  split
  · obtain ⟨k, h1, h2, h3⟩ := nextPow2_spec h
    have hk : k ≤ 14 := h3 14 (by omega)
    have : (2:Nat) ^ k ≤ 2 ^ 14 := Nat.pow_le_pow_right (by decide) hk
    rw [h1]
    have h14 : (2:Nat)^14 = 16384 := rfl
    omega
  · split
    · have := roundUp_facts n (a := 16384) (by decide)
      omega
    · omega

theorem need_huge {w : World} {cs m l} (h : VInv w cs) (ht : w.top ≤ HUGE) (hm : m ≤ HUGE) (hl : l.Modest) :
    need (rootCum cs) m l ≤ HUGE + HUGE + 128 := by
  have h7 : ∀ c, rootCum cs = some c → c ≤ HUGE := by
    intro c hc
    cases cs with
    | nil => cases hc
    | cons d t =>
      injection hc with hc
      have h8 := sum_cap_lt h.tail
      have h9 := h.cum.1
      have : (VW w t).top = w.top := rfl
      omega
  have := hl.2
  unfold need
  cases hc : rootCum cs with
  | none => simp only; split <;> omega
  | some c =>
    have := h7 c hc
    simp only; split <;> omega

theorem needBound {w : World} {cs m l} (h : VInv w cs) (ht : w.top ≤ HUGE) (hm : m ≤ HUGE) (hl : l.Modest) :
    need (rootCum cs) m l + 16383 < USIZE := by
  have := need_huge h ht hm hl
  simp only [HUGE] at *
  omega

theorem reqBound {w : World} {cs m l R} (h : VInv w cs) (ht : w.top ≤ HUGE) (hm : m ≤ HUGE) (hl : l.Modest)
    (hR : chunkReq (rootCum cs) m l = some R) : R + 8 ≤ ISIZE := by
  obtain ⟨_, _, _, h4, h5⟩ := chunkReq_facts hR
  have h6 := roundChunk_lt h5
  have h10 := need_huge h ht hm hl
  simp only [HUGE] at *
  omega

theorem Owned.apart_ends {b c : Owned} (h : b.Apart c) (hb : 0 < b.len) (hc : 0 < c.len) :
    b.addr + b.len ≤ c.addr ∨ c.addr + c.len ≤ b.addr := by
  have := h (max b.addr c.addr)
  simp only [Owned.Has] at this
  omega

/-! ### The shared allocator -/

theorem SReach.ret_w {s0 s s' K} (h : SReach s0 s K) {t ch r} (hs : sstep s (.go t ch) = .ok (some (some r, s'))) :
    s'.w = s.w ∧ s'.pcs t = .idle ∧ ∃ c ob, K.busy t = some (c, ob) := by
  obtain ⟨cs, B, hi⟩ := h.inv
  have hg := hi.go_res hs
  have hpc : ∃ wr, s.pcs t = .ret wr r := by
    cases hg with
    | retW hpc => exact ⟨_, hpc⟩
    | retR hpc => exact ⟨_, hpc⟩
  refine ⟨by cases hg <;> rfl, by cases hg <;> exact SS.setPc_same _ _ _, ?_⟩
  cases hb : K.busy t with
  | none =>
    have := (hi.busy_none hb).1
    obtain ⟨wr, hpc⟩ := hpc
    rw [this] at hpc; cases hpc
  | some x => exact ⟨x.1, x.2, rfl⟩

/-- Steps other than resets give nothing back to the underlying allocator. -/
structure NoFrees (w w' : World) : Prop where
  log : ∃ new, w'.log = new ++ w.log ∧ ∀ a l, .dealloc a l ∉ new
  held : ∀ b ∈ w.held, b ∈ w'.held

theorem NoFrees.refl (w : World) : NoFrees w w := ⟨⟨[], rfl, by simp⟩, fun _ h => h⟩

theorem NoFrees.mem {w w' : World} (h : NoFrees w w') (m : Nat → Byte) : NoFrees w { w' with mem := m } := ⟨h.log, h.held⟩

theorem GoRes.quiet {s0 s cs K B t ch r s'} (h : SInv s0 s cs K B) (hg : GoRes s cs t ch r s') : NoFrees s.w s'.w := by
  have slow : ∀ {l r root w'}, l.Valid → allocSlow s.root s.minChunk l s.w = .ok ((r, root), w') → NoFrees s.w w' := by
    intro l r root w' hv he
    rw [h.root] at he
    rcases allocSlow_spec h.arena hv h.dbg with ⟨e, _, he'⟩ | ⟨r', w'', cs', he', hs, _⟩
    · rw [he] at he'; cases he'
    · rw [he] at he'
      injection he' with he'; injection he' with _ h2
      subst h2
      cases hs with
      | tooBig => exact NoFrees.refl _
      | refused => exact ⟨⟨[_], rfl, by simp⟩, fun _ h => h⟩
      | ok => exact ⟨⟨[_], rfl, by simp⟩, fun _ h => List.mem_cons_of_mem _ h⟩
  have hv : ∀ {j}, s.pcs t = .slow j → j.layout.Valid := by
    intro j hpc
    have ht := h.thr t
    rw [hpc] at ht
    generalize K.busy t = bz at ht
    generalize B t = Bt at ht
    cases ht with
    | slow hj => exact hj.valid
  cases hg with
  | slowErr hpc he => exact slow (hv hpc) he
  | slowOk hpc he => exact slow (hv hpc) he
  | commit => exact ⟨⟨[], rfl, by simp⟩, fun _ h => h⟩
  | rcommit => exact ⟨⟨[], rfl, by simp⟩, fun _ h => h⟩
  | copy => exact ⟨⟨[], rfl, by simp⟩, fun _ h => h⟩
  | _ => exact NoFrees.refl _

/-! ### What a step does -/

/-- The block is held by a caller that is not giving it up in step `a`. -/
def PBook.Holds (K : PBook) (a : PAct) (b : Owned) : Prop :=
  b ∈ K.direct.owned ∨ ∃ i, (b ∈ K.led i ∨ ∃ c, K.pbusy i = some (c, some b)) ∧ a ≠ .reset i ∧ a ≠ .resetUnchecked i ∧ a ≠ .drop i

/-- The action resets the shared allocator. -/
def PAct.isReset (a : PAct) : Prop := ∃ a', a = .shared a' ∧ a'.isReset

structure PEff (ps : PS) (K : PBook) (cs pd : Nat → List Chunk) (a : PAct) (r : Option Resp) (ps' : PS) : Prop where
  frame : ∀ b x, b.Has x → K.Holds a b → (∀ v, a ≠ .shared (.write x v)) → ¬ a.isReset → ps'.s.w.mem x = ps.s.w.mem x
  copied : ∀ p old new s, r = some (.block s) →
    ((∃ i, a = .resize i p old new) ∨ ∃ t ch ob, a = .shared (.go t ch) ∧ K.pbusy t = some (.resize p old new, ob)) →
    ∀ k, k < min new.size old.size → ps'.s.w.mem (s.addr + k) = ps.s.w.mem (p + k)
  quiet : ¬ a.isReset → NoFrees ps.s.w ps'.s.w
  mem : (∀ a', a ≠ .shared a') → ps'.s.w = { ps.s.w with mem := ps'.s.w.mem }
  pend : ∀ j x, InCs (pd j) x → ps'.s.w.mem x = ps.s.w.mem x
  kept : ∀ j x, InCs (cs j ++ pd j) x → (∀ v, a ≠ .shared (.write x v)) → a.proxy ≠ some j → ps'.s.w.mem x = ps.s.w.mem x

/-- Address and length. -/
def Chunk.span (c : Chunk) : Nat × Nat := (c.start, c.end_ - c.start)

/-- The chunks of proxies after a step. -/
def CsAfter (ps : PS) (a : PAct) (cs cs' : Nat → List Chunk) : Prop :=
  ∀ j, (cs' j).map Chunk.span = ps.chunksAfter a j ((cs j).map Chunk.span)

/-- Who acts. -/
def PAct.actor : PAct → Option Nat
  | .shared (.go t _) => some t
  | .shared (.call t _) => some t
  | .spawn i _ => some i
  | a => a.proxy

/-- The calls the shared allocator is executing after something `i` did: the others' are the same, and a block handed over with `i`'s is
one of its chunks or a block owned directly. The chunks being given back were there before. -/
structure KPut (K : PBook) (KS : Book) (cs pend : Nat → List Chunk) (i : Nat) (KS' : Book) (pend' : Nat → List Chunk) : Prop where
  busy : ∀ u, u ≠ i → KS'.busy u = KS.busy u
  gave : ∀ c b, KS'.busy i = some (c, some b) → (∃ d ∈ cs i ++ pend i, b = d.own) ∨ b ∈ K.direct.owned
  keep : ∀ u, u ≠ i → pend' u = pend u
  back : ∀ c ∈ pend' i, c ∈ cs i ++ pend i

/-- The same for the actor of `a`, if no call goes on. -/
def KAfter (ps : PS) (K : PBook) (KS : Book) (cs pend : Nat → List Chunk) (a : PAct) (KS' : Book) (pend' : Nat → List Chunk) : Prop :=
  (∃ i, a.actor = some i ∧ KPut K KS cs pend i KS' pend') ∨
  ((∀ u, KS'.busy u = KS.busy u) ∧ (∀ u, pend' u = pend u) ∧ a.proxy = none ∧
    ∀ t ch r s', a = .shared (.go t ch) → sstep ps.s (.go t ch) ≠ .ok (some (some r, s')))

/-- Outcome of a legal step. -/
def PGood (p0 ps : PS) (K : PBook) (KS : Book) (cs pend : Nat → List Chunk) (a : PAct) : Prop :=
  (∃ e, (BadAnswer ps.s.w e ∨ ps.EmptyChunk a e) ∧ pstep ps a = .error e) ∨ pstep ps a = .ok none ∨
  ∃ r ps', pstep ps a = .ok (some (r, ps')) ∧ PEff ps K cs pend a r ps' ∧
    ∀ K', PAfter ps.s.w.mem K a r K' →
      ∃ KS' cs' pend', PInv p0 ps' K' KS' cs' pend' ∧ CsAfter ps a cs cs' ∧ KAfter ps K KS cs pend a KS' pend'

theorem CsAfter.put {p0 ps ps' K K' KS cs pend a i csi}
    (hx : ∃ KS' cs' pend', PInv p0 ps' K' KS' cs' pend' ∧ cs' = put cs i csi ∧ KPut K KS cs pend i KS' pend')
    (h1 : csi.map Chunk.span = ps.chunksAfter a i ((cs i).map Chunk.span)) (h2 : ∀ j L, j ≠ i → ps.chunksAfter a j L = L)
    (hw : a.actor = some i := by rfl) :
    ∃ KS' cs' pend', PInv p0 ps' K' KS' cs' pend' ∧ CsAfter ps a cs cs' ∧ KAfter ps K KS cs pend a KS' pend' := by
  obtain ⟨KS', cs', pend', h, rfl, hk⟩ := hx
  refine ⟨KS', _, pend', h, fun j => ?_, .inl ⟨i, hw, hk⟩⟩
  by_cases hj : j = i
  · subst hj; rw [put_same, h1]
  · rw [put_ne _ _ hj, h2 _ _ hj]

theorem KPut.same {K : PBook} {KS KS' : Book} {cs pend : Nat → List Chunk} {i : Nat} (h : ∀ u, u ≠ i → KS'.busy u = KS.busy u)
    (hg : ∀ c b, KS'.busy i = some (c, some b) → b ∈ K.direct.owned) : KPut K KS cs pend i KS' pend :=
  ⟨h, fun c b hb => .inr (hg c b hb), fun _ _ => rfl, fun _ hc => List.mem_append_right _ hc⟩

theorem Chunk.span_own {L L' : List Chunk} (h : L.map Chunk.own = L'.map Chunk.own) : L.map Chunk.span = L'.map Chunk.span := by
  have : Chunk.span = (fun o : Owned => (o.addr, o.len)) ∘ Chunk.own := rfl
  rw [this, ← List.map_map, h, List.map_map]

theorem PInv.led_used {p0 ps K KS cs pend} (h : PInv p0 ps K KS cs pend) {i b x}
    (hb : b ∈ K.led i ∨ ∃ c, K.pbusy i = some (c, some b)) (hx : b.Has x) : InUsed (cs i) x 1 := by
  apply (h.px i).led.byte _ hx
  rcases hb with hb | ⟨c, hc⟩
  · exact List.mem_append_right _ hb
  · rw [hc]; exact List.mem_append_left _ (by simp)

theorem PInv.led_inCs {p0 ps K KS cs pend} (h : PInv p0 ps K KS cs pend) {i b x}
    (hb : b ∈ K.led i ∨ ∃ c, K.pbusy i = some (c, some b)) (hx : b.Has x) : InCs (cs i ++ pend i) x := by
  obtain ⟨c, hc, h1⟩ := (h.led_used hb hx).inCs fun c hc => (h.px i).ok c (List.mem_append_left _ hc)
  exact ⟨c, List.mem_append_left _ hc, h1⟩

/-- Every byte a caller holds belongs to a block of the shared allocator. -/
theorem PInv.holds {p0 ps K KS cs pend} (h : PInv p0 ps K KS cs pend) {a b x} (hb : K.Holds a b) (hx : b.Has x) :
    ∃ o ∈ KS.owned, o.Has x := by
  rcases hb with hb | ⟨i, hb, _⟩
  · exact ⟨b, h.tiles.memD hb, hx⟩
  · obtain ⟨o, ho, h1⟩ := h.inCs (h.led_inCs hb hx)
    exact ⟨o, h.tiles.mem (i := i) ho, h1⟩

/-- Frame of a step that changes only bytes of proxy `i`'s chunks and leaves the used ones alone (or gives them up). -/
theorem PInv.frame_of {p0 ps K KS cs pend} (h : PInv p0 ps K KS cs pend) {i : Nat} {a : PAct} {m' : Nat → Byte}
    (hm : ∀ x, m' x ≠ ps.s.w.mem x → InCs (cs i ++ pend i) x)
    (hu : a = .reset i ∨ a = .resetUnchecked i ∨ a = .drop i ∨ ∀ x, InUsed (cs i) x 1 → m' x = ps.s.w.mem x) :
    ∀ b x, b.Has x → K.Holds a b → m' x = ps.s.w.mem x := by
  intro b x hx hb
  apply Classical.byContradiction
  intro hne
  have h1 := hm x hne
  rcases hb with hb | ⟨j, hb, h2, h3, h4⟩
  · exact h.sepD hb hx h1
  · by_cases hj : j = i
    · subst hj
      rcases hu with hu | hu | hu | hu
      · exact h2 hu
      · exact h3 hu
      · exact h4 hu
      · exact hne (hu x (h.led_used hb hx))
    · exact h.sep hj h1 (h.led_inCs hb hx)

/-! ### Calls of proxies -/

theorem PS.setPx_same (ps : PS) (i : Nat) (p) : (ps.setPx i p).px i = p := if_pos rfl
theorem PS.setPx_ne (ps : PS) {i u : Nat} (p) (h : u ≠ i) : (ps.setPx i p).px u = ps.px u := if_neg h

theorem InCs.left {cs pend : List Chunk} {x} (h : InCs cs x) : InCs (cs ++ pend) x := by
  obtain ⟨c, hc, h1⟩ := h
  exact ⟨c, List.mem_append_left _ hc, h1⟩

theorem InCs.right {cs pend : List Chunk} {x} (h : InCs pend x) : InCs (cs ++ pend) x := by
  obtain ⟨c, hc, h1⟩ := h
  exact ⟨c, List.mem_append_right _ hc, h1⟩

theorem PInv.acc_left {p0 ps K KS cs pend} (h : PInv p0 ps K KS cs pend) (i : Nat) : Acc ps.s.w (cs i) :=
  fun c hc => h.acc i c (List.mem_append_left _ hc)

/-- Proxy `i` starts to wait for a block of `R` bytes. -/
theorem PInv.askAlloc {p0 ps K KS cs pend} (h : PInv p0 ps K KS cs pend) {i m R : Nat} {pc : PPc} {K' : PBook}
    (hb : KS.busy i = none) (hRv : R + 8 ≤ ISIZE)
    (hD : K'.direct = K.direct)
    (hpx : ∀ u, u ≠ i → K'.live u = K.live u ∧ K'.led u = K.led u ∧ K'.pbusy u = K.pbusy u)
    (hi : PxOK ps.s.w (some ⟨⟨rootOf (cs i), m⟩, pc⟩) (K'.live i) (K'.led i) (K'.pbusy i) (K'.direct.busy i)
      (some (.allocate ⟨R, 8⟩, none)) (cs i) (pend i)) :
    ∃ ps', PS.ask ps i ⟨rootOf (cs i), m⟩ ps.s.w (.allocate ⟨R, HDR_ALIGN⟩) pc = .ok (some (none, ps')) ∧ ps'.s.w = ps.s.w ∧
      ∃ KS', PInv p0 ps' K' KS' cs pend ∧ KPut K KS cs pend i KS' pend := by
  have hidle := h.reach.busy_none hb
  refine ⟨_, if_pos hidle, rfl, _, PInv.same (i := i) (h.upd i (KS' := { KS with busy := put KS.busy i (some (.allocate ⟨R, 8⟩, none)), snap := put KS.snap i ps.s.w.mem }) ?_ h.hist ?_ ?_ ?_ ?_ ?_),
    .same (fun u hu => put_ne _ _ hu) fun c b hb => by (dsimp only at hb; rw [put_same] at hb; cases hb)⟩
  · obtain ⟨h0, tr, hr⟩ := h.reach
    refine ⟨h0, _, hr.snoc (a := .call i (.allocate ⟨R, 8⟩)) (.allocate hb ⟨⟨3, rfl⟩, hRv⟩) (if_pos hidle) .allocate⟩
  · intro R' hR'
    refine ⟨[], ?_⟩
    rw [hD, List.append_nil]; exact hR'
  · intro u hu x hx; rfl
  · intro u hu
    obtain ⟨a1, a2, a3⟩ := hpx u hu
    refine ⟨PS.setPx_ne _ _ hu, a1, a2, a3, by rw [hD], put_ne _ _ hu⟩
  · rw [PS.setPx_same]
    dsimp only
    rw [put_same]
    exact hi
  · intro u hu
    rw [hD] at hu ⊢
    have hne : u ≠ i := by
      rintro rfl
      exact hu ((h.px u).free hb)
    exact (put_ne _ _ hne).trans (h.snap u hu)

theorem PInv.answer' {p0 ps K KS cs pend} (h : PInv p0 ps K KS cs pend) {i : Nat} {q : Option Proxy} {m' : Nat → Byte}
    {csi : List Chunk} {ps' : PS} {K' : PBook}
    (hs : ps'.s = { ps.s with w := { ps.s.w with mem := m' } }) (hq : ps'.px = fun u => if u = i then q else ps.px u)
    (hhist : ∀ v ∈ ps'.hist, v ≤ HUGE)
    (hm : ∀ x, m' x ≠ ps.s.w.mem x → InCs (cs i ++ pend i) x)
    (hown : ∃ G, ((cs i ++ pend i).map Chunk.own).Perm (csi.map Chunk.own ++ G))
    (hD : K'.direct = K.direct)
    (hpx : ∀ u, u ≠ i → K'.live u = K.live u ∧ K'.led u = K.led u ∧ K'.pbusy u = K.pbusy u)
    (hi : PxOK { ps.s.w with mem := m' } q (K'.live i) (K'.led i) (K'.pbusy i) (K.direct.busy i) (KS.busy i) csi []) :
    PInv p0 ps' K' KS (put cs i csi) (put pend i []) := by
  obtain ⟨h1, h2, h3⟩ := h.setMem hm
  refine h.upd i (csi := csi) (pendi := []) (by rw [hs]; exact h1) hhist ?_ ?_ ?_ ?_ (by rw [hD]; exact h.snap)
  · obtain ⟨G, hG⟩ := hown
    intro R hR
    refine ⟨G, ?_⟩
    rw [hD, List.append_nil]
    refine hR.trans (List.Perm.append_left _ ?_)
    refine (hG.append_right R).trans ?_
    rw [List.append_assoc]
    exact List.Perm.append_left _ List.perm_append_comm
  · intro u hu x hx
    rw [hs]; exact h2 u hu x hx
  · intro u hu
    obtain ⟨a1, a2, a3⟩ := hpx u hu
    refine ⟨by rw [hq]; exact if_neg hu, a1, a2, a3, by rw [hD], rfl⟩
  · rw [hs, hq, hD]
    simp only [if_true]
    exact hi

/-- Proxy `i` answers its caller after changing its chunks. -/
theorem PInv.answer {p0 ps K KS cs pend} (h : PInv p0 ps K KS cs pend) {i : Nat} {q : Option Proxy} {m' : Nat → Byte}
    {csi : List Chunk} {ps' : PS} {K' : PBook} (hb : KS.busy i = none)
    (hs : ps'.s = { ps.s with w := { ps.s.w with mem := m' } }) (hq : ps'.px = fun u => if u = i then q else ps.px u)
    (hhist : ∀ v ∈ ps'.hist, v ≤ HUGE)
    (hm : ∀ x, m' x ≠ ps.s.w.mem x → InCs (cs i ++ pend i) x)
    (hown : ∃ G, ((cs i ++ pend i).map Chunk.own).Perm (csi.map Chunk.own ++ G))
    (hD : K'.direct = K.direct)
    (hpx : ∀ u, u ≠ i → K'.live u = K.live u ∧ K'.led u = K.led u ∧ K'.pbusy u = K.pbusy u)
    (hi : PxOK { ps.s.w with mem := m' } q (K'.live i) (K'.led i) (K'.pbusy i) (K.direct.busy i) (KS.busy i) csi []) :
    ∃ KS' cs' pend', PInv p0 ps' K' KS' cs' pend' ∧ cs' = put cs i csi ∧ KPut K KS cs pend i KS' pend' :=
  ⟨KS, _, _, h.answer' hs hq hhist hm hown hD hpx hi, rfl, fun _ _ => rfl, fun _ _ he => by (rw [hb] at he; cases he),
    fun u hu => put_ne _ _ hu, fun c hc => by (rw [put_same] at hc; cases hc)⟩

theorem PEff.local {p0 ps K KS cs pend} (h : PInv p0 ps K KS cs pend) {i : Nat} {a : PAct} {r : Option Resp} {ps' : PS} {m' : Nat → Byte}
    (ha : ∀ a', a ≠ .shared a') (hs : ps'.s.w = { ps.s.w with mem := m' })
    (hm : ∀ x, m' x ≠ ps.s.w.mem x → InCs (cs i ++ pend i) x)
    (hu : a = .reset i ∨ a = .resetUnchecked i ∨ a = .drop i ∨ ∀ x, InUsed (cs i) x 1 → m' x = ps.s.w.mem x)
    (hc : ∀ p old new s, r = some (.block s) → (∃ i, a = .resize i p old new) →
      ∀ k, k < min new.size old.size → m' (s.addr + k) = ps.s.w.mem (p + k))
    (hp : pend i = [] ∨ m' = ps.s.w.mem := by first | exact .inr rfl | exact .inl hpend)
    (hw : a.proxy = some i ∨ m' = ps.s.w.mem := by first | exact .inl rfl | exact .inr rfl) : PEff ps K cs pend a r ps' where
  frame := by
    intro b x hx hb _ _
    rw [hs]
    exact h.frame_of hm hu b x hx hb
  copied := by
    rintro p old new s hr (h1 | ⟨t, ch, ob, h1, _⟩) k hk
    · rw [hs]; exact hc p old new s hr h1 k hk
    · exact absurd h1 (ha _)
  quiet := fun _ => by rw [hs]; exact (NoFrees.refl _).mem _
  mem := fun _ => by rw [hs]
  pend := by
    intro j x hx
    rw [hs]
    show m' x = _
    rcases hp with hp | hp
    · apply Classical.byContradiction
      intro hne
      by_cases hj : j = i
      · subst hj
        rw [hp] at hx
        obtain ⟨c, hc, _⟩ := hx
        cases hc
      · obtain ⟨c, hc, h1⟩ := hx
        exact h.sep hj (hm x hne) ⟨c, List.mem_append_right _ hc, h1⟩
    · rw [hp]
  kept := by
    intro j x hx _ hj
    rw [hs]
    show m' x = _
    rcases hw with hw | hw
    · apply Classical.byContradiction
      intro hne
      exact h.sep (fun e => hj (by rw [hw, e])) (hm x hne) hx
    · rw [hw]

theorem PInv.allocate {p0 ps K KS cs pend} (h : PInv p0 ps K KS cs pend) {i : Nat} {l : Layout} (hr : K.Ready i) (hl : l.Modest) :
    PGood p0 ps K KS cs pend (.allocate i l) := by
  obtain ⟨r1, r2, r3⟩ := hr
  have hp := h.px i
  rw [r1, r2] at hp
  obtain ⟨m, hpx, hv, hL, hm, hbusy, hpend⟩ := hp.ready
  rw [r3] at hbusy
  have hbz : K.direct.busy i = KS.busy i := by rw [r3]; exact hbusy
  refine .inr (.inr ?_)
  simp only [pstep, hpx]
  rcases allocFast_core hv (h.acc_left i) hl.1 (m := m) with ⟨s, w', cs', he, hres, hA, ht, hown, hroot, hmem⟩ | ⟨he, hno⟩
  · rw [ebind_ok he]
    refine ⟨_, _, rfl, ?_, ?_⟩
    · refine PEff.local h (i := i) (by simp) rfl (fun x hx => (hmem x hx).left) ?_ ?_
      · right; right; right
        intro x hx
        exact hres.frame_used hv hx
      · rintro _ _ _ _ _ ⟨j, hj⟩; cases hj
    · intro K' hK
      cases hK
      refine CsAfter.put (h.answer (csi := cs') hbusy.symm rfl rfl h.hist (fun x hx => (hmem x hx).left) ?_ rfl ?_ ?_) (Chunk.span_own hown) (fun _ _ _ => rfl)
      · refine ⟨[], ?_⟩
        rw [hpend, hown]; simp
      · intro u hu
        exact ⟨rfl, put_ne _ _ hu, rfl⟩
      · simp only [PBook.enter]
        rw [put_same, r1, r2, hbz, ← hroot]
        exact .idle (VInv.of hA rfl ht) (hL.alloc hv hl.1 hres) hm
  · rw [ebind_ok he]
    simp only
    rw [ebind_ok (chunkRequest_core hv (h.acc_left i) (needBound hv h.top hm hl) fun R hR => reqBound hv h.top hm hl hR)]
    simp only
    cases hR : chunkReq (rootCum (cs i)) m l with
    | none =>
      simp only
      refine ⟨_, _, rfl, ?_, ?_⟩
      · refine PEff.local h (i := i) (m' := ps.s.w.mem) (by simp) rfl (fun x hx => absurd rfl hx) (.inr (.inr (.inr fun _ _ => rfl))) ?_
        rintro _ _ _ _ _ ⟨j, hj⟩; cases hj
      · intro K' hK
        cases hK
        refine CsAfter.put (h.answer (csi := cs i) (m' := ps.s.w.mem) hbusy.symm rfl rfl h.hist (fun x hx => absurd rfl hx) ?_ rfl ?_ ?_) rfl (fun _ _ _ => rfl)
        · exact ⟨[], by rw [hpend]; simp⟩
        · intro u hu
          exact ⟨rfl, put_ne _ _ hu, rfl⟩
        · simp only [PBook.enter, pgets]
          rw [put_same, r1, r2, hbz]
          exact .idle hv hL hm
    | some R =>
      simp only
      have hRv := reqBound hv h.top hm hl hR
      have key := fun K' hD hx hi => h.askAlloc (i := i) (m := m) (R := R) (pc := .alloc l) (K' := K') hbusy.symm hRv hD hx hi
      have hidle := h.reach.busy_none hbusy.symm
      refine ⟨none, _, if_pos hidle, ?_, ?_⟩
      · refine PEff.local h (i := i) (m' := ps.s.w.mem) (by simp) rfl (fun x hx => absurd rfl hx) (.inr (.inr (.inr fun _ _ => rfl))) ?_
        rintro _ _ _ _ _ ⟨j, hj⟩; cases hj
      · intro K' hK
        cases hK
        obtain ⟨ps', he', _, KS', hinv, hkp⟩ := key (K.enter i (K.led i) (.allocate l) none none) rfl
          (fun u hu => ⟨rfl, put_ne _ _ hu, put_ne _ _ hu⟩) (by
            simp only [PBook.enter]
            rw [put_same, put_same, r1, r3, hpend]
            exact .alloc hv hL hm hl hno hR)
        unfold PS.ask at he'
        rw [if_pos hidle] at he'
        injection he' with he'; injection he' with he'; injection he' with _ he'
        subst he'
        exact ⟨KS', _, _, hinv, fun _ => rfl, .inl ⟨i, rfl, hkp⟩⟩

theorem PInv.resize {p0 ps K KS cs pend} (h : PInv p0 ps K KS cs pend) {i p : Nat} {old new : Layout} {b : Owned} (hr : K.Ready i)
    (hb : b ∈ K.led i) (hf : b.Fits p old) (hl : new.Modest) : PGood p0 ps K KS cs pend (.resize i p old new) := by
  obtain ⟨r1, r2, r3⟩ := hr
  have hp := h.px i
  rw [r1, r2] at hp
  obtain ⟨m, hpx, hv, hL, hm, hbusy, hpend⟩ := hp.ready
  rw [r3] at hbusy
  have hbz : K.direct.busy i = KS.busy i := by rw [r3]; exact hbusy
  have hu : InUsed (cs i) p old.size := by
    obtain ⟨f1, f2, f3, f4⟩ := hf
    exact (hL.each b hb).2.2.2.sub (by omega) (by omega)
  refine .inr (.inr ?_)
  simp only [pstep, hpx]
  rcases resizeFast_core hv (h.acc_left i) hl.1 hu (m := m) with ⟨s, w', cs', he, hres, hA, ht, hown, hroot, hmem⟩ | ⟨he, hno⟩
  · rw [ebind_ok he]
    refine ⟨_, _, rfl, ?_, ?_⟩
    · refine PEff.local h (i := i) (by simp) rfl (fun x hx => (hmem x hx).left) ?_ ?_
      · right; right; right
        intro x hx
        exact hres.frame hv hl.1 hx
      · rintro p' old' new' s' h1 ⟨j, hj⟩ k hk
        injection h1 with h1; injection h1 with h1; subst h1
        injection hj with _ e1 e2 e3; subst e1; subst e2; subst e3
        exact hres.contents hv hl.1 hu hk
    · intro K' hK
      cases hK with
      | @resize _ b' _ _ _ _ hb' hf' =>
      refine CsAfter.put (h.answer (csi := cs') hbusy.symm rfl rfl h.hist (fun x hx => (hmem x hx).left) ?_ rfl ?_ ?_) (Chunk.span_own hown) (fun _ _ _ => rfl)
      · refine ⟨[], ?_⟩
        rw [hpend, hown]; simp
      · intro u hu
        exact ⟨rfl, put_ne _ _ hu, rfl⟩
      · simp only [PBook.enter]
        rw [put_same, r1, r2, hbz, ← hroot]
        exact .idle (VInv.of hA rfl ht) (hL.resize hv hl.1 hb' hf' hres) hm
  · rw [ebind_ok he]
    simp only
    rw [ebind_ok (chunkRequest_core hv (h.acc_left i) (needBound hv h.top hm hl) fun R hR => reqBound hv h.top hm hl hR)]
    simp only
    cases hR : chunkReq (rootCum (cs i)) m new with
    | none =>
      simp only
      refine ⟨_, _, rfl, ?_, ?_⟩
      · refine PEff.local h (i := i) (m' := ps.s.w.mem) (by simp) rfl (fun x hx => absurd rfl hx) (.inr (.inr (.inr fun _ _ => rfl))) ?_
        rintro _ _ _ _ hx; cases hx
      · intro K' hK
        cases hK with
        | @resize _ b' _ _ _ _ hb' hf' =>
        refine CsAfter.put (h.answer (csi := cs i) (m' := ps.s.w.mem) hbusy.symm rfl rfl h.hist (fun x hx => absurd rfl hx) ?_ rfl ?_ ?_) rfl (fun _ _ _ => rfl)
        · exact ⟨[], by rw [hpend]; simp⟩
        · intro u hu
          exact ⟨rfl, put_ne _ _ hu, rfl⟩
        · simp only [PBook.enter, pgets]
          rw [put_same, r1, r2, hbz]
          exact .idle hv (hL.perm (List.perm_cons_erase hb')) hm
    | some R =>
      simp only
      have hRv := reqBound hv h.top hm hl hR
      have key := fun K' hD hx hi => h.askAlloc (i := i) (m := m) (R := R) (pc := .resize p old new) (K' := K') hbusy.symm hRv hD hx hi
      have hidle := h.reach.busy_none hbusy.symm
      refine ⟨none, _, if_pos hidle, ?_, ?_⟩
      · refine PEff.local h (i := i) (m' := ps.s.w.mem) (by simp) rfl (fun x hx => absurd rfl hx) (.inr (.inr (.inr fun _ _ => rfl))) ?_
        rintro _ _ _ _ hx; cases hx
      · intro K' hK
        cases hK with
        | @resize _ b' _ _ _ _ hb' hf' =>
        obtain ⟨ps', he', _, KS', hinv, hkp⟩ := key (K.enter i ((K.led i).erase b') (.resize p old new) (some b') none) rfl
          (fun u hu => ⟨rfl, put_ne _ _ hu, put_ne _ _ hu⟩) (by
            simp only [PBook.enter]
            rw [put_same, put_same, r1, r3, hpend]
            exact .resize hv (hL.perm (List.perm_cons_erase hb')) hm hl hf' hno hR)
        unfold PS.ask at he'
        rw [if_pos hidle] at he'
        injection he' with he'; injection he' with he'; injection he' with _ he'
        subst he'
        exact ⟨KS', _, _, hinv, fun _ => rfl, .inl ⟨i, rfl, hkp⟩⟩

theorem PInv.deallocate {p0 ps K KS cs pend} (h : PInv p0 ps K KS cs pend) {i p n : Nat} {b : Owned} (hr : K.Ready i)
    (hb : b ∈ K.led i) (hf : b.addr = p ∧ b.size ≤ n ∧ n ≤ b.len) : PGood p0 ps K KS cs pend (.deallocate i p n) := by
  obtain ⟨r1, r2, r3⟩ := hr
  have hp := h.px i
  rw [r1, r2] at hp
  obtain ⟨m, hpx, hv, hL, hm, hbusy, hpend⟩ := hp.ready
  rw [r3] at hbusy
  have hbz : K.direct.busy i = KS.busy i := by rw [r3]; exact hbusy
  have hu : InUsed (cs i) p n := (hL.each b hb).2.2.2.sub (by omega) (by omega)
  refine .inr (.inr ?_)
  simp only [pstep, hpx]
  rw [ebind_ok (deallocate_core hv (h.acc_left i) hu)]
  refine ⟨_, _, rfl, ?_, ?_⟩
  · refine PEff.local h (i := i) (m' := ps.s.w.mem) (by simp) rfl (fun x hx => absurd rfl hx) (.inr (.inr (.inr fun _ _ => rfl))) ?_
    rintro _ _ _ _ hx; cases hx
  · intro K' hK
    cases hK with
    | @deallocate _ b' _ _ hb' hf' =>
    refine CsAfter.put (h.answer (csi := cs i) (m' := ps.s.w.mem) hbusy.symm rfl rfl h.hist (fun x hx => absurd rfl hx) ?_ rfl ?_ ?_) rfl (fun _ _ _ => rfl)
    · exact ⟨[], by rw [hpend]; simp⟩
    · intro u hu
      exact ⟨rfl, put_ne _ _ hu, rfl⟩
    · dsimp only
      rw [put_same, r1, r2, hbz]
      exact .idle hv (hL.erase b') hm

theorem VInv.cap_le {w : World} {c t} (h : VInv w (c :: t)) (ht : w.top ≤ HUGE) : c.cap ≤ HUGE := by
  have := sum_cap_lt h
  have : (VW w (c :: t)).top = w.top := rfl
  simp only [List.map_cons, List.sum_cons] at *
  omega

theorem VInv.lastCap_le {w : World} {cs} (h : VInv w cs) (ht : w.top ≤ HUGE) : (cs.head?.map Chunk.cap).getD 0 ≤ HUGE := by
  cases cs with
  | nil => exact Nat.zero_le _
  | cons c t => exact h.cap_le ht

theorem PInv.hist_max {p0 ps K KS cs pend} (h : PInv p0 ps K KS cs pend) {t v : Nat} (hv : v ≤ HUGE) :
    ∀ x ∈ (ps.fetchMax t v).hist, x ≤ HUGE := by
  intro x hx
  simp only [PS.fetchMax, PS.setView, List.mem_cons] at hx
  rcases hx with hx | hx
  · have : ps.hist.headD 0 ≤ HUGE := by
      cases hh : ps.hist with
      | nil => exact Nat.zero_le _
      | cons y ys => exact h.hist y (by rw [hh]; exact List.mem_cons_self)
    omega
  · exact h.hist x hx

theorem PInv.reset {p0 ps K KS cs pend} (h : PInv p0 ps K KS cs pend) {i : Nat} (hr : K.Ready i) : PGood p0 ps K KS cs pend (.reset i) := by
  obtain ⟨r1, r2, r3⟩ := hr
  have hp := h.px i
  rw [r1, r2] at hp
  obtain ⟨m, hpx, hv, hL, hm, hbusy, hpend⟩ := hp.ready
  rw [r3] at hbusy
  have hbz : K.direct.busy i = KS.busy i := by rw [r3]; exact hbusy
  refine .inr (.inr ?_)
  simp only [pstep, hpx]
  rw [ebind_ok (lastChunkSize_core hv (h.acc_left i))]
  simp only
  have hcap := hv.lastCap_le h.top
  have hacc := h.acc_left i
  generalize hcs : cs i = csi at *
  cases csi with
  | nil =>
    have : arenaResetLeak (rootOf []) true ps.s.w = .ok (rootOf [], ps.s.w) := rfl
    rw [ebind_ok this]
    refine ⟨_, _, rfl, ?_, ?_⟩
    · exact PEff.local h (i := i) (m' := ps.s.w.mem) (by simp) rfl (fun x hx => absurd rfl hx) (.inl rfl) (by rintro _ _ _ _ hx; cases hx)
    · intro K' hK
      cases hK
      refine CsAfter.put (h.answer (i := i) (csi := []) (m' := ps.s.w.mem) hbusy.symm rfl rfl (h.hist_max (t := i) hcap) (fun x hx => absurd rfl hx) ?_ rfl ?_ ?_) (by simp [PS.chunksAfter, *]) (fun _ _ hj => by simp [PS.chunksAfter, hj])
      · exact ⟨_, by simp; exact .refl _⟩
      · intro u hu
        exact ⟨rfl, put_ne _ _ hu, rfl⟩
      · dsimp only
        rw [put_same, r1, r2, hbz]
        exact .idle (cs := []) hv LOK.nil hm
  | cons c t =>
    obtain ⟨m', he, hv1, hv2, hmem⟩ := chunkReset_core hv hacc
    have hne : rootOf (c :: t) ≠ 0 := by rw [Ne, rootOf_eq_zero hv.ok]; simp
    have : arenaResetLeak (rootOf (c :: t)) true ps.s.w = .ok (c.start, { ps.s.w with mem := m' }) := by
      unfold arenaResetLeak
      rw [if_pos rfl, if_neg hne]
      exact bind_ok he
    rw [ebind_ok this]
    have hm' : ∀ x, m' x ≠ ps.s.w.mem x → InCs (cs i ++ pend i) x := by
      intro x hx
      obtain ⟨d, hd, h1⟩ := hmem x hx
      rw [List.mem_singleton] at hd; subst hd
      exact ⟨d, by rw [hcs]; simp, h1⟩
    refine ⟨_, _, rfl, ?_, ?_⟩
    · exact PEff.local h (i := i) (m' := m') (by simp) rfl hm' (.inl rfl) (by rintro _ _ _ _ hx; cases hx)
    · intro K' hK
      cases hK
      refine CsAfter.put (h.answer (i := i) (csi := [c.rewind]) (m' := m') hbusy.symm rfl rfl (h.hist_max (t := i) hcap) hm' ?_ rfl ?_ ?_) (by rw [hcs]; simp [PS.chunksAfter, Chunk.span, Chunk.rewind]) (fun _ _ hj => by simp [PS.chunksAfter, hj])
      · refine ⟨t.map Chunk.own, ?_⟩
        rw [hcs, hpend]; simp [Chunk.own, Chunk.rewind]
      · intro u hu
        exact ⟨rfl, put_ne _ _ hu, rfl⟩
      · dsimp only
        rw [put_same, r1, r2, hbz]
        exact .idle (cs := [c.rewind]) hv1 LOK.nil hm

theorem PInv.drop {p0 ps K KS cs pend} (h : PInv p0 ps K KS cs pend) {i : Nat} (hr : K.Ready i) : PGood p0 ps K KS cs pend (.drop i) := by
  obtain ⟨r1, r2, r3⟩ := hr
  have hp := h.px i
  rw [r1, r2] at hp
  obtain ⟨m, hpx, hv, hL, hm, hbusy, hpend⟩ := hp.ready
  rw [r3] at hbusy
  have hbz : K.direct.busy i = KS.busy i := by rw [r3]; exact hbusy
  refine .inr (.inr ?_)
  simp only [pstep, hpx]
  rw [ebind_ok (lastChunkSize_core hv (h.acc_left i))]
  simp only
  have : arenaResetLeak (rootOf (cs i)) false ps.s.w = .ok (0, ps.s.w) := rfl
  rw [ebind_ok this]
  simp only
  rw [ebind_ok (dassert_ok fun _ => trivial)]
  refine ⟨_, _, rfl, ?_, ?_⟩
  · exact PEff.local h (i := i) (m' := ps.s.w.mem) (by simp) rfl (fun x hx => absurd rfl hx) (.inr (.inr (.inl rfl))) (by rintro _ _ _ _ hx; cases hx)
  · intro K' hK
    cases hK
    refine CsAfter.put (h.answer (i := i) (csi := []) (m' := ps.s.w.mem) hbusy.symm rfl rfl (h.hist_max (t := i) (hv.lastCap_le h.top)) (fun x hx => absurd rfl hx) ?_ rfl ?_ ?_) (by simp [PS.chunksAfter, *]) (fun _ _ hj => by simp [PS.chunksAfter, hj])
    · exact ⟨_, by simp; exact .refl _⟩
    · intro u hu
      exact ⟨put_ne _ _ hu, put_ne _ _ hu, rfl⟩
    · dsimp only
      rw [put_same, put_same, r2, hbz]
      exact .absent

theorem PInv.spawn {p0 ps K KS cs pend} (h : PInv p0 ps K KS cs pend) {i k : Nat} (hr : K.live i = false) : PGood p0 ps K KS cs pend (.spawn i k) := by
  have hp := h.px i
  rw [hr] at hp
  obtain ⟨e1, e2, e3, e4, e5, e6⟩ := hp.dead
  refine .inr ?_
  simp only [pstep, e1]
  by_cases hv : ps.view i ≤ ps.hist.getD k (ps.hist.headD 0)
  · right
    rw [if_pos hv]
    refine ⟨_, _, rfl, ?_, ?_⟩
    · exact PEff.local h (i := i) (m' := ps.s.w.mem) (by simp) rfl (fun x hx => absurd rfl hx) (.inr (.inr (.inr fun _ _ => rfl)))
        (by rintro _ _ _ _ hx; cases hx)
    · intro K' hK
      cases hK
      refine ⟨_, _, _, h.answer' (i := i) (csi := []) (m' := ps.s.w.mem) rfl rfl h.hist (fun x hx => absurd rfl hx) ?_ rfl ?_ ?_, fun j => ?_,
        .inr ⟨fun _ => rfl, fun u => ?_, rfl, by simp⟩⟩
      rotate_left 3
      · show _ = (cs j).map Chunk.span
        by_cases hj : j = i
        · subst hj; rw [put_same, e5]
        · rw [put_ne _ _ hj]
      · by_cases hu : u = i
        · subst hu; rw [put_same, e6]
        · exact put_ne _ _ hu
      · exact ⟨_, by simp; exact .refl _⟩
      · intro u hu
        exact ⟨put_ne _ _ hu, rfl, rfl⟩
      · dsimp only
        rw [put_same, e2, e3, e4]
        refine .idle (cs := []) (VInv.nil ?_) LOK.nil ?_
        · have := h.top
          show ps.s.w.top ≤ _
          simp only [HUGE] at this
          omega
        · have h0 : ps.hist.headD 0 ≤ HUGE := by
            cases hh : ps.hist with
            | nil => exact Nat.zero_le _
            | cons y ys => exact h.hist y (by rw [hh]; exact List.mem_cons_self)
          rw [List.getD_eq_getElem?_getD]
          cases hg : ps.hist[k]? with
          | none => exact h0
          | some v => exact h.hist v (List.mem_of_getElem? hg)
  · left
    rw [if_neg hv]; rfl

theorem PInv.updateMax {p0 ps K KS cs pend} (h : PInv p0 ps K KS cs pend) {t v : Nat} (hv : v ≤ HUGE) : PGood p0 ps K KS cs pend (.updateMax t v) := by
  refine .inr (.inr ⟨_, _, rfl, ?_, ?_⟩)
  · exact PEff.local h (i := t) (m' := ps.s.w.mem) (by simp) rfl (fun x hx => absurd rfl hx) (.inr (.inr (.inr fun _ _ => rfl)))
      (by rintro _ _ _ _ hx; cases hx)
  · intro K' hK
    cases hK
    exact ⟨KS, cs, pend, ⟨h.reach, h.top, h.hist_max hv, h.tiles, h.px, h.snap⟩, fun _ => rfl, .inr ⟨fun _ => rfl, fun _ => rfl, rfl, by simp⟩⟩

theorem PInv.syncs {p0 ps K KS cs pend} (h : PInv p0 ps K KS cs pend) {t u : Nat} : PGood p0 ps K KS cs pend (.sync t u) := by
  refine .inr (.inr ⟨_, _, rfl, ?_, ?_⟩)
  · exact PEff.local h (i := t) (m' := ps.s.w.mem) (by simp) rfl (fun x hx => absurd rfl hx) (.inr (.inr (.inr fun _ _ => rfl)))
      (by rintro _ _ _ _ hx; cases hx)
  · intro K' hK
    cases hK
    exact ⟨KS, cs, pend, ⟨h.reach, h.top, h.hist, h.tiles, h.px, h.snap⟩, fun _ => rfl, .inr ⟨fun _ => rfl, fun _ => rfl, rfl, by simp⟩⟩

/-! ### Giving chunks back one by one -/

theorem freeNext_eq {ps : PS} {i : Nat} {a : BA} {w : World} {P : List Chunk} (hv : VInv w P) (ha : Acc w P) :
    ps.freeNext i a (rootOf P) w = match P with
      | [] => ps.answer i a w .unit
      | c :: t => ps.ask i a w (.deallocate c.start (c.end_ - c.start)) (.chain (rootOf t)) := by
  unfold PS.freeNext
  cases P with
  | nil => rfl
  | cons c t =>
    have hne : rootOf (c :: t) ≠ 0 := by rw [Ne, rootOf_eq_zero hv.ok]; simp
    rw [if_neg hne]
    have hl := ha.lift hv.ok (V := VW w (c :: t)) fun _ hb => hb
    have h1 := ((Lift.loadWord (c.start + 16)).run (w := w) (AInv.loadPrev hv) rfl rfl hl).1
    have h2 := ((Lift.loadWord (c.start + 8)).run (w := w) (AInv.loadEnd hv) rfl rfl hl).1
    have h3 : loadPrev c.start w = .ok (rootOf t, w) := h1
    have h4 : loadEnd c.start w = .ok (c.end_, w) := h2
    have hc := hv.ok c List.mem_cons_self
    have := hc.lo; have := hc.hi
    show (loadPrev c.start w >>= _) = _
    rw [ebind_ok h3]
    simp only
    show (loadEnd c.start w >>= _) = _
    rw [ebind_ok h4]
    simp only
    show (subU c.end_ c.start w >>= _) = _
    rw [ebind_ok (subU_ok (by omega))]
    rfl

/-- One round of the loop of `reset_unchecked` of proxy `i`. -/
theorem PInv.chainStep' {p0 ps K KS cs pend} (h : PInv p0 ps K KS cs pend) {i m : Nat} {c : Chunk} {P : List Chunk} {KS1 : Book}
    {ps1 : PS} {w : World} (hpx1 : ps1.px = ps.px) (hh1 : ps1.hist = ps.hist)
    (hreach : SReach p0.s { ps1.s with w := w } KS1) (hb1 : KS1.busy i = none) (hbu : ∀ u, u ≠ i → KS1.busy u = KS.busy u)
    (htiles : ∀ R, KS.owned.Perm (K.direct.owned ++ ((cs i ++ pend i).map Chunk.own ++ R)) →
      ∃ G, KS1.owned.Perm (K.direct.owned ++ (([c] ++ P).map Chunk.own ++ (R ++ G))))
    (hmem : ∀ u, u ≠ i → ∀ x, InCs (cs u ++ pend u) x → w.mem x = ps.s.w.mem x)
    (hv : VInv w [c]) (hP : VInv w P) (hacc : Acc w P) (hm : m ≤ HUGE) (hcur : c.cursor = c.start + 32)
    (hPin : ∀ d ∈ P, d ∈ cs i ++ pend i) (hsn : ∀ u, KS1.snap u = KS.snap u := by intros; rfl) :
    ∃ r ps', ps1.freeNext i ⟨c.start, m⟩ (rootOf P) w = .ok (some (r, ps')) ∧ ps'.s.w = w ∧ (r = none ∨ r = some .unit) ∧
      ∀ K', K'.direct = K.direct → (∀ u, u ≠ i → K'.live u = K.live u ∧ K'.led u = K.led u ∧ K'.pbusy u = K.pbusy u) →
        K'.live i = true → K'.led i = [] → K'.direct.busy i = none →
        K'.pbusy i = (if r = none then some (.resetUnchecked, none) else none) → ∃ KS' cs' pend', PInv p0 ps' K' KS' cs' pend' ∧ cs' = put cs i [c] ∧
          KPut K KS cs pend i KS' pend' ∧ (r = none → (pend' i).length < P.length) := by
  rw [freeNext_eq hP hacc]
  cases P with
  | nil =>
    refine ⟨_, _, rfl, rfl, .inr rfl, ?_⟩
    intro K' hD hpx e1 e2 e3 e4
    refine ⟨KS1, _, _, h.upd i (csi := [c]) (pendi := []) hreach (show ∀ v ∈ ps1.hist, v ≤ HUGE by rw [hh1]; exact h.hist) ?_ hmem ?_ ?_
      (fun u hu => by rw [hD] at hu ⊢; exact (hsn u).trans (h.snap u hu)), rfl,
      ⟨hbu, fun _ _ hb => by (rw [hb1] at hb; cases hb), fun u hu => put_ne _ _ hu, fun c hc => by (rw [put_same] at hc; cases hc)⟩, by simp⟩
    · intro R hR
      obtain ⟨G, hG⟩ := htiles R hR
      exact ⟨G, by rw [hD]; exact hG⟩
    · intro u hu
      obtain ⟨a1, a2, a3⟩ := hpx u hu
      exact ⟨by rw [PS.setPx_ne _ _ hu]; exact congrFun hpx1 u, a1, a2, a3, by rw [hD], hbu u hu⟩
    · rw [PS.setPx_same, e1, e2, e3, e4, hb1]
      simp only [reduceCtorEq, if_false]
      exact .idle (cs := [c]) hv LOK.nil hm
  | cons d t =>
    have hidle : ps1.s.pcs i = .idle := hreach.busy_none hb1
    simp only
    refine ⟨_, _, if_pos hidle, rfl, .inl rfl, ?_⟩
    intro K' hD hpx e1 e2 e3 e4
    have hdo : d.own ∈ KS1.owned := by
      obtain ⟨R, hR, _⟩ := h.tiles.focus i
      obtain ⟨G, hG⟩ := htiles R hR
      exact hG.mem_iff.mpr (by simp)
    have hdok := hP.ok d List.mem_cons_self
    have hfit : d.own.addr = d.start ∧ d.own.size ≤ d.end_ - d.start ∧ d.end_ - d.start ≤ d.own.len :=
      ⟨rfl, hdok.req, Nat.le_refl _⟩
    obtain ⟨h0, tr, hr⟩ := hreach
    refine ⟨_, _, _, h.upd i (csi := [c]) (pendi := t)
      ⟨h0, _, hr.snoc (.deallocate hb1 hdo hfit) (if_pos hidle) (.deallocate hdo hfit)⟩
      (show ∀ v ∈ ps1.hist, v ≤ HUGE by rw [hh1]; exact h.hist) ?_ hmem ?_ ?_
      (fun u hu => by
        have hne : u ≠ i := by rintro rfl; exact hu e3
        rw [hD] at hu ⊢
        exact (put_ne _ _ hne).trans ((hsn u).trans (h.snap u hu))), rfl, ⟨fun u hu => (put_ne _ _ hu).trans (hbu u hu), ?_, fun u hu => put_ne _ _ hu, ?_⟩, fun _ => by simp [put]⟩
    · intro R hR
      obtain ⟨G, hG⟩ := htiles R hR
      refine ⟨G, ?_⟩
      rw [hD]
      dsimp only
      have hp : KS1.owned.Perm (d.own :: (K.direct.owned ++ (([c] ++ t).map Chunk.own ++ (R ++ G)))) := by
        refine hG.trans ?_
        simp only [List.cons_append, List.nil_append, List.map_cons]
        refine (List.Perm.append_left _ (List.Perm.swap _ _ _)).trans List.perm_middle
      have := hp.erase d.own
      rw [List.erase_cons_head] at this
      exact this
    · intro u hu
      obtain ⟨a1, a2, a3⟩ := hpx u hu
      exact ⟨by rw [PS.setPx_ne _ _ hu]; exact congrFun hpx1 u, a1, a2, a3, by rw [hD], (put_ne _ _ hu).trans (hbu u hu)⟩
    · rw [PS.setPx_same, e1, e2, e3, e4]
      dsimp only
      rw [put_same]
      exact .chain hv hP.tail hm hcur
    · intro c' b hb
      dsimp only at hb
      rw [put_same] at hb
      injection hb with hb; injection hb with _ hb; injection hb with hb
      exact .inl ⟨d, hPin d List.mem_cons_self, hb.symm⟩
    · intro e he
      rw [put_same] at he
      exact hPin e (List.mem_cons_of_mem _ he)

theorem PInv.chainStep {p0 ps K KS cs pend} (h : PInv p0 ps K KS cs pend) {i m : Nat} {c : Chunk} {P : List Chunk} {KS1 : Book}
    {ps1 : PS} {w : World} (hpx1 : ps1.px = ps.px) (hh1 : ps1.hist = ps.hist)
    (hreach : SReach p0.s { ps1.s with w := w } KS1) (hb1 : KS1.busy i = none) (hbu : ∀ u, u ≠ i → KS1.busy u = KS.busy u)
    (htiles : ∀ R, KS.owned.Perm (K.direct.owned ++ ((cs i ++ pend i).map Chunk.own ++ R)) →
      ∃ G, KS1.owned.Perm (K.direct.owned ++ (([c] ++ P).map Chunk.own ++ (R ++ G))))
    (hmem : ∀ u, u ≠ i → ∀ x, InCs (cs u ++ pend u) x → w.mem x = ps.s.w.mem x)
    (hv : VInv w [c]) (hP : VInv w P) (hacc : Acc w P) (hm : m ≤ HUGE) (hcur : c.cursor = c.start + 32)
    (hPin : ∀ d ∈ P, d ∈ cs i ++ pend i) (hsn : ∀ u, KS1.snap u = KS.snap u := by intros; rfl) :
    ∃ r ps', ps1.freeNext i ⟨c.start, m⟩ (rootOf P) w = .ok (some (r, ps')) ∧ ps'.s.w = w ∧ (r = none ∨ r = some .unit) ∧
      ∀ K', K'.direct = K.direct → (∀ u, u ≠ i → K'.live u = K.live u ∧ K'.led u = K.led u ∧ K'.pbusy u = K.pbusy u) →
        K'.live i = true → K'.led i = [] → K'.direct.busy i = none →
        K'.pbusy i = (if r = none then some (.resetUnchecked, none) else none) → ∃ KS' cs' pend', PInv p0 ps' K' KS' cs' pend' ∧ cs' = put cs i [c] ∧
          KPut K KS cs pend i KS' pend' := by
  obtain ⟨r, ps', q1, q2, q3, q4⟩ := h.chainStep' hpx1 hh1 hreach hb1 hbu htiles hmem hv hP hacc hm hcur hPin hsn
  refine ⟨r, ps', q1, q2, q3, fun K' a1 a2 a3 a4 a5 a6 => ?_⟩
  obtain ⟨KS', cs', pend', h', hc, hk, _⟩ := q4 K' a1 a2 a3 a4 a5 a6
  exact ⟨KS', cs', pend', h', hc, hk⟩

theorem PInv.resetUnchecked {p0 ps K KS cs pend} (h : PInv p0 ps K KS cs pend) {i : Nat} (hr : K.Ready i) :
    PGood p0 ps K KS cs pend (.resetUnchecked i) := by
  obtain ⟨r1, r2, r3⟩ := hr
  have hp := h.px i
  rw [r1, r2] at hp
  obtain ⟨m, hpx, hv, hL, hm, hbusy, hpend⟩ := hp.ready
  rw [r3] at hbusy
  have hbz : K.direct.busy i = KS.busy i := by rw [r3]; exact hbusy
  refine .inr (.inr ?_)
  simp only [pstep, hpx]
  have hacc := h.acc_left i
  generalize hcs : cs i = csi at *
  cases csi with
  | nil =>
    rw [if_pos (show rootOf [] = 0 from rfl)]
    refine ⟨_, _, rfl, ?_, ?_⟩
    · exact PEff.local h (i := i) (m' := ps.s.w.mem) (by simp) rfl (fun x hx => absurd rfl hx) (.inr (.inl rfl)) (by rintro _ _ _ _ hx; cases hx)
    · intro K' hK
      cases hK
      refine CsAfter.put (h.answer (i := i) (csi := []) (m' := ps.s.w.mem) hbusy.symm rfl rfl h.hist (fun x hx => absurd rfl hx) ?_ rfl ?_ ?_) (by simp [PS.chunksAfter, *]) (fun _ _ hj => by simp [PS.chunksAfter, hj])
      · exact ⟨_, by simp; exact .refl _⟩
      · intro u hu
        exact ⟨rfl, put_ne _ _ hu, rfl⟩
      · simp only [PBook.enter, pgets]
        rw [put_same, r1, r2, hbz]
        exact .idle (cs := []) hv LOK.nil hm
  | cons c t =>
    obtain ⟨m', he, hv1, hv2, hmem⟩ := chunkReset_core hv hacc
    have hne : rootOf (c :: t) ≠ 0 := by rw [Ne, rootOf_eq_zero hv.ok]; simp
    rw [if_neg hne]
    show ∃ r ps', (chunkReset c.start ps.s.w >>= _) = _ ∧ _
    rw [ebind_ok he]
    simp only
    have hm' : ∀ x, m' x ≠ ps.s.w.mem x → InCs (cs i ++ pend i) x := by
      intro x hx
      obtain ⟨d, hd, h1⟩ := hmem x hx
      rw [List.mem_singleton] at hd; subst hd
      exact ⟨d, by rw [hcs]; simp, h1⟩
    obtain ⟨s1, s2, s3⟩ := h.setMem hm'
    obtain ⟨r, ps', q1, q2, q3, q4⟩ := h.chainStep (i := i) (m := m) (c := c.rewind) (P := t) (KS1 := KS) (ps1 := ps)
      (w := { ps.s.w with mem := m' }) rfl rfl s1 hbusy.symm (fun _ _ => rfl) (by
        intro R hR
        refine ⟨[], ?_⟩
        rw [List.append_nil]
        rw [hcs, hpend] at hR
        simpa [Chunk.own, Chunk.rewind] using hR) s2 hv1 hv2 hacc.cons hm rfl
      (fun d hd => List.mem_append_left _ (by rw [hcs]; exact List.mem_cons_of_mem _ hd))
    refine ⟨r, ps', q1, ?_, ?_⟩
    · refine PEff.local h (i := i) (m' := m') (by simp) q2 hm' (.inr (.inl rfl)) ?_
      intro _ _ _ s hx
      rcases q3 with q3 | q3 <;> rw [q3] at hx <;> cases hx
    · intro K' hK
      cases hK
      have hspan : [c.rewind].map Chunk.span = ps.chunksAfter (.resetUnchecked i) i ((cs i).map Chunk.span) := by
        rw [hcs]; simp [PS.chunksAfter, Chunk.span, Chunk.rewind]
      have hoth : ∀ j L, j ≠ i → ps.chunksAfter (.resetUnchecked i) j L = L := fun _ _ hj => by simp [PS.chunksAfter, hj]
      rcases q3 with q3 | q3
      · subst q3
        refine CsAfter.put (q4 _ rfl (fun u hu => ⟨rfl, put_ne _ _ hu, put_ne _ _ hu⟩) r1 ?_ r3 ?_) hspan hoth
        · simp only [PBook.enter]; rw [put_same]
        · simp only [PBook.enter]; rw [put_same]; rfl
      · subst q3
        refine CsAfter.put (q4 _ rfl (fun u hu => ⟨rfl, put_ne _ _ hu, rfl⟩) r1 ?_ r3 r2) hspan hoth
        simp only [PBook.enter, pgets]; rw [put_same]; rfl

/-! ### Actions at the shared allocator -/

theorem PxOK.frameHdr {w w' : World} {px live led pb db kb cs pend} (h : PxOK w px live led pb db kb cs pend)
    (ht : w'.top = w.top) (hm : ∀ c ∈ cs ++ pend, ∀ x, c.start ≤ x → x < c.start + 32 → w'.mem x = w.mem x) :
    PxOK w' px live led pb db kb cs pend := by
  have key : ∀ ds, (∀ c ∈ ds, c ∈ cs ++ pend) → VInv w ds → VInv w' ds := fun ds hs hv =>
    VInv.of (V := { VW w ds with mem := w'.mem }) (AInv.setMem hv fun c hc x h1 h2 => hm c (hs c hc) x h1 h2) rfl ht.symm
  cases h with
  | absent => exact .absent
  | idle hv hL h1 => exact .idle (key _ (by simp) hv) hL h1
  | alloc hv hL h1 h2 h3 h4 => exact .alloc (key _ (by simp) hv) hL h1 h2 h3 h4
  | resize hv hL h1 h2 h3 h4 h5 => exact .resize (key _ (by simp) hv) hL h1 h2 h3 h4 h5
  | chain hv hp h1 h2 =>
    exact .chain (key _ (fun c hc => List.mem_append_left _ hc) hv) (key _ (fun c hc => List.mem_append_right _ hc) hp) h1 h2

/-- Distinct chunks of one proxy do not overlap. -/
theorem PInv.hdr_used {p0 ps K KS cs pend} (h : PInv p0 ps K KS cs pend) {i : Nat} {x : Nat} (hx : InUsed (cs i) x 1)
    {c : Chunk} (hc : c ∈ cs i ++ pend i) (h1 : c.start ≤ x) (h2 : x < c.start + 32) : False := by
  obtain ⟨d, hd, h3, h4⟩ := hx
  have hdok := (h.px i).ok d (List.mem_append_left _ hd)
  have hcok := (h.px i).ok c hc
  have hpw := (h.tiles.apart (C22_no_overlap h.reach) i).1
  have hxd : d.own.Has x := (Chunk.own_has hdok).mpr ⟨by have := hdok.lo; omega, by have := hdok.hi; omega⟩
  have hxc : c.own.Has x := (Chunk.own_has hcok).mpr ⟨h1, by have := hcok.lo; have := hcok.hi; omega⟩
  rw [List.pairwise_map] at hpw
  have : ∀ (L : List Chunk), L.Pairwise (fun a b => a.own.Apart b.own) → d ∈ L → c ∈ L → d = c := by
    intro L hL
    induction L with
    | nil => intro hd; cases hd
    | cons e L ih =>
      rw [List.pairwise_cons] at hL
      intro hd' hc'
      rcases List.mem_cons.mp hd' with rfl | hd2
      · rcases List.mem_cons.mp hc' with rfl | hc2
        · rfl
        · exact absurd ⟨hxd, hxc⟩ (hL.1 c hc2 x)
      · rcases List.mem_cons.mp hc' with rfl | hc2
        · exact absurd ⟨hxc, hxd⟩ (hL.1 d hd2 x)
        · exact ih hL.2 hd2 hc2
  have := this _ hpw (List.mem_append_left _ hd) hc
  subst this
  omega

/-- The chunks a proxy keeps and those it is giving back do not overlap. -/
theorem PInv.pend_apart {p0 ps K KS cs pend} (h : PInv p0 ps K KS cs pend) {i : Nat} {x : Nat} (hx : InCs (cs i) x)
    (hy : InCs (pend i) x) : False := by
  obtain ⟨c, hc, h1⟩ := hx
  obtain ⟨d, hd, h2⟩ := hy
  have hpw := (h.tiles.apart (C22_no_overlap h.reach) i).1
  rw [List.map_append, List.pairwise_append] at hpw
  have hok := (h.px i).ok
  exact hpw.2.2 _ (List.mem_map_of_mem hc) _ (List.mem_map_of_mem hd) x
    ⟨(Chunk.own_has (hok c (List.mem_append_left _ hc))).mpr h1, (Chunk.own_has (hok d (List.mem_append_right _ hd))).mpr h2⟩

theorem PInv.write {p0 ps K KS cs pend} (h : PInv p0 ps K KS cs pend) {x : Nat} {v : Byte} {b : Owned} (hx : b.Has x)
    (hb : b ∈ K.direct.owned ∨ ∃ i, b ∈ K.led i) : PGood p0 ps K KS cs pend (.shared (.write x v)) := by
  refine .inr (.inr ⟨_, _, rfl, ?_, ?_⟩)
  · refine ⟨?_, ?_, fun _ => (NoFrees.refl _).mem _, fun h => absurd rfl (h _), ?_, fun j y _ hne _ => ?_⟩
    rotate_right
    · have : y ≠ x := fun he => hne v (by rw [he])
      show setBytes ps.s.w.mem x 1 (fun _ => v) y = ps.s.w.mem y
      exact setBytes_out (by omega)
    · intro b' y _ _ hne _
      have : y ≠ x := fun he => hne v (by rw [he])
      show setBytes ps.s.w.mem x 1 (fun _ => v) y = ps.s.w.mem y
      exact setBytes_out (by omega)
    · rintro _ _ _ _ hr; cases hr
    · intro j y hy
      have : y ≠ x := by
        intro he
        subst he
        rcases hb with hb | ⟨i, hb⟩
        · obtain ⟨c, hc, h1⟩ := hy
          exact h.sepD hb hx (i := j) ⟨c, List.mem_append_right _ hc, h1⟩
        · by_cases hj : j = i
          · subst hj
            obtain ⟨d, hd, h2⟩ := (h.led_used (.inl hb) hx).inCs fun c hc => (h.px j).ok c (List.mem_append_left _ hc)
            exact h.pend_apart ⟨d, hd, h2⟩ hy
          · obtain ⟨c, hc, h1⟩ := hy
            exact h.sep hj (h.led_inCs (.inl hb) hx) ⟨c, List.mem_append_right _ hc, h1⟩
      show setBytes ps.s.w.mem x 1 (fun _ => v) y = ps.s.w.mem y
      exact setBytes_out (by omega)
  · intro K' hK
    have hown : ∃ o ∈ KS.owned, o.Has x := h.holds (a := .sync 0 0) (b := b)
      (by
        rcases hb with hb | ⟨i, hb⟩
        · exact .inl hb
        · exact .inr ⟨i, .inl hb, by simp, by simp, by simp⟩) hx
    obtain ⟨o, ho, hox⟩ := hown
    cases hK with
    | direct hS _ =>
      cases hS
      refine ⟨KS, cs, pend, ⟨h.reach.write ho hox v, h.top, h.hist, h.tiles, ?_, h.snap⟩, fun _ => rfl, .inr ⟨fun _ => rfl, fun _ => rfl, rfl, by simp⟩⟩
      intro u
      refine (h.px u).frameHdr rfl ?_
      intro c hc y h1 h2
      have : y ≠ x := by
        intro he
        subst he
        have hcok := (h.px u).ok c hc
        have hin : InCs (cs u ++ pend u) y := ⟨c, hc, h1, by have := hcok.lo; have := hcok.hi; omega⟩
        rcases hb with hb | ⟨i, hb⟩
        · exact h.sepD hb hx hin
        · by_cases hu : u = i
          · subst hu
            exact h.hdr_used (h.led_used (.inl hb) hx) hc h1 h2
          · exact h.sep hu (h.led_inCs (.inl hb) hx) hin
      show setBytes ps.s.w.mem x 1 (fun _ => v) y = ps.s.w.mem y
      exact setBytes_out (by omega)

/-- Something happens to a direct user `t` of the shared allocator. -/
theorem PInv.direct {p0 ps K KS cs pend} (h : PInv p0 ps K KS cs pend) {t : Nat} {s' : SS} {KS' D : Book} (hpb : K.pbusy t = none)
    (hreach : SReach p0.s s' KS') (hmem : ∀ o ∈ KS.owned, ∀ x, o.Has x → s'.w.mem x = ps.s.w.mem x)
    (hbu : ∀ u, u ≠ t → D.busy u = K.direct.busy u ∧ KS'.busy u = KS.busy u) (hbt : D.busy t = KS'.busy t)
    (hown : ∀ X, KS.owned.Perm (K.direct.owned ++ X) → KS'.owned.Perm (D.owned ++ X))
    (hsn : ∀ u, D.busy u ≠ none → KS'.snap u = D.snap u) :
    PInv p0 { ps with s := s' } { K with direct := D } KS' cs pend := by
  have hmem' : ∀ u x, InCs (cs u ++ pend u) x → s'.w.mem x = ps.s.w.mem x := by
    intro u x hx
    obtain ⟨o, ho, hox⟩ := h.inCs hx
    exact hmem o (h.tiles.mem (i := u) ho) x hox
  refine PInv.same (i := t) (h.upd t hreach h.hist ?_ (fun u _ => hmem' u) ?_ ?_ hsn)
  · intro R hR
    exact ⟨[], by rw [List.append_nil]; exact hown _ hR⟩
  · intro u hu
    exact ⟨rfl, rfl, rfl, rfl, (hbu u hu).1, (hbu u hu).2⟩
  · have hp := h.px t
    rw [hpb] at hp
    dsimp only
    rw [hpb, hbt]
    exact (hp.busy.2 _).frame (hreach.top.trans h.reach.top.symm) (hmem' t)

theorem PInv.busyD {p0 ps K KS cs pend} (h : PInv p0 ps K KS cs pend) {t : Nat} (hpb : K.pbusy t = none) :
    K.direct.busy t = KS.busy t := by
  have hp := h.px t
  rw [hpb] at hp
  exact hp.busy.1

theorem PInv.snapCall {p0 ps K KS cs pend} (h : PInv p0 ps K KS cs pend) (t : Nat) {z} {m : Nat → Byte} :
    ∀ u, put K.direct.busy t z u ≠ none → put KS.snap t m u = put K.direct.snap t m u := by
  intro u hu
  by_cases he : u = t
  · subst he; rw [put_same, put_same]
  · rw [put_ne _ _ he] at hu
    rw [put_ne _ _ he, put_ne _ _ he]
    exact h.snap u hu

theorem perm_erase {A D X : List Owned} {b : Owned} (hb : b ∈ D) (h : A.Perm (D ++ X)) : (A.erase b).Perm (D.erase b ++ X) := by
  have := h.erase b
  rw [List.erase_append_left _ hb] at this
  exact this

theorem PInv.call {p0 ps K KS cs pend} (h : PInv p0 ps K KS cs pend) {t : Nat} {c : Call} (hl : SLegal K.direct (.call t c))
    (hpb : K.pbusy t = none) : PGood p0 ps K KS cs pend (.shared (.call t c)) := by
  have hbz := h.busyD hpb
  have hb : K.direct.busy t = none := by cases hl <;> assumption
  have hidle := h.reach.busy_none (t := t) (by rw [← hbz]; exact hb)
  have hs : sstep ps.s (.call t c) = .ok (some (none, ps.s.setPc t (.rd c))) := if_pos hidle
  have hp : pstep ps (.shared (.call t c)) = .ok (some (none, { ps with s := ps.s.setPc t (.rd c) })) := by
    simp only [pstep]
    rw [ebind_ok hs]; rfl
  refine .inr (.inr ⟨_, _, hp, ?_, ?_⟩)
  · refine ⟨fun _ _ _ _ _ _ => rfl, ?_, fun _ => NoFrees.refl _, fun h => absurd rfl (h _), fun _ _ _ => rfl, fun _ _ _ _ _ => rfl⟩
    rintro _ _ _ _ hr; cases hr
  · intro K' hK
    obtain ⟨h0, tr, hr⟩ := h.reach
    cases hK with
    | direct hS _ =>
      cases hS with
      | allocate =>
        cases hl with
        | allocate _ hv =>
          refine ⟨_, cs, pend, h.direct hpb ⟨h0, _, hr.snoc (.allocate (by rw [← hbz]; exact hb) hv) hs .allocate⟩
            (fun _ _ _ _ => rfl) (fun u hu => ⟨put_ne _ _ hu, put_ne _ _ hu⟩) (by dsimp only; rw [put_same, put_same]) (fun X hX => hX) (h.snapCall t), fun _ => rfl,
            .inl ⟨t, rfl, .same (fun u hu => put_ne _ _ hu) fun c b hb => by (dsimp only at hb; rw [put_same] at hb; cases hb)⟩⟩
      | resize ho hf =>
        cases hl with
        | resize _ _ _ hv =>
          have ho' := h.tiles.memD ho
          refine ⟨_, cs, pend, h.direct hpb ⟨h0, _, hr.snoc (.resize (by rw [← hbz]; exact hb) ho' hf hv) hs (.resize ho' hf)⟩
            (fun _ _ _ _ => rfl) (fun u hu => ⟨put_ne _ _ hu, put_ne _ _ hu⟩) (by dsimp only; rw [put_same, put_same])
            (fun X hX => perm_erase ho hX) (h.snapCall t), fun _ => rfl, .inl ⟨t, rfl, .same (fun u hu => put_ne _ _ hu) fun c b hb => by
              dsimp only at hb
              rw [put_same] at hb
              injection hb with hb; injection hb with _ hb; injection hb with hb
              exact hb ▸ ho⟩⟩
      | deallocate ho hf =>
        have ho' := h.tiles.memD ho
        refine ⟨_, cs, pend, h.direct hpb ⟨h0, _, hr.snoc (.deallocate (by rw [← hbz]; exact hb) ho' hf) hs (.deallocate ho' hf)⟩
          (fun _ _ _ _ => rfl) (fun u hu => ⟨put_ne _ _ hu, put_ne _ _ hu⟩) (by dsimp only; rw [put_same, put_same])
          (fun X hX => perm_erase ho hX) (h.snapCall t), fun _ => rfl, .inl ⟨t, rfl, .same (fun u hu => put_ne _ _ hu) fun c b hb => by
              dsimp only at hb
              rw [put_same] at hb
              injection hb with hb; injection hb with _ hb; injection hb with hb
              exact hb ▸ ho⟩⟩

theorem PInv.sreset {p0 ps K KS cs pend} (h : PInv p0 ps K KS cs pend) {a : Act} (ha : a.isReset) (hl : SLegal K.direct a)
    (hn : ∀ i, K.live i = false) : PGood p0 ps K KS cs pend (.shared a) := by
  have hdead : ∀ i, ps.px i = none ∧ K.led i = [] ∧ K.pbusy i = none ∧ K.direct.busy i = KS.busy i ∧ cs i = [] ∧ pend i = [] := by
    intro i
    have := h.px i
    rw [hn i] at this
    exact this.dead
  have hq : ∀ t, K.direct.busy t = none := by
    rcases ha with rfl | rfl | rfl <;> cases hl <;> assumption
  have hq' : ∀ t, KS.busy t = none := fun t => (hdead t).2.2.2.1.symm.trans (hq t)
  have hl' : SLegal KS a := by
    rcases ha with rfl | rfl | rfl
    · exact .reset hq'
    · exact .resetUnchecked hq'
    · exact .resetFinal hq'
  have hpe : pstep ps (.shared a) = (sstep ps.s a >>= fun x => match x with
      | none => pure none
      | some (r, s') => pure (some (r, { ps with s := s' }))) := by
    rcases ha with rfl | rfl | rfl <;> rfl
  obtain ⟨cs0, B0, hi⟩ := h.reach.inv
  rcases hi.step hl' with ⟨e, hbad, he⟩ | he | ⟨r, s', cs', he, hfr, hK⟩
  · exact .inl ⟨e, .inl hbad, by rw [hpe, ebind_err he]⟩
  · exact .inr (.inl (by rw [hpe, ebind_ok he]; rfl))
  · refine .inr (.inr ⟨r, { ps with s := s' }, by rw [hpe, ebind_ok he]; rfl, ?_, ?_⟩)
    · have hr : (PAct.shared a).isReset := ⟨a, rfl, ha⟩
      refine ⟨fun _ _ _ _ _ hc => absurd hr hc, ?_, fun hc => absurd hr hc, fun h => absurd rfl (h _), fun j x hx => (by
        rw [(hdead j).2.2.2.2.2] at hx
        obtain ⟨c, hc, _⟩ := hx
        cases hc), fun j x hx _ _ => (by
        rw [(hdead j).2.2.2.2.1, (hdead j).2.2.2.2.2] at hx
        obtain ⟨c, hc, _⟩ := hx
        cases hc)⟩
      rintro _ _ _ _ _ (⟨i, h1⟩ | ⟨t, ch, ob, h1, _⟩)
      · cases h1
      · injection h1 with h1; subst h1
        rcases ha with h1 | h1 | h1 <;> cases h1
    · intro K' hK'
      obtain ⟨h0, tr, hr⟩ := h.reach
      have fin : ∀ KS', KS'.owned = [] → (∀ t, KS'.busy t = none) → SReach p0.s s' KS' → ∀ D : Book, D.owned = [] → (∀ t, D.busy t = none) →
          PInv p0 { ps with s := s' } { K with direct := D } KS' (fun _ => []) (fun _ => []) := by
        intro KS' e1 e2 hreach D e3 e4
        refine ⟨hreach,
          by rw [show ({ ps with s := s' } : PS).s.w.top = s'.w.top from rfl, hreach.top, ← h.reach.top]; exact h.top, h.hist, ?_, ?_,
          fun u hu => absurd (e4 u) hu⟩
        · exact ⟨[], [], .nil, fun _ _ => rfl, by rw [e1, e3]; simp⟩
        · intro i
          obtain ⟨a1, a2, a3, _⟩ := hdead i
          dsimp only
          rw [a1, hn i, a2, a3, e4 i, e2 i]
          exact .absent
      have nocs : ∀ {a'}, (∀ j L, ps.chunksAfter a' j L = L) → CsAfter ps a' cs fun _ => [] := by
        intro a' hc j
        rw [(hdead j).2.2.2.2.1, hc]
      cases hK' with
      | direct hS _ =>
        rcases ha with rfl | rfl | rfl
        · cases hS
          exact ⟨{ KS with owned := [] }, _, _, fin { KS with owned := [] } rfl hq' ⟨h0, _, hr.snoc hl' he .reset⟩ { K.direct with owned := [] } rfl hq, nocs fun _ _ => rfl, .inr ⟨fun _ => rfl, fun u => ((hdead u).2.2.2.2.2).symm, rfl, by simp⟩⟩
        · cases hS
          exact ⟨{ KS with owned := [] }, _, _, fin { KS with owned := [] } rfl hq' ⟨h0, _, hr.snoc hl' he .resetUnchecked⟩ { K.direct with owned := [] } rfl hq, nocs fun _ _ => rfl, .inr ⟨fun _ => rfl, fun u => ((hdead u).2.2.2.2.2).symm, rfl, by simp⟩⟩
        · cases hS
          exact ⟨{ KS with owned := [] }, _, _, fin { KS with owned := [] } rfl hq' ⟨h0, _, hr.snoc hl' he .resetFinal⟩ { K.direct with owned := [] } rfl hq, nocs fun _ _ => rfl, .inr ⟨fun _ => rfl, fun u => ((hdead u).2.2.2.2.2).symm, rfl, by simp⟩⟩
      | back => rcases ha with h1 | h1 | h1 <;> cases h1

end Blink
