import Verif.Proofs.GlobalSyncRun
import Verif.Proofs.ProxyGo
import Verif.Props.Proxy
import Verif.Props.ProxyReset
import Verif.Proofs.ProxyRefine
import Verif.Spec.GlobalProxy
/-
  Histories of a `GlobalBlinkAlloc` with proxies are histories of its `SyncBlinkAlloc` with proxies: the relation between the two
  books, and what it needs.
-/
namespace Blink

/-! ### Facts about a `SyncBlinkAlloc` with proxies -/

/-- Every legal step has a place in the book. -/
theorem PInv.afterStep {p0 ps K KS cs pend} (h : PInv p0 ps K KS cs pend) {a : PAct} (hl : PLegal K a) {r ps'}
    (hs : pstep ps a = .ok (some (r, ps'))) : ∃ K', PAfter ps.s.w.mem K a r K' := by
  have ans : ∀ {q : PS} {i a' w v}, PS.answer q i a' w v = .ok (some (r, ps')) → r = some v := by
    intro q i a' w v h'
    injection h' with h'; injection h' with h'; injection h' with h' _
    exact h'.symm
  cases hl with
  | call hl hp =>
    simp only [pstep] at hs
    obtain ⟨x, hx, hs⟩ := ebind_inv hs
    cases x with
    | none => cases hs
    | some y =>
      injection hs with hs; injection hs with hs; injection hs with h1 _; subst h1
      have : y.1 = none := by
        simp only [sstep] at hx
        split at hx
        · injection hx with hx; injection hx with hx; rw [← hx]
        · cases hx
      rw [this]
      cases hl with
      | allocate => exact ⟨_, .direct .allocate (.inl rfl)⟩
      | resize _ ho hf _ => exact ⟨_, .direct (.resize ho hf) (.inl rfl)⟩
      | deallocate _ ho hf => exact ⟨_, .direct (.deallocate ho hf) (.inl rfl)⟩
  | @go t ch =>
    cases r with
    | none => exact ⟨_, .direct .inside (.inl rfl)⟩
    | some r =>
      cases hpb : K.pbusy t with
      | some q => exact ⟨_, .back (c := q.1) (ob := q.2) hpb⟩
      | none =>
        have hd := h.busyD hpb
        simp only [pstep] at hs
        obtain ⟨x, hx, hs⟩ := ebind_inv hs
        cases x with
        | none => cases hs
        | some y =>
          obtain ⟨r', s'⟩ := y
          cases r' with
          | none => injection hs with hs; injection hs with hs; injection hs with h1 _; cases h1
          | some r' =>
            obtain ⟨_, _, c, ob, hb⟩ := h.reach.ret_w hx
            exact ⟨_, .direct (.ret (hd.trans hb)) (.inr fun t' ch' he => by cases he; exact hpb)⟩
  | write hl =>
    cases hs
    exact ⟨_, .direct .write (.inl rfl)⟩
  | pwrite =>
    cases hs
    exact ⟨_, .direct .write (.inl rfl)⟩
  | sreset ha hl hn =>
    have key : ∀ k, resetStep ps.s k ≠ .ok none → True := fun _ _ => trivial
    rcases ha with rfl | rfl | rfl
    · simp only [pstep] at hs
      obtain ⟨x, hx, hs⟩ := ebind_inv hs
      cases x with
      | none => cases hs
      | some y =>
        injection hs with hs; injection hs with hs; injection hs with h1 _; subst h1
        have : y.1 = none := by
          simp only [sstep, resetStep] at hx
          obtain ⟨z, _, hx⟩ := ebind_inv hx
          injection hx with hx; injection hx with hx; rw [← hx]
        rw [this]
        exact ⟨_, .direct .reset (.inl rfl)⟩
    · simp only [pstep] at hs
      obtain ⟨x, hx, hs⟩ := ebind_inv hs
      cases x with
      | none => cases hs
      | some y =>
        injection hs with hs; injection hs with hs; injection hs with h1 _; subst h1
        have : y.1 = none := by
          simp only [sstep] at hx
          split at hx
          · simp only [resetStep] at hx
            obtain ⟨z, _, hx⟩ := ebind_inv hx
            injection hx with hx; injection hx with hx; rw [← hx]
          · cases hx
        rw [this]
        exact ⟨_, .direct .resetUnchecked (.inl rfl)⟩
    · simp only [pstep] at hs
      obtain ⟨x, hx, hs⟩ := ebind_inv hs
      cases x with
      | none => cases hs
      | some y =>
        injection hs with hs; injection hs with hs; injection hs with h1 _; subst h1
        have : y.1 = none := by
          simp only [sstep, resetStep] at hx
          obtain ⟨z, _, hx⟩ := ebind_inv hx
          injection hx with hx; injection hx with hx; rw [← hx]
        rw [this]
        exact ⟨_, .direct .resetFinal (.inl rfl)⟩
  | spawn hl =>
    simp only [pstep] at hs
    split at hs
    · cases hs
    · split at hs
      · injection hs with hs; injection hs with hs; injection hs with h1 _; subst h1
        exact ⟨_, .spawn⟩
      · cases hs
  | allocate => exact ⟨_, .allocate⟩
  | resize _ hb hf _ => exact ⟨_, .resize hb hf⟩
  | deallocate _ hb hf =>
    simp only [pstep] at hs
    split at hs
    · obtain ⟨x, _, hs⟩ := ebind_inv hs
      rw [ans hs]
      exact ⟨_, .deallocate hb hf⟩
    · cases hs
  | reset =>
    simp only [pstep] at hs
    split at hs
    · obtain ⟨x, _, hs⟩ := ebind_inv hs
      obtain ⟨y, _, hs⟩ := ebind_inv hs
      rw [ans hs]
      exact ⟨_, .reset⟩
    · cases hs
  | resetUnchecked => exact ⟨_, .resetUnchecked⟩
  | drop =>
    simp only [pstep] at hs
    split at hs
    · obtain ⟨x, _, hs⟩ := ebind_inv hs
      obtain ⟨y, _, hs⟩ := ebind_inv hs
      obtain ⟨z, _, hs⟩ := ebind_inv hs
      injection hs with hs; injection hs with hs; injection hs with h1 _; subst h1
      exact ⟨_, .drop⟩
    · cases hs
  | updateMax =>
    injection hs with hs; injection hs with hs; injection hs with h1 _; subst h1
    exact ⟨_, .updateMax⟩
  | sync =>
    injection hs with hs; injection hs with hs; injection hs with h1 _; subst h1
    exact ⟨_, .sync⟩

theorem PReach.snoc {p0 ps K a r ps' K'} (h : PReach p0 ps K) (hl : PLegal K a) (hs : pstep ps a = .ok (some (r, ps')))
    (ha : PAfter ps.s.w.mem K a r K') : PReach p0 ps' K' := by
  obtain ⟨h0, tr, hr⟩ := h
  exact ⟨h0, _, hr.snoc hl hs ha⟩

theorem PReach.debug {p0 ps K} (h : PReach p0 ps K) : ps.s.w.debug = p0.s.w.debug := by
  obtain ⟨_, _, _, hi⟩ := h.inv
  exact hi.reach.debug

theorem PReach.idle {p0 ps K} (h : PReach p0 ps K) {t : Nat} (h1 : K.pbusy t = none) (h2 : K.direct.busy t = none) :
    ps.s.pcs t = .idle := by
  obtain ⟨_, _, _, hi⟩ := h.inv
  exact hi.reach.busy_none ((hi.busyD h1).symm.trans h2)

theorem PReach.pidle {p0 ps K} (h : PReach p0 ps K) {t : Nat} (hpb : K.pbusy t = none) {q : Proxy} (hq : ps.px t = some q) : q.pc = .idle := by
  obtain ⟨KS, cs, pend, hi⟩ := h.inv
  have hx := hi.px t
  rw [hpb, hq] at hx
  revert hx
  generalize K.live t = live, K.led t = led, K.direct.busy t = db, KS.busy t = kb, cs t = c, pend t = pe
  intro hx
  cases hx with
  | idle => rfl

/-- A step of a call made directly. -/
theorem PReach.go_eq {p0 ps K} (h : PReach p0 ps K) {t : Nat} (hpb : K.pbusy t = none) {ch : Choice} {r s'}
    (hs : goStep ps.s t ch = .ok (some (r, s'))) : pstep ps (.shared (.go t ch)) = .ok (some (r, { ps with s := s' })) := by
  have hs' : sstep ps.s (.go t ch) = .ok (some (r, s')) := hs
  simp only [pstep]
  rw [ebind_ok hs']
  cases r with
  | none => rfl
  | some r =>
    dsimp only
    split
    · rename_i q hq
      rw [if_pos (h.pidle hpb hq)]; rfl
    · rfl

theorem PReach.go_err {p0 ps K} (h : PReach p0 ps K) {t : Nat} {ch : Choice} {e}
    (hs : goStep ps.s t ch = .error e) : BadAnswer ps.s.w e := by
  obtain ⟨KS, cs, pend, hi⟩ := h.inv
  obtain ⟨_, _, hI⟩ := hi.reach.inv
  rcases hI.go t ch with ⟨e', hb, he⟩ | he | ⟨r, s', cs', he, _⟩
  · rw [he] at hs; cases hs; exact hb
  · rw [he] at hs; cases hs
  · rw [he] at hs; cases hs

/-- What a call made directly has when it comes back. -/
theorem PReach.ret_ok {p0 ps K} (h : PReach p0 ps K) {t : Nat} {ch r s'}
    (hs : goStep ps.s t ch = .ok (some (some r, s'))) {c ob} (hb : K.direct.busy t = some (c, ob)) :
    s'.w = ps.s.w ∧ RetOK ps.s.w.mem (K.direct.snap t) c ob r := by
  obtain ⟨KS, _, _, hi⟩ := h.inv
  obtain ⟨cs, B, hI⟩ := hi.reach.inv
  have hpb : K.pbusy t = none := hi.dbusy (by rw [hb]; simp)
  obtain ⟨h1, h2⟩ := hI.ret_ok hs ((hi.busyD hpb).symm.trans hb)
  rw [hi.snap t (by rw [hb]; simp)] at h1
  exact ⟨h2, h1⟩

/-! ### The books -/

/-- The block of a caller of the global allocator and the block of the `SyncBlinkAlloc`: the latter may be longer. -/
def Short (b b' : Owned) : Prop := b.addr = b'.addr ∧ b.size = b'.size ∧ b.align = b'.align ∧ b.len ≤ b'.len ∧ b.size ≤ b.len

theorem Short.refl {b : Owned} (h : b.size ≤ b.len) : Short b b := ⟨rfl, rfl, rfl, Nat.le_refl _, h⟩
theorem Short.has {b b' : Owned} (h : Short b b') {x : Nat} (hx : b.Has x) : b'.Has x := by
  obtain ⟨h1, _, _, h4, _⟩ := h
  simp only [Owned.Has] at *
  omega

/-- The call of the `SyncBlinkAlloc` a thread is executing, and the one it would be executing with the block it knows of. -/
inductive CallLike : Option (Call × Option Owned) → Option (Call × Option Owned) → Prop
  | none : CallLike none none
  | bare {c} : CallLike (some (c, none)) (some (c, none))
  | block {c b b'} (h : Short b b') : CallLike (some (c, some b)) (some (c, some b'))

/-- The book of a global allocator with proxies and the book of its `SyncBlinkAlloc` with proxies. `Z` are the blocks of the latter that
callers of the global allocator (or their calls) have, as they know them and as they are. -/
structure GPTie (x : GPS) (K : GPBook) (P : PBook) (Z : List (Owned × Owned)) : Prop where
  live : P.live = K.live
  led : P.led = K.led
  pbusy : P.pbusy = K.pbusy
  mode : x.g.enabled = K.blinkMode
  nod : K.direct = []
  sz : ∀ b ∈ K.blink, 0 < b.size ∧ b.len = b.size
  off : K.blinkMode = false → ∀ t, K.busy t = none
  short : ∀ z ∈ Z, Short z.1 z.2
  own : P.direct.owned.Perm (Z.map Prod.snd)
  fam : GFam x.g.s.w.debug K.toGSBook x.g.pcs (Z.map Prod.fst) [] x.g.allocations
  thr : ∀ t, ∃ ibz, GTOK K.blinkMode x.g.s.w.mem (K.snap t) (P.direct.snap t) (K.busy t) (x.g.pcs t) ibz ∧ CallLike ibz (P.direct.busy t)
  one : ∀ t, K.busy t ≠ none → K.pbusy t = none

theorem GPStart.tie {x} (h : GPStart x) : GPTie x GPBook.empty PBook.empty [] where
  live := rfl
  led := rfl
  pbusy := rfl
  mode := h.glob.enabled
  nod := rfl
  sz := by simp [GPBook.empty, GSBook.empty, GBook.empty]
  off := fun _ _ => rfl
  short := by simp
  own := .refl _
  fam := .of_idle (fun _ => rfl) h.glob.pcs (.refl _) (.refl _) (by rw [h.glob.zero]; simp [GPBook.empty, GSBook.empty, GBook.empty])
  thr := fun t => ⟨none, by rw [h.glob.pcs t]; exact .idle, .none⟩
  one := fun t h => absurd rfl h

theorem GPStart.pstart {x} (h : GPStart x) : PStart x.ps := ⟨h.glob.blink, h.top, h.hist, h.view, h.px⟩

/-- What the `SyncBlinkAlloc` with its proxies does in a step of the whole. -/
inductive Shade (x : GPS) (P : PBook) : GPAct → Option GPResp → GPS → PBook → Option (PAct × Option Resp) → Prop
  | silent {a r x'} (h : x'.ps = x.ps) : Shade x P (.glob a) r x' P none
  | glob {a r a' r' x' P'} (hi : GAct.Inner a a') (hl : PLegal P (.shared a')) (hs : pstep x.ps (.shared a') = .ok (some (r', x'.ps)))
      (ha : PAfter x.ps.s.w.mem P (.shared a') r' P') : Shade x P (.glob a) r x' P' (some (.shared a', r'))
  | proxy {a r x' P'} (hl : PLegal P a) (hs : pstep x.ps a = .ok (some (r, x'.ps))) (ha : PAfter x.ps.s.w.mem P a r P') :
      Shade x P (.proxy a) (r.map .proxy) x' P' (some (a, r))

/-- What a step does, apart from the books. -/
structure GPRes (K : GPBook) (a : GPAct) (r : Option GPResp) (x x' : GPS) : Prop where
  keep : ∀ b y, b.Has y → (∀ v, a ≠ .glob (.write y v)) →
    ((b ∈ K.blink ∧ ∀ a', a = .glob a' → a'.resets = false) ∨
      ∃ i, b ∈ K.blocks i ∧ a ≠ .proxy (.reset i) ∧ a ≠ .proxy (.resetUnchecked i) ∧ a ≠ .proxy (.drop i)) →
    x'.g.s.w.mem y = x.g.s.w.mem y
  ret : ∀ t ch c ob q, a = .glob (.go t ch) → r = some (.glob q) → K.busy t = some (c, ob) → Returned x'.g.s.w.mem (K.snap t) c ob q

/-- Everything wanted of one step. -/
def GPGood (x : GPS) (K : GPBook) (P : PBook) (a : GPAct) (X : Except Fault (Option (Option GPResp × GPS))) : Prop :=
  (∃ e, (BadAnswer x.g.s.w e ∨ ∃ a', a = .proxy a' ∧ x.ps.EmptyChunk a' e) ∧ X = .error e) ∨ X = .ok none ∨
  ∃ r x', X = .ok (some (r, x')) ∧ GPRes K a r x x' ∧ (∃ K', GPAfter x.g.s.w.mem K a r K') ∧
    ∀ K', GPAfter x.g.s.w.mem K a r K' → ∃ P' Z' e, Shade x P a r x' P' e ∧ GPTie x' K' P' Z'

/-! ### Facts about the books -/

theorem GPTie.inZ {x K P Z} (h : GPTie x K P Z) {b : Owned} (hb : b ∈ K.blink) : ∃ b', (b, b') ∈ Z ∧ Short b b' ∧ b' ∈ P.direct.owned := by
  obtain ⟨ts, _, _, h1, _⟩ := h.fam
  obtain ⟨z, hz, rfl⟩ := List.mem_map.mp (h1.mem_iff.mpr (List.mem_append_left _ hb))
  exact ⟨z.2, hz, h.short z hz, h.own.mem_iff.mpr (List.mem_map_of_mem hz)⟩

theorem GPTie.ofZ {x K P Z} (h : GPTie x K P Z) {b : Owned} (hb : b ∈ Z.map Prod.fst) : ∃ b', Short b b' ∧ b' ∈ P.direct.owned := by
  obtain ⟨z, hz, rfl⟩ := List.mem_map.mp hb
  exact ⟨z.2, h.short z hz, h.own.mem_iff.mpr (List.mem_map_of_mem hz)⟩

theorem GPTie.blocks {x K P Z} (h : GPTie x K P Z) (i : Nat) : K.blocks i = P.blocks i := by
  unfold GPBook.blocks PBook.blocks GPBook.px
  rw [h.led, h.pbusy]

theorem GPTie.busy_none {x K P Z} (h : GPTie x K P Z) {t : Nat} (hb : K.busy t = none) : x.g.pcs t = .idle ∧ P.direct.busy t = none := by
  obtain ⟨ibz, h1, h2⟩ := h.thr t
  rw [hb] at h1
  obtain ⟨h3, rfl⟩ := h1.of_none
  cases h2e : P.direct.busy t with
  | none => exact ⟨h3, rfl⟩
  | some q => rw [h2e] at h2; cases h2

theorem GPTie.pc_idle {x K P Z} (h : GPTie x K P Z) {t : Nat} (hp : x.g.pcs t = .idle) : K.busy t = none := by
  obtain ⟨ibz, h1, _⟩ := h.thr t
  rw [hp] at h1
  exact h1.of_idle.1

/-- All blocks are apart: those the callers and calls of the global allocator have, and those of proxies. -/
theorem GPTie.apart {x0 x K P Z} (hR : PReach x0 x.ps P) (h : GPTie x K P Z) {ids : List Nat} (hn : ids.Nodup) :
    (Z.map Prod.fst ++ ids.flatMap K.blocks).Pairwise Owned.Apart := by
  have h1 := C26_no_overlap hR hn
  have h2 := ((h.own.append (.refl (ids.flatMap P.blocks))).pairwise_iff fun h => Owned.Apart.symm h).mp h1
  have hbl : K.blocks = P.blocks := funext h.blocks
  rw [hbl]
  rw [List.pairwise_append] at h2 ⊢
  obtain ⟨g1, g2, g3⟩ := h2
  refine ⟨?_, g2, ?_⟩
  · rw [List.pairwise_map] at g1 ⊢
    refine (List.Pairwise.and_mem.mp g1).imp ?_
    rintro a b ⟨ha, hb, hab⟩ y ⟨hy1, hy2⟩
    exact hab y ⟨(h.short a ha).has hy1, (h.short b hb).has hy2⟩
  · intro a ha b hb y ⟨hy1, hy2⟩
    obtain ⟨z, hz, rfl⟩ := List.mem_map.mp ha
    exact g3 z.2 (List.mem_map_of_mem hz) b hb y ⟨(h.short z hz).has hy1, hy2⟩

/-- Bytes of blocks that a step of the `SyncBlinkAlloc` or its proxies keeps. -/
theorem GPTie.kept {x0 x K P Z} (hR : PReach x0 x.ps P) (h : GPTie x K P Z) {a : PAct} (hl : PLegal P a) {r p'}
    (hs : pstep x.ps a = .ok (some (r, p'))) {b : Owned} {y : Nat} (hy : b.Has y) (hw : ∀ v, a ≠ .shared (.write y v))
    (hb : (b ∈ Z.map Prod.fst ∧ ∀ a', a = .shared a' → ¬ a'.isReset) ∨
      ∃ i, b ∈ K.blocks i ∧ a ≠ .reset i ∧ a ≠ .resetUnchecked i ∧ a ≠ .drop i) : p'.s.w.mem y = x.g.s.w.mem y := by
  rcases hb with ⟨hb, hr⟩ | ⟨i, hb, hr⟩
  · obtain ⟨b', h1, h2⟩ := h.ofZ hb
    exact C26_frame hR hl hs (h1.has hy) hw (.inl ⟨h2, hr⟩)
  · rw [h.blocks] at hb
    exact C26_frame hR hl hs hy hw (.inr ⟨i, hb, hr⟩)

/-- A step of thread `t` in blink mode. -/
theorem GPTie.upd {x K P Z} (h : GPTie x K P Z) (t : Nat) {x' : GPS} {G : GSBook} {D : Book} {Z'} (hm : K.blinkMode = true)
    (hmode : x'.g.enabled = x.g.enabled ∧ G.blinkMode = K.blinkMode) (hnod : G.direct = K.direct)
    (hsz : ∀ b ∈ G.blink, 0 < b.size ∧ b.len = b.size) (hshort : ∀ z ∈ Z', Short z.1 z.2) (hown : D.owned.Perm (Z'.map Prod.snd))
    (hfam : GFam x'.g.s.w.debug G x'.g.pcs (Z'.map Prod.fst) [] x'.g.allocations)
    (hfr : ∀ u, u ≠ t → ∀ b ∈ xOf K.blinkMode (K.busy u) (x.g.pcs u), ∀ y, b.Has y → x'.g.s.w.mem y = x.g.s.w.mem y)
    (hu : ∀ u, u ≠ t → G.busy u = K.busy u ∧ G.snap u = K.snap u ∧ x'.g.pcs u = x.g.pcs u ∧ D.busy u = P.direct.busy u ∧ D.snap u = P.direct.snap u)
    (ht : ∃ ibz, GTOK K.blinkMode x'.g.s.w.mem (G.snap t) (D.snap t) (G.busy t) (x'.g.pcs t) ibz ∧ CallLike ibz (D.busy t))
    (hone : G.busy t ≠ none → K.pbusy t = none) :
    GPTie x' { K with toGSBook := G } { P with direct := D } Z' where
  live := h.live
  led := h.led
  pbusy := h.pbusy
  mode := by rw [hmode.1, h.mode]; exact hmode.2.symm
  nod := hnod.trans h.nod
  sz := hsz
  off := fun hf => by
    have : G.blinkMode = false := hf
    rw [hmode.2, hm] at this
    cases this
  short := hshort
  own := hown
  fam := hfam
  thr := by
    intro u
    dsimp only
    rw [hmode.2]
    by_cases he : u = t
    · subst he; exact ht
    · obtain ⟨h1, h2, h3, h4, h5⟩ := hu u he
      obtain ⟨ibz, g1, g2⟩ := h.thr u
      rw [h1, h2, h3, h4, h5]
      exact ⟨ibz, g1.frame (hfr u he) (fun hf => by rw [hm] at hf; cases hf), g2⟩
  one := by
    intro u hb
    by_cases he : u = t
    · subst he; exact hone hb
    · exact h.one u (by rw [← (hu u he).1]; exact hb)

end Blink
