import Verif.Spec.ProxyZeroView
import Verif.Props.ProxyZero
import Verif.Props.ProxyRefine
/-
  The calls of one proxy, zeroed ones included, as a history of the allocator of the documentation.
-/
namespace Blink

theorem zpview_snoc {i tr x} : zpview i (tr ++ [x]) = (zpview i tr).znext i x := by simp [zpview, List.foldl_append]

/-- The call proxy `i` is executing, as its caller sees it. -/
def ZPBook.op (V : ZPBook) (i : Nat) : Option Op :=
  match V.zbusy i with
  | some (j, _) => some (ZCall.zeroed j).op
  | none => (V.k.pbusy i).map fun x => x.1.op

/-- The history `v` of proxy `i` is one of the documentation; as long as the proxy exists and is not being reset, it ends with the blocks in
the callers' hands and their contents. -/
structure ZPSim (z : ZPS) (V : ZPBook) (i : Nat) (v : PView) : Prop where
  wait : v.wait = V.op i
  sim : ∃ m tr' σ, AbsRun ⟨[], m⟩ tr' σ ∧ callsIn tr' = v.done ∧
    (V.k.live i = true → v.wait ≠ some .reset → σ.owned.Perm (V.blocks i) ∧ SameOn σ.owned z.p.s.w.mem σ.mem)

/-- Nothing happens to the proxy. -/
theorem ZPSim.keep {z V i v z' V'} (h : ZPSim z V i v) (ho : V'.op i = V.op i) (hlv : V'.k.live i = true → V.k.live i = true)
    (hb : V'.k.live i = true → V.op i ≠ some .reset → (V'.blocks i).Perm (V.blocks i))
    (hm : V'.k.live i = true → ∀ b ∈ V.blocks i, ∀ x, b.Has x → z'.p.s.w.mem x = z.p.s.w.mem x) : ZPSim z' V' i v := by
  obtain ⟨hw, m, tr', σ, h1, h2, h3⟩ := h
  refine ⟨by rw [ho]; exact hw, m, tr', σ, h1, h2, fun hl hr => ?_⟩
  obtain ⟨h4, h5⟩ := h3 (hlv hl) hr
  exact ⟨h4.trans (hb hl (hw ▸ hr)).symm, fun b hb x hx => (h5 b hb x hx).trans (hm hl b (h4.mem_iff.mp hb) x hx).symm⟩

/-- A call waits. -/
theorem ZPSim.waits {z V i v z' V' op} (h : ZPSim z V i v) (hn : V.op i = none) (ho : V'.op i = some op) (hlv : V.k.live i = true)
    (hb : op ≠ .reset → (V'.blocks i).Perm (V.blocks i))
    (hm : op ≠ .reset → ∀ b ∈ V.blocks i, ∀ x, b.Has x → z'.p.s.w.mem x = z.p.s.w.mem x) : ZPSim z' V' i ⟨v.done, some op⟩ := by
  obtain ⟨hw, m, tr', σ, h1, h2, h3⟩ := h
  refine ⟨ho.symm, m, tr', σ, h1, h2, fun _ hr => ?_⟩
  have hr : op ≠ .reset := fun he => hr (by rw [he])
  obtain ⟨h4, h5⟩ := h3 hlv (by rw [hw, hn]; nofun)
  exact ⟨h4.trans (hb hr).symm, fun b hb x hx => (h5 b hb x hx).trans (hm hr b (h4.mem_iff.mp hb) x hx).symm⟩

/-- A call comes back. -/
theorem ZPSim.push {z V i v z' V' op r} (h : ZPSim z V i v) (ho : V'.op i = none) (hlv : V.k.live i = true) (hnw : ∀ x u, op ≠ .write x u)
    (hop : V.op i ≠ some .reset)
    (step : ∀ σ : AbsState, σ.owned.Perm (V.blocks i) → SameOn σ.owned z.p.s.w.mem σ.mem →
      ∃ L, AbsStep σ op r ⟨L, z'.p.s.w.mem⟩ ∧ L.Perm (V'.blocks i)) : ZPSim z' V' i ⟨v.done ++ [(op, r)], none⟩ := by
  obtain ⟨hw, m, tr', σ, h1, h2, h3⟩ := h
  obtain ⟨h4, h5⟩ := h3 hlv (by rw [hw]; exact hop)
  obtain ⟨L, h6, h7⟩ := step σ h4 h5
  refine ⟨ho.symm, m, _, _, h1.snoc h6, ?_, fun _ _ => ⟨h7, fun _ _ _ _ => rfl⟩⟩
  rw [callsIn_snoc, h2]
  cases op <;> first | rfl | exact absurd rfl (hnw _ _)

/-- A reset comes back. -/
theorem ZPSim.back {z V i v z' V'} (h : ZPSim z V i v) (ho : V'.op i = none) (hb : V'.blocks i = []) :
    ZPSim z' V' i ⟨v.done ++ [(.reset, .unit)], none⟩ := by
  obtain ⟨hw, m, tr', σ, h1, h2, _⟩ := h
  refine ⟨ho.symm, m, _, _, h1.snoc (.reset (m := z'.p.s.w.mem)), ?_, fun _ _ => ⟨by rw [hb], fun _ _ _ _ => rfl⟩⟩
  rw [callsIn_snoc, h2]
  rfl

/-! ### Steps of the documented allocator -/

theorem ZPReach.fresh {p0 z V} (h : ZPReach p0 z V) {i s l rest} (hb : (V.blocks i).Perm (Owned.of s l :: rest)) : FreshFor rest l s := by
  have hm : Owned.of s l ∈ V.blocks i := hb.mem_iff.mpr List.mem_cons_self
  obtain ⟨h1, h2, h3, B, _, hB, h4, h5⟩ := C93_memory h (.inr ⟨i, hm⟩)
  obtain ⟨K, hi⟩ := h.inv
  obtain ⟨KS, cs, pend, hP⟩ := hi.base.inv
  obtain ⟨_, _, hS⟩ := hP.reach.inv
  have := (hS.arena.held.rng B hB).2
  have := hS.arena.held.top
  refine ⟨h3, h1, h2, by simp only [Owned.of] at h5; omega, fun b hb' => ?_⟩
  have hp := C93_no_overlap h (ids := [i]) (by simp)
  rw [List.pairwise_append] at hp
  have := apart_perm hb (by simpa using hp.2.1)
  exact ((List.pairwise_cons.mp this).1 b hb').symm

theorem AbsStep.allocate_of {σ : AbsState} {B l s} {m m' : Nat → Byte} (hB : σ.owned.Perm B) (hS : SameOn σ.owned m σ.mem) (hf : FreshFor B l s)
    (hk : ∀ b ∈ B, ∀ x, b.Has x → m' x = m x) : ∃ L, AbsStep σ (.allocate l) (.block s) ⟨L, m'⟩ ∧ L.Perm (Owned.of s l :: B) :=
  ⟨_, .allocate ⟨hf.pos, hf.aligned, hf.size, hf.space, fun b hb => hf.apart b (hB.mem_iff.mp hb)⟩
    (fun b hb x hx => (hk b (hB.mem_iff.mp hb) x hx).trans (hS b hb x hx).symm), hB.cons _⟩

theorem AbsStep.zeroed_of {σ : AbsState} {B l s} {m m' : Nat → Byte} (hB : σ.owned.Perm B) (hS : SameOn σ.owned m σ.mem) (hf : FreshFor B l s)
    (hk : ∀ b ∈ B, ∀ x, b.Has x → m' x = m x) (hz : ∀ n, n < s.len → m' (s.addr + n) = .raw 0) :
    ∃ L, AbsStep σ (.allocateZeroed l) (.block s) ⟨L, m'⟩ ∧ L.Perm (Owned.of s l :: B) :=
  ⟨_, .allocateZeroed ⟨hf.pos, hf.aligned, hf.size, hf.space, fun b hb => hf.apart b (hB.mem_iff.mp hb)⟩
    (fun b hb x hx => (hk b (hB.mem_iff.mp hb) x hx).trans (hS b hb x hx).symm) hz, hB.cons _⟩

theorem AbsStep.refused_of {σ : AbsState} {B op} {m m' : Nat → Byte} (hop : op.requests = true) (hB : σ.owned.Perm B) (hS : SameOn σ.owned m σ.mem)
    (hk : ∀ b ∈ B, ∀ x, b.Has x → m' x = m x) : ∃ L, AbsStep σ op .err ⟨L, m'⟩ ∧ L.Perm B :=
  ⟨_, .refused hop (fun b hb x hx => (hk b (hB.mem_iff.mp hb) x hx).trans (hS b hb x hx).symm), hB⟩

theorem AbsStep.resize_of {σ : AbsState} {b B p old new s} {m m' : Nat → Byte} (hB : σ.owned.Perm (b :: B)) (hS : SameOn σ.owned m σ.mem)
    (hp : b.Fits p old) (hf : FreshFor B new s) (hk : ∀ c ∈ B, ∀ x, c.Has x → m' x = m x)
    (hc : ∀ n, n < min new.size old.size → m' (s.addr + n) = m (p + n)) :
    ∃ L, AbsStep σ (.resize p old new) (.block s) ⟨L, m'⟩ ∧ L.Perm (Owned.of s new :: B) := by
  have hb : b ∈ σ.owned := hB.mem_iff.mpr List.mem_cons_self
  have he : (σ.owned.erase b).Perm B := by simpa using hB.erase b
  refine ⟨_, .resize hb hp ⟨hf.pos, hf.aligned, hf.size, hf.space, fun c hc => hf.apart c (he.mem_iff.mp hc)⟩
    (fun c hc x hx => (hk c (he.mem_iff.mp hc) x hx).trans (hS c (List.mem_of_mem_erase hc) x hx).symm) (fun n hn => ?_), he.cons _⟩
  rw [hc n (by omega)]
  refine (hS b hb _ ?_).symm
  obtain ⟨f1, f2, f3, f4⟩ := hp
  exact ⟨by omega, by omega⟩

theorem AbsStep.growZeroed_of {σ : AbsState} {b B p old new s} {m m' : Nat → Byte} (hB : σ.owned.Perm (b :: B)) (hS : SameOn σ.owned m σ.mem)
    (hp : b.Fits p old) (hf : FreshFor B new s) (hk : ∀ c ∈ B, ∀ x, c.Has x → m' x = m x)
    (hc : ∀ n, n < old.size → m' (s.addr + n) = m (p + n)) (hz : ∀ n, old.size ≤ n → n < s.len → m' (s.addr + n) = .raw 0) :
    ∃ L, AbsStep σ (.growZeroed p old new) (.block s) ⟨L, m'⟩ ∧ L.Perm (Owned.of s new :: B) := by
  have hb : b ∈ σ.owned := hB.mem_iff.mpr List.mem_cons_self
  have he : (σ.owned.erase b).Perm B := by simpa using hB.erase b
  refine ⟨_, .growZeroed hb hp ⟨hf.pos, hf.aligned, hf.size, hf.space, fun c hc => hf.apart c (he.mem_iff.mp hc)⟩
    (fun c hc x hx => (hk c (he.mem_iff.mp hc) x hx).trans (hS c (List.mem_of_mem_erase hc) x hx).symm) (fun n hn => ?_) hz, he.cons _⟩
  rw [hc n hn]
  refine (hS b hb _ ?_).symm
  obtain ⟨f1, f2, f3, f4⟩ := hp
  exact ⟨by omega, by omega⟩

/-! ### Answers -/

/-- What a call of a proxy can answer. -/
def PCall.answers : PCall → Resp → Prop
  | .resetUnchecked, r => r = .unit
  | _, r => r = .err ∨ ∃ b, r = .block b

theorem PS.ask_answer {ps i a w c pc v p'} (h : PS.ask ps i a w c pc = .ok (some (some v, p'))) : False := by
  unfold PS.ask at h
  split at h <;> cases h

theorem PS.freeNext_answer {ps i a c w v p'} (h : PS.freeNext ps i a c w = .ok (some (some v, p'))) : v = .unit := by
  unfold PS.freeNext at h
  split at h
  · cases h; rfl
  · obtain ⟨⟨_, _⟩, _, h⟩ := ebind_inv h
    obtain ⟨⟨_, _⟩, _, h⟩ := ebind_inv h
    obtain ⟨⟨_, _⟩, _, h⟩ := ebind_inv h
    exact (PS.ask_answer h).elim

theorem PReach.go_answer {p0 ps K} (h : PReach p0 ps K) {i c ob} (hb : K.pbusy i = some (c, ob)) {ch v p'}
    (hs : pstep ps (.shared (.go i ch)) = .ok (some (some v, p'))) : c.answers v := by
  obtain ⟨KS, cs, pend, hi⟩ := h.inv
  have hx := hi.px i
  rw [hb] at hx
  generalize hpx : ps.px i = px at hx
  generalize K.live i = lv at hx
  generalize K.led i = ld at hx
  generalize K.direct.busy i = db at hx
  generalize KS.busy i = kb at hx
  generalize cs i = c' at hx
  generalize pend i = pd at hx
  simp only [pstep] at hs
  obtain ⟨q, _, hs⟩ := ebind_inv hs
  rcases q with _ | ⟨_ | r, s'⟩
  · cases hs
  · cases hs
  cases hx with
  | alloc =>
    simp only [hpx] at hs
    replace hs : PS.resume { ps with s := s' } i _ r (.alloc _) = .ok (some (some v, p')) := hs
    cases r with
    | block sl =>
      simp only [PS.resume] at hs
      obtain ⟨⟨b, w⟩, _, hs⟩ := ebind_inv hs
      cases hs
      exact .inr ⟨b, rfl⟩
    | _ => cases hs; exact .inl rfl
  | resize =>
    simp only [hpx] at hs
    replace hs : PS.resume { ps with s := s' } i _ r (.resize _ _ _) = .ok (some (some v, p')) := hs
    cases r with
    | block sl =>
      simp only [PS.resume] at hs
      obtain ⟨⟨b, w⟩, _, hs⟩ := ebind_inv hs
      obtain ⟨⟨_, w⟩, _, hs⟩ := ebind_inv hs
      cases hs
      exact .inr ⟨b, rfl⟩
    | _ => cases hs; exact .inl rfl
  | chain =>
    simp only [hpx] at hs
    exact PS.freeNext_answer hs

theorem pstep_allocate_answer {ps i l v p'} (hs : pstep ps (.allocate i l) = .ok (some (some v, p'))) : v = .err ∨ ∃ b, v = .block b := by
  simp only [pstep] at hs
  split at hs
  case h_2 => cases hs
  obtain ⟨⟨r, w⟩, _, hs⟩ := ebind_inv hs
  cases r with
  | some b => cases hs; exact .inr ⟨b, rfl⟩
  | none =>
    obtain ⟨⟨q, w⟩, _, hs⟩ := ebind_inv hs
    cases q with
    | none => cases hs; exact .inl rfl
    | some n =>
      exact (PS.ask_answer hs).elim

theorem pstep_resize_answer {ps i p old new v p'} (hs : pstep ps (.resize i p old new) = .ok (some (some v, p'))) : v = .err ∨ ∃ b, v = .block b := by
  simp only [pstep] at hs
  split at hs
  case h_2 => cases hs
  obtain ⟨⟨r, w⟩, _, hs⟩ := ebind_inv hs
  cases r with
  | some b => cases hs; exact .inr ⟨b, rfl⟩
  | none =>
    obtain ⟨⟨q, w⟩, _, hs⟩ := ebind_inv hs
    cases q with
    | none => cases hs; exact .inl rfl
    | some n =>
      exact (PS.ask_answer hs).elim

theorem pstep_resetUnchecked_answer {ps i v p'} (hs : pstep ps (.resetUnchecked i) = .ok (some (some v, p'))) : v = .unit := by
  simp only [pstep] at hs
  split at hs
  case h_2 => cases hs
  split at hs
  · cases hs; rfl
  · obtain ⟨⟨_, w⟩, _, hs⟩ := ebind_inv hs
    exact PS.freeNext_answer hs

theorem PReach.busy_live {p0 ps K} (h : PReach p0 ps K) {i c ob} (hb : K.pbusy i = some (c, ob)) :
    K.live i = true ∧ (c = .resetUnchecked → K.led i = [] ∧ ob = none) ∧ (∀ l, c = .allocate l → ob = none) ∧ ∀ p old new, c = .resize p old new → ∃ b, ob = some b ∧ b.Fits p old := by
  obtain ⟨KS, cs, pend, hi⟩ := h.inv
  have hx := hi.px i
  rw [hb] at hx
  generalize ps.px i = px at hx
  generalize K.live i = lv at hx
  generalize K.led i = ld at hx
  generalize K.direct.busy i = db at hx
  generalize KS.busy i = kb at hx
  generalize cs i = c' at hx
  generalize pend i = pd at hx
  cases hx with
  | alloc => exact ⟨rfl, nofun, fun _ _ => rfl, nofun⟩
  | resize _ _ _ _ hf => exact ⟨rfl, nofun, nofun, fun _ _ _ he => by cases he; exact ⟨_, rfl, hf⟩⟩
  | chain => exact ⟨rfl, fun _ => ⟨rfl, rfl⟩, nofun, nofun⟩

theorem PReach.dead {p0 ps K} (h : PReach p0 ps K) {i} (hb : K.live i = false) : K.led i = [] ∧ K.pbusy i = none := by
  obtain ⟨KS, cs, pend, hi⟩ := h.inv
  have hx := hi.px i
  rw [hb] at hx
  generalize ps.px i = px at hx
  generalize K.led i = ld at hx
  generalize K.pbusy i = kp at hx
  generalize K.direct.busy i = db at hx
  generalize KS.busy i = kb at hx
  generalize cs i = c' at hx
  generalize pend i = pd at hx
  cases hx
  exact ⟨rfl, rfl⟩

/-! ### Steps -/

theorem ZPBook.op_idle {V : ZPBook} {i} (hz : V.zbusy i = none) (hp : V.k.pbusy i = none) : V.op i = none := by
  simp [ZPBook.op, hz, hp]

theorem ZPBook.op_plain {V : ZPBook} {i c ob} (hz : V.zbusy i = none) (hp : V.k.pbusy i = some (c, ob)) : V.op i = some c.op := by
  simp [ZPBook.op, hz, hp]

theorem ZPBook.op_zeroed {V : ZPBook} {i j ob} (hz : V.zbusy i = some (j, ob)) : V.op i = some (ZCall.zeroed j).op := by
  simp [ZPBook.op, hz]

theorem ZPBook.blocks_of {V : ZPBook} {i zb pb L} (hz : V.zbusy i = zb) (hp : V.k.pbusy i = pb) (hl : V.k.led i = L) :
    V.blocks i = (zb.bind (·.2)).toList ++ ((pb.bind (·.2)).toList ++ L) := by
  rw [ZPBook.blocks, PBook.blocks, hz, hp, hl]

theorem ZPBook.perm_blocks {V : ZPBook} {i zb pb L} {X : List Owned} (hz : V.zbusy i = zb) (hp : V.k.pbusy i = pb) (hl : V.k.led i = L)
    (h : X.Perm ((zb.bind (·.2)).toList ++ ((pb.bind (·.2)).toList ++ L))) : X.Perm (V.blocks i) := by
  rw [ZPBook.blocks_of hz hp hl]
  exact h

/-- The step is not a store nor a reset or the drop of proxy `i`. -/
structure ZPAct.Calm (a : ZPAct) (i : Nat) : Prop where
  write : ∀ x v, a ≠ .base (.shared (.write x v))
  reset : a ≠ .base (.reset i)
  resetUnchecked : a ≠ .base (.resetUnchecked i)
  drop : a ≠ .base (.drop i)

theorem ZPReach.calm {p0 z V} (h : ZPReach p0 z V) {a r z'} (hl : ZPLegal V a) (hs : zpstep z a = .ok (some (r, z'))) {i} (hc : a.Calm i) :
    ∀ b ∈ V.blocks i, ∀ x, b.Has x → z'.p.s.w.mem x = z.p.s.w.mem x := fun _ hb x hx =>
  C93_frame h hl hs hx (hc.write x) (.inr ⟨i, hb, hc.reset, hc.resetUnchecked, hc.drop⟩)

theorem ZPAct.Runs.calm {a : ZPAct} {u} (h : a.Runs u) (i : Nat) : a.Calm i := by
  rcases h with rfl | ⟨_, rfl⟩ <;> exact ⟨nofun, nofun, nofun, nofun⟩

/-- Nothing in the book concerns the proxy. -/
theorem ZPSim.other {z V i v z' V'} (S : ZPSim z V i v) (hz : V'.zbusy i = V.zbusy i) (hp : V'.k.pbusy i = V.k.pbusy i)
    (hle : V'.k.led i = V.k.led i) (hlv : V'.k.live i = V.k.live i)
    (hm : V'.k.live i = true → ∀ b ∈ V.blocks i, ∀ x, b.Has x → z'.p.s.w.mem x = z.p.s.w.mem x) : ZPSim z' V' i v := by
  refine S.keep ?_ (fun h => hlv ▸ h) (fun _ _ => ?_) hm
  · simp only [ZPBook.op, hz, hp]
  · rw [ZPBook.blocks_of hz hp hle, ← ZPBook.blocks_of rfl rfl rfl]

/-- A store. -/
theorem ZPSim.stored {z V i v z' x u} (S : ZPSim z V i v) (hx : z'.p.s.w.mem x = u)
    (hm : ∀ y, y ≠ x → ∀ b ∈ V.blocks i, b.Has y → z'.p.s.w.mem y = z.p.s.w.mem y) : ZPSim z' V i v := by
  obtain ⟨hw, m, tr', σ, h1, h2, h3⟩ := S
  by_cases hl : V.k.live i = true ∧ v.wait ≠ some .reset
  case neg => exact ⟨hw, m, tr', σ, h1, h2, fun a b => absurd ⟨a, b⟩ hl⟩
  obtain ⟨h4, h5⟩ := h3 hl.1 hl.2
  by_cases hb : ∃ b ∈ V.blocks i, b.Has x
  · obtain ⟨b, hb, hbx⟩ := hb
    have hs : AbsStep σ (.write x u) .unit ⟨σ.owned, z'.p.s.w.mem⟩ := .write (h4.mem_iff.mpr hb) hbx hx fun c hc y hy hn =>
      (hm y hn c (h4.mem_iff.mp hc) hy).trans (h5 c hc y hy).symm
    refine ⟨hw, m, _, _, h1.snoc hs, ?_, fun _ _ => ⟨h4, fun _ _ _ _ => rfl⟩⟩
    rw [callsIn_snoc, h2]
    exact List.append_nil _
  · refine ⟨hw, m, tr', σ, h1, h2, fun _ _ => ⟨h4, fun c hc y hy => (h5 c hc y hy).trans (hm y ?_ c (h4.mem_iff.mp hc) hy).symm⟩⟩
    rintro rfl
    exact hb ⟨c, h4.mem_iff.mp hc, hy⟩

theorem PView.znext_wait {i v op} (hw : v.wait = some op) (ch r) :
    PView.znext i v (.base (.shared (.go i ch)), some r) = ⟨v.done ++ [(op, r)], none⟩ := by
  simp [PView.znext, PView.next, hw]

theorem PView.runs_wait {i v op a} (ha : ZPAct.Runs a i) (hw : v.wait = some op) (r) :
    PView.znext i v (a, some r) = ⟨v.done ++ [(op, r)], none⟩ := by
  rcases ha with rfl | ⟨ch, rfl⟩
  · simp [PView.znext, hw]
  · exact PView.znext_wait hw ch r

theorem PView.runs_other {i u v a} (ha : ZPAct.Runs a u) (hu : u ≠ i) (r) : PView.znext i v (a, r) = v := by
  rcases ha with rfl | ⟨ch, rfl⟩ <;> cases r <;> simp [PView.znext, PView.next, hu]

theorem PView.runs_none {i u v a} (ha : ZPAct.Runs a u) : PView.znext i v (a, none) = v := by
  rcases ha with rfl | ⟨ch, rfl⟩ <;> simp [PView.znext, PView.next]

/-- A zeroed call comes back. -/
theorem ZPSim.ret {p0 z V i v a r z' j ob} (h : ZPReach p0 z V) (ha : ZPAct.Runs a i) (hb : V.zbusy i = some (j, ob))
    (hs : zpstep z a = .ok (some (some r, z'))) (S : ZPSim z V i v) :
    ZPSim z' { V with k := { V.k with led := put V.k.led i (zgets (.zeroed j) ob r ++ V.k.led i) }, zbusy := put V.zbusy i none } i
      ⟨v.done ++ [((ZCall.zeroed j).op, r)], none⟩ := by
  obtain ⟨K, hi⟩ := h.inv
  have h' := h.snoc (ha.legal V) hs (.ret ha hb)
  have hm := h.calm (ha.legal V) hs (ha.calm i)
  have hvp := hi.hidden (i := i) (by rw [hb]; nofun)
  have hB := ZPBook.blocks_of hb hvp rfl
  have hB' := ZPBook.blocks_of (V := { V with k := { V.k with led := put V.k.led i (zgets (.zeroed j) ob r ++ V.k.led i) }, zbusy := put V.zbusy i none })
    (put_same _ _ _) hvp (put_same _ _ _)
  have hnr : V.op i ≠ some .reset := by rw [ZPBook.op_zeroed hb]; cases j <;> nofun
  refine S.push (ZPBook.op_idle (put_same _ _ _) hvp) (hi.act i (by rw [hb]; nofun)).1 (by cases j <;> nofun) hnr fun σ hP hS => ?_
  rcases hi.ret hb ha hs with ⟨rfl, hpc, he⟩ | ⟨l, b, k, rfl, hpc, hk, rfl, hp'⟩ | ⟨p, old, new, blk, k, r', rfl, hpc, hk, rfl, hd⟩
  · obtain ⟨ob', hb', hj, _⟩ := hi.at_alloc hpc
    rw [hb] at hb'; cases hb'
    obtain ⟨L, h1, h2⟩ := AbsStep.refused_of (op := (ZCall.zeroed j).op) (by cases j <;> rfl) hP hS hm
    refine ⟨L, h1, ?_⟩
    rw [hB'] 
    rw [hB] at h2
    cases hj <;> exact h2
  · obtain ⟨ob', hb', hj, hkp, _, hp, _, hz⟩ := hi.at_zero hpc
    rw [hb] at hb'; cases hb'
    cases hj
    rw [hB] at hP hm
    rw [hB']
    refine AbsStep.zeroed_of hP hS (h'.fresh (i := i) ?_) hm fun n hn => by rw [hp']; exact hz n (Nat.lt_of_lt_of_le hn hk)
    rw [hB']; exact .refl _
  · obtain ⟨o, hb', hj, hkp, _, hp, hk', hlen, hc, hz⟩ := hi.at_copy hpc
    rw [hb] at hb'; cases hb'
    rw [hB] at hP hm
    rw [hB']
    cases hj with
    | grow hf' hv hsz same =>
      have hmm : Owned.of blk new ∈ K.led i := hp.mem_iff.mpr List.mem_cons_self
      have hact := hi.act i (by rw [hb]; nofun)
      have hld : PLegal K (.deallocate i p old.size) :=
        .deallocate ⟨by rw [hi.live]; exact hact.1, hkp, by rw [hi.direct]; exact hact.2⟩ (hp.mem_iff.mpr (by simp)) ⟨hf'.1, hf'.2.2.1, hf'.2.2.2⟩
      have keep : ∀ n, n < blk.len → z'.p.s.w.mem (blk.addr + n) = z.p.s.w.mem (blk.addr + n) := fun n hn =>
        C26_frame hi.base hld hd (b := Owned.of blk new) ⟨Nat.le_add_right .., Nat.add_lt_add_left hn _⟩ nofun
          (.inr ⟨i, List.mem_append_right _ hmm, nofun, nofun, nofun⟩)
      refine AbsStep.growZeroed_of (b := o) (B := V.k.led i) hP hS hf' (h'.fresh (i := i) ?_) (fun c hc => hm c (List.mem_cons_of_mem _ hc)) (fun n hn => ?_)
        fun n h1 h2 => (keep n h2).trans (hz n (by omega) h2)
      · rw [hB']; exact .refl _
      · rw [keep n (by omega), hc n (by omega)]
        refine (same _ ?_).symm
        obtain ⟨f1, f2, f3, f4⟩ := hf'
        exact ⟨by omega, by omega⟩

/-- A call of the proxy's own methods that waited comes back. -/
theorem ZPSim.backs {p0 z V i v ch c ob r z'} (h : ZPReach p0 z V) (hz : V.zbusy i = none) (hb : V.k.pbusy i = some (c, ob))
    (hs : zpstep z (.base (.shared (.go i ch))) = .ok (some (some r, z'))) (S : ZPSim z V i v) :
    ZPSim z' { V with k := { V.k with led := put V.k.led i (pgets c ob r ++ V.k.led i), pbusy := put V.k.pbusy i none } } i
      ⟨v.done ++ [(c.op, r)], none⟩ := by
  obtain ⟨K, hi⟩ := h.inv
  have hl : ZPLegal V (.base (.shared (.go i ch))) := .base .go nofun nofun
  have h' := h.snoc hl hs (.base (.back hb) (fun t ch' he => by cases he; exact hz))
  have hm := h.calm hl hs (i := i) ⟨nofun, nofun, nofun, nofun⟩
  obtain ⟨hoff, hkp, hkl⟩ := hi.idle hz
  obtain ⟨_, r0, p', hs', hcase⟩ := zpstep_base hs
  rcases hcase with ⟨_, _, _, he, hpc, _⟩ | ⟨_, rfl, rfl⟩
  · cases he; rw [hoff] at hpc; cases hpc
  have hbK := hkp.trans hb
  have hans := hi.base.go_answer hbK hs'
  obtain ⟨hlv, hR, hA, hZ⟩ := hi.base.busy_live hbK
  rw [hi.live] at hlv
  have hB := ZPBook.blocks_of hz hb rfl
  have hB' := ZPBook.blocks_of (V := { V with k := { V.k with led := put V.k.led i (pgets c ob r ++ V.k.led i), pbusy := put V.k.pbusy i none } })
    hz (put_same _ _ _) (put_same _ _ _)
  have ho := ZPBook.op_idle (V := { V with k := { V.k with led := put V.k.led i (pgets c ob r ++ V.k.led i), pbusy := put V.k.pbusy i none } })
    hz (put_same _ _ _)
  have hop := ZPBook.op_plain hz hb
  cases c with
  | allocate l =>
    cases hA l rfl
    refine S.push ho hlv nofun (by rw [hop]; nofun) fun σ hP hS => ?_
    rw [hB'] 
    rw [hB] at hP hm
    rcases hans with rfl | ⟨b, rfl⟩
    · exact AbsStep.refused_of rfl hP hS hm
    · refine AbsStep.allocate_of hP hS (h'.fresh (i := i) ?_) hm
      rw [hB']; exact .refl _
  | resize p old new =>
    obtain ⟨b, rfl, hf⟩ := hZ p old new rfl
    refine S.push ho hlv nofun (by rw [hop]; nofun) fun σ hP hS => ?_
    rw [hB'] 
    rw [hB] at hP hm
    rcases hans with rfl | ⟨s, rfl⟩
    · exact AbsStep.refused_of rfl hP hS hm
    · refine AbsStep.resize_of (b := b) (B := V.k.led i) hP hS hf (h'.fresh (i := i) ?_) (fun c hc => hm c (List.mem_cons_of_mem _ hc)) fun n hn => ?_
      · rw [hB']; exact .refl _
      · obtain ⟨_, _, _, _, hE⟩ := hi.base.eff .go hs'
        exact hE.copied p old new s rfl (.inr ⟨i, ch, _, rfl, hbK⟩) n hn
  | resetUnchecked =>
    cases hans
    refine S.back ho ?_
    obtain ⟨hled, rfl⟩ := hR rfl
    rw [hled] at hkl
    rw [hB', List.nil_perm.mp hkl]
    rfl

/-- Any step. -/
theorem ZPSim.step {p0 z V i v a r z' V'} (h : ZPReach p0 z V) (hl : ZPLegal V a) (hs : zpstep z a = .ok (some (r, z')))
    (ha : ZPAfter z.p.s.w.mem V a r V') (S : ZPSim z V i v) : ZPSim z' V' i (v.znext i (a, r)) := by
  obtain ⟨K, hi⟩ := h.inv
  have h' := h.snoc hl hs ha
  cases ha with
  | inside ha hb =>
    rw [PView.runs_none ha]
    exact S.other rfl rfl rfl rfl fun _ => h.calm hl hs (ha.calm i)
  | @ret _ u j ob r ha hb =>
    by_cases hu : u = i
    · subst hu
      rw [PView.runs_wait ha (S.wait.trans (ZPBook.op_zeroed hb))]
      exact S.ret h ha hb hs
    · rw [PView.runs_other ha hu]
      exact S.other (put_ne _ _ (Ne.symm hu)) rfl (put_ne _ _ (Ne.symm hu)) rfl fun _ => h.calm hl hs (ha.calm i)
  | @zeroed u l r =>
    obtain ⟨z1, hz1⟩ := C93_starts h hl
    rw [hs] at hz1; cases hz1
    have hm := h.calm hl hs (i := i) ⟨nofun, nofun, nofun, nofun⟩
    cases hl with
    | zeroed hr hz =>
    by_cases hu : u = i
    · subst hu
      have : v.znext u (.zcall u (.zeroed l), none) = ⟨v.done, some (.allocateZeroed l)⟩ := by simp [PView.znext, PView.call, ZCall.op]
      rw [this]
      refine S.waits (ZPBook.op_idle hz hr.2.1) (by exact ZPBook.op_zeroed (j := .zeroed l) (put_same _ _ _)) hr.1 (fun _ => ?_) fun _ => hm
      rw [ZPBook.blocks_of hz hr.2.1 rfl]
      exact (ZPBook.perm_blocks (zb := some (.zeroed l, none)) (pb := none) (L := V.k.led u) (by exact put_same _ _ _) (by exact hr.2.1) (by exact put_same _ _ _) (by exact .refl _)).symm
    · have : v.znext i (.zcall u (.zeroed l), none) = v := by simp [PView.znext, hu]
      rw [this]
      exact S.other (put_ne _ _ (Ne.symm hu)) rfl (put_ne _ _ (Ne.symm hu)) rfl fun _ => hm
  | @growZeroed u b p old new r hb hf =>
    obtain ⟨z1, hz1⟩ := C93_starts h hl
    rw [hs] at hz1; cases hz1
    have hm := h.calm hl hs (i := i) ⟨nofun, nofun, nofun, nofun⟩
    cases hl with
    | growZeroed hr hz =>
    by_cases hu : u = i
    · subst hu
      have : v.znext u (.zcall u (.growZeroed p old new), none) = ⟨v.done, some (.growZeroed p old new)⟩ := by simp [PView.znext, PView.call, ZCall.op]
      rw [this]
      refine S.waits (ZPBook.op_idle hz hr.2.1) (by exact ZPBook.op_zeroed (j := .growZeroed p old new) (put_same _ _ _)) hr.1 (fun _ => ?_) fun _ => hm
      rw [ZPBook.blocks_of hz hr.2.1 rfl]
      exact (ZPBook.perm_blocks (zb := some (.growZeroed p old new, some b)) (pb := none) (L := (V.k.led u).erase b) (by exact put_same _ _ _) (by exact hr.2.1) (by exact put_same _ _ _)
        (by exact List.perm_cons_erase hb)).symm
    · have : v.znext i (.zcall u (.growZeroed p old new), none) = v := by simp [PView.znext, hu]
      rw [this]
      exact S.other (put_ne _ _ (Ne.symm hu)) rfl (put_ne _ _ (Ne.symm hu)) rfl fun _ => hm
  | @base a r k hA hgo =>
    cases hl with
    | base hl hp hc =>
    have hlz : ZPLegal V (.base a) := .base hl hp hc
    have hlK := hi.legal hl hp hc
    obtain ⟨_, r0, p', hs', hcase⟩ := zpstep_base hs
    rcases hcase with ⟨u, ch, j, he, hpc, _⟩ | ⟨_, rfl, rfl⟩
    · rw [(hi.idle (hgo u ch he)).1] at hpc; cases hpc
    have calm := fun hc => h.calm hlz hs (i := i) hc
    simp only [PView.znext]
    cases hA with
    | @direct a r D hD hr =>
      by_cases hw : ∃ x u, a = .write x u
      · obtain ⟨x, u, rfl⟩ := hw
        rw [pstep_write] at hs'
        cases hs'
        cases hD
        refine S.stored (x := x) (u := u) (by simp [setBytes]) fun y hy b hb hby => ?_
        exact C93_frame h hlz hs hby (fun w he => by cases he; exact hy rfl) (.inr ⟨i, hb, nofun, nofun, nofun⟩)
      · have hv : v.next i (.shared a, r0) = v := by
          cases a with
          | go t ch =>
            cases r0 with
            | none => rfl
            | some r =>
              by_cases ht : t = i
              · subst ht
                have hn : v.wait = none := S.wait.trans (ZPBook.op_idle (hgo t ch rfl) (hr.resolve_left nofun t ch rfl))
                simp [PView.next, hn]
              · simp [PView.next, ht]
          | _ => rfl
        rw [hv]
        exact S.other rfl rfl rfl rfl fun _ => calm ⟨fun x u he => hw ⟨x, u, by cases he; rfl⟩, nofun, nofun, nofun⟩
    | @back t ch c ob r hb =>
      by_cases ht : t = i
      · subst ht
        have hz := hgo t ch rfl
        have := PView.znext_wait (i := t) (S.wait.trans (ZPBook.op_plain hz hb)) ch r
        simp only [PView.znext] at this
        rw [this]
        exact S.backs h hz hb hs
      · have hv : v.next i (.shared (.go t ch), some r) = v := by simp [PView.next, ht]
        rw [hv]
        exact S.other rfl (put_ne _ _ (Ne.symm ht)) (put_ne _ _ (Ne.symm ht)) rfl fun _ => calm ⟨nofun, nofun, nofun, nofun⟩
    | @spawn u k =>
      by_cases hu : u = i
      · subst hu
        have hv : v.next u (.spawn u k, none) = ⟨[], none⟩ := by simp [PView.next]
        rw [hv]
        cases hlK with
        | spawn hdead =>
        obtain ⟨hled, hpb⟩ := hi.base.dead hdead
        have hz : V.zbusy u = none := by
          cases hz : V.zbusy u with
          | none => rfl
          | some x =>
            have := (hi.act u (by rw [hz]; nofun)).1
            rw [← hi.live, hdead] at this
            cases this
        obtain ⟨_, hkp, hkl⟩ := hi.idle hz
        rw [hpb] at hkp
        rw [hled] at hkl
        refine ⟨(ZPBook.op_idle hz hkp.symm).symm, p'.s.w.mem, [], _, .nil, rfl, fun _ _ => ⟨?_, fun _ _ _ _ => rfl⟩⟩
        exact ZPBook.perm_blocks (by exact hz) hkp.symm (List.nil_perm.mp hkl) (.refl _)
      · have hv : v.next i (.spawn u k, none) = v := by simp [PView.next, hu]
        rw [hv]
        exact S.other rfl rfl rfl (put_ne _ _ (Ne.symm hu)) fun _ => calm ⟨nofun, nofun, nofun, nofun⟩
    | @allocate u l r =>
      have hm := calm ⟨nofun, nofun, nofun, nofun⟩
      by_cases hu : u = i
      · subst hu
        have hz := hp u rfl
        cases hl with
        | allocate hR =>
        have hB := ZPBook.blocks_of hz hR.2.1 rfl
        have hv : v.next u (.allocate u l, r0) = v.call (.allocate l) r0 := by simp [PView.next]
        rw [hv]
        cases r0 with
        | none =>
          refine S.waits (ZPBook.op_idle hz hR.2.1) (by exact ZPBook.op_plain (c := .allocate l) (by exact hz) (put_same _ _ _)) hR.1 (fun _ => ?_) fun _ => hm
          rw [hB]
          exact (ZPBook.perm_blocks (zb := none) (pb := some (.allocate l, none)) (L := V.k.led u) (by exact hz) (by exact put_same _ _ _) (by exact put_same _ _ _) (by exact .refl _)).symm
        | some r =>
          have hB' := ZPBook.blocks_of (V := { V with k := V.k.enter u (V.k.led u) (.allocate l) none (some r) }) hz hR.2.1 (put_same _ _ _)
          refine S.push (ZPBook.op_idle hz hR.2.1) hR.1 nofun (by rw [ZPBook.op_idle hz hR.2.1]; nofun) fun σ hP hS => ?_
          rw [hB']
          rw [hB] at hP hm
          rcases pstep_allocate_answer hs' with rfl | ⟨b, rfl⟩
          · exact AbsStep.refused_of rfl hP hS hm
          · refine AbsStep.allocate_of hP hS (h'.fresh (i := u) ?_) hm
            rw [hB']; exact .refl _
      · have hv : v.next i (.allocate u l, r0) = v := by simp [PView.next, hu]
        rw [hv]
        cases r0 with
        | none => exact S.other rfl (put_ne _ _ (Ne.symm hu)) (put_ne _ _ (Ne.symm hu)) rfl fun _ => hm
        | some r => exact S.other rfl rfl (put_ne _ _ (Ne.symm hu)) rfl fun _ => hm
    | @resize u b p old new r hb hf =>
      have hm := calm ⟨nofun, nofun, nofun, nofun⟩
      by_cases hu : u = i
      · subst hu
        have hz := hp u rfl
        cases hl with
        | resize hR =>
        have hB := ZPBook.blocks_of hz hR.2.1 rfl
        have hpe := List.perm_cons_erase hb
        have hv : v.next u (.resize u p old new, r0) = v.call (.resize p old new) r0 := by simp [PView.next]
        rw [hv]
        cases r0 with
        | none =>
          refine S.waits (ZPBook.op_idle hz hR.2.1) (by exact ZPBook.op_plain (c := .resize p old new) (by exact hz) (put_same _ _ _)) hR.1 (fun _ => ?_) fun _ => hm
          rw [hB]
          exact (ZPBook.perm_blocks (zb := none) (pb := some (.resize p old new, some b)) (L := (V.k.led u).erase b) (by exact hz) (by exact put_same _ _ _) (by exact put_same _ _ _) (by exact hpe)).symm
        | some r =>
          have hB' := ZPBook.blocks_of (V := { V with k := V.k.enter u ((V.k.led u).erase b) (.resize p old new) (some b) (some r) }) hz hR.2.1 (put_same _ _ _)
          refine S.push (ZPBook.op_idle hz hR.2.1) hR.1 nofun (by rw [ZPBook.op_idle hz hR.2.1]; nofun) fun σ hP hS => ?_
          rw [hB']
          rw [hB] at hP hm
          replace hP := hP.trans hpe
          have hm' : ∀ c ∈ b :: (V.k.led u).erase b, ∀ x, c.Has x → p'.s.w.mem x = z.p.s.w.mem x := fun c hc => hm c (hpe.mem_iff.mpr hc)
          rcases pstep_resize_answer hs' with rfl | ⟨s, rfl⟩
          · exact AbsStep.refused_of rfl hP hS hm'
          · refine AbsStep.resize_of hP hS hf (h'.fresh (i := u) ?_) (fun c hc => hm' c (List.mem_cons_of_mem _ hc)) fun n hn => ?_
            · rw [hB']; exact .refl _
            · obtain ⟨_, _, _, _, hE⟩ := hi.base.eff hlK hs'
              exact hE.copied p old new s rfl (.inl ⟨u, rfl⟩) n hn
      · have hv : v.next i (.resize u p old new, r0) = v := by simp [PView.next, hu]
        rw [hv]
        cases r0 with
        | none => exact S.other rfl (put_ne _ _ (Ne.symm hu)) (put_ne _ _ (Ne.symm hu)) rfl fun _ => hm
        | some r => exact S.other rfl rfl (put_ne _ _ (Ne.symm hu)) rfl fun _ => hm
    | @deallocate u b p n hb hf =>
      have hm := calm ⟨nofun, nofun, nofun, nofun⟩
      by_cases hu : u = i
      · subst hu
        have hz := hp u rfl
        cases hl with
        | deallocate hR =>
        have hv : v.next u (.deallocate u p n, some .unit) = ⟨v.done ++ [(.deallocate p n, .unit)], none⟩ := by simp [PView.next, PView.call]
        rw [hv]
        refine S.push (ZPBook.op_idle hz hR.2.1) hR.1 nofun (by rw [ZPBook.op_idle hz hR.2.1]; nofun) fun σ hP hS => ?_
        rw [ZPBook.blocks_of hz hR.2.1 rfl] at hP hm
        exact ⟨_, .deallocate (hP.mem_iff.mpr hb) hf fun c hc x hx =>
          (hm c (hP.mem_iff.mp (List.mem_of_mem_erase hc)) x hx).trans (hS c (List.mem_of_mem_erase hc) x hx).symm, ZPBook.perm_blocks (zb := none) (pb := none) (L := (V.k.led u).erase b) (by exact hz) (by exact hR.2.1) (by exact put_same _ _ _) (by exact hP.erase b)⟩
      · have hv : v.next i (.deallocate u p n, some .unit) = v := by simp [PView.next, hu]
        rw [hv]
        exact S.other rfl rfl (put_ne _ _ (Ne.symm hu)) rfl fun _ => hm
    | @reset u =>
      by_cases hu : u = i
      · subst hu
        have hz := hp u rfl
        cases hl with
        | reset hR =>
        have hv : v.next u (.reset u, some .unit) = ⟨v.done ++ [(.reset, .unit)], none⟩ := by simp [PView.next, PView.call]
        rw [hv]
        refine S.back (ZPBook.op_idle hz hR.2.1) ?_
        exact List.nil_perm.mp (ZPBook.perm_blocks (by exact hz) hR.2.1 (put_same _ _ _) (.refl _))
      · have hv : v.next i (.reset u, some .unit) = v := by simp [PView.next, hu]
        rw [hv]
        exact S.other rfl rfl (put_ne _ _ (Ne.symm hu)) rfl fun _ => calm ⟨nofun, fun he => hu (by cases he; rfl), nofun, nofun⟩
    | @resetUnchecked u r =>
      by_cases hu : u = i
      · subst hu
        have hz := hp u rfl
        cases hl with
        | resetUnchecked hR =>
        have hv : v.next u (.resetUnchecked u, r0) = v.call .reset r0 := by simp [PView.next]
        rw [hv]
        cases r0 with
        | none => exact S.waits (ZPBook.op_idle hz hR.2.1) (by exact ZPBook.op_plain (c := .resetUnchecked) (by exact hz) (put_same _ _ _)) hR.1 (fun h => absurd rfl h) fun h => absurd rfl h
        | some r =>
          cases pstep_resetUnchecked_answer hs'
          refine S.back (ZPBook.op_idle hz hR.2.1) ?_
          exact List.nil_perm.mp (ZPBook.perm_blocks (by exact hz) hR.2.1 (put_same _ _ _) (.refl _))
      · have hv : v.next i (.resetUnchecked u, r0) = v := by simp [PView.next, hu]
        have hm := calm ⟨nofun, nofun, fun he => hu (by cases he; rfl), nofun⟩
        rw [hv]
        cases r0 with
        | none => exact S.other rfl (put_ne _ _ (Ne.symm hu)) (put_ne _ _ (Ne.symm hu)) rfl fun _ => hm
        | some r => exact S.other rfl rfl (put_ne _ _ (Ne.symm hu)) rfl fun _ => hm
    | @drop u =>
      by_cases hu : u = i
      · subst hu
        have hd : (put V.k.live u false) u = true → False := by rw [put_same]; nofun
        exact S.keep rfl (fun h => (hd h).elim) (fun h => (hd h).elim) fun h => (hd h).elim
      · exact S.other rfl rfl (put_ne _ _ (Ne.symm hu)) (put_ne _ _ (Ne.symm hu)) fun _ => calm ⟨nofun, nofun, nofun, fun he => hu (by cases he; rfl)⟩
    | updateMax => exact S.other rfl rfl rfl rfl fun _ => calm ⟨nofun, nofun, nofun, nofun⟩
    | sync => exact S.other rfl rfl rfl rfl fun _ => calm ⟨nofun, nofun, nofun, nofun⟩

theorem ZPRun.sim {p0 tr z V} (h0 : PStart p0) (h : ZPRun (ZPS.start p0) ZPBook.empty tr z V) (i : Nat) : ZPSim z V i (zpview i tr) := by
  induction h with
  | nil => exact ⟨rfl, fun _ => .uninit, [], _, .nil, rfl, nofun⟩
  | snoc h hl hs ha ih =>
    rw [zpview_snoc]
    exact ih.step ⟨h0, _, h⟩ hl hs ha

end Blink
