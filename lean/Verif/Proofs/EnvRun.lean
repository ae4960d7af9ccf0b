import Verif.Proofs.Env
import Verif.Proofs.Ora
import Verif.Props.Proxy
/-
  Histories with other users of the underlying allocator.
-/
namespace Blink

theorem BaseBlk.Disjoint.holds {b c : BaseBlk} (h : b.Disjoint c) {x : Nat} (hb : b.Holds x) (hc : c.Holds x) : False := by
  unfold BaseBlk.Disjoint at h
  obtain ⟨h1, h2⟩ := hb
  obtain ⟨h3, h4⟩ := hc
  omega

theorem Priv.start {w : World} (h : HeldOK w) : Priv w.held w.mem w (w.alone w.oracle) where
  held := .refl _
  mem := by intro b hb; cases hb
  next := fun _ => rfl
  log := rfl
  top := rfl
  debug := rfl
  ok := h
  pos := by intro b hb; cases hb
  oth := fun _ _ _ _ => rfl

theorem Priv.rebase {O m0 w v} (h : Priv O m0 w v) : Priv O w.mem w v := { h with oth := fun _ _ _ _ => rfl }

/-- Other answers from the `n`-th on. -/
def splice (f g : Nat → Option Slice) (n : Nat) : Nat → Option Slice := fun k => if k < n then f k else g (k - n)

theorem splice_agree {v : World} {g : Nat → Option Slice} : Agree v v.calls (splice v.oracle g v.calls) := fun _ hk => if_pos hk

theorem splice_next {f g : Nat → Option Slice} {n k : Nat} : splice f g n (n + k) = g k := by
  unfold splice
  rw [if_neg (by omega), Nat.add_sub_cancel_left]

/-- Others do not disturb. Only the answers to come may differ from what they would have been. -/
theorem Priv.env {O m0 w v O' w'} (h : Priv O m0 w v) (he : EnvStep O w O' w') : ∃ o, Agree v v.calls o ∧ Priv O' w'.mem w' (v.ora o) := by
  have keep : Priv O' w'.mem w' v → ∃ o, Agree v v.calls o ∧ Priv O' w'.mem w' (v.ora o) := fun hp => ⟨v.oracle, fun _ _ => rfl, hp⟩
  cases he with
  | ask =>
    refine ⟨splice v.oracle (fun k => w.oracle (w.calls + 1 + k)) v.calls, splice_agree, ⟨⟨h.held, h.mem, fun k => ?_, h.log, h.top, h.debug⟩,
      ⟨h.ok.top, h.ok.dis, h.ok.rng⟩, h.pos, fun _ _ _ _ => rfl⟩⟩
    exact (splice_next (f := v.oracle) (g := fun k => w.oracle (w.calls + 1 + k)) (n := v.calls) (k := k)).symm
  | @take b m h0 ht hd hm =>
    refine keep ⟨⟨?_, ?_, h.next, h.log, h.top, h.debug⟩, ⟨h.ok.top, ?_, ?_⟩, h.pos, fun _ _ _ _ => rfl⟩
    · exact (h.held.cons b).trans List.perm_middle.symm
    · intro c hc x hx
      dsimp only
      rw [hm x fun hb => (hd c (h.sub hc)).holds hb hx]
      exact h.mem c hc x hx
    · exact List.pairwise_cons.mpr ⟨fun c hc => hd c hc, h.ok.dis⟩
    · intro c hc
      rcases List.mem_cons.mp hc with rfl | hc
      · exact ⟨h0, ht⟩
      · exact h.ok.rng c hc
  | @give b m hb hm =>
    refine keep ⟨⟨?_, ?_, h.next, h.log, h.top, h.debug⟩, ⟨h.ok.top, ?_, ?_⟩, h.pos, fun _ _ _ _ => rfl⟩
    · dsimp only
      have h1 := h.held.trans ((List.perm_cons_erase hb).append_left v.held)
      have h2 := (h1.trans List.perm_middle).erase b
      rwa [List.erase_cons_head] at h2
    · intro c hc x hx
      dsimp only
      rw [hm x fun hbx => (h.apart hc hb).holds hx hbx]
      exact h.mem c hc x hx
    · exact h.ok.dis.sublist List.erase_sublist
    · exact fun c hc => h.ok.rng c (List.mem_of_mem_erase hc)
  | @write b m hb hm =>
    refine keep ⟨⟨h.held, ?_, h.next, h.log, h.top, h.debug⟩, ⟨h.ok.top, h.ok.dis, h.ok.rng⟩, h.pos, fun _ _ _ _ => rfl⟩
    intro c hc x hx
    dsimp only
    rw [hm x fun hbx => (h.apart hc hb).holds hx hbx]
    exact h.mem c hc x hx

theorem World.alone_ok {w : World} {o} (h : HeldOK w) : HeldOK (w.alone o) := ⟨h.top, .nil, by intro b hb; cases hb⟩

theorem accessible_of_has {w : World} {b : Owned} {B : BaseBlk} (hB : B ∈ w.held) (h1 : B.addr ≤ b.addr)
    (h2 : b.addr + b.len ≤ B.addr + B.len) {x : Nat} (hx : b.Has x) : w.accessible x 1 = true := by
  obtain ⟨h3, h4⟩ := hx
  exact accessible_of hB (by omega) (by omega)

theorem BadAnswer.mono {O m0 w v e} (h : Priv O m0 w v) (hb : BadAnswer v e) : BadAnswer w e := by
  obtain ⟨l, sl, he, ho, hf⟩ := hb
  refine ⟨l, sl, he, (h.next 0).trans ho, ?_⟩
  rw [Bool.eq_false_iff] at hf ⊢
  intro hw
  refine hf ?_
  unfold freshOk at hw ⊢
  rw [h.top] at hw
  simp only [Bool.and_eq_true, List.all_eq_true, decide_eq_true_eq] at hw ⊢
  exact ⟨hw.1, fun b hb => hw.2 b (h.sub hb)⟩

theorem BadAnswer.not_ub {w e} (h : BadAnswer w e) : ∀ why, e ≠ .ub why := by
  obtain ⟨l, sl, rfl, _⟩ := h
  intro why he
  cases he

/-! ### One thread -/

theorem Start.alone {s : St} {o} (h : Start s) : Start ⟨s.w.alone o, s.a⟩ := ⟨h.root, World.alone_ok h.world, h.dbg, h.log⟩

theorem Reach.writable {s0 s L} (h : Reach s0 s L) {op : Op} (hl : Legal L op) :
    ∀ x b, op = .write x b → s.w.accessible x 1 = true := by
  rintro x b rfl
  cases hl with
  | write hb hx =>
    obtain ⟨_, _, _, B, _, hB, h1, h2⟩ := C02_layout_and_memory h hb
    exact accessible_of_has hB h1 h2 hx

theorem step_alone {s0 : St} {v : World} {s : St} {L O m0} (hv : Reach s0 ⟨v, s.a⟩ L) (hp : Priv O m0 s.w v) {op : Op} (hl : Legal L op) :
    (∃ e, step s op = .error e ∧ (BadAnswer s.w e ∨ ∃ l sl, e = .env l sl ∧ Hits O sl)) ∨
    ∃ r s' v', step s op = .ok (r, s') ∧ step ⟨v, s.a⟩ op = .ok (r, ⟨v', s'.a⟩) ∧ Priv O m0 s'.w v' := by
  have hr := step_rel (a := s.a) hp (hv.writable hl)
  cases hs : step ⟨v, s.a⟩ op with
  | error e =>
    have hb := C03_no_ub hv hl hs
    rcases hr.2 e hb.not_ub hs with h1 | ⟨l, sl, h1, h2⟩
    · exact .inl ⟨e, h1, .inl (hb.mono hp)⟩
    · exact .inl ⟨_, h1, .inr ⟨l, sl, rfl, h2⟩⟩
  | ok q =>
    rcases hr.1 q hs with ⟨⟨r, s'⟩, h1, h2, h3, h4⟩ | ⟨l, sl, h1, h2⟩
    · obtain ⟨r', ⟨v', a'⟩⟩ := q
      cases h2; cases h3
      exact .inr ⟨r, s', v', h1, rfl, h4⟩
    · exact .inl ⟨_, h1, .inr ⟨l, sl, rfl, h2⟩⟩

/-- A history depends only on the answers given in it. -/
theorem Run.ora {s0 L0 tr s L} (h : Run s0 L0 tr s L) : s.w.oracle = s0.w.oracle ∧ s0.w.calls ≤ s.w.calls ∧
    ∀ o, Agree s0.w s.w.calls o → Run (s0.ora o) L0 tr (s.ora o) L := by
  induction h with
  | nil => exact ⟨rfl, Nat.le_refl _, fun _ _ => .nil⟩
  | snoc _ hl hs ha ih =>
    obtain ⟨h1, h2, h3⟩ := ih
    obtain ⟨w', rfl, g1, g2, _⟩ := step_ora (o := fun _ => none) _ _ hs
    refine ⟨g1.trans h1, Nat.le_trans h2 g2, fun o ho => ?_⟩
    obtain ⟨w', rfl, _, _, g3⟩ := step_ora (o := o) _ _ hs
    exact (h3 o (ho.weaken rfl g2)).snoc hl (g3 (ho.weaken h1.symm (Nat.le_refl _))) ha

theorem ERun.alone {s0 s : St} {tr L O} (h0 : Start s0) (h : ERun s0 tr s L O) :
    ∃ o v, Run ⟨s0.w.alone o, s0.a⟩ [] tr ⟨v, s.a⟩ L ∧ Priv O s.w.mem s.w v := by
  induction h with
  | nil => exact ⟨_, _, .nil, .start h0.world⟩
  | @snoc tr s L O op r s' L' _ hl hs ha ih =>
    obtain ⟨o, v, hr, hp⟩ := ih
    rcases step_alone ⟨h0.alone, _, hr⟩ hp hl with ⟨e, he, _⟩ | ⟨r1, s1, v1, h1, h2, h3⟩
    · rw [hs] at he; cases he
    · rw [hs] at h1
      cases h1
      exact ⟨o, v1, hr.snoc hl h2 ha, h3.rebase⟩
  | env _ he ih =>
    obtain ⟨o, v, hr, hp⟩ := ih
    obtain ⟨o', h1, h2⟩ := hp.env he
    obtain ⟨h3, _, h4⟩ := hr.ora
    exact ⟨o', v.ora o', h4 o' (h1.weaken h3 (Nat.le_refl _)), h2⟩

/-! ### Threads -/

theorem SameBook.legal {K K1 : Book} (h : SameBook K K1) {a : Act} (hl : SLegal K a) : SLegal K1 a := by
  obtain ⟨o, b, s⟩ := K
  obtain ⟨o1, b1, s1⟩ := K1
  have h1 := h.owned; have h2 := h.busy
  dsimp only at h1 h2
  subst h1 h2
  cases hl with
  | allocate hb h => exact .allocate hb h
  | resize hb ho hf h => exact .resize hb ho hf h
  | deallocate hb ho hf => exact .deallocate hb ho hf
  | go => exact .go
  | write ho hx => exact .write ho hx
  | reset h => exact .reset h
  | resetUnchecked h => exact .resetUnchecked h
  | resetFinal h => exact .resetFinal h

theorem SameBook.after {K K1 : Book} (h : SameBook K K1) {m m1 : Nat → Byte} (hm : ∀ b ∈ K.owned, ∀ x, b.Has x → m1 x = m x) {a : Act}
    {r : Option Resp} {K' : Book} (ha : SAfter m K a r K') : ∃ K1', SAfter m1 K1 a r K1' ∧ SameBook K' K1' := by
  obtain ⟨o, b, s⟩ := K
  obtain ⟨o1, b1, s1⟩ := K1
  have h1 := h.owned; have h2 := h.busy; have h3 := h.snap
  dsimp only at h1 h2 h3 hm
  subst h1 h2
  have hcall : ∀ {t c} {ob : Option Owned}, (∀ x, ob = some x → x ∈ o1) → ∀ u c' b', put b1 t (some (c, ob)) u = some (c', some b') → ∀ x, b'.Has x →
      put s1 t m1 u x = put s t m u x := by
    intro t c ob hob u c' b' hu x hx
    unfold put at hu ⊢
    split
    · rename_i e
      rw [if_pos e] at hu
      injection hu with hu; injection hu with _ hu
      exact hm b' (hob b' hu) x hx
    · rename_i e
      rw [if_neg e] at hu
      exact h3 u c' b' hu x hx
  cases ha with
  | allocate => exact ⟨_, .allocate, rfl, rfl, hcall (by intro x hx; cases hx)⟩
  | resize ho hf => exact ⟨_, .resize ho hf, rfl, rfl, hcall (by intro x hx; cases hx; exact ho)⟩
  | deallocate ho hf => exact ⟨_, .deallocate ho hf, rfl, rfl, hcall (by intro x hx; cases hx; exact ho)⟩
  | inside => exact ⟨_, .inside, h⟩
  | @ret t ch c ob r hb =>
    refine ⟨_, .ret hb, rfl, rfl, ?_⟩
    intro u c' b' hu x hx
    dsimp only at hu ⊢
    unfold put at hu
    split at hu
    · cases hu
    · exact h3 u c' b' hu x hx
  | write => exact ⟨_, .write, h⟩
  | reset => exact ⟨_, .reset, rfl, rfl, h3⟩
  | resetUnchecked => exact ⟨_, .resetUnchecked, rfl, rfl, h3⟩
  | resetFinal => exact ⟨_, .resetFinal, rfl, rfl, h3⟩

theorem SStart.alone {s : SS} {o} (h : SStart s) : SStart { s with w := s.w.alone o } :=
  ⟨h.root, h.readers, h.writer, h.seen, h.pcs, World.alone_ok h.world, h.dbg, h.log⟩

theorem SReach.writable {s0 s K} (h : SReach s0 s K) {a : Act} (hl : SLegal K a) :
    ∀ x b, a = .write x b → s.w.accessible x 1 = true := by
  rintro x b rfl
  cases hl with
  | write hb hx =>
    obtain ⟨_, _, _, B, _, hB, h1, h2⟩ := C22_layout_and_memory h hb
    exact accessible_of_has hB h1 h2 hx

theorem sstep_alone {s0 : SS} {v : World} {s : SS} {K O m0} (hv : SReach s0 { s with w := v } K) (hp : Priv O m0 s.w v) {a : Act}
    (hl : SLegal K a) :
    (∃ e, sstep s a = .error e ∧ (BadAnswer s.w e ∨ ∃ l sl, e = .env l sl ∧ Hits O sl)) ∨
    (sstep s a = .ok none ∧ sstep { s with w := v } a = .ok none) ∨
    ∃ r s' v', sstep s a = .ok (some (r, s')) ∧ sstep { s with w := v } a = .ok (some (r, { s' with w := v' })) ∧ Priv O m0 s'.w v' := by
  have hr := sstep_rel hp (hv.writable hl)
  cases hs : sstep { s with w := v } a with
  | error e =>
    have hb := C22_no_ub hv hl hs
    rcases hr.2 e hb.not_ub hs with h1 | ⟨l, sl, h1, h2⟩
    · exact .inl ⟨e, h1, .inl (hb.mono hp)⟩
    · exact .inl ⟨_, h1, .inr ⟨l, sl, rfl, h2⟩⟩
  | ok q =>
    rcases hr.1 q hs with ⟨p, h1, h2⟩ | ⟨l, sl, h1, h2⟩
    · rcases h2 with ⟨rfl, rfl⟩ | ⟨r, s', v', rfl, rfl, h3⟩
      · exact .inr (.inl ⟨h1, rfl⟩)
      · exact .inr (.inr ⟨r, s', v', h1, rfl, h3⟩)
    · exact .inl ⟨_, h1, .inr ⟨l, sl, rfl, h2⟩⟩

/-- A history depends only on the answers given in it. -/
theorem SRun.ora {s0 K0 tr s K} (h : SRun s0 K0 tr s K) : s.w.oracle = s0.w.oracle ∧ s0.w.calls ≤ s.w.calls ∧
    ∀ o, Agree s0.w s.w.calls o → SRun (s0.ora o) K0 tr (s.ora o) K := by
  induction h with
  | nil => exact ⟨rfl, Nat.le_refl _, fun _ _ => .nil⟩
  | snoc _ hl hs ha ih =>
    obtain ⟨h1, h2, h3⟩ := ih
    obtain ⟨w', hw, g1, g2, _⟩ := sstep_ora (o := fun _ => none) _ _ hs
    cases hw _ rfl
    refine ⟨g1.trans h1, Nat.le_trans h2 g2, fun o ho => ?_⟩
    obtain ⟨w', hw, _, _, g3⟩ := sstep_ora (o := o) _ _ hs
    cases hw _ rfl
    exact (h3 o (ho.weaken rfl g2)).snoc hl (g3 (ho.weaken h1.symm (Nat.le_refl _))) ha

theorem ESRun.alone {s0 s : SS} {tr K O} (h0 : SStart s0) (h : ESRun s0 tr s K O) :
    ∃ o v K1, SRun { s0 with w := s0.w.alone o } Book.empty tr { s with w := v } K1 ∧ SameBook K K1 ∧ Priv O s.w.mem s.w v := by
  induction h with
  | nil => exact ⟨_, _, _, .nil, ⟨rfl, rfl, fun _ _ _ _ _ _ => rfl⟩, .start h0.world⟩
  | @snoc tr s K O a r s' K' _ hl hs ha ih =>
    obtain ⟨o, v, K1, hr, hK, hp⟩ := ih
    have hv : SReach _ { s with w := v } K1 := ⟨h0.alone, _, hr⟩
    have hl1 := hK.legal hl
    rcases sstep_alone hv hp hl1 with ⟨e, he, _⟩ | ⟨he, _⟩ | ⟨r1, s1, v1, h1, h2, h3⟩
    · rw [hs] at he; cases he
    · rw [hs] at he; cases he
    · rw [hs] at h1
      cases h1
      obtain ⟨K2, ha2, hK2⟩ := hK.after (m1 := v.mem) (by
        intro b hb x hx
        rw [← hK.owned] at hb
        obtain ⟨_, _, _, B, _, hB, h4, h5⟩ := C22_layout_and_memory hv hb
        obtain ⟨h6, h7⟩ := hx
        exact (hp.mem B hB x ⟨by omega, by omega⟩).symm) ha
      exact ⟨o, v1, K2, hr.snoc hl1 h2 ha2, hK2, h3.rebase⟩
  | env _ he ih =>
    obtain ⟨o, v, K1, hr, hK, hp⟩ := ih
    obtain ⟨o', h1, h2⟩ := hp.env he
    obtain ⟨h3, _, h4⟩ := hr.ora
    exact ⟨o', v.ora o', K1, h4 o' (h1.weaken h3 (Nat.le_refl _)), hK, h2⟩

/-! ### Proxies -/

theorem SamePBook.legal {K K1 : PBook} (h : SamePBook K K1) {a : PAct} (hl : PLegal K a) : PLegal K1 a := by
  have hd := h.direct
  obtain ⟨d, lv, led, pb⟩ := K
  obtain ⟨d1, lv1, led1, pb1⟩ := K1
  have h1 := h.live; have h2 := h.led; have h3 := h.pbusy
  dsimp only at h1 h2 h3 hd
  subst h1 h2 h3
  have hrd : ∀ {i}, PBook.Ready ⟨d, lv1, led1, pb1⟩ i → PBook.Ready ⟨d1, lv1, led1, pb1⟩ i := by
    rintro i ⟨h1, h2, h3⟩
    exact ⟨h1, h2, by rw [← h3]; exact congrFun hd.busy i⟩
  cases hl with
  | call h hp => exact .call (hd.legal h) hp
  | go => exact .go
  | write h => exact .write (hd.legal h)
  | pwrite hb hx => exact .pwrite hb hx
  | sreset ha h hn => exact .sreset ha (hd.legal h) hn
  | spawn h => exact .spawn h
  | allocate h hl => exact .allocate (hrd h) hl
  | resize h hb hf hl => exact .resize (hrd h) hb hf hl
  | deallocate h hb hf => exact .deallocate (hrd h) hb hf
  | reset h => exact .reset (hrd h)
  | resetUnchecked h => exact .resetUnchecked (hrd h)
  | drop h => exact .drop (hrd h)
  | updateMax h => exact .updateMax h
  | sync => exact .sync

theorem SamePBook.after {K K1 : PBook} (h : SamePBook K K1) {m m1 : Nat → Byte} (hm : ∀ b ∈ K.direct.owned, ∀ x, b.Has x → m1 x = m x)
    {a : PAct} {r : Option Resp} {K' : PBook} (ha : PAfter m K a r K') : ∃ K1', PAfter m1 K1 a r K1' ∧ SamePBook K' K1' := by
  have hd := h.direct
  obtain ⟨d, lv, led, pb⟩ := K
  obtain ⟨d1, lv1, led1, pb1⟩ := K1
  have h1 := h.live; have h2 := h.led; have h3 := h.pbusy
  dsimp only at h1 h2 h3 hd hm
  subst h1 h2 h3
  have hen : ∀ {i left c ob r}, SamePBook (PBook.enter ⟨d, lv1, led1, pb1⟩ i left c ob r) (PBook.enter ⟨d1, lv1, led1, pb1⟩ i left c ob r) := by
    intro i left c ob r
    cases r <;> exact ⟨hd, rfl, rfl, rfl⟩
  cases ha with
  | direct hD hr =>
    obtain ⟨D1, h4, h5⟩ := hd.after hm hD
    exact ⟨_, .direct h4 hr, h5, rfl, rfl, rfl⟩
  | back hb => exact ⟨_, .back hb, hd, rfl, rfl, rfl⟩
  | spawn => exact ⟨_, .spawn, hd, rfl, rfl, rfl⟩
  | allocate => exact ⟨_, .allocate, hen⟩
  | resize hb hf => exact ⟨_, .resize hb hf, hen⟩
  | deallocate hb hf => exact ⟨_, .deallocate hb hf, hd, rfl, rfl, rfl⟩
  | reset => exact ⟨_, .reset, hd, rfl, rfl, rfl⟩
  | resetUnchecked => exact ⟨_, .resetUnchecked, hen⟩
  | drop => exact ⟨_, .drop, hd, rfl, rfl, rfl⟩
  | updateMax => exact ⟨_, .updateMax, h⟩
  | sync => exact ⟨_, .sync, h⟩

theorem PStart.alone {ps : PS} {o} (h : PStart ps) : PStart { ps with s := { ps.s with w := ps.s.w.alone o } } :=
  ⟨h.shared.alone, h.top, h.hist, h.view, h.px⟩

theorem PReach.writable {p0 ps K} (h : PReach p0 ps K) {a : PAct} (hl : PLegal K a) :
    ∀ x b, a = .shared (.write x b) → ps.s.w.accessible x 1 = true := by
  rintro x v rfl
  cases hl with
  | write hl =>
    cases hl with
    | write hb hx =>
      obtain ⟨_, _, _, B, _, hB, h1, h2⟩ := C26_memory h (.inl hb)
      exact accessible_of_has hB h1 h2 hx
  | pwrite hb hx =>
    obtain ⟨_, _, _, B, _, hB, h1, h2⟩ := C26_memory h (.inr ⟨_, List.mem_append_right _ hb⟩)
    exact accessible_of_has hB h1 h2 hx
  | sreset ha => rcases ha with h | h | h <;> cases h

/-- What the shared allocator answers to a proxy is memory it holds. -/
theorem PReach.answered {p0 ps K} (h : PReach p0 ps K) {t : Nat} {ch : Choice} {p : Proxy} (hp : ps.px t = some p) (hi : p.pc.Waits)
    {sl : Slice} {s' : SS} (hs : sstep ps.s (.go t ch) = .ok (some (some (.block sl), s'))) : s'.w.accessible sl.addr sl.len = true := by
  obtain ⟨KS, cs, pend, hinv⟩ := h.inv
  have hx := hinv.px t
  rw [hp] at hx
  have key : ∀ {l}, KS.busy t = some (.allocate l, none) → s'.w.accessible sl.addr sl.len = true := by
    intro l hb
    obtain ⟨K', h1, h2, _⟩ := C22_allocate hinv.reach hb hs
    obtain ⟨_, _, _, B, _, hB, h3, h4⟩ := C22_layout_and_memory h1 (b := Owned.of sl l) (by rw [h2]; exact List.mem_cons_self)
    exact accessible_of hB h3 h4
  obtain ⟨bz, hbz⟩ : ∃ z, KS.busy t = z := ⟨_, rfl⟩
  rw [hbz] at hx
  generalize K.live t = lv, K.led t = led, K.pbusy t = pb, K.direct.busy t = db, cs t = ct, pend t = pt at hx
  cases hx with
  | idle => rcases hi with ⟨_, h⟩ | ⟨_, _, _, h⟩ <;> cases h
  | alloc => exact key hbz
  | resize => exact key hbz
  | chain => rcases hi with ⟨_, h⟩ | ⟨_, _, _, h⟩ <;> cases h

theorem pstep_alone {p0 : PS} {v : World} {ps : PS} {K O m0} (hv : PReach p0 { ps with s := { ps.s with w := v } } K) (hp : Priv O m0 ps.s.w v)
    {a : PAct} (hl : PLegal K a) :
    (∃ e, pstep ps a = .error e ∧ (BadAnswer ps.s.w e ∨ ps.EmptyChunk a e ∨ ∃ l sl, e = .env l sl ∧ Hits O sl)) ∨
    (pstep ps a = .ok none ∧ pstep { ps with s := { ps.s with w := v } } a = .ok none) ∨
    ∃ r ps' v', pstep ps a = .ok (some (r, ps')) ∧
      pstep { ps with s := { ps.s with w := v } } a = .ok (some (r, { ps' with s := { ps'.s with w := v' } })) ∧ Priv O m0 ps'.s.w v' := by
  have hr := pstep_rel hp (hv.writable hl) fun t ch p _ h1 h2 sl s' h3 => .inr (hv.answered (ch := ch) h1 h2 h3)
  cases hs : pstep { ps with s := { ps.s with w := v } } a with
  | error e =>
    have hb := C26_no_ub hv hl hs
    have hn : ∀ why, e ≠ .ub why := by
      rcases hb with hb | ⟨_, rfl, _⟩
      · exact hb.not_ub
      · intro why he; cases he
    rcases hr.2 e hn hs with h1 | ⟨l, sl, h1, h2⟩
    · refine .inl ⟨e, h1, ?_⟩
      rcases hb with hb | ⟨h2, h3, h4⟩
      · exact .inl (hb.mono hp)
      · exact .inr (.inl ⟨hp.debug.trans h2, h3, h4⟩)
    · exact .inl ⟨_, h1, .inr (.inr ⟨l, sl, rfl, h2⟩)⟩
  | ok q =>
    rcases hr.1 q hs with ⟨p, h1, h2⟩ | ⟨l, sl, h1, h2⟩
    · rcases h2 with ⟨rfl, rfl⟩ | ⟨r, s', v', rfl, rfl, h3⟩
      · exact .inr (.inl ⟨h1, rfl⟩)
      · exact .inr (.inr ⟨r, s', v', h1, rfl, h3⟩)
    · exact .inl ⟨_, h1, .inr (.inr ⟨l, sl, rfl, h2⟩)⟩

/-- A history depends only on the answers given in it. -/
theorem PRun.ora {p0 K0 tr ps K} (h : PRun p0 K0 tr ps K) : ps.s.w.oracle = p0.s.w.oracle ∧ p0.s.w.calls ≤ ps.s.w.calls ∧
    ∀ o, Agree p0.s.w ps.s.w.calls o → PRun (p0.ora o) K0 tr (ps.ora o) K := by
  induction h with
  | nil => exact ⟨rfl, Nat.le_refl _, fun _ _ => .nil⟩
  | snoc _ hl hs ha ih =>
    obtain ⟨h1, h2, h3⟩ := ih
    obtain ⟨w', hw, g1, g2, _⟩ := pstep_ora (o := fun _ => none) _ _ hs
    cases hw _ rfl
    refine ⟨g1.trans h1, Nat.le_trans h2 g2, fun o ho => ?_⟩
    obtain ⟨w', hw, _, _, g3⟩ := pstep_ora (o := o) _ _ hs
    cases hw _ rfl
    exact (h3 o (ho.weaken rfl g2)).snoc hl (g3 (ho.weaken h1.symm (Nat.le_refl _))) ha

theorem EPRun.alone {p0 ps : PS} {tr K O} (h0 : PStart p0) (h : EPRun p0 tr ps K O) :
    ∃ o v K1, PRun { p0 with s := { p0.s with w := p0.s.w.alone o } } PBook.empty tr { ps with s := { ps.s with w := v } } K1 ∧ SamePBook K K1 ∧
      Priv O ps.s.w.mem ps.s.w v := by
  induction h with
  | nil => exact ⟨_, _, _, .nil, ⟨⟨rfl, rfl, fun _ _ _ _ _ _ => rfl⟩, rfl, rfl, rfl⟩, .start h0.shared.world⟩
  | @snoc tr ps K O a r ps' K' _ hl hs ha ih =>
    obtain ⟨o, v, K1, hr, hK, hp⟩ := ih
    have hv : PReach _ { ps with s := { ps.s with w := v } } K1 := ⟨h0.alone, _, hr⟩
    have hl1 := hK.legal hl
    rcases pstep_alone hv hp hl1 with ⟨e, he, _⟩ | ⟨he, _⟩ | ⟨r1, s1, v1, h1, h2, h3⟩
    · rw [hs] at he; cases he
    · rw [hs] at he; cases he
    · rw [hs] at h1
      cases h1
      obtain ⟨K2, ha2, hK2⟩ := hK.after (m1 := v.mem) (by
        intro b hb x hx
        rw [← hK.direct.owned] at hb
        obtain ⟨_, _, _, B, _, hB, h4, h5⟩ := C26_memory hv (.inl hb)
        obtain ⟨h6, h7⟩ := hx
        exact (hp.mem B hB x ⟨by omega, by omega⟩).symm) ha
      exact ⟨o, v1, K2, hr.snoc hl1 h2 ha2, hK2, h3.rebase⟩
  | env _ he ih =>
    obtain ⟨o, v, K1, hr, hK, hp⟩ := ih
    obtain ⟨o', h1, h2⟩ := hp.env he
    obtain ⟨h3, _, h4⟩ := hr.ora
    exact ⟨o', v.ora o', K1, h4 o' (h1.weaken h3 (Nat.le_refl _)), hK, h2⟩

end Blink
