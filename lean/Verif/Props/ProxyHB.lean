import Verif.Proofs.ProxyHBRoot
import Verif.Props.SyncHB
import Verif.Spec.ProxyExec
import Verif.Props.ProxyDRF
/-
  Property theorems about the absence of data races in the sense of the memory model, with proxies: C78. `PHReach`
  (Verif/Spec/ProxyHB.lean) are the histories of a `SyncBlinkAlloc` used directly and through proxies, together with their happens-before
  relation.
-/
namespace Blink

section
variable {p0 ps ps' : PS} {t0 : Nat} {K : PBook} {h : HB}

/-- C78: there are no data races when the shared allocator is used directly or works for a proxy. Let `t` fulfil its duties and perform
any action of the shared allocator, for itself or for its proxy, or store into a block, and let `x` be a byte of memory that is held from
the underlying allocator. All non-atomic writes of `x` happen before, if the action accesses `x`; all atomic accesses of `x` happen
before, if the action accesses `x` non-atomically; and all non-atomic reads of `x` happen before, if the action writes `x`. -/
theorem C78_no_race (hr : PHReach p0 t0 ps K h) {t : Nat} {a : Act} (hl : PLegal K (.shared a)) (hb : a.By t) (hd : h.Duty K.direct t a)
    {x : Nat} (hx : ps.s.w.Holds x) :
    (Touches ps.s a x → ∀ e, h.writes x e → h.before ps.s t a e) ∧
    (Touches ps.s a x → ¬ Atomic ps.s a x → ∀ e, h.atoms x e → h.before ps.s t a e) ∧
    (Writes ps.s a x → ∀ e, h.reads x e → h.before ps.s t a e) := by
  obtain ⟨KS, cs, pend, inv, core, mem⟩ := hr.2.inv hr.1
  obtain ⟨scs, B, hi⟩ := inv.reach.inv
  obtain ⟨w, l, hm⟩ := core
  rw [← hi.hasB] at hm
  have res : a.isReset → (h.view t h.epoch ∧ (∀ e, h.rets e → h.view t e) ∧ ∀ x e, h.mine x e → h.view t e) →
      (Touches ps.s a x → ∀ e, h.writes x e → h.before ps.s t a e) ∧
      (Touches ps.s a x → ¬ Atomic ps.s a x → ∀ e, h.atoms x e → h.before ps.s t a e) ∧
      (Writes ps.s a x → ∀ e, h.reads x e → h.before ps.s t a e) := by
    intro hra hd
    have key : ∀ {e}, h.Acc x e → h.before ps.s t a e := fun he => .inl (mem.resetter w (hl.resetQuiet inv hra) hd he)
    exact ⟨fun _ e he => key (.inr (.inl he)), fun _ _ e he => key (.inr (.inr he)), fun _ e he => key (.inl he)⟩
  cases a with
  | call u c =>
    exact ⟨fun h => absurd h touches_call, fun h => absurd h touches_call, fun h => absurd h.touches touches_call⟩
  | go u ch =>
    have : u = t := hb
    subst this
    have pub : Touches ps.s (.go u ch) x → ∀ {e}, h.Pub ps.s e → h.before ps.s u (.go u ch) e :=
      fun ht _ he => .inl (l.pub w hi (hi.access ht).1 he)
    refine ⟨fun ht e he => ?_, fun ht hat e he => ?_, fun hw e he => ?_⟩
    · rcases (hi.access ht).2 with ⟨_, h2, h3, h4⟩ | ⟨_, h2, h3, h4⟩ | ⟨_, h2, _⟩ | ⟨_, b, h3, h4⟩
      · obtain ⟨Bk, _, k2, k3⟩ := hi.rootHead h2
        exact pub ht (hm.hdrW Bk k2 x e (by omega) (by omega) he)
      · obtain ⟨Bk, _, k2, k3⟩ := hi.rootHead h2
        exact pub ht (hm.hdrW Bk k2 x e (by omega) (by omega) he)
      · exact absurd hx h2
      · exact .inl (hm.blk u b h3 x e h4 (.inr (.inl he)))
    · rcases (hi.access ht).2 with ⟨h1, _⟩ | ⟨_, h2, h3, h4⟩ | ⟨_, h2, _⟩ | ⟨_, b, h3, h4⟩
      · exact absurd h1 hat
      · obtain ⟨Bk, _, k2, k3⟩ := hi.rootHead h2
        rcases hm.hdrA Bk k2 x e (by omega) (by omega) he with h5 | h5
        · exact pub ht h5
        · omega
      · exact absurd hx h2
      · exact .inl (hm.blk u b h3 x e h4 (.inr (.inr he)))
    · rcases hi.stores hw hx with ⟨_, h2, h3, h4⟩ | ⟨_, b, h3, h4⟩
      · obtain ⟨Bk, k1, k2, k3⟩ := hi.rootHead h2
        exact pub hw.touches (hm.hdrR Bk k1 x e (by omega) (by omega) he)
      · exact .inl (hm.blk u b h3 x e h4 (.inl he))
  | write y v =>
    obtain ⟨b, ho, hy⟩ : ∃ b, K.Has b ∧ b.Has y := by
      cases hl with
      | write h => cases h with | write ho hx => exact ⟨_, .inl ho, hx⟩
      | pwrite hb hx => exact ⟨_, .inr ⟨_, hb⟩, hx⟩
      | sreset ha _ _ => rcases ha with h | h | h <;> cases h
    have key : Touches ps.s (.write y v) x → ∀ {e}, h.Acc x e → h.before ps.s t (.write y v) e := by
      intro ht e he
      have := touches_write ht
      subst this
      exact .inl (mem.owns w ho hy hd he)
    exact ⟨fun ht e he => key ht (.inr (.inl he)), fun ht _ e he => key ht (.inr (.inr he)), fun hw e he => key hw.touches (.inl he)⟩
  | reset => exact res (.inl rfl) hd
  | resetUnchecked => exact res (.inr (.inl rfl)) hd
  | resetFinal => exact res (.inr (.inr rfl)) hd

/-- C78: nor are there races on `Inner::root` of the shared allocator (src/arena/sync.rs:6), the pointer to its newest chunk. Everything done in
a section of its lock counts as a read of it, everything done in an exclusive section as a write, and so does what actions outside of the
sections do to it. All writes happen before, if the action counts as a read, and all reads and writes, if it counts as a write. -/
theorem C78_root (hr : PHReach p0 t0 ps K h) {t : Nat} {a : Act} (hl : PLegal K (.shared a)) (hb : a.By t) (hd : h.Duty K.direct t a) :
    (ReadsRoot ps.s a → ∀ e, h.rootW e → h.before ps.s t a e) ∧
    (StoresRoot ps.s a → ∀ e, h.rootR e ∨ h.rootW e → h.before ps.s t a e) := by
  have ri := hr.2.rootInv hr.1
  obtain ⟨KS, cs, pend, inv, core, mem⟩ := hr.2.inv hr.1
  obtain ⟨scs, B, hi⟩ := inv.reach.inv
  have res : a.isReset → (h.view t h.epoch ∧ (∀ e, h.rets e → h.view t e) ∧ ∀ x e, h.mine x e → h.view t e) →
      (ReadsRoot ps.s a → ∀ e, h.rootW e → h.before ps.s t a e) ∧
      (StoresRoot ps.s a → ∀ e, h.rootR e ∨ h.rootW e → h.before ps.s t a e) := by
    intro hra hd
    have key : ∀ {e}, h.rootR e ∨ h.rootW e → h.before ps.s t a e := fun he => .inl (ri.resetter core.wf (hl.resetQuiet inv hra) hd he)
    exact ⟨fun _ e he => key (.inr he), fun _ e he => key he⟩
  cases a with
  | call u c => exact ⟨fun h => absurd h ReadsRoot.call, fun h => absurd h StoresRoot.call⟩
  | go u ch =>
    cases (show u = t from hb)
    exact ri.go core.wf core.lock hi
  | write y v => exact ⟨fun h => absurd h ReadsRoot.write, fun h => absurd h StoresRoot.write⟩
  | reset => exact res (.inl rfl) hd
  | resetUnchecked => exact res (.inr (.inl rfl)) hd
  | resetFinal => exact res (.inr (.inr rfl)) hd

/-- C78: code of a proxy has no access to `Inner::root` of the shared allocator: neither its calls, nor what it does with an answer. -/
theorem C78_root_proxy (ps : PS) {i : Nat} {a : PAct} (hi : a.proxy = some i) (b : BA) (v : Resp) (pc : PPc) :
    ¬ TouchesRootBy (fun q => pstep q a) ps ∧ ¬ TouchesRootBy (fun q => q.resume i b v pc) ps :=
  ⟨fun ⟨u, hu⟩ => hu (pstep_reroot ps hi u), fun ⟨_, hu⟩ => hu (PS.resume_reroot ..)⟩

/-- C78: proxies do not race with anybody. A proxy uses neither atomic operations nor a lock on its chunks. Whatever byte a call of a
proxy touches, all accesses to it, atomic or not, by anybody, happen before. -/
theorem C78_proxy (hr : PHReach p0 t0 ps K h) {i : Nat} {a : PAct} (hl : PLegal K a) (hi : a.proxy = some i) (hd : h.PDuty K a)
    {x : Nat} (hx : TouchesBy (fun q => pstep q a) ps x) : ∀ e, h.reads x e ∨ h.writes x e ∨ h.atoms x e → h.view i e := by
  obtain ⟨KS, cs, pend, inv, core, mem⟩ := hr.2.inv hr.1
  intro e he
  rcases mem.prox i x e (inv.own_reg hl hi hx) he with h1 | ⟨b, hb, hbx, _⟩
  · exact h1
  have hu := inv.led_used (.inl hb) hbx
  rcases inv.own_touch hl hi hx with ⟨c, hc, h1⟩ | ⟨p, old, new, rfl, h1 | h1⟩
  · exact (inv.used_hdr hu ⟨c, List.mem_append_left _ hc, h1⟩).elim
  · cases hl with
    | @resize _ b0 _ _ _ _ hb0 hf _ =>
      have hf0 := hf
      obtain ⟨f1, f2, f3, f4⟩ := hf
      exact mem.owns core.wf (.inr ⟨_, hb0⟩) (x := x) ⟨by omega, by omega⟩ (hd b0 hb0 hf0 x ⟨by omega, by omega⟩) he
  · exact (inv.used_room hu h1).elim

/-- C78: nor does what a proxy does when the shared allocator has answered: initialising and linking the new chunk, and copying a block
there. `h1` is the happens-before relation after the return of the shared allocator's call. -/
theorem C78_answer (hr : PHReach p0 t0 ps K h) {t : Nat} {ch : Choice} {p : Proxy} {v : Resp} {s1 : SS} (hv : ps.Answers t ch p v s1)
    {h1 : HB} (hh1 : h.Step ps.s K.direct t (.go t ch) none s1 h1) {x : Nat}
    (hx : TouchesBy (fun q => q.resume t p.a v p.pc) { ps with s := s1 } x) :
    ∀ e, h1.reads x e ∨ h1.writes x e ∨ h1.atoms x e → h1.view t e := by
  obtain ⟨KS, cs, pend, hi⟩ := hr.2.inv hr.1
  obtain ⟨KS1, R, mid, hsub, hsl⟩ := hi.answer hv hh1
  intro e he
  rcases mid.mem.prox t x e ((hi.inv.back_reg hv hsl hx).imp_right fun h => ⟨rfl, h⟩) he with h2 | ⟨b, hb, hbx, _⟩
  · exact h2
  exfalso
  rcases hi.inv.back_touch hv hx with h2 | ⟨sl, h2, h3, h4⟩ | ⟨c, b', h2, h3⟩
  · exact hi.inv.used_hdr (hi.inv.led_used (.inl hb) hbx) h2
  · obtain ⟨o, ho, hox⟩ := hi.inv.regOwned (hi.inv.led_inCs (.inl hb) hbx)
    exact mid.apart x (hsl sl h2 x h3 h4) o ho hox
  · have := (hi.inv.px t).led.apart
    rw [h2] at this
    exact (List.pairwise_cons.mp this).1 b hb x ⟨h3, hbx⟩

/-- C78: nor do callers race with the allocators when they read a block, wherever it came from: all non-atomic writes and all atomic
accesses of its bytes happen before the reads of whoever may read it. -/
theorem C78_reads (hr : PHReach p0 t0 ps K h) {b : Owned} (ho : b ∈ K.direct.owned ∨ ∃ i, b ∈ K.led i) {x : Nat}
    (hx : b.Has x) {t : Nat} (hd : h.Owns t x false) : ∀ e, h.writes x e ∨ h.atoms x e → h.view t e := by
  obtain ⟨KS, cs, pend, inv, core, mem⟩ := hr.2.inv hr.1
  exact fun e he => mem.ownsR core.wf ho hx hd he

/-- C78: at the end of a direct call, everything that was ever done to the bytes of the block it returns has happened before. -/
theorem C78_handed_out (hr : PHReach p0 t0 ps K h) {t : Nat} {ch : Choice} {v : Resp} {s' : SS}
    (hs : sstep ps.s (.go t ch) = .ok (some (some v, s'))) (hp : K.pbusy t = none) {c : Call} {ob : Option Owned}
    (hb : K.direct.busy t = some (c, ob)) {b : Owned} (hg : b ∈ gets c ob v) {x : Nat} (hx : b.Has x) :
    ∀ e, h.reads x e ∨ h.writes x e ∨ h.atoms x e → h.view t e := by
  obtain ⟨KS, cs, pend, inv, core, mem⟩ := hr.2.inv hr.1
  obtain ⟨scs, B, hi⟩ := inv.reach.inv
  obtain ⟨_, _, wr, hpc⟩ := hi.goRet hs
  have : b ∈ (ps.s.pcs t).has (KS.busy t) := by
    rw [← inv.busyD hp, hb, hpc, Pc.has_ret]
    exact hg
  exact fun e he => core.mem.blk t b this x e hx he

/-- C78: the same for a block returned by a proxy that did not need the shared allocator. -/
theorem C78_handed_out_proxy (hr : PHReach p0 t0 ps K h) {i : Nat} {a : PAct} (hl : PLegal K a) (hi : a.proxy = some i) (hd : h.PDuty K a)
    {r : Option Resp} (hs : pstep ps a = .ok (some (r, ps'))) {x : Nat} (hg : PGives K r x a) :
    ∀ e, h.reads x e ∨ h.writes x e ∨ h.atoms x e → h.view i e := by
  obtain ⟨KS, cs, pend, hI⟩ := hr.2.inv hr.1
  obtain ⟨K', ha⟩ : ∃ K', PAfter ps.s.w.mem K a r K' := by
    cases a with
    | shared => cases hi
    | spawn => cases hi
    | updateMax => cases hi
    | sync => cases hi
    | allocate => exact ⟨_, .allocate⟩
    | resize => cases hl with | resize _ hb hf _ => exact ⟨_, .resize hb hf⟩
    | deallocate => exact hg.elim
    | reset => exact hg.elim
    | resetUnchecked => exact hg.elim
    | drop => exact hg.elim
  obtain ⟨KS', cs', pend', inv', eff, hcs, hk⟩ := hI.inv.after hl hs ha
  intro e he
  obtain ⟨b', hb', hbx'⟩ := own_gives hi ha hg
  have hR : Reg cs pend i x := reg_own hcs hk (by rintro t ch rfl; cases hi) (inv'.led_inCs (.inl hb') hbx')
  rcases hI.own_known hl hi hd ha inv' (by rintro j rfl; exact hg) hR he with h1 | ⟨_, _, _, _, _, h5⟩
  · exact h1
  · exact absurd hg h5

/-- C78: the same for a block returned by a proxy when the shared allocator has answered. -/
theorem C78_handed_out_answer (hr : PHReach p0 t0 ps K h) {t : Nat} {ch : Choice} {p : Proxy} {v : Resp} {s1 : SS} (hv : ps.Answers t ch p v s1)
    {h1 : HB} (hh1 : h.Step ps.s K.direct t (.go t ch) none s1 h1) {r : Option Resp}
    (hs : PS.resume { ps with s := s1 } t p.a v p.pc = .ok (some (r, ps'))) {x : Nat} (hg : PGives K r x (.shared (.go t ch))) :
    ∀ e, h1.reads x e ∨ h1.writes x e ∨ h1.atoms x e → h1.view t e := by
  obtain ⟨KS, cs, pend, hi⟩ := hr.2.inv hr.1
  obtain ⟨K', ha⟩ : ∃ K', PAfter ps.s.w.mem K (.shared (.go t ch)) r K' := by
    obtain ⟨c, ob, v, hb, rfl, _⟩ := hg
    exact ⟨_, .back hb⟩
  exact fun e he => hi.back_gives hv hh1 hs ha hg he

/-- C78: only resets of the shared allocator give memory back to the underlying allocator, and when they do, all accesses to it have
happened before. -/
theorem C78_released (hr : PHReach p0 t0 ps K h) {t : Nat} {a : PAct} (hl : PLegal K a) (hd : ∀ a', a = .shared a' → h.Duty K.direct t a')
    {r : Option Resp} (hs : pstep ps a = .ok (some (r, ps'))) {x : Nat} (hx : ps.s.w.Holds x) (hx' : ¬ ps'.s.w.Holds x) :
    (∃ a', a = .shared a' ∧ a'.isReset) ∧ ∀ e, h.reads x e ∨ h.writes x e ∨ h.atoms x e → h.view t e := by
  obtain ⟨KS, cs, pend, inv, core, mem⟩ := hr.2.inv hr.1
  have hra : a.isReset := by
    apply Classical.byContradiction
    intro hn
    rcases inv.step hl with ⟨e, _, he⟩ | he | ⟨r', ps1, he, eff, _⟩
    · rw [he] at hs; cases hs
    · rw [he] at hs; cases hs
    · rw [he] at hs
      injection hs with hs; injection hs with hs; injection hs with _ hs
      subst hs
      obtain ⟨B, hB, h2⟩ := hx
      exact hx' ⟨B, (eff.quiet hn).held B hB, h2⟩
  refine ⟨hra, fun e he => ?_⟩
  obtain ⟨a', rfl, hra'⟩ := hra
  have hd := hd a' rfl
  refine mem.resetter core.wf (hl.resetQuiet inv hra') ?_ he
  rcases hra' with rfl | rfl | rfl <;> exact hd

end

/-! ### Histories exist -/

open Classical in
/-- The events after code of a proxy was executed. -/
noncomputable def HB.nextOwn (h : HB) (i : Nat) (f : PS → PRes) (ps : PS) (G : Nat → Prop) (r : Option Resp) : HB where
  clock := h.clock + 1
  view := fun u e => h.view u e ∨ u = i ∧ e = h.clock
  past := fun n e => if n = h.clock then h.view i e else h.past n e
  lockR := h.lockR
  lockW := h.lockW
  reads := fun x e => h.reads x e ∨ e = h.clock ∧ TouchesBy f ps x
  writes := fun x e => h.writes x e ∨ e = h.clock ∧ WritesBy f ps x
  atoms := h.atoms
  rootR := fun e => h.rootR e ∨ e = h.clock ∧ TouchesRootBy f ps
  rootW := fun e => h.rootW e ∨ e = h.clock ∧ TouchesRootBy f ps
  mine := h.mine
  since := fun x => if G x then h.clock else h.since x
  rets := fun e => h.rets e ∨ e = h.clock ∧ r ≠ none
  epoch := h.epoch

theorem HB.nextOwn_own (h : HB) (i : Nat) (f : PS → PRes) (ps : PS) (G : Nat → Prop) (r : Option Resp) :
    h.Own i f ps G r (h.nextOwn i f ps G r) :=
  ⟨rfl, fun _ _ => .rfl, fun _ _ => .rfl, fun _ => .rfl, fun _ => .rfl, fun _ _ => .rfl, fun _ _ => .rfl, fun _ _ => .rfl, fun _ => .rfl, fun _ => .rfl,
    fun _ _ => .rfl, fun _ => ⟨fun h => if_pos h, fun h => if_neg h⟩, fun _ => .rfl, rfl⟩

/-- The events are determined by the steps. -/
theorem HB.Own.unique {h h1 h2 : HB} {i : Nat} {f : PS → PRes} {ps : PS} {G : Nat → Prop} {r : Option Resp} (a1 : h.Own i f ps G r h1)
    (a2 : h.Own i f ps G r h2) : h1 = h2 := by
  cases h1; cases h2
  congr
  · exact a1.clock.trans a2.clock.symm
  · funext u e; exact propext ((a1.view u e).trans (a2.view u e).symm)
  · funext u e; exact propext ((a1.past u e).trans (a2.past u e).symm)
  · funext e; exact propext ((a1.lockR e).trans (a2.lockR e).symm)
  · funext e; exact propext ((a1.lockW e).trans (a2.lockW e).symm)
  · funext u e; exact propext ((a1.reads u e).trans (a2.reads u e).symm)
  · funext u e; exact propext ((a1.writes u e).trans (a2.writes u e).symm)
  · funext u e; exact propext ((a1.atoms u e).trans (a2.atoms u e).symm)
  · funext e; exact propext ((a1.rootR e).trans (a2.rootR e).symm)
  · funext e; exact propext ((a1.rootW e).trans (a2.rootW e).symm)
  · funext u e; exact propext ((a1.mine u e).trans (a2.mine u e).symm)
  · funext x
    by_cases hg : G x
    · exact ((a1.since x).1 hg).trans ((a2.since x).1 hg).symm
    · exact ((a1.since x).2 hg).trans ((a2.since x).2 hg).symm
  · funext e; exact propext ((a1.rets e).trans (a2.rets e).symm)
  · exact a1.epoch.trans a2.epoch.symm

/-- Everybody has learned of everything from `t0` before an action and tells `t0` afterwards: any continuation is possible. -/
theorem PHRun.more {p0 ps ps' : PS} {t0 : Nat} {K K' : PBook} {h : HB} (h0 : PStart p0) (hr : PHRun p0 t0 ps K h)
    (hk : ∀ e, e < h.clock → h.view t0 e) {tr} (run : PRun ps K tr ps' K') :
    ∃ h', PHRun p0 t0 ps' K' h' ∧ (∀ e, e < h'.clock → h'.view t0 e) ∧
      ((∀ a ∈ tr.map (·.1), ∀ a', a = .shared a' → ¬ a'.isReset) → ∀ x, ps.s.w.Holds x → ps'.s.w.Holds x ∧ ∀ e, h.writes x e → h'.writes x e) ∧
      ∀ e, (h.rootR e → h'.rootR e) ∧ (h.rootW e → h'.rootW e) := by
  induction run with
  | nil => exact ⟨h, hr, hk, fun _ x hx => ⟨hx, fun _ => id⟩, fun _ => ⟨id, id⟩⟩
  | @snoc tr ps K a r ps' K' _ hl hs ha ih =>
    obtain ⟨h1, r1, k1, w1, o1⟩ := ih
    obtain ⟨KS, cs, pend, inv, core, mem⟩ := r1.inv h0
    have w := core.wf
    have hv : ∀ t e, e < h1.clock → (h1.sync t0 t).view t e := fun t e he => .inr ⟨rfl, k1 e he⟩
    have ho : ∀ t x wr, (h1.sync t0 t).Owns t x wr := fun t x wr => ⟨hv t _ (w.since x), fun e _ he _ => hv t e (w.mine x e he)⟩
    -- memory stays
    have stays : (∀ b ∈ (tr ++ [(a, r)]).map (·.1), ∀ a', b = .shared a' → ¬ a'.isReset) → ∀ x, ps.s.w.Holds x → ps'.s.w.Holds x := by
      intro hn x ⟨B, hB, h2⟩
      rcases inv.step hl with ⟨e, _, he⟩ | he | ⟨r', ps1, he, eff, _⟩
      · rw [he] at hs; cases hs
      · rw [he] at hs; cases hs
      · rw [he] at hs
        injection hs with hs; injection hs with hs; injection hs with _ hs
        subst hs
        refine ⟨B, (eff.quiet ?_).held B hB, h2⟩
        rintro ⟨a', h1, h2⟩
        exact hn a (by simp) a' h1 h2
    have front : (∀ b ∈ (tr ++ [(a, r)]).map (·.1), ∀ a', b = .shared a' → ¬ a'.isReset) →
        ∀ b ∈ tr.map (·.1), ∀ a', b = .shared a' → ¬ a'.isReset :=
      fun hn b hb => hn b (by rw [List.map_append]; exact List.mem_append_left _ hb)
    suffices ∃ h', PHRun p0 t0 ps' K' h' ∧ (∀ e, e < h'.clock → h'.view t0 e) ∧ (∀ x, ps.s.w.Holds x → ∀ e, h1.writes x e → h'.writes x e) ∧
        ∀ e, (h1.rootR e → h'.rootR e) ∧ (h1.rootW e → h'.rootW e) by
      obtain ⟨h', g1, g2, g3, g4⟩ := this
      refine ⟨h', g1, g2, fun hn x hx => ?_, fun e => ⟨fun he => (g4 e).1 ((o1 e).1 he), fun he => (g4 e).2 ((o1 e).2 he)⟩⟩
      obtain ⟨q1, q2⟩ := w1 (front hn) x hx
      exact ⟨stays hn x q1, fun e he => g3 x q1 e (q2 e he)⟩
    have own : ∀ i, a.proxy = some i → (h1.sync t0 i).PDuty K a →
        ∃ h', PHRun p0 t0 ps' K' h' ∧ (∀ e, e < h'.clock → h'.view t0 e) ∧ (∀ x, ps.s.w.Holds x → ∀ e, h1.writes x e → h'.writes x e) ∧
          ∀ e, (h1.rootR e → h'.rootR e) ∧ (h1.rootW e → h'.rootW e) := by
      intro i hi hd
      refine ⟨_, ((r1.tell t0 i).own hl hi hd hs ha (HB.nextOwn_own ..)).tell i t0, ?_, fun x _ e he => .inl he, fun _ => ⟨.inl, .inl⟩⟩
      intro e he
      have he : e < h1.clock + 1 := he
      refine .inr ⟨rfl, ?_⟩
      by_cases hc : e = h1.clock
      · exact .inr ⟨rfl, hc⟩
      · exact .inl (hv i e (by omega))
    cases a with
    | spawn i k =>
      exact ⟨_, (r1.tell t0 i).spawn hl (hv i _ w.epoch) hs ha, fun e he => .inl (k1 e he), fun x _ e he => he, fun _ => ⟨id, id⟩⟩
    | updateMax t v => exact ⟨_, r1.updateMax hl hs ha, k1, fun x _ e he => he, fun _ => ⟨id, id⟩⟩
    | sync t u => exact ⟨_, r1.sync t u hs ha, fun e he => .inl (k1 e he), fun x _ e he => he, fun _ => ⟨id, id⟩⟩
    | allocate i l => exact own i rfl trivial
    | resize i p old new => exact own i rfl fun _ _ _ x _ => ho i x true
    | deallocate i p n => exact own i rfl fun _ _ _ x _ => ho i x true
    | reset i => exact own i rfl fun _ _ x _ => ho i x true
    | resetUnchecked i => exact own i rfl fun _ _ x _ => ho i x true
    | drop i => exact own i rfl trivial
    | shared a =>
      obtain ⟨t, ht⟩ : ∃ t, a.By t := by
        cases a with
        | call u c => exact ⟨u, rfl⟩
        | go u ch => exact ⟨u, rfl⟩
        | write x v => exact ⟨t0, trivial⟩
        | reset => exact ⟨t0, trivial⟩
        | resetUnchecked => exact ⟨t0, trivial⟩
        | resetFinal => exact ⟨t0, trivial⟩
      have hd : (h1.sync t0 t).Duty K.direct t a := by
        cases a with
        | call u c =>
          cases c with
          | allocate => exact hv t _ w.epoch
          | resize => exact ⟨hv t _ w.epoch, fun _ _ _ x _ => ho t x true⟩
          | deallocate => exact ⟨hv t _ w.epoch, fun _ _ _ x _ => ho t x true⟩
        | go u ch => trivial
        | write x v => exact ho t x true
        | reset => exact ⟨hv t _ w.epoch, fun e he => hv t e (w.rets e he), fun x e he => hv t e (w.mine x e he)⟩
        | resetUnchecked => exact ⟨hv t _ w.epoch, fun e he => hv t e (w.rets e he), fun x e he => hv t e (w.mine x e he)⟩
        | resetFinal => exact ⟨hv t _ w.epoch, fun e he => hv t e (w.rets e he), fun x e he => hv t e (w.mine x e he)⟩
      by_cases hA : ∃ ch p v s', a = .go t ch ∧ ps.Answers t ch p v s'
      · obtain ⟨ch, p, v, s1, rfl, hA⟩ := hA
        have hs' := hs
        rw [pstep_go_wait hA.2.2 hA.1 hA.2.1] at hs'
        refine ⟨_, ((r1.tell t0 t).back hA (HB.next_step ..) hs' ha (HB.nextOwn_own ..)).tell t t0, ?_, ?_, fun _ => ⟨fun he => .inl (.inl he), fun he => .inl (.inl he)⟩⟩
        · intro e he
          have he : e < h1.clock + 1 + 1 := he
          refine .inr ⟨rfl, ?_⟩
          by_cases hc : e = h1.clock + 1
          · exact .inr ⟨rfl, hc⟩
          left
          by_cases hc : e = h1.clock
          · exact .inr ⟨rfl, .inr hc⟩
          · exact .inl (hv t e (by omega))
        · exact fun x hx e he => .inl (.inl ⟨he, fun hn => hn.2 hx⟩)
      · have hn : ∀ ch p v s', a = .go t ch → ¬ ps.Answers t ch p v s' := fun ch p v s' h1 h2 => hA ⟨ch, p, v, s', h1, h2⟩
        refine ⟨_, ((r1.tell t0 t).shared hl ht hd hn hs ha (HB.next_step ..)).tell t t0, ?_, ?_, fun _ => ⟨.inl, .inl⟩⟩
        · intro e he
          have he : e < h1.clock + 1 := he
          refine .inr ⟨rfl, ?_⟩
          by_cases hc : e = h1.clock
          · exact .inr ⟨rfl, .inr hc⟩
          · exact .inl (hv t e (by omega))
        · exact fun x hx e he => .inl ⟨he, fun hn => hn.2 hx⟩

/-- C78 speaks about all histories of the allocator: whatever is done with it and its proxies, the callers can synchronise enough. -/
theorem C78_histories {p0 ps : PS} {K : PBook} (hr : PReach p0 ps K) (t0 : Nat) : ∃ h, PHReach p0 t0 ps K h := by
  obtain ⟨h0, tr, hr⟩ := hr
  obtain ⟨h, h1, _⟩ := PHRun.more h0 (.start (t0 := t0)) (fun e he => ⟨rfl, by have : e < 1 := he; omega⟩) hr
  exact ⟨h, h0, h1⟩

/-! ### Non-vacuity

In the examples identity 7, who created the shared allocator, stores into a block that a proxy or another identity holds: event `e`. -/

theorem PHRun.wrote {p0 ps : PS} {t0 : Nat} {K : PBook} {h : HB} (h0 : PStart p0) (hr : PHRun p0 t0 ps K h) (hk : ∀ e, e < h.clock → h.view t0 e)
    {x : Nat} {v : Byte} (hl : PLegal K (.shared (.write x v))) {r ps' K'} (hs : pstep ps (.shared (.write x v)) = .ok (some (r, ps')))
    (ha : PAfter ps.s.w.mem K (.shared (.write x v)) r K') (hw : Writes ps.s (.write x v) x) :
    ∃ h', PHRun p0 t0 ps' K' h' ∧ (∀ e, e < h'.clock → h'.view t0 e) ∧ h'.writes x h.clock ∧ ∀ u, u ≠ t0 → ¬ h'.view u h.clock := by
  obtain ⟨KS, cs, pend, inv, core, mem⟩ := hr.inv h0
  have w := core.wf
  refine ⟨_, hr.shared hl (t := t0) trivial ⟨hk _ (w.since x), fun e _ he _ => hk e (w.mine x e he)⟩ (by rintro _ _ _ _ h; cases h) hs ha (HB.next_step ..), ?_,
    .inr ⟨rfl, hw, fun h => h⟩, ?_⟩
  · intro e he
    have he : e < h.clock + 1 := he
    by_cases hc : e = h.clock
    · exact .inr ⟨rfl, .inr hc⟩
    · exact .inl (hk e (by omega))
  · rintro u hu (h1 | ⟨h1, _⟩)
    · exact Nat.lt_irrefl _ (w.view _ _ h1)
    · exact hu h1

/-- Is the action a reset of the shared allocator? -/
def PAct.resetB : PAct → Bool
  | .shared .reset | .shared .resetUnchecked | .shared .resetFinal => true
  | _ => false

/-- Run some actions, store a byte, run some more, and check something. -/
def pstored (sizes : List Nat) (m : Nat) (as : List PAct) (x : Nat) (as' : List PAct) (f : PS → PBook → Bool) : Bool :=
  match pexecAll (pdemoStart sizes m) PBook.empty as with
  | none => false
  | some (_, ps, K) =>
    ps.s.w.held.any (fun B => decide (B.addr ≤ x) && decide (x < B.addr + B.len)) &&
    decide (memAfter x (sstep (ps.s.poke x (.raw 77)) (.write x (.raw 55))) ≠ none ∧
      memAfter x (sstep (ps.s.poke x (.raw 77)) (.write x (.raw 55))) ≠ some (.raw 77)) &&
    match pexecAll ps K [.shared (.write x (.raw 55))] with
    | none => false
    | some (_, ps, K) => as'.all (fun a => !a.resetB) && match pexecAll ps K as' with
      | none => false
      | some (_, ps, K) => f ps K

theorem of_pstored {sizes : List Nat} {m : Nat} {as : List PAct} {x : Nat} {as' : List PAct} {f} (h : pstored sizes m as x as' f = true)
    (hm : 0 < m ∧ m ≤ HUGE := by decide) :
    ∃ ps K h e, PHReach (pdemoStart sizes m) 7 ps K h ∧ K.Small ∧ f ps K = true ∧ (∀ e, e < h.clock → h.view 7 e) ∧ h.writes x e ∧ ps.s.w.Holds x ∧
      (as' = [] → ∀ u, u ≠ 7 → ¬ h.view u e) := by
  unfold pstored at h
  split at h
  · cases h
  rename_i rs ps1 K1 h1
  simp only [Bool.and_eq_true, List.any_eq_true, decide_eq_true_eq] at h
  obtain ⟨⟨⟨B, hB, hBx⟩, hw⟩, h⟩ := h
  split at h
  · cases h
  rename_i rs2 ps2 K2 h2
  simp only [Bool.and_eq_true, List.all_eq_true, Bool.not_eq_true'] at h
  obtain ⟨hn, h⟩ := h
  split at h
  · cases h
  rename_i rs3 ps3 K3 h3
  have h0 := pdemoStart_start sizes m hm
  obtain ⟨a1, s1⟩ := pexecAll_sound h1
  obtain ⟨_, s2⟩ := pexecAll_sound h2
  obtain ⟨a3, s3⟩ := pexecAll_sound h3
  obtain ⟨g1, q1, k1, _⟩ := PHRun.more h0 (.start (t0 := 7)) (fun e he => ⟨rfl, by have : e < 1 := he; omega⟩) a1
  unfold pexecAll at h2
  split at h2
  case h_2 => cases h2
  rename_i r ps1' hs
  split at h2
  · cases h2
  rename_i K1' hb
  simp only [pexecAll, Option.some.injEq, Prod.mk.injEq] at h2
  obtain ⟨rfl, rfl, rfl⟩ := h2
  obtain ⟨b1, b2⟩ := pbook_sound hb
  obtain ⟨g2, q2, k2, w2, n2⟩ := q1.wrote h0 k1 b1 hs b2 (writes_of hw)
  obtain ⟨g3, q3, k3, w3, _⟩ := q2.more h0 k2 a3
  have held2 : ps1'.s.w.Holds x := by
    injection hs with hs; injection hs with hs; injection hs with _ hs
    subst hs
    exact ⟨B, hB, hBx⟩
  obtain ⟨d1, d2⟩ := w3 (by
    rintro a ha a' rfl hr
    obtain ⟨⟨a2, r2⟩, h5, h6⟩ := List.mem_map.mp ha
    simp only at h6
    subst h6
    have := hn _ (List.of_mem_zip h5).1
    rcases hr with rfl | rfl | rfl <;> cases this) x held2
  by_cases he : as' = []
  · subst he
    simp only [pexecAll, Option.some.injEq, Prod.mk.injEq] at h3
    obtain ⟨rfl, rfl, rfl⟩ := h3
    exact ⟨ps1', K1', g2, _, ⟨h0, q2⟩, s2 (s1 fun _ _ => ⟨rfl, rfl⟩), h, k2, w2, held2, fun _ => n2⟩
  · exact ⟨ps3, K3, g3, _, ⟨h0, q3⟩, s3 (s2 (s1 fun _ _ => ⟨rfl, rfl⟩)), h, k3, d2 _ w2, d1, fun h => absurd h he⟩

/-- Somebody who knows everything may do everything. -/
theorem HB.owns_all {h : HB} (w : h.WF) {t} (hk : ∀ e, e < h.clock → h.view t e) (x wr) : h.Owns t x wr :=
  ⟨hk _ (w.since x), fun e _ he _ => hk e (w.mine x e he)⟩

/-- Non-vacuity of `C78_proxy` and `C78_reads`: identity 7 has stored into a block of proxy 0 and told identity 0, who may now read it and
ask the proxy to `resize` it, which will copy it. Proxy 1 knows nothing of it. -/
example : ∃ p0 ps K h e, PHReach p0 7 ps K h ∧ PLegal K (.resize 0 65704 ⟨24, 8⟩ ⟨40, 8⟩) ∧ h.PDuty K (.resize 0 65704 ⟨24, 8⟩ ⟨40, 8⟩) ∧
    TouchesBy (fun q => pstep q (.resize 0 65704 ⟨24, 8⟩ ⟨40, 8⟩)) ps 65707 ∧ h.Owns 0 65707 false ∧ h.writes 65707 e ∧ h.view 0 e ∧ ¬ h.view 1 e := by
  obtain ⟨ps, K, h, e, hr, _, hf, hk, hw, _, hn⟩ := of_pstored (sizes := [8192]) (m := 1024) (x := 65707)
    (as := [.spawn 0 0, .spawn 1 0, .allocate 0 ⟨100, 8⟩] ++ pgoes 0 5 ++ [.allocate 0 ⟨24, 8⟩, .allocate 0 ⟨8, 8⟩]) (as' := [])
    (f := fun ps K => K.readyB 0 && decide (⟨65704, 24, 24, 8⟩ ∈ K.led 0) &&
      decide (pmemAfter 65739 (pstep (ps.poke 65707 (.raw 77)) (.resize 0 65704 ⟨24, 8⟩ ⟨40, 8⟩)) ≠
        pmemAfter 65739 (ppokeRes 65707 (.raw 77) (pstep ps (.resize 0 65704 ⟨24, 8⟩ ⟨40, 8⟩)))))
    (by decide +kernel)
  simp only [Bool.and_eq_true, decide_eq_true_eq] at hf
  obtain ⟨⟨h1, h2⟩, h3⟩ := hf
  obtain ⟨KS, cs, pend, inv, core, mem⟩ := (hr.2.tell 7 0).inv hr.1
  have hk' : ∀ e, e < (h.sync 7 0).clock → (h.sync 7 0).view 0 e := fun e he => .inr ⟨rfl, hk e he⟩
  have hl : PLegal K (.resize 0 65704 ⟨24, 8⟩ ⟨40, 8⟩) :=
    .resize (PBook.readyB_sound h1) h2 ⟨rfl, by decide, by decide, by decide⟩ ⟨⟨⟨3, rfl⟩, by decide⟩, by decide⟩
  have hd : (h.sync 7 0).PDuty K (.resize 0 65704 ⟨24, 8⟩ ⟨40, 8⟩) := fun _ _ _ x _ => HB.owns_all core.wf hk' x true
  have ht : TouchesBy (fun q => pstep q (.resize 0 65704 ⟨24, 8⟩ ⟨40, 8⟩)) ps 65707 := ptouches_of h3
  refine ⟨_, ps, K, h.sync 7 0, e, ⟨hr.1, hr.2.tell 7 0⟩, hl, hd, ht, HB.owns_all core.wf hk' _ _, hw,
    C78_proxy ⟨hr.1, hr.2.tell 7 0⟩ hl rfl hd ht e (.inr (.inl hw)), ?_⟩
  rintro (h4 | ⟨h4, _⟩)
  · exact hn rfl 1 (by decide) h4
  · cases h4

/-- What the shared allocator answers. -/
def panswer (ps : PS) (t : Nat) (ch : Choice) : Option (Proxy × Resp × SS) :=
  match ps.px t, sstep ps.s (.go t ch) with
  | some p, .ok (some (some v, s')) => if p.pc = .idle then none else some (p, v, s')
  | _, _ => none

theorem of_panswer {ps : PS} {t ch p v s'} (h : panswer ps t ch = some (p, v, s')) : ps.Answers t ch p v s' := by
  unfold panswer at h
  split at h
  · rename_i h1 h2
    split at h
    · cases h
    · injection h with h; injection h with h h'; injection h' with h' h''
      subst h h' h''
      exact ⟨h1, by assumption, h2⟩
  · cases h

/-- Non-vacuity of `C78_answer`: proxy 0 has asked for a chunk to move a block to, into which identity 7 has stored; the shared allocator
answers, and the block will be copied. -/
example : ∃ p0 ps K h e ch p v s1 h1, PHReach p0 7 ps K h ∧ ps.Answers 0 ch p v s1 ∧ h.Step ps.s K.direct 0 (.go 0 ch) none s1 h1 ∧
    TouchesBy (fun q => q.resume 0 p.a v p.pc) { ps with s := s1 } 65603 ∧ h1.writes 65603 e := by
  obtain ⟨ps, K, h, e, hr, _, hf, hk, hw, hx, _⟩ := of_pstored (sizes := [8192]) (m := 1024) (x := 65603)
    (as := [.spawn 0 0, .allocate 0 ⟨24, 8⟩] ++ pgoes 0 5) (as' := [.resize 0 65600 ⟨24, 8⟩ ⟨600, 8⟩] ++ pgoes 0 3)
    (f := fun ps K => match panswer ps 0 fresh with
      | none => false
      | some (p, v, s1) => decide (pmemAfter 65667 (({ ps with s := s1 } : PS).poke 65603 (.raw 77) |>.resume 0 p.a v p.pc) ≠
        pmemAfter 65667 (ppokeRes 65603 (.raw 77) (({ ps with s := s1 } : PS).resume 0 p.a v p.pc))))
    (by decide +kernel)
  split at hf
  · cases hf
  rename_i p v s1 ha
  rw [decide_eq_true_eq] at hf
  exact ⟨_, ps, K, h, e, fresh, p, v, s1, _, hr, of_panswer ha, HB.next_step .., ⟨.raw 77, fun he => hf (congrArg (pmemAfter 65667) he)⟩,
    .inl ⟨hw, fun hn => hn.2 hx⟩⟩

/-- Non-vacuity of `C78_handed_out_proxy`: proxy 0 was reset after identity 7 stored into one of its blocks; the next block it gives out has
the same bytes. -/
example : ∃ p0 ps ps' K h e r, PHReach p0 7 ps K h ∧ PLegal K (.allocate 0 ⟨24, 8⟩) ∧ h.PDuty K (.allocate 0 ⟨24, 8⟩) ∧
    pstep ps (.allocate 0 ⟨24, 8⟩) = .ok (some (r, ps')) ∧ PGives K r 65603 (.allocate 0 ⟨24, 8⟩) ∧ h.writes 65603 e := by
  obtain ⟨ps, K, h, e, hr, _, hf, hk, hw, hx, _⟩ := of_pstored (sizes := [8192]) (m := 1024) (x := 65603)
    (as := [.spawn 0 0, .allocate 0 ⟨24, 8⟩] ++ pgoes 0 5) (as' := [.reset 0])
    (f := fun ps K => K.readyB 0 && match pstep ps (.allocate 0 ⟨24, 8⟩) with
      | .ok (some (some (.block s), _)) => decide (s = ⟨65600, 24⟩)
      | _ => false)
    (by decide +kernel)
  rw [Bool.and_eq_true] at hf
  obtain ⟨h1, h2⟩ := hf
  split at h2
  · rename_i s ps' hs
    have := of_decide_eq_true h2
    subst this
    exact ⟨_, ps, ps', K, h, e, _, hr, .allocate (PBook.readyB_sound h1) ⟨⟨⟨3, rfl⟩, by decide⟩, by decide⟩, trivial, hs,
      ⟨_, rfl, _, List.mem_singleton_self _, by decide, by decide⟩, hw⟩
  · cases h2

/-- Non-vacuity of `C78_handed_out_answer`: proxy 0 cannot get a chunk to move a block to, into which identity 7 has stored, and gives the block
back to its caller. -/
example : ∃ p0 ps ps' K h e ch p v s1 h1 r, PHReach p0 7 ps K h ∧ ps.Answers 0 ch p v s1 ∧ h.Step ps.s K.direct 0 (.go 0 ch) none s1 h1 ∧
    PS.resume { ps with s := s1 } 0 p.a v p.pc = .ok (some (r, ps')) ∧ PGives K r 65603 (.shared (.go 0 ch)) ∧ h1.writes 65603 e := by
  obtain ⟨ps, K, h, e, hr, _, hf, hk, hw, hx, _⟩ := of_pstored (sizes := [8192]) (m := 1024) (x := 65603)
    (as := [.spawn 0 0, .allocate 0 ⟨24, 8⟩] ++ pgoes 0 5) (as' := [.resize 0 65600 ⟨24, 8⟩ ⟨60000, 8⟩] ++ pgoes 0 6)
    (f := fun ps K => decide (K.pbusy 0 = some (.resize 65600 ⟨24, 8⟩ ⟨60000, 8⟩, some ⟨65600, 24, 24, 8⟩)) && match panswer ps 0 fresh with
      | none => false
      | some (p, v, s1) => match ({ ps with s := s1 } : PS).resume 0 p.a v p.pc with
        | .ok (some (some .err, _)) => true
        | _ => false)
    (by decide +kernel)
  rw [Bool.and_eq_true, decide_eq_true_eq] at hf
  obtain ⟨h1, hf⟩ := hf
  split at hf
  · cases hf
  rename_i p v s1 ha
  split at hf
  · rename_i ps' hs
    exact ⟨_, ps, ps', K, h, e, fresh, p, v, s1, _, _, hr, of_panswer ha, HB.next_step .., hs,
      ⟨_, _, _, h1, rfl, _, List.mem_singleton_self _, by decide, by decide⟩, .inl ⟨hw, fun hn => hn.2 hx⟩⟩
  · cases hf

/-- Non-vacuity of `C78_handed_out`: identity 1 has grown a block in place, into which identity 7 has stored; proxy 0 is there, too. -/
example : ∃ p0 ps K h e ch v s' c ob b, PHReach p0 7 ps K h ∧ K.live 0 = true ∧ sstep ps.s (.go 1 ch) = .ok (some (some v, s')) ∧ K.pbusy 1 = none ∧
    K.direct.busy 1 = some (c, ob) ∧ b ∈ gets c ob v ∧ b.Has 65571 ∧ h.writes 65571 e := by
  obtain ⟨ps, K, h, e, hr, _, hf, hk, hw, hx, _⟩ := of_pstored (sizes := [8192]) (m := 1024) (x := 65571)
    (as := [.spawn 0 0, .shared (.call 1 (.allocate ⟨24, 8⟩))] ++ pgoes 1 5) (as' := [.shared (.call 1 (.resize 65568 ⟨24, 8⟩ ⟨40, 8⟩))] ++ pgoes 1 3)
    (f := fun ps K => K.live 0 && (K.pbusy 1).isNone && decide (K.direct.busy 1 = some (.resize 65568 ⟨24, 8⟩ ⟨40, 8⟩, some ⟨65568, 24, 24, 8⟩)) &&
      match sstep ps.s (.go 1 fresh) with
      | .ok (some (some (.block s), _)) => decide (s = ⟨65568, 40⟩)
      | _ => false)
    (by decide +kernel)
  simp only [Bool.and_eq_true, decide_eq_true_eq, Option.isNone_iff_eq_none] at hf
  obtain ⟨⟨⟨h1, h2⟩, h3⟩, hf⟩ := hf
  split at hf
  · rename_i s s' hs
    have := of_decide_eq_true hf
    subst this
    exact ⟨_, ps, K, h, e, fresh, _, s', _, _, _, hr, h1, hs, h2, h3, List.mem_singleton_self _, ⟨by decide, by decide⟩, hw⟩
  · cases hf

/-- Non-vacuity of `C78_released`: the proxy has been dropped, and the shared allocator is reset, which gives back its first block. -/
example : ∃ p0 ps ps' K h e r, PHReach p0 7 ps K h ∧ PLegal K (.shared .reset) ∧ h.Duty K.direct 7 .reset ∧
    pstep ps (.shared .reset) = .ok (some (r, ps')) ∧ ps.s.w.Holds 65603 ∧ ¬ ps'.s.w.Holds 65603 ∧ h.writes 65603 e := by
  obtain ⟨ps, K, h, e, hr, hs, hf, hk, hw, hx, _⟩ := of_pstored (sizes := [2048, 8192]) (m := 1024) (x := 65603)
    (as := [.spawn 0 0, .allocate 0 ⟨24, 8⟩] ++ pgoes 0 5) (as' := [.shared (.call 1 (.allocate ⟨3000, 8⟩))] ++ pgoes 1 7 ++ [.drop 0])
    (f := fun ps K => ((List.range 8).all fun t => (K.direct.busy t).isNone && !K.live t) && match pstep ps (.shared .reset) with
      | .ok (some (_, ps')) => ps'.s.w.held.all (fun B => !(decide (B.addr ≤ 65603) && decide (65603 < B.addr + B.len)))
      | _ => false)
    (by decide +kernel)
  rw [Bool.and_eq_true] at hf
  obtain ⟨h1, h2⟩ := hf
  obtain ⟨KS, cs, pend, inv, core, mem⟩ := hr.2.inv hr.1
  have hq : ∀ t, K.direct.busy t = none ∧ K.live t = false := by
    intro t
    by_cases ht : t < 8
    · have := List.all_eq_true.mp h1 t (List.mem_range.mpr ht)
      simp only [Bool.and_eq_true, Option.isNone_iff_eq_none, Bool.not_eq_true'] at this
      exact this
    · exact ⟨(hs t (by omega)).2, (hs t (by omega)).1⟩
  split at h2
  · rename_i r ps' hstep
    refine ⟨_, ps, ps', K, h, e, r, hr, .sreset (.inl rfl) (.reset fun t => (hq t).1) (fun t => (hq t).2),
      ⟨hk _ core.wf.epoch, fun e he => hk e (core.wf.rets e he), fun x e he => hk e (core.wf.mine x e he)⟩, hstep, hx, ?_, hw⟩
    rintro ⟨B, hB, h3, h4⟩
    have := List.all_eq_true.mp h2 B hB
    simp [h3, h4] at this
  · cases h2

/-- Non-vacuity of `C78_no_race`: the shared allocator, asked by proxy 0 for the first chunk, writes the header of its block (event `e`); later
it is about to exchange the cursor there for proxy 1. As for `Inner::root` (`C78_root`), `e` is a write of it, the exchange a read. -/
example : ∃ p0 ps K h e, PHReach p0 7 ps K h ∧ PLegal K (.shared (.go 1 fresh)) ∧ h.Duty K.direct 1 (.go 1 fresh) ∧ ps.s.w.Holds 65536 ∧
    Writes ps.s (.go 1 fresh) 65536 ∧ Atomic ps.s (.go 1 fresh) 65536 ∧ h.writes 65536 e ∧ K.pbusy 1 ≠ none ∧
    h.rootW e ∧ ReadsRoot ps.s (.go 1 fresh) := by
  have h0 : PStart (pdemoStart [8192] 1024) := pdemoStart_start _ _ (by decide)
  have key : (match pexecAll (pdemoStart [8192] 1024) PBook.empty ([.spawn 0 0, .spawn 1 0, .allocate 0 ⟨24, 8⟩] ++ pgoes 0 3) with
    | none => false
    | some (_, ps, K) =>
      decide (memAfter 65536 (sstep (ps.s.poke 65536 (.raw 77)) (.go 0 fresh)) ≠ none ∧
        memAfter 65536 (sstep (ps.s.poke 65536 (.raw 77)) (.go 0 fresh)) ≠ some (.raw 77)) &&
      decide (ps.s.pcs 0 = .slow (.alloc ⟨64, 8⟩)) && (panswer ps 0 fresh).isNone && holdsAfter 65536 (sstep ps.s (.go 0 fresh)) &&
      match pexecAll ps K [.shared (.go 0 fresh)] with
      | none => false
      | some (_, ps, K) => match pexecAll ps K (pgoes 0 1 ++ [.allocate 1 ⟨24, 8⟩] ++ pgoes 1 2) with
        | none => false
        | some (_, ps, K) => decide (ps.s.pcs 1 = .cas 65536 (.alloc ⟨64, 8⟩) 65632) && (K.pbusy 1).isSome &&
          decide (memAfter 65536 (sstep (ps.s.poke 65536 (ps.s.w.mem 65536)) (.go 1 fresh)) ≠ none ∧
            memAfter 65536 (sstep (ps.s.poke 65536 (ps.s.w.mem 65536)) (.go 1 fresh)) ≠ some (ps.s.w.mem 65536))) = true := by
    decide +kernel
  split at key
  · cases key
  rename_i rs1 ps1 K1 e1
  simp only [Bool.and_eq_true, decide_eq_true_eq, Option.isNone_iff_eq_none] at key
  obtain ⟨⟨⟨⟨c1, c2⟩, c3⟩, c4⟩, key⟩ := key
  split at key
  · cases key
  rename_i rs2 ps2 K2 e2
  split at key
  · cases key
  rename_i rs3 ps3 K3 e3
  simp only [Bool.and_eq_true, decide_eq_true_eq] at key
  obtain ⟨⟨d1, d2⟩, d3⟩ := key
  obtain ⟨g1, q1, k1, _⟩ := PHRun.more h0 (.start (t0 := 7)) (fun e he => ⟨rfl, by have : e < 1 := he; omega⟩) (pexecAll_sound e1).1
  unfold pexecAll at e2
  split at e2
  case h_2 => cases e2
  rename_i r ps2' hs
  split at e2
  · cases e2
  rename_i K2' hb
  simp only [pexecAll, Option.some.injEq, Prod.mk.injEq] at e2
  obtain ⟨rfl, rfl, rfl⟩ := e2
  obtain ⟨b1, b2⟩ := pbook_sound hb
  -- the step in which the header is written
  have hn : ∀ ch p v s', Act.go 0 fresh = .go 0 ch → ¬ ps1.Answers 0 ch p v s' := by
    rintro ch p v s' he ⟨a1, a2, a3⟩
    injection he with _ he
    subst he
    simp only [panswer, a1, a3, if_neg a2] at c3
    cases c3
  have hh := HB.next_step (g1.sync 7 0) ps1.s K1.direct 0 (.go 0 fresh) r ps2'.s
  have q2 := ((q1.tell 7 0).shared b1 (t := 0) rfl trivial hn hs b2 hh).tell 0 7
  have w2 := (hh.writes 65536 g1.clock).mpr (.inr ⟨rfl, writes_of c1, by
    intro h
    have h : (match ps1.s.pcs 0 with
      | .load c _ | .cas c _ _ | .rload c _ _ _ | .rcas c _ _ _ _ | .free c _ _ => c ≤ 65536 ∧ 65536 < c + 8
      | _ => False) := h
    rw [c2] at h
    exact h⟩)
  have held2 : ps2'.s.w.Holds 65536 := by
    simp only [pstep] at hs
    obtain ⟨o, h1, h2⟩ := ebind_inv hs
    match o, h1, h2 with
    | some (none, s1), h1, h2 =>
      injection h2 with h2; injection h2 with h2; injection h2 with _ h2
      subst h2
      exact of_holdsAfter c4 h1
    | some (some v, s1), h1, h2 =>
      obtain ⟨_, _, _, inv, _, _⟩ := q1.inv h0
      obtain ⟨_, _, sinv⟩ := inv.reach.inv
      obtain ⟨_, _, _, hpc⟩ := sinv.goRet h1
      rw [c2] at hpc
      cases hpc
  obtain ⟨g3, q3, k3, w3, o3⟩ := q2.more h0 (by
    intro e he
    have he : e < g1.clock + 1 := he
    refine .inr ⟨rfl, ?_⟩
    by_cases hc : e = g1.clock
    · exact .inr ⟨rfl, .inr hc⟩
    · exact .inl (.inr ⟨rfl, k1 e (by omega)⟩)) (pexecAll_sound e3).1
  obtain ⟨f1, f2⟩ := w3 (by
    rintro a ha a' rfl hr
    obtain ⟨⟨a2, r2⟩, h5, h6⟩ := List.mem_map.mp ha
    simp only at h6
    subst h6
    have := (List.of_mem_zip h5).1
    simp only [pgoes, goes, List.mem_append, List.mem_singleton, List.mem_map, List.mem_replicate] at this
    rcases hr with rfl | rfl | rfl <;> simp at this) 65536 held2
  refine ⟨_, ps3, K3, g3, g1.clock, ⟨h0, q3⟩, .go, trivial, f1, writes_of d3, ?_, f2 _ w2, (by intro h; rw [h] at d2; cases d2),
    (o3 _).2 ((hh.rootW g1.clock).mpr (.inr ⟨rfl, .inr ?_⟩)), .inr ?_⟩
  · show (match ps3.s.pcs 1 with
      | .load c _ | .cas c _ _ | .rload c _ _ _ | .rcas c _ _ _ _ | .free c _ _ => c ≤ 65536 ∧ 65536 < c + 8
      | _ => False)
    rw [d1]
    exact ⟨Nat.le_refl _, by omega⟩
  · show (match ps1.s.pcs 0 with | .slow _ | .copy true .. | .ret true _ => True | _ => False)
    rw [c2]; trivial
  · show (match ps3.s.pcs 1 with | .idle | .rd _ | .wr _ => False | _ => True)
    rw [d1]; trivial

end Blink
