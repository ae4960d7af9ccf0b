import Verif.Proofs.HBRoot
import Verif.Spec.SyncExec
/-
  Property theorems about the absence of data races in the sense of the memory model: C71. `HReach` (Verif/Spec/HB.lean) are the
  histories of threads using a `SyncBlinkAlloc` together with their happens-before relation.
-/
namespace Blink

/-- C71: there are no data races. Let a thread `t` that fulfils its duties perform any action, and let `x` be a byte of memory
that is held from the underlying allocator. All non-atomic writes of `x` happen before, if the action accesses `x`; all atomic
accesses of `x` happen before, if the action accesses `x` non-atomically; and all non-atomic reads of `x` happen before, if the
action writes `x`. -/
theorem C71_no_race {s0 s : SS} {t0 : Nat} {K : Book} {h : HB} (hr : HReach s0 t0 s K h) {t : Nat} {a : Act} (hl : SLegal K a)
    (hb : a.By t) (hd : h.Duty K t a) {x : Nat} (hx : s.w.Holds x) :
    (Touches s a x → ∀ e, h.writes x e → h.before s t a e) ∧
    (Touches s a x → ¬ Atomic s a x → ∀ e, h.atoms x e → h.before s t a e) ∧
    (Writes s a x → ∀ e, h.reads x e → h.before s t a e) := by
  obtain ⟨w, l, cs, B, hi, hm⟩ := hr.2.inv hr.1
  have res : (h.view t h.epoch ∧ (∀ e, h.rets e → h.view t e) ∧ ∀ x e, h.mine x e → h.view t e) → (∀ u, K.busy u = none) →
      (Touches s a x → ∀ e, h.writes x e → h.before s t a e) ∧
      (Touches s a x → ¬ Atomic s a x → ∀ e, h.atoms x e → h.before s t a e) ∧
      (Writes s a x → ∀ e, h.reads x e → h.before s t a e) := by
    intro hd hq
    have key : ∀ {e}, h.Acc x e → h.before s t a e := fun he => .inl (hm.resetter w hq hd he)
    exact ⟨fun _ e he => key (.inr (.inl he)), fun _ _ e he => key (.inr (.inr he)), fun _ e he => key (.inl he)⟩
  cases a with
  | call u c =>
    exact ⟨fun h => absurd h touches_call, fun h => absurd h touches_call, fun h => absurd h.touches touches_call⟩
  | go u ch =>
    have : u = t := hb
    subst this
    have pub : Touches s (.go u ch) x → ∀ {e}, h.Pub s e → h.before s u (.go u ch) e :=
      fun ht _ he => .inl (l.pub w hi (hi.access ht).1 he)
    refine ⟨fun ht e he => ?_, fun ht hat e he => ?_, fun hw e he => ?_⟩
    · rcases (hi.access ht).2 with ⟨_, h2, h3, h4⟩ | ⟨_, h2, h3, h4⟩ | ⟨_, h2, _⟩ | ⟨_, b, h3, h4⟩
      · obtain ⟨Bk, _, k2, k3⟩ := hi.rootHead h2
        exact pub ht (hm.hdrW Bk k2 x e (by omega) (by omega) he)
      · obtain ⟨Bk, _, k2, k3⟩ := hi.rootHead h2
        exact pub ht (hm.hdrW Bk k2 x e (by omega) (by omega) he)
      · exact absurd hx h2
      · exact .inl (hm.blk u b h3 x e h4 (.inr (.inl he)))
    · rcases (hi.access ht).2 with ⟨h1, _⟩ | ⟨_, h2, h3, h4⟩ | ⟨_, h2, _⟩ | ⟨_, b, h3, h4⟩
      · exact absurd h1 hat
      · obtain ⟨Bk, _, k2, k3⟩ := hi.rootHead h2
        rcases hm.hdrA Bk k2 x e (by omega) (by omega) he with h5 | h5
        · exact pub ht h5
        · omega
      · exact absurd hx h2
      · exact .inl (hm.blk u b h3 x e h4 (.inr (.inr he)))
    · rcases hi.stores hw hx with ⟨_, h2, h3, h4⟩ | ⟨_, b, h3, h4⟩
      · obtain ⟨Bk, k1, k2, k3⟩ := hi.rootHead h2
        exact pub hw.touches (hm.hdrR Bk k1 x e (by omega) (by omega) he)
      · exact .inl (hm.blk u b h3 x e h4 (.inl he))
  | write y v =>
    obtain ⟨b, ho, hy⟩ : ∃ b, b ∈ K.owned ∧ b.Has y := by cases hl with | write ho hx => exact ⟨_, ho, hx⟩
    have key : Touches s (.write y v) x → ∀ {e}, h.Acc x e → h.before s t (.write y v) e := by
      intro ht e he
      have := touches_write ht
      subst this
      exact .inl (hm.owns w ho hy hd he)
    exact ⟨fun ht e he => key ht (.inr (.inl he)), fun ht _ e he => key ht (.inr (.inr he)), fun hw e he => key hw.touches (.inl he)⟩
  | reset => exact res hd (by cases hl with | reset h => exact h)
  | resetUnchecked => exact res hd (by cases hl with | resetUnchecked h => exact h)
  | resetFinal => exact res hd (by cases hl with | resetFinal h => exact h)

/-- C71: nor are there races on `Inner::root` (src/arena/sync.rs:6), the pointer to the newest chunk. Everything done in a section of the lock
counts as a read of it, everything done in an exclusive section as a write, and so does what actions outside of the sections do to it. All
writes happen before, if the action counts as a read, and all reads and writes, if it counts as a write. -/
theorem C71_root {s0 s : SS} {t0 : Nat} {K : Book} {h : HB} (hr : HReach s0 t0 s K h) {t : Nat} {a : Act} (hl : SLegal K a)
    (hb : a.By t) (hd : h.Duty K t a) :
    (ReadsRoot s a → ∀ e, h.rootW e → h.before s t a e) ∧
    (StoresRoot s a → ∀ e, h.rootR e ∨ h.rootW e → h.before s t a e) := by
  have ri := hr.2.rootInv hr.1
  obtain ⟨w, l, cs, B, hi, hm⟩ := hr.2.inv hr.1
  have res : (h.view t h.epoch ∧ (∀ e, h.rets e → h.view t e) ∧ ∀ x e, h.mine x e → h.view t e) → (∀ u, K.busy u = none) →
      (ReadsRoot s a → ∀ e, h.rootW e → h.before s t a e) ∧
      (StoresRoot s a → ∀ e, h.rootR e ∨ h.rootW e → h.before s t a e) := by
    intro hd hq
    have key : ∀ {e}, h.rootR e ∨ h.rootW e → h.before s t a e := fun he => .inl (ri.resetter w (fun u hu => hu (hq u)) hd he)
    exact ⟨fun _ e he => key (.inr he), fun _ e he => key he⟩
  cases a with
  | call u c => exact ⟨fun h => absurd h ReadsRoot.call, fun h => absurd h StoresRoot.call⟩
  | go u ch =>
    cases (show u = t from hb)
    exact ri.go w l hi
  | write y v => exact ⟨fun h => absurd h ReadsRoot.write, fun h => absurd h StoresRoot.write⟩
  | reset => exact res hd (by cases hl with | reset h => exact h)
  | resetUnchecked => exact res hd (by cases hl with | resetUnchecked h => exact h)
  | resetFinal => exact res hd (by cases hl with | resetFinal h => exact h)

/-- C71: nor do callers race with the allocator when they read a block: all non-atomic writes and all atomic accesses of the bytes
of an owned block happen before the reads of whoever may read it. -/
theorem C71_reads {s0 s : SS} {t0 : Nat} {K : Book} {h : HB} (hr : HReach s0 t0 s K h) {b : Owned} (ho : b ∈ K.owned) {x : Nat}
    (hx : b.Has x) {t : Nat} (hd : h.Owns t x false) : ∀ e, h.writes x e ∨ h.atoms x e → h.view t e := by
  obtain ⟨w, l, cs, B, hi, hm⟩ := hr.2.inv hr.1
  exact fun e he => hm.ownsR w ho hx hd he

/-- C71: at the end of a call, everything that was ever done to the bytes of the block it returns has happened before: nothing
more is needed to use the block. -/
theorem C71_handed_out {s0 s : SS} {t0 : Nat} {K : Book} {h : HB} (hr : HReach s0 t0 s K h) {t : Nat} {ch : Choice} {v : Resp}
    {s' : SS} (hs : sstep s (.go t ch) = .ok (some (some v, s'))) {c : Call} {ob : Option Owned} (hb : K.busy t = some (c, ob))
    {b : Owned} (hg : b ∈ gets c ob v) {x : Nat} (hx : b.Has x) :
    ∀ e, h.reads x e ∨ h.writes x e ∨ h.atoms x e → h.view t e := by
  obtain ⟨w, l, cs, B, hi, hm⟩ := hr.2.inv hr.1
  obtain ⟨_, _, wr, hpc⟩ := hi.goRet hs
  have : b ∈ B t := by
    rw [hi.has t, hb, hpc]
    cases c <;> cases ob <;> cases v <;> exact hg
  exact fun e he => hm.blk t b this x e hx he

/-- C71: when memory is given back to the underlying allocator, all accesses to it have happened before. -/
theorem C71_released {s0 s : SS} {t0 : Nat} {K : Book} {h : HB} (hr : HReach s0 t0 s K h) {t : Nat} {a : Act} (hl : SLegal K a)
    (hd : h.Duty K t a) {r : Option Resp} {s' : SS} (hs : sstep s a = .ok (some (r, s'))) {x : Nat}
    (hx : s.w.Holds x) (hx' : ¬ s'.w.Holds x) : ∀ e, h.reads x e ∨ h.writes x e ∨ h.atoms x e → h.view t e := by
  obtain ⟨w, l, cs, B, hi, hm⟩ := hr.2.inv hr.1
  intro e he
  cases a with
  | call u c =>
    simp only [sstep] at hs
    split at hs
    · injection hs with hs; injection hs with hs; injection hs with _ hs
      subst hs
      exact absurd hx hx'
    · cases hs
  | go u ch =>
    cases r with
    | none => exact absurd ((hi.goSum hs rfl).held x hx) hx'
    | some v => rw [(hi.goRet hs).1] at hx'; exact absurd hx hx'
  | write y v =>
    simp only [sstep] at hs
    injection hs with hs; injection hs with hs; injection hs with _ hs
    subst hs
    exact absurd hx hx'
  | reset => exact hm.resetter w (by cases hl with | reset h => exact h) hd he
  | resetUnchecked => exact hm.resetter w (by cases hl with | resetUnchecked h => exact h) hd he
  | resetFinal => exact hm.resetter w (by cases hl with | resetFinal h => exact h) hd he

/-! ### Histories exist -/

open Classical in
/-- The events after one more step. -/
noncomputable def HB.next (h : HB) (s : SS) (K : Book) (t : Nat) (a : Act) (r : Option Resp) (s' : SS) : HB where
  clock := h.clock + 1
  view := fun u e => h.view u e ∨ u = t ∧ (h.before s t a e ∨ e = h.clock)
  past := fun n e => if n = h.clock then h.before s t a e else h.past n e
  lockR := fun e => h.lockR e ∨ LeavesR s a ∧ (h.before s t a e ∨ e = h.clock)
  lockW := fun e => h.lockW e ∨ LeavesW s a ∧ (h.before s t a e ∨ e = h.clock)
  reads := fun x e => h.reads x e ∧ ¬ NewMem s s' x ∨ e = h.clock ∧ Touches s a x ∧ ¬ Atomic s a x
  writes := fun x e => h.writes x e ∧ ¬ NewMem s s' x ∨ e = h.clock ∧ Writes s a x ∧ ¬ Atomic s a x
  atoms := fun x e => h.atoms x e ∧ ¬ NewMem s s' x ∨ e = h.clock ∧ Touches s a x ∧ Atomic s a x
  rootR := fun e => h.rootR e ∨ e = h.clock ∧ ReadsRoot s a
  rootW := fun e => h.rootW e ∨ e = h.clock ∧ StoresRoot s a
  mine := fun x e => h.mine x e ∧ ¬ NewMem s s' x ∨ e = h.clock ∧ ∃ v, a = .write x v
  since := fun x => if Gives K r x a then h.clock else h.since x
  rets := fun e => h.rets e ∨ e = h.clock ∧ r ≠ none
  epoch := if a.resets then h.clock else h.epoch

theorem HB.next_step (h : HB) (s : SS) (K : Book) (t : Nat) (a : Act) (r : Option Resp) (s' : SS) :
    h.Step s K t a r s' (h.next s K t a r s') :=
  ⟨rfl, fun _ _ => .rfl, fun _ _ => .rfl, fun _ => .rfl, fun _ => .rfl, fun _ _ => .rfl, fun _ _ => .rfl, fun _ _ => .rfl, fun _ => .rfl, fun _ => .rfl,
    fun _ _ => .rfl, fun _ => ⟨fun h => if_pos h, fun h => if_neg h⟩, fun _ => .rfl, rfl⟩

/-- The events are determined by the steps. -/
theorem HB.Step.unique {h h1 h2 : HB} {s s' : SS} {K : Book} {t : Nat} {a : Act} {r : Option Resp} (a1 : h.Step s K t a r s' h1)
    (a2 : h.Step s K t a r s' h2) : h1 = h2 := by
  cases h1; cases h2
  congr
  · exact a1.clock.trans a2.clock.symm
  · funext u e; exact propext ((a1.view u e).trans (a2.view u e).symm)
  · funext u e; exact propext ((a1.past u e).trans (a2.past u e).symm)
  · funext e; exact propext ((a1.lockR e).trans (a2.lockR e).symm)
  · funext e; exact propext ((a1.lockW e).trans (a2.lockW e).symm)
  · funext u e; exact propext ((a1.reads u e).trans (a2.reads u e).symm)
  · funext u e; exact propext ((a1.writes u e).trans (a2.writes u e).symm)
  · funext u e; exact propext ((a1.atoms u e).trans (a2.atoms u e).symm)
  · funext e; exact propext ((a1.rootR e).trans (a2.rootR e).symm)
  · funext e; exact propext ((a1.rootW e).trans (a2.rootW e).symm)
  · funext u e; exact propext ((a1.mine u e).trans (a2.mine u e).symm)
  · funext x
    by_cases hg : Gives K r x a
    · exact ((a1.since x).1 hg).trans ((a2.since x).1 hg).symm
    · exact ((a1.since x).2 hg).trans ((a2.since x).2 hg).symm
  · funext e; exact propext ((a1.rets e).trans (a2.rets e).symm)
  · exact a1.epoch.trans a2.epoch.symm

/-- C71 speaks about all histories of the allocator: whatever the threads do, the callers can synchronise enough. -/
theorem C71_histories {s0 s : SS} {K : Book} (hr : SReach s0 s K) (t0 : Nat) : ∃ h, HReach s0 t0 s K h := by
  obtain ⟨h0, tr, hr⟩ := hr
  suffices ∃ h, HRun s0 t0 s K h ∧ ∀ e, e < h.clock → h.view t0 e by
    obtain ⟨h, h1, _⟩ := this
    exact ⟨h, h0, h1⟩
  induction hr with
  | nil => exact ⟨_, .start, fun e he => ⟨rfl, by have : e < 1 := he; omega⟩⟩
  | @snoc tr s K a r s' K' _ hl hs ha ih =>
    obtain ⟨h, h1, h2⟩ := ih
    obtain ⟨t, ht⟩ : ∃ t, a.By t := by
      cases a with
      | call u c => exact ⟨u, rfl⟩
      | go u ch => exact ⟨u, rfl⟩
      | write x v => exact ⟨t0, trivial⟩
      | reset => exact ⟨t0, trivial⟩
      | resetUnchecked => exact ⟨t0, trivial⟩
      | resetFinal => exact ⟨t0, trivial⟩
    have h3 := h1.sync t0 t
    have w := (h1.inv h0).wf
    have hv : ∀ e, e < h.clock → (h.sync t0 t).view t e := fun e he => .inr ⟨rfl, h2 e he⟩
    have ho : ∀ x wr, (h.sync t0 t).Owns t x wr := fun x wr => ⟨hv _ (w.since x), fun e _ he _ => hv e (w.mine x e he)⟩
    have hd : (h.sync t0 t).Duty K t a := by
      cases a with
      | call u c =>
        cases c with
        | allocate => exact hv _ w.epoch
        | resize => exact ⟨hv _ w.epoch, fun _ _ _ x _ => ho x true⟩
        | deallocate => exact ⟨hv _ w.epoch, fun _ _ _ x _ => ho x true⟩
      | go u ch => trivial
      | write x v => exact ho x true
      | reset => exact ⟨hv _ w.epoch, fun e he => hv e (w.rets e he), fun x e he => hv e (w.mine x e he)⟩
      | resetUnchecked => exact ⟨hv _ w.epoch, fun e he => hv e (w.rets e he), fun x e he => hv e (w.mine x e he)⟩
      | resetFinal => exact ⟨hv _ w.epoch, fun e he => hv e (w.rets e he), fun x e he => hv e (w.mine x e he)⟩
    have h4 := (h3.act hl ht hd hs ha (HB.next_step _ _ _ _ _ _ _)).sync t t0
    refine ⟨_, h4, ?_⟩
    intro e he
    have he : e < h.clock + 1 := he
    right
    refine ⟨rfl, ?_⟩
    by_cases hc : e = h.clock
    · exact .inr ⟨rfl, .inr hc⟩
    · exact .inl (hv e (by omega))

/-! Non-vacuity of C71: a history without any synchronisation among the callers except that they learn of the allocator. -/

/-- Event `e` of thread `t` is not known to anybody else, nor can it be learned by taking the lock. -/
def HB.Private (h : HB) (t e : Nat) : Prop := e < h.clock ∧ (∀ u, u ≠ t → ¬ h.view u e) ∧ ¬ h.lockW e ∧ ¬ h.lockR e

theorem HB.Private.before {h : HB} {t e} (hp : h.Private t e) {s u a} (hu : u ≠ t) : ¬ h.before s u a e := by
  rintro (hb | hb)
  · exact hp.2.1 u hu hb
  · unfold HB.acq at hb
    split at hb
    · split at hb
      · exact hp.2.2.1 hb
      · exact hb.elim hp.2.2.1 hp.2.2.2
      · exact hb
    · exact hb

/-- Threads that know the allocator can go on allocating without any further synchronisation. -/
theorem HRun.more {s0 t0 s K h} (h0 : SStart s0) (hr : HRun s0 t0 s K h) {tr s' K'} (run : SRun s K tr s' K')
    (hp : ∀ a ∈ tr.map (·.1), (∃ t l, a = .call t (.allocate l) ∧ h.view t h.epoch) ∨ ∃ t ch, a = .go t ch) :
    ∃ h', HRun s0 t0 s' K' h' ∧ h'.epoch = h.epoch ∧ (∀ u e, h.view u e → h'.view u e) ∧
      (∀ e, (h.rootR e → h'.rootR e) ∧ (h.rootW e → h'.rootW e)) ∧
      (∀ x, s.w.Holds x → s'.w.Holds x ∧ ∀ e, (h.writes x e → h'.writes x e) ∧ (h.atoms x e → h'.atoms x e)) ∧
      ∀ t e, (∀ a ∈ tr.map (·.1), ¬ a.By t) → h.Private t e → h'.Private t e := by
  induction run with
  | nil => exact ⟨h, hr, rfl, fun _ _ hv => hv, fun _ => ⟨id, id⟩, fun x hx => ⟨hx, fun _ => ⟨id, id⟩⟩, fun _ _ _ hq => hq⟩
  | @snoc tr s1 K1 a r s2 K2 run hl hs ha ih =>
    obtain ⟨h1, i1, i2, i3, i0, i4, i5⟩ := ih (fun a ha => hp a (by rw [List.map_append]; exact List.mem_append_left _ ha))
    obtain ⟨w, l, cs, B, hi, hm⟩ := i1.inv h0
    have hlast : a ∈ (tr ++ [(a, r)]).map (·.1) := by rw [List.map_append]; exact List.mem_append_right _ List.mem_cons_self
    obtain ⟨t, ht, hd, hheld, hnr⟩ : ∃ t, a.By t ∧ h1.Duty K1 t a ∧ (∀ x, s1.w.Holds x → s2.w.Holds x) ∧ a.resets = false := by
      rcases hp a hlast with ⟨t, l, rfl, hv⟩ | ⟨t, ch, rfl⟩
      · refine ⟨t, rfl, by show h1.view t h1.epoch; rw [i2]; exact i3 _ _ hv, ?_, rfl⟩
        simp only [sstep] at hs
        split at hs
        · injection hs with hs; injection hs with hs; injection hs with _ hs
          subst hs
          exact fun x hx => hx
        · cases hs
      · refine ⟨t, rfl, trivial, ?_, rfl⟩
        cases r with
        | none => exact (hi.goSum hs rfl).held
        | some v => rw [(hi.goRet hs).1]; exact fun x hx => hx
    have hh := HB.next_step h1 s1 K1 t a r s2
    refine ⟨_, i1.act hl ht hd hs ha hh, ?_, fun u e hv => hh.mono (i3 u e hv),
      fun e => ⟨fun he => (hh.rootR e).mpr (.inl ((i0 e).1 he)), fun he => (hh.rootW e).mpr (.inl ((i0 e).2 he))⟩, ?_, ?_⟩
    · rw [hh.epoch, hnr]; exact i2
    · intro x hx
      obtain ⟨j1, j2⟩ := i4 x hx
      have hn : ¬ NewMem s1 s2 x := fun hn => hn.2 j1
      exact ⟨hheld x j1, fun e => ⟨fun he => (hh.writes x e).mpr (.inl ⟨(j2 e).1 he, hn⟩), fun he => (hh.atoms x e).mpr (.inl ⟨(j2 e).2 he, hn⟩)⟩⟩
    · intro t' e hno hq
      have hq1 := i5 t' e (fun a ha => hno a (by rw [List.map_append]; exact List.mem_append_left _ ha)) hq
      have htt : t ≠ t' := by rintro rfl; exact hno a hlast ht
      have hb := hq1.before (s := s1) (a := a) htt
      have hc : e ≠ h1.clock := Nat.ne_of_lt hq1.1
      refine ⟨by rw [hh.clock]; exact Nat.lt_succ_of_lt hq1.1, ?_, ?_, ?_⟩
      · intro u hu hv
        rcases (hh.view u e).mp hv with hv | ⟨_, hv | hv⟩
        · exact hq1.2.1 u hu hv
        · exact hb hv
        · exact hc hv
      · intro hv
        rcases (hh.lockW e).mp hv with hv | ⟨_, hv | hv⟩
        · exact hq1.2.2.1 hv
        · exact hb hv
        · exact hc hv
      · intro hv
        rcases (hh.lockR e).mp hv with hv | ⟨_, hv | hv⟩
        · exact hq1.2.2.2 hv
        · exact hb hv
        · exact hc hv

/-- The byte at `x` is held after a step. -/
def holdsAfter (x : Nat) : Except Fault (Option (Option Resp × SS)) → Bool
  | .ok (some (_, s)) => s.w.held.any (fun B => decide (B.addr ≤ x) && decide (x < B.addr + B.len))
  | _ => false

theorem of_holdsAfter {x : Nat} {s a r s'} (h : holdsAfter x (sstep s a) = true) (hs : sstep s a = .ok (some (r, s'))) : s'.w.Holds x := by
  rw [hs] at h
  simp only [holdsAfter, List.any_eq_true, Bool.and_eq_true, decide_eq_true_eq] at h
  exact h

/-- Run some actions, check something about the state, perform one more action, and so on. -/
def sphases (s : SS) (K : Book) : List (List Act × (SS → Bool) × Act) → Bool
  | [] => true
  | (as, f, a) :: rest => match sexecAll s K as with
    | none => false
    | some (_, s', K') => f s' && match sexec1 s' K' a with
      | none => false
      | some (_, s2, K2) => sphases s2 K2 rest

theorem of_sphases {s K as f a rest} (h : sphases s K ((as, f, a) :: rest) = true) :
    ∃ tr s' K' r s2 K2, SRun s K tr s' K' ∧ (∀ a ∈ tr.map (·.1), a ∈ as) ∧ f s' = true ∧ SLegal K' a ∧
      sstep s' a = .ok (some (r, s2)) ∧ SAfter s'.w.mem K' a r K2 ∧ sphases s2 K2 rest = true := by
  unfold sphases at h
  split at h
  · cases h
  rename_i rs s' K' h1
  rw [Bool.and_eq_true] at h
  obtain ⟨h2, h3⟩ := h
  split at h3
  · cases h3
  rename_i r s2 K2 h4
  obtain ⟨h5, h6, h7⟩ := sexec1_sound h4
  refine ⟨_, s', K', r, s2, K2, sexecAll_sound h1, ?_, h2, h5, h6, h7, h3⟩
  intro a ha
  obtain ⟨⟨a', r⟩, h2, rfl⟩ := List.mem_map.mp ha
  exact (List.of_mem_zip h2).1

/-- Non-vacuity of `C71_no_race`: thread 0 creates the first chunk (event `eS` writes the cursor), thread 1 loads the cursor (event
`eL`), and thread 2 is about to exchange it. Thread 2 has learned of `eS` by taking the lock; `eL` does not happen before its
exchange, so the two accesses are concurrent, but atomic. As for `Inner::root` (`C71_root`), `eS` is a write of it, `eL` and the exchange are
reads. -/
example : ∃ s0 s K h eS eL, HReach s0 3 s K h ∧ h.writes 65536 eS ∧ h.atoms 65536 eL ∧ s.w.Holds 65536 ∧
    Writes s (.go 2 fresh) 65536 ∧ Atomic s (.go 2 fresh) 65536 ∧ ¬ h.before s 2 (.go 2 fresh) eL ∧ h.before s 2 (.go 2 fresh) eS ∧
    h.rootW eS ∧ h.rootR eL ∧ ReadsRoot s (.go 2 fresh) := by
  have h0 : SStart (sdemoStart [512] 256) := sdemoStart_start _ _ (by decide)
  have key : sphases (sdemoStart [512] 256) Book.empty
      [([.call 0 (.allocate ⟨8, 8⟩)] ++ goes 0 3, fun s =>
        decide (memAfter 65536 (sstep (s.poke 65536 (.raw 77)) (.go 0 fresh)) ≠ none ∧
          memAfter 65536 (sstep (s.poke 65536 (.raw 77)) (.go 0 fresh)) ≠ some (.raw 77)) &&
        decide (s.pcs 0 = .slow (.alloc ⟨8, 8⟩)) && holdsAfter 65536 (sstep s (.go 0 fresh)), .go 0 fresh),
       (goes 0 1 ++ [.call 1 (.allocate ⟨8, 8⟩)] ++ goes 1 1, fun s =>
        decide (s.pcs 1 = .load 65536 (.alloc ⟨8, 8⟩)) &&
        decide (memAfter 65536 (sstep (s.poke 65536 (.raw 77)) (.go 1 fresh)) ≠
          memAfter 65536 (pokeRes 65536 (.raw 77) (sstep s (.go 1 fresh)))), .go 1 fresh),
       ([.call 2 (.allocate ⟨24, 8⟩)] ++ goes 2 2, fun s =>
        decide (s.pcs 2 = .cas 65536 (.alloc ⟨24, 8⟩) 65576) &&
        decide (memAfter 65536 (sstep (s.poke 65536 (s.w.mem 65536)) (.go 2 fresh)) ≠ none ∧
          memAfter 65536 (sstep (s.poke 65536 (s.w.mem 65536)) (.go 2 fresh)) ≠ some (s.w.mem 65536)), .go 2 fresh)] = true := by
    decide +kernel
  obtain ⟨tr1, s1, K1, q1, s1', K1', r1, a1, f1, l1, e1, b1, key⟩ := of_sphases key
  obtain ⟨tr2, s2, K2, q2, s2', K2', r2, a2, f2, l2, e2, b2, key⟩ := of_sphases key
  obtain ⟨tr3, s3, K3, q3, s3', K3', r3, a3, f3, _⟩ := of_sphases key
  simp only [Bool.and_eq_true, decide_eq_true_eq] at f1 f2 f3
  -- the creator tells the other threads
  have g0 := ((HRun.start (s0 := sdemoStart [512] 256) (t0 := 3)).sync 3 0).sync 3 1 |>.sync 3 2
  generalize hh0 : (((HB.start 3).sync 3 0).sync 3 1).sync 3 2 = h at g0
  have v0 : h.view 0 h.epoch := by subst hh0; exact .inl (.inl (.inr ⟨rfl, rfl, rfl⟩))
  have v1 : h.view 1 h.epoch := by subst hh0; exact .inl (.inr ⟨rfl, .inl ⟨rfl, rfl⟩⟩)
  have v2 : h.view 2 h.epoch := by subst hh0; exact .inr ⟨rfl, .inl (.inl ⟨rfl, rfl⟩)⟩
  -- thread 0 creates the chunk
  obtain ⟨h1, g1, p1, m1, _, _, _⟩ := g0.more h0 r1 (by
    intro a ha
    have := a1 a ha
    simp only [goes, List.mem_append, List.mem_singleton, List.mem_replicate] at this
    rcases this with rfl | ⟨_, rfl⟩
    · exact .inl ⟨_, _, rfl, v0⟩
    · exact .inr ⟨_, _, rfl⟩)
  have hs1 := HB.next_step h1 s1 K1 0 (.go 0 fresh) q1 s1'
  have g1' := g1.act l1 rfl trivial e1 b1 hs1
  have w1 := (hs1.writes 65536 h1.clock).mpr (.inr ⟨rfl, writes_of f1.1.1, by
    intro h
    have h : (match s1.pcs 0 with
      | .load c _ | .cas c _ _ | .rload c _ _ _ | .rcas c _ _ _ _ | .free c _ _ => c ≤ 65536 ∧ 65536 < c + 8
      | _ => False) := h
    rw [f1.1.2] at h
    exact h⟩)
  have ro1 := (hs1.rootW h1.clock).mpr (.inr ⟨rfl, .inr (by
    show (match s1.pcs 0 with | .slow _ | .copy true .. | .ret true _ => True | _ => False)
    rw [f1.1.2]; trivial)⟩)
  have d1 := of_holdsAfter f1.2 e1
  have p1' : (h1.next s1 K1 0 (.go 0 fresh) q1 s1').epoch = h.epoch := by rw [hs1.epoch]; exact p1
  have m1' := fun u e hv => hs1.mono (m1 u e hv)
  generalize h1.next s1 K1 0 (.go 0 fresh) q1 s1' = h1' at g1' w1 ro1 p1' m1'
  -- thread 1 loads the cursor
  obtain ⟨h2, g2, p2, m2, o2, c2, _⟩ := g1'.more h0 r2 (by
    intro a ha
    have := a2 a ha
    simp only [goes, List.mem_append, List.mem_singleton, List.mem_replicate] at this
    rcases this with (⟨_, rfl⟩ | rfl) | ⟨_, rfl⟩
    · exact .inr ⟨_, _, rfl⟩
    · exact .inl ⟨_, _, rfl, by rw [p1']; exact m1' _ _ v1⟩
    · exact .inr ⟨_, _, rfl⟩)
  have hs2 := HB.next_step h2 s2 K2 1 (.go 1 fresh) q2 s2'
  have g2' := g2.act l2 rfl trivial e2 b2 hs2
  have wf2 := (g2.inv h0).wf
  have w2 := (hs2.writes 65536 h1.clock).mpr (.inl ⟨((c2 65536 d1).2 _).1 w1, fun hn => hn.2 (c2 65536 d1).1⟩)
  have at2 := (hs2.atoms 65536 h2.clock).mpr (.inr ⟨rfl, touches_of f2.2, by
    show (match s2.pcs 1 with
      | .load c _ | .cas c _ _ | .rload c _ _ _ | .rcas c _ _ _ _ | .free c _ _ => c ≤ 65536 ∧ 65536 < c + 8
      | _ => False)
    rw [f2.1]
    exact ⟨Nat.le_refl _, by omega⟩⟩)
  have ro2 := (hs2.rootW h1.clock).mpr (.inl ((o2 _).2 ro1))
  have ri2 := (hs2.rootR h2.clock).mpr (.inr ⟨rfl, .inr (by
    show (match s2.pcs 1 with | .idle | .rd _ | .wr _ => False | _ => True)
    rw [f2.1]; trivial)⟩)
  obtain ⟨cs, B, hi, _⟩ := (g2.inv h0).inv
  have d2 : s2'.w.Holds 65536 := by
    cases q2 with
    | none => exact (hi.goSum e2 rfl).held 65536 (c2 65536 d1).1
    | some v => rw [(hi.goRet e2).1]; exact (c2 65536 d1).1
  have pr2 : (h2.next s2 K2 1 (.go 1 fresh) q2 s2').Private 1 h2.clock := by
    have nl : ¬ LeavesW s2 (.go 1 fresh) ∧ ¬ LeavesR s2 (.go 1 fresh) := by
      constructor
      · intro h
        have h : (match s2.pcs 1 with | .ret true _ => True | _ => False) := h
        rw [f2.1] at h; exact h
      · intro h
        have h : (match s2.pcs 1 with | .unlockSlow _ | .ret false _ => True | _ => False) := h
        rw [f2.1] at h; exact h
    refine ⟨by rw [hs2.clock]; omega, ?_, ?_, ?_⟩
    · intro u hu hv
      rcases (hs2.view u _).mp hv with hv | ⟨hv, _⟩
      · exact Nat.lt_irrefl _ (wf2.view _ _ hv)
      · exact hu hv
    · intro hv
      rcases (hs2.lockW _).mp hv with hv | ⟨hv, _⟩
      · exact Nat.lt_irrefl _ (wf2.lockW _ hv)
      · exact nl.1 hv
    · intro hv
      rcases (hs2.lockR _).mp hv with hv | ⟨hv, _⟩
      · exact Nat.lt_irrefl _ (wf2.lockR _ hv)
      · exact nl.2 hv
  have p2' : (h2.next s2 K2 1 (.go 1 fresh) q2 s2').epoch = h.epoch := by rw [hs2.epoch]; exact p2.trans p1'
  have m2' := fun u e hv => hs2.mono (m2 u e (m1' u e hv))
  generalize h2.next s2 K2 1 (.go 1 fresh) q2 s2' = h2' at g2' w2 at2 ro2 ri2 pr2 p2' m2'
  -- thread 2 is about to exchange it
  obtain ⟨h3, g3, p3, m3, o3, c3, k3⟩ := g2'.more h0 r3 (by
    intro a ha
    have := a3 a ha
    simp only [goes, List.mem_append, List.mem_singleton, List.mem_replicate] at this
    rcases this with rfl | ⟨_, rfl⟩
    · exact .inl ⟨_, _, rfl, by rw [p2']; exact m2' _ _ v2⟩
    · exact .inr ⟨_, _, rfl⟩)
  have hw : Writes s3 (.go 2 fresh) 65536 := writes_of f3.2
  have w3 := ((c3 65536 d2).2 _).1 w2
  have d3 := (c3 65536 d2).1
  have pr3 := k3 1 h2.clock (by
    intro a ha
    have := a3 a ha
    simp only [goes, List.mem_append, List.mem_singleton, List.mem_replicate] at this
    rcases this with rfl | ⟨_, rfl⟩
    · intro h; exact absurd (show 2 = 1 from h) (by decide)
    · intro h; exact absurd (show 2 = 1 from h) (by decide)) pr2
  refine ⟨_, s3, K3, h3, h1.clock, h2.clock, ⟨h0, g3⟩, w3, ((c3 65536 d2).2 _).2 at2, d3, hw, ?_, pr3.before (by decide),
    (C71_no_race ⟨h0, g3⟩ .go rfl trivial d3).1 hw.touches _ w3, (o3 _).2 ro2, (o3 _).1 ri2, .inr (by
      show (match s3.pcs 2 with | .idle | .rd _ | .wr _ => False | _ => True)
      rw [f3.1]; trivial)⟩
  show (match s3.pcs 2 with
    | .load c _ | .cas c _ _ | .rload c _ _ _ | .rcas c _ _ _ _ | .free c _ _ => c ≤ 65536 ∧ 65536 < c + 8
    | _ => False)
  rw [f3.1]
  exact ⟨Nat.le_refl _, by omega⟩

/-- Non-vacuity of `C71_root`, a write: thread 1 reads the root (event `e`) and goes on to create the first chunk. Thread 0, which
needs another one, holds the lock exclusively and is about to create it. -/
example : ∃ s0 s K h e, HReach s0 3 s K h ∧ h.rootR e ∧ h.view 1 e ∧ StoresRoot s (.go 0 fresh) ∧ ReadsRoot s (.go 0 fresh) ∧ h.before s 0 (.go 0 fresh) e := by
  have h0 : SStart (sdemoStart [512, 4096] 256) := sdemoStart_start _ _ (by decide)
  have key : sphases (sdemoStart [512, 4096] 256) Book.empty
      [([.call 1 (.allocate ⟨8, 8⟩)] ++ goes 1 1, fun s => decide (s.pcs 1 = .unlockSlow (.alloc ⟨8, 8⟩)), .go 1 fresh),
       (goes 1 3 ++ [.call 0 (.allocate ⟨2000, 8⟩)] ++ goes 0 5, fun s => decide (s.pcs 0 = .slow (.alloc ⟨2000, 8⟩)), .go 0 fresh)] = true := by
    decide +kernel
  obtain ⟨tr1, s1, K1, q1, s1', K1', r1, a1, f1, l1, e1, b1, key⟩ := of_sphases key
  obtain ⟨tr2, s2, K2, q2, s2', K2', r2, a2, f2, _⟩ := of_sphases key
  rw [decide_eq_true_eq] at f1 f2
  have g0 := ((HRun.start (s0 := sdemoStart [512, 4096] 256) (t0 := 3)).sync 3 0).sync 3 1
  generalize hh0 : ((HB.start 3).sync 3 0).sync 3 1 = h at g0
  have v0 : h.view 0 h.epoch := by subst hh0; exact .inl (.inr ⟨rfl, rfl, rfl⟩)
  have v1 : h.view 1 h.epoch := by subst hh0; exact .inr ⟨rfl, .inl ⟨rfl, rfl⟩⟩
  obtain ⟨h1, g1, p1, m1, _, _, _⟩ := g0.more h0 r1 (by
    intro a ha
    have := a1 a ha
    simp only [goes, List.mem_append, List.mem_singleton, List.mem_replicate] at this
    rcases this with rfl | ⟨_, rfl⟩
    · exact .inl ⟨_, _, rfl, v1⟩
    · exact .inr ⟨_, _, rfl⟩)
  have hs1 := HB.next_step h1 s1 K1 1 (.go 1 fresh) q1 s1'
  have g1' := g1.act l1 rfl trivial e1 b1 hs1
  have ri1 := (hs1.rootR h1.clock).mpr (.inr ⟨rfl, .inr (by
    show (match s1.pcs 1 with | .idle | .rd _ | .wr _ => False | _ => True)
    rw [f1]; trivial)⟩)
  have p1' : (h1.next s1 K1 1 (.go 1 fresh) q1 s1').epoch = h.epoch := by rw [hs1.epoch]; exact p1
  obtain ⟨h2, g2, p2, m2, o2, c2, _⟩ := g1'.more h0 r2 (by
    intro a ha
    have := a2 a ha
    simp only [goes, List.mem_append, List.mem_singleton, List.mem_replicate] at this
    rcases this with (⟨_, rfl⟩ | rfl) | ⟨_, rfl⟩
    · exact .inr ⟨_, _, rfl⟩
    · exact .inl ⟨_, _, rfl, by rw [p1']; exact hs1.mono (m1 _ _ v0)⟩
    · exact .inr ⟨_, _, rfl⟩)
  have hst : StoresRoot s2 (.go 0 fresh) := .inr (by
    show (match s2.pcs 0 with | .slow _ | .copy true .. | .ret true _ => True | _ => False)
    rw [f2]; trivial)
  refine ⟨_, s2, K2, h2, h1.clock, ⟨h0, g2⟩, (o2 _).1 ri1, m2 _ _ hs1.now, hst, .inr ?_, (C71_root ⟨h0, g2⟩ .go rfl trivial).2 hst _ (.inl ((o2 _).1 ri1))⟩
  show (match s2.pcs 0 with | .idle | .rd _ | .wr _ => False | _ => True)
  rw [f2]; trivial

end Blink
