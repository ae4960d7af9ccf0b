import Verif.Proofs.HBStep
/-
  Happens-before for the accesses of `Inner::root`.
-/
namespace Blink

/-- Everything but the slow path leaves the root alone. -/
theorem goStep_root {s s' : SS} {t ch r} (h : goStep s t ch = .ok (some (r, s'))) (hp : ∀ j, s.pcs t ≠ .slow j) : s'.root = s.root := by
  have fin : ∀ {s1 : SS} {r1 : Option Resp}, (pure (some (r1, s1)) : Except Fault (Option (Option Resp × SS))) = .ok (some (r, s')) → s' = s1 := by
    intro s1 r1 h; injection h with h; injection h with h; injection h with _ h; exact h.symm
  unfold goStep at h
  split at h
  · cases h
  · by_cases hw : s.writer = none
    · rw [if_pos hw] at h; rw [fin h]; rfl
    · rw [if_neg hw] at h; cases h
  · obtain ⟨⟨v, w⟩, _, h⟩ := ebind_split h
    rw [fin h]; rfl
  · obtain ⟨⟨e, w⟩, _, h⟩ := ebind_split h
    obtain ⟨⟨b, w⟩, _, h⟩ := ebind_split h
    dsimp only at h
    split at h
    · rw [fin h]; rfl
    · obtain ⟨⟨cur, w⟩, _, h⟩ := ebind_split h
      dsimp only at h
      split at h
      · obtain ⟨⟨_, w⟩, _, h⟩ := ebind_split h
        obtain ⟨⟨_, w⟩, _, h⟩ := ebind_split h
        obtain ⟨⟨_, w⟩, _, h⟩ := ebind_split h
        obtain ⟨⟨_, w⟩, _, h⟩ := ebind_split h
        obtain ⟨⟨pc, w⟩, _, h⟩ := ebind_split h
        rw [fin h]; rfl
      · obtain ⟨⟨u, w⟩, _, h⟩ := ebind_split h
        rw [fin h]; rfl
  · obtain ⟨⟨_, w⟩, _, h⟩ := ebind_split h
    obtain ⟨⟨_, w⟩, _, h⟩ := ebind_split h
    dsimp only at h
    split at h <;> (rw [fin h]; rfl)
  · split at h
    · rw [fin h]; rfl
    · obtain ⟨⟨e, w⟩, _, h⟩ := ebind_split h
      dsimp only at h
      split at h
      · rw [fin h]; rfl
      · obtain ⟨⟨ok, w⟩, _, h⟩ := ebind_split h
        dsimp only at h
        split at h
        · obtain ⟨⟨_, w⟩, _, h⟩ := ebind_split h
          obtain ⟨⟨_, w⟩, _, h⟩ := ebind_split h
          rw [fin h]; rfl
        · rw [fin h]; rfl
  · obtain ⟨⟨_, w⟩, _, h⟩ := ebind_split h
    obtain ⟨⟨_, w⟩, _, h⟩ := ebind_split h
    rw [fin h]; rfl
  · rw [fin h]; rfl
  · split at h
    · rw [fin h]; rfl
    · cases h
  · rename_i j hj; exact absurd hj (hp j)
  · split at h
    · obtain ⟨⟨_, w⟩, _, h⟩ := ebind_split h
      rw [fin h]; rfl
    · rw [fin h]; rfl
  · split at h <;> (rw [fin h]; rfl)

/-- Whoever reads the root enters a section or is in one. -/
theorem ReadsRoot.go {s : SS} {t ch} (h : ReadsRoot s (.go t ch)) : (s.writer = none ∧ ∃ c, s.pcs t = .rd c) ∨ (s.pcs t).holdsR = true ∨ (s.pcs t).holdsW = true := by
  cases hp : s.pcs t with
  | rd c =>
    refine .inl ⟨?_, c, rfl⟩
    apply Classical.byContradiction
    intro hw
    rcases h with ⟨v, hv⟩ | h
    · apply hv
      show goStep _ t ch = rerootRes v (goStep s t ch)
      simp only [goStep]
      rw [hp, show (s.reroot v).pcs t = .rd c from hp]
      dsimp only
      rw [if_neg hw, if_neg (show ¬ (s.reroot v).writer = none from hw)]
      rfl
    · have : (match s.pcs t with | .idle | .rd _ | .wr _ => False | _ => True) := h
      rw [hp] at this; exact this
  | load | cas | rload | rcas | free | unlockSlow => exact .inr (.inl rfl)
  | slow => exact .inr (.inr rfl)
  | copy w => right; cases w <;> simp [Pc.holdsR, Pc.holdsW]
  | ret w => right; cases w <;> simp [Pc.holdsR, Pc.holdsW]
  | idle =>
    exfalso
    rcases h with ⟨v, hv⟩ | h
    · apply hv
      show goStep _ t ch = rerootRes v (goStep s t ch)
      simp only [goStep]
      rw [hp, show (s.reroot v).pcs t = .idle from hp]
      rfl
    · have : (match s.pcs t with | .idle | .rd _ | .wr _ => False | _ => True) := h
      rw [hp] at this; exact this
  | wr j =>
    exfalso
    rcases h with ⟨v, hv⟩ | h
    · apply hv
      show goStep _ t ch = rerootRes v (goStep s t ch)
      simp only [goStep]
      rw [hp, show (s.reroot v).pcs t = .wr j from hp]
      by_cases hc : s.writer = none ∧ s.readers = []
      · dsimp only
        rw [if_pos hc, if_pos (show (s.reroot v).writer = none ∧ (s.reroot v).readers = [] from hc)]
        rfl
      · dsimp only
        rw [if_neg hc, if_neg (show ¬ ((s.reroot v).writer = none ∧ (s.reroot v).readers = []) from hc)]
        rfl
    · have : (match s.pcs t with | .idle | .rd _ | .wr _ => False | _ => True) := h
      rw [hp] at this; exact this

/-- Whoever writes the root is in an exclusive section. -/
theorem StoresRoot.go {s : SS} {t ch} (h : StoresRoot s (.go t ch)) : (s.pcs t).holdsW = true := by
  rcases h with ⟨v, r, s', h1, h2⟩ | h
  · by_cases hp : ∃ j, s.pcs t = .slow j
    · obtain ⟨j, hp⟩ := hp; rw [hp]; rfl
    · exact absurd (goStep_root (s := s.reroot v) h1 fun j hj => hp ⟨j, hj⟩) h2
  · have h : (match s.pcs t with | .slow _ | .copy true .. | .ret true _ => True | _ => False) := h
    generalize s.pcs t = pc at h ⊢
    cases pc with
    | slow => rfl
    | copy w => cases w <;> first | rfl | exact h.elim
    | ret w => cases w <;> first | rfl | exact h.elim
    | _ => exact h.elim

theorem ReadsRoot.call {s : SS} {t c} : ¬ ReadsRoot s (.call t c) := by
  rintro (⟨v, hv⟩ | h)
  · apply hv
    by_cases h : s.pcs t = .idle
    · simp only [sstep]
      rw [if_pos h, if_pos (show (s.reroot v).pcs t = .idle from h)]
      rfl
    · simp only [sstep]
      rw [if_neg h, if_neg (show ¬ (s.reroot v).pcs t = .idle from h)]
      rfl
  · exact h

theorem StoresRoot.call {s : SS} {t c} : ¬ StoresRoot s (.call t c) := by
  rintro (⟨v, r, s', h1, h2⟩ | h)
  · simp only [sstep] at h1
    split at h1
    · injection h1 with h1; injection h1 with h1; injection h1 with _ h1
      subst h1
      exact h2 rfl
    · cases h1
  · exact h

theorem ReadsRoot.write {s : SS} {y v} : ¬ ReadsRoot s (.write y v) := by
  rintro (⟨u, hu⟩ | h)
  · exact hu rfl
  · exact h

theorem StoresRoot.write {s : SS} {y v} : ¬ StoresRoot s (.write y v) := by
  rintro (⟨u, r, s', h1, h2⟩ | h)
  · injection h1 with h1; injection h1 with h1; injection h1 with _ h1
    subst h1
    exact h2 rfl
  · exact h

/-- What a step of `t` that may access the root does to the lock. -/
structure GoRoot (s s' : SS) (t : Nat) (a : Act) : Prop where
  keep : ∀ u ∈ s.readers, u ∈ s'.readers ∨ u = t ∧ LeavesR s a
  rd : ReadsRoot s a → (t ∈ s'.readers ∨ LeavesR s a) ∨ s'.writer = some t ∨ LeavesW s a
  wr : StoresRoot s a → s'.writer = some t ∨ LeavesW s a

theorem GoRoot.of_same {s s' : SS} {t a} (h1 : s'.readers = s.readers) (hr : ¬ ReadsRoot s a) (hw : ¬ StoresRoot s a) : GoRoot s s' t a :=
  ⟨fun _ hu => .inl (h1 ▸ hu), fun h => absurd h hr, fun h => absurd h hw⟩

theorem SInv.goRoot {s0 s cs K B} (hi : SInv s0 s cs K B) {t ch r s'} (hgo : goStep s t ch = .ok (some (r, s'))) :
    GoRoot s s' t (.go t ch) := by
  have g := hi.goLock hgo
  have hLR : LeavesR s (.go t ch) = (match s.pcs t with
    | .unlockSlow _ | .ret false _ => True
    | _ => False) := rfl
  have keep : ∀ u ∈ s.readers, u ∈ s'.readers ∨ u = t ∧ LeavesR s (.go t ch) := by
    intro u hu
    cases hi.go_res hgo with
    | acq hpc => exact .inl (List.mem_cons_of_mem _ hu)
    | load hpc | noroom hpc | commit hpc | retry hpc | rtip hpc | rnot hpc | rnoroom hpc | rcommit hpc | rfail hpc | free hpc
    | slowErr hpc | slowOk hpc | copy hpc | copied hpc | wr hpc | retW hpc => exact .inl hu
    | unlock hpc | retR hpc =>
      by_cases hut : u = t
      · exact .inr ⟨hut, by rw [hLR, hpc]; trivial⟩
      · exact .inl ((List.mem_erase_of_ne hut).mpr hu)
  have hW : (s.pcs t).holdsW = true → s'.writer = some t ∨ LeavesW s (.go t ch) := by
    intro h
    rcases g.keep t ((hi.lock.wr t).mpr h) with h1 | ⟨_, h1⟩
    · exact .inl h1
    · exact .inr h1
  refine ⟨keep, ?_, fun h => hW h.go⟩
  intro h
  rcases h.go with ⟨_, c, hp⟩ | hp | hp
  · left
    cases hi.go_res hgo with
    | acq hpc => exact .inl List.mem_cons_self
    | load hpc | noroom hpc | commit hpc | retry hpc | rtip hpc | rnot hpc | rnoroom hpc | rcommit hpc | rfail hpc | free hpc
    | slowErr hpc | slowOk hpc | copy hpc | copied hpc | wr hpc | retW hpc | unlock hpc | retR hpc => rw [hp] at hpc; cases hpc
  · left
    rcases keep t ((hi.lock.rd t).mpr hp) with h1 | ⟨_, h1⟩
    · exact .inl h1
    · exact .inr h1
  · exact .inr (hW hp)

/-! ### The invariant -/

/-- Where the accesses of the root stand; `In u`: `u` is inside a call. -/
structure HB.RootInv (h : HB) (s : SS) (In : Nat → Prop) : Prop where
  wr : ∀ e, h.rootW e → h.Pub s e
  rd : ∀ e, h.rootR e → h.Pub s e ∨ h.lockR e ∨ ∃ u ∈ s.readers, h.view u e
  all : ∀ e, h.rootR e ∨ h.rootW e → (∃ n, h.rets n ∧ (e = n ∨ h.past n e)) ∨ e = h.epoch ∨ h.past h.epoch e ∨ ∃ u, In u ∧ h.view u e

theorem HB.RootInv.start (s : SS) (t0 : Nat) (In : Nat → Prop) : (HB.start t0).RootInv s In :=
  ⟨fun _ h => h.elim, fun _ h => h.elim, fun _ h => (h.elim id id).elim⟩

theorem HB.RootInv.sync {h : HB} {s In} (hi : h.RootInv s In) (t u : Nat) : (h.sync t u).RootInv s In := by
  have pub : ∀ {e}, h.Pub s e → (h.sync t u).Pub s e := by
    rintro e (h1 | h1 | h1 | ⟨v, h1, h2⟩)
    · exact .inl h1
    · exact .inr (.inl h1)
    · exact .inr (.inr (.inl h1))
    · exact .inr (.inr (.inr ⟨v, h1, .inl h2⟩))
  refine ⟨fun e he => pub (hi.wr e he), fun e he => ?_, fun e he => ?_⟩
  · rcases hi.rd e he with h1 | h1 | ⟨v, h1, h2⟩
    · exact .inl (pub h1)
    · exact .inr (.inl h1)
    · exact .inr (.inr ⟨v, h1, .inl h2⟩)
  · rcases hi.all e he with h1 | h1 | h1 | ⟨v, h1, h2⟩
    · exact .inl h1
    · exact .inr (.inl h1)
    · exact .inr (.inr (.inl h1))
    · exact .inr (.inr (.inr ⟨v, h1, .inl h2⟩))

/-- A step that is not a reset. -/
theorem HB.RootInv.step {h h' : HB} {s s' : SS} {In In' : Nat → Prop} {K : Book} {t a r} (hi : h.RootInv s In) (w : h.WF)
    (hh : h.Step s K t a r s' h') (g : GoLock s s' t a) (gr : GoRoot s s' t a) (ha : a.resets = false)
    (hin : ∀ u, In u → In' u ∨ u = t ∧ r ≠ none) (hme : ReadsRoot s a ∨ StoresRoot s a → In t) : h'.RootInv s' In' := by
  have hep : h'.epoch = h.epoch := by rw [hh.epoch, ha]; rfl
  have pub : ∀ {e}, h.Pub s e → h'.Pub s' e := fun he => hh.pub w g ha he
  have now : s'.writer = some t ∨ LeavesW s a → h'.Pub s' h.clock := by
    rintro (h1 | h1)
    · exact .inr (.inr (.inr ⟨t, h1, hh.now⟩))
    · exact .inr (.inr (.inl ((hh.lockW _).mpr (.inr ⟨h1, .inr rfl⟩))))
  refine ⟨fun e he => ?_, fun e he => ?_, fun e he => ?_⟩
  · rcases (hh.rootW e).mp he with he | ⟨rfl, hx⟩
    · exact pub (hi.wr e he)
    · exact now (gr.wr hx)
  · rcases (hh.rootR e).mp he with he | ⟨rfl, hx⟩
    · rcases hi.rd e he with h1 | h1 | ⟨u, h1, h2⟩
      · exact .inl (pub h1)
      · exact .inr (.inl ((hh.lockR e).mpr (.inl h1)))
      · rcases gr.keep u h1 with h3 | ⟨rfl, h3⟩
        · exact .inr (.inr ⟨u, h3, hh.mono h2⟩)
        · exact .inr (.inl ((hh.lockR e).mpr (.inr ⟨h3, .inl (.inl h2)⟩)))
    · rcases gr.rd hx with (h1 | h1) | h1
      · exact .inr (.inr ⟨t, h1, hh.now⟩)
      · exact .inr (.inl ((hh.lockR _).mpr (.inr ⟨h1, .inr rfl⟩)))
      · exact .inl (now h1)
  · rw [hep]
    have key : ∀ {u}, In u → h'.view u e → (u = t → e = h.clock ∨ h.before s t a e) →
        (∃ n, h'.rets n ∧ (e = n ∨ h'.past n e)) ∨ e = h.epoch ∨ h'.past h.epoch e ∨ ∃ u, In' u ∧ h'.view u e := by
      intro u h1 h2 h3
      rcases hin u h1 with h4 | ⟨rfl, h4⟩
      · exact .inr (.inr (.inr ⟨u, h4, h2⟩))
      · exact .inl ⟨h.clock, (hh.rets _).mpr (.inr ⟨rfl, h4⟩), (h3 rfl).imp_right hh.pastNew.mpr⟩
    have old : h.rootR e ∨ h.rootW e →
        (∃ n, h'.rets n ∧ (e = n ∨ h'.past n e)) ∨ e = h.epoch ∨ h'.past h.epoch e ∨ ∃ u, In' u ∧ h'.view u e := by
      intro he
      rcases hi.all e he with ⟨n, h1, h2⟩ | h1 | h1 | ⟨u, h1, h2⟩
      · exact .inl ⟨n, (hh.rets n).mpr (.inl h1), h2.imp_right (hh.pastOld (w.rets n h1)).mpr⟩
      · exact .inr (.inl h1)
      · exact .inr (.inr (.inl ((hh.pastOld w.epoch).mpr h1)))
      · exact key h1 (hh.mono h2) (fun hut => by subst hut; exact .inr (.inl h2))
    rcases he with he | he
    · rcases (hh.rootR e).mp he with he | ⟨rfl, hx⟩
      · exact old (.inl he)
      · exact key (hme (.inl hx)) hh.now (fun _ => .inl rfl)
    · rcases (hh.rootW e).mp he with he | ⟨rfl, hx⟩
      · exact old (.inr he)
      · exact key (hme (.inr hx)) hh.now (fun _ => .inl rfl)

/-- What somebody has seen who has seen all returns while nobody is inside. -/
theorem HB.RootInv.resetter {h : HB} {s In t} (hi : h.RootInv s In) (w : h.WF) (hq : ∀ u, ¬ In u)
    (hd : h.view t h.epoch ∧ (∀ e, h.rets e → h.view t e) ∧ ∀ x e, h.mine x e → h.view t e) {e} (he : h.rootR e ∨ h.rootW e) : h.view t e := by
  rcases hi.all e he with ⟨n, h1, rfl | h2⟩ | rfl | h1 | ⟨u, h1, _⟩
  · exact hd.2.1 _ h1
  · exact w.viewC _ _ _ (hd.2.1 n h1) h2
  · exact hd.1
  · exact w.viewC _ _ _ hd.1 h1
  · exact absurd h1 (hq u)

/-- A reset. -/
theorem HB.RootInv.reset {h h' : HB} {s s' : SS} {In' : Nat → Prop} {K : Book} {t a r}
    (hh : h.Step s K t a r s' h') (ha : a.resets = true) (hv : ∀ e, h.rootR e ∨ h.rootW e → h.view t e) : h'.RootInv s' In' := by
  have hep : h'.epoch = h.clock := by rw [hh.epoch, ha]; rfl
  have key : ∀ {e}, h'.rootR e ∨ h'.rootW e → e = h'.epoch ∨ h'.past h'.epoch e := by
    intro e he
    rw [hep]
    have old : h.rootR e ∨ h.rootW e → e = h.clock ∨ h'.past h.clock e := fun he => .inr (hh.pastNew.mpr (.inl (hv e he)))
    rcases he with he | he
    · rcases (hh.rootR e).mp he with he | ⟨rfl, _⟩
      · exact old (.inl he)
      · exact .inl rfl
    · rcases (hh.rootW e).mp he with he | ⟨rfl, _⟩
      · exact old (.inr he)
      · exact .inl rfl
  exact ⟨fun e he => (key (.inr he)).imp_right .inl, fun e he => .inl ((key (.inl he)).imp_right .inl),
    fun e he => .inr ((key he).imp_right .inl)⟩

/-- Another event, which does not concern the root. -/
theorem HB.RootInv.other {h h' : HB} {s s' : SS} {In In' : Nat → Prop} {i : Nat} {ret : Prop} (hi : h.RootInv s In) (w : h.WF)
    (hR : ∀ e, h'.rootR e → h.rootR e) (hW : ∀ e, h'.rootW e → h.rootW e) (hmono : ∀ u e, h.view u e → h'.view u e)
    (hpast : ∀ n e, n < h.clock → (h'.past n e ↔ h.past n e)) (hnew : ∀ e, h.view i e → h'.past h.clock e)
    (hlR : ∀ e, h.lockR e → h'.lockR e) (hlW : ∀ e, h.lockW e → h'.lockW e)
    (hrets : ∀ e, h.rets e → h'.rets e) (hret : ret → h'.rets h.clock) (hep : h'.epoch = h.epoch)
    (hrd : s'.readers = s.readers) (hwr : s'.writer = s.writer) (hin : ∀ u, In u → In' u ∨ u = i ∧ ret) : h'.RootInv s' In' := by
  have pub : ∀ {e}, h.Pub s e → h'.Pub s' e := by
    rintro e (h1 | h1 | h1 | ⟨v, h1, h2⟩)
    · exact .inl (by rw [hep]; exact h1)
    · exact .inr (.inl (by rw [hep]; exact (hpast _ _ w.epoch).mpr h1))
    · exact .inr (.inr (.inl (hlW e h1)))
    · exact .inr (.inr (.inr ⟨v, by rw [hwr]; exact h1, hmono _ _ h2⟩))
  refine ⟨fun e he => pub (hi.wr e (hW e he)), fun e he => ?_, fun e he => ?_⟩
  · rcases hi.rd e (hR e he) with h1 | h1 | ⟨v, h1, h2⟩
    · exact .inl (pub h1)
    · exact .inr (.inl (hlR e h1))
    · exact .inr (.inr ⟨v, by rw [hrd]; exact h1, hmono _ _ h2⟩)
  · rw [hep]
    rcases hi.all e (he.imp (hR e) (hW e)) with ⟨n, h1, h2⟩ | h1 | h1 | ⟨u, h1, h2⟩
    · exact .inl ⟨n, hrets n h1, h2.imp_right (hpast n e (w.rets n h1)).mpr⟩
    · exact .inr (.inl h1)
    · exact .inr (.inr (.inl ((hpast _ _ w.epoch).mpr h1)))
    · rcases hin u h1 with h3 | ⟨rfl, h3⟩
      · exact .inr (.inr (.inr ⟨u, h3, hmono _ _ h2⟩))
      · exact .inl ⟨h.clock, hret h3, .inr (hnew e h2)⟩

/-- Conflicting accesses are ordered, inside the allocator. -/
theorem HB.RootInv.go {h : HB} {s0 s cs K B In} (hr : h.RootInv s In) (w : h.WF) (l : h.LockInv s K) (hi : SInv s0 s cs K B) {t ch} :
    (ReadsRoot s (.go t ch) → ∀ e, h.rootW e → h.before s t (.go t ch) e) ∧
    (StoresRoot s (.go t ch) → ∀ e, h.rootR e ∨ h.rootW e → h.before s t (.go t ch) e) := by
  refine ⟨fun hx e he => ?_, fun hx e he => ?_⟩
  · have hp := hr.wr e he
    rcases hx.go with ⟨hwn, c, hpc⟩ | hpc | hpc
    · have hb : K.busy t ≠ none := by
        intro hn
        rw [(hi.busy_none hn).1] at hpc; cases hpc
      rcases hp with rfl | h1 | h1 | ⟨u, h1, _⟩
      · exact .inl (l.busy t hb)
      · exact .inl (w.viewC _ _ _ (l.busy t hb) h1)
      · right
        show (match s.pcs t with | .rd _ => h.lockW e | .wr _ => h.lockW e ∨ h.lockR e | _ => False)
        rw [hpc]; exact h1
      · rw [hwn] at h1; cases h1
    · exact .inl (l.pub w hi (.inl hpc) hp)
    · exact .inl (l.pub w hi (.inr hpc) hp)
  · have hpc := hx.go
    have hwt := (hi.lock.wr t).mpr hpc
    rcases he with he | he
    · rcases hr.rd e he with h1 | h1 | ⟨u, h1, _⟩
      · exact .inl (l.pub w hi (.inr hpc) h1)
      · exact .inl (l.wr t hwt e (.inr h1))
      · rw [hi.lock.excl (by rw [hwt]; simp)] at h1; cases h1
    · exact .inl (l.pub w hi (.inr hpc) (hr.wr e he))

/-- Whoever accesses the root is inside a call. -/
theorem SInv.rootBusy {s0 s cs K B} (hi : SInv s0 s cs K B) {t ch} (h : ReadsRoot s (.go t ch) ∨ StoresRoot s (.go t ch)) : K.busy t ≠ none := by
  intro hn
  have hp := (hi.busy_none hn).1
  rcases h with h | h
  · rcases h.go with ⟨_, c, h1⟩ | h1 | h1 <;> (rw [hp] at h1; cases h1)
  · have h1 := h.go; rw [hp] at h1; cases h1

theorem HB.RootInv.read {h : HB} {s In} (hi : h.RootInv s In) (w : h.WF) (t x : Nat) : (h.read t x).RootInv s In := by
  refine hi.other (h' := h.read t x) (i := t) (ret := False) w (fun _ h => h) (fun _ h => h) (fun _ _ h => .inl h) ?_ ?_ (fun _ h => h) (fun _ h => h)
    (fun _ h => h) False.elim rfl rfl rfl (fun _ h => .inl h)
  · intro n e hn
    show (if n = h.clock then h.view t e else h.past n e) ↔ _
    rw [if_neg (Nat.ne_of_lt hn)]
  · intro e he
    show if h.clock = h.clock then h.view t e else h.past h.clock e
    rw [if_pos rfl]; exact he

/-- All histories keep it. -/
theorem HRun.rootInv {s0 t0 s K h} (h0 : SStart s0) (hr : HRun s0 t0 s K h) : h.RootInv s (fun u => K.busy u ≠ none) := by
  induction hr with
  | start => exact .start _ _ _
  | @act s K h t a r s' K' h' hr hl hb hd hs ha hh ih =>
    obtain ⟨w, l, cs, B, hi, hm⟩ := hr.inv h0
    have hme : ReadsRoot s a ∨ StoresRoot s a → a.resets = false → K.busy t ≠ none := by
      intro hx hn
      cases a with
      | call u c => exact absurd hx (not_or.mpr ⟨ReadsRoot.call, StoresRoot.call⟩)
      | go u ch => cases (show u = t from hb); exact hi.rootBusy hx
      | write y v => exact absurd hx (not_or.mpr ⟨ReadsRoot.write, StoresRoot.write⟩)
      | _ => cases hn
    have hbz : ∀ u, K.busy u ≠ none → K'.busy u ≠ none ∨ u = t ∧ r ≠ none := by
      intro u hu
      have key : ∀ {v z}, v = t → (z ≠ none ∨ r ≠ none) → put K.busy v z u ≠ none ∨ u = t ∧ r ≠ none := by
        rintro v z rfl hz
        by_cases huv : u = v
        · rcases hz with hz | hz
          · left; rw [huv, put_same]; exact hz
          · exact .inr ⟨huv, hz⟩
        · left; rw [put_ne _ _ huv]; exact hu
      cases ha with
      | allocate => exact key hb (.inl (by simp))
      | resize => exact key hb (.inl (by simp))
      | deallocate => exact key hb (.inl (by simp))
      | ret => exact key hb (.inr (by simp))
      | _ => exact .inl hu
    have res : (h.view t h.epoch ∧ (∀ e, h.rets e → h.view t e) ∧ ∀ x e, h.mine x e → h.view t e) → (∀ u, K.busy u = none) → a.resets = true →
        h'.RootInv s' (fun u => K'.busy u ≠ none) := fun hd hq hres =>
      HB.RootInv.reset hh hres (fun e he => ih.resetter w (fun u hu => hu (hq u)) hd he)
    cases a with
    | call u c =>
      have e1 : s'.readers = s.readers ∧ s'.writer = s.writer := by
        simp only [sstep] at hs
        split at hs
        · injection hs with hs; injection hs with hs; injection hs with _ hs
          subst hs; exact ⟨rfl, rfl⟩
        · cases hs
      exact ih.step w hh (.of_same e1.1 e1.2 (by intro u ch h; cases h)) (.of_same e1.1 ReadsRoot.call StoresRoot.call) rfl hbz (fun h => hme h rfl)
    | go u ch =>
      cases (show u = t from hb)
      exact ih.step w hh (hi.goLock hs) (hi.goRoot hs) rfl hbz (fun h => hme h rfl)
    | write y v =>
      have e1 : s'.readers = s.readers ∧ s'.writer = s.writer := by
        simp only [sstep] at hs
        injection hs with hs; injection hs with hs; injection hs with _ hs
        subst hs; exact ⟨rfl, rfl⟩
      exact ih.step w hh (.of_same e1.1 e1.2 (by intro u ch h; cases h)) (.of_same e1.1 ReadsRoot.write StoresRoot.write) rfl hbz (fun h => hme h rfl)
    | reset => exact res hd (by cases hl with | reset h => exact h) rfl
    | resetUnchecked => exact res hd (by cases hl with | resetUnchecked h => exact h) rfl
    | resetFinal => exact res hd (by cases hl with | resetFinal h => exact h) rfl
  | read hr _ _ _ ih => exact ih.read (hr.inv h0).wf _ _
  | sync _ t u ih => exact ih.sync t u

end Blink
