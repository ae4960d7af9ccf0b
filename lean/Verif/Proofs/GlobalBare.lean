import Verif.Proofs.GlobalBoth
/-
  Direct calls of a global allocator: they do not notice what goes on in the `SyncBlinkAlloc`. Seen from them, its blocks are blocks of others.
-/
namespace Blink

/-! ### Direct calls leave the blocks of others alone -/

theorem GSInv.foreign {g0 g cs D K I B} (h : GSInv g0 g cs D K I B) {t : Nat} {ch : Choice} {c : GCall} (hpc : g.pcs t = .direct c)
    {r g'} (hs : ggo g t ch = .ok (some (r, g'))) : ∀ b ∈ g0.s.w.held, ∀ y, b.Holds y → g'.s.w.mem y = g.s.w.mem y := by
  have hcalm := h.calm (a := .go t ch) hs
  intro b hb y hy
  have hbw : b ∈ g.s.w.held := h.inner.arena.perm.mem_iff.mpr (List.mem_append_right _ (List.mem_append_right _ hb))
  have hne : ∀ d ∈ D, b ≠ d := by
    rintro d hd rfl
    have hp := h.inner.arena.held.dis
    have hp := (h.inner.arena.perm.pairwise_iff (fun h => BaseBlk.Disjoint.symm' h)).mp hp
    rw [List.pairwise_append] at hp
    have hp : ((D ++ g0.s.w.held)).Pairwise BaseBlk.Disjoint := hp.2.1
    rw [List.pairwise_append] at hp
    exact (hp.2.2 b hd b hb).holds hy hy
  have else_ : ∀ d, d ∈ D → Elsewhere { g.s.w with log := g.dlog } (some d) y := fun d hd =>
    ⟨b, hbw, fun he => by injection he with he; exact hne d hd he, hy.1, hy.2⟩
  have elseN : Elsewhere { g.s.w with log := g.dlog } none y := ⟨b, hbw, by simp, hy.1, hy.2⟩
  have ht := h.thr t
  rw [hpc] at ht
  obtain ⟨bz, hbz⟩ : ∃ bz, K.busy t = bz := ⟨_, rfl⟩
  rw [hbz] at ht
  generalize I.busy t = ibz at ht
  -- the world after the call
  have key : ∀ {r1 w1}, baseFor c { g.s.w with log := g.dlog } = .ok (r1, w1) → K.blinkMode = false → g'.s.w.mem = w1.mem := by
    intro r1 w1 he hm
    rw [ggo_direct hpc (h.mode.trans hm) he] at hs
    cases hs
    rfl
  have bad : ∀ {e}, baseFor c { g.s.w with log := g.dlog } = .error e → False := by
    intro e he
    rw [ggo_direct_err hpc he] at hs
    cases hs
  have grant : ∀ {l z o w1}, DAlloc { g.s.w with log := g.dlog } l z o w1 → w1.mem y = g.s.w.mem y := by
    intro l z o w1 hr
    cases hr with
    | refused => rfl
    | given s m' ho hf hm hz =>
      refine hm y ?_
      have := (freshOk_facts hf).2.2.2.2 b hbw
      obtain ⟨h1, h2⟩ := hy
      omega
  cases ht with
  | @dAlloc l hm hv hz =>
    rcases baseAlloc_dspec { g.s.w with log := g.dlog } l with ⟨e, hb, he⟩ | ⟨o, w', he, hr⟩
    · exact (bad (by unfold baseFor; dsimp only; rw [bind_err he])).elim
    · rw [key (w1 := w') (by unfold baseFor; dsimp only; rw [bind_ok he]; rfl) hm]; exact grant hr
  | @dZeroed l hm hv hz =>
    rcases baseAllocZeroed_dspec { g.s.w with log := g.dlog } l with ⟨e, hb, he⟩ | ⟨o, w', he, hr⟩
    · exact (bad (by unfold baseFor; dsimp only; rw [bind_err he])).elim
    · rw [key (w1 := w') (by unfold baseFor; dsimp only; rw [bind_ok he]; rfl) hm]; exact grant hr
  | dDealloc hm hi =>
    obtain ⟨d, hd, rfl, rfl, rfl, hp⟩ := h.lentDirect hm hbz hi
    rw [key (w1 := freeDirect { g.s.w with log := g.dlog } d) (by
      unfold baseFor; dsimp only; rw [bind_ok (baseDealloc_dspec h.dinv hd)]; rfl) hm]
    exact (h.dinv.free hd).2 y (else_ d hd)
  | @dRealloc b p l n hm hi hz hv hc =>
    have hn : n = l.size := by
      rcases hcalm with hc' | hc'
      · rw [hm] at hc'; cases hc'
      · rcases hc' _ _ _ _ hbz with hc' | hc'
        · exact hc'
        · omega
    subst hn
    obtain ⟨d, hd, rfl, rfl, rfl, hp⟩ := h.lentDirect hm hbz hi
    have hs' : baseFor (.realloc d.addr d.req d.req.size) = (do pure (.ofOption (← baseResize true d.addr d.req d.req))) := by
      unfold baseFor
      dsimp only
      rw [if_neg hp, if_pos (Nat.le_refl _)]
    rcases baseResize_dspec h.dinv hd (g := true) (new := d.req) (by simp) with ⟨l', sl, ho, hf, he⟩ | ⟨o, w', he, hr⟩
    · exact (bad (by rw [hs', bind_err he])).elim
    · rw [key (w1 := w') (by rw [hs', bind_ok he]; rfl) hm]
      cases hr with
      | refused => rfl
      | given s m' ho hf hm' hk => exact hm' y (else_ d hd)

/-! ### What direct calls see -/

/-- The global allocator as direct calls see it. -/
def GSS.bare (g : GSS) : GSS := ⟨⟨{ g.s.w with log := [] }, 0, 1, [], none, [], fun _ => .idle⟩, g.dlog, false, 0, g.pcs⟩

/-- The book without blocks of blink mode. -/
def GPBook.bare (K : GPBook) : GSBook := { K.toGSBook with blink := [] }

/-- The same, before the blocks `D` were obtained. -/
def GSS.before (g : GSS) (F : List BaseBlk) : GSS := { g with s := { g.s with w := { g.s.w with held := F } } }

theorem GTOK.resnap {m sn isn isn' : Nat → Byte} {bz pc} (h : GTOK false m sn isn bz pc none) : GTOK false m sn isn' bz pc none := by
  cases h with
  | idle => exact .idle
  | zero hm => cases hm
  | finAlloc hm => cases hm
  | finAllocErr hm => cases hm
  | finZeroed hm => cases hm
  | finZeroedErr hm => cases hm
  | finDealloc hm => cases hm
  | finRealloc hm => cases hm
  | finReallocErr hb hl hc => exact .finReallocErr hb hl hc
  | dAlloc hm hv hz => exact .dAlloc hm hv hz
  | dZeroed hm hv hz => exact .dZeroed hm hv hz
  | dDealloc hm hi => exact .dDealloc hm hi
  | dRealloc hm hi hz hv hc => exact .dRealloc hm hi hz hv hc

/-- In direct mode, nothing is in between. -/
theorem GTOK.no_x {m sn isn : Nat → Byte} {bz pc} (h : GTOK false m sn isn bz pc none) : xOf false bz pc = [] := by
  cases h with
  | idle => rfl
  | zero hm => cases hm
  | finAlloc hm => cases hm
  | finAllocErr hm => cases hm
  | finZeroed hm => cases hm
  | finZeroedErr hm => cases hm
  | finDealloc hm => cases hm
  | finRealloc hm => cases hm
  | finReallocErr hb hl hc => rfl
  | dAlloc hm hv hz => rfl
  | dZeroed hm hv hz => rfl
  | dDealloc hm hi => rfl
  | dRealloc hm hi hz hv hc => rfl

/-- What holds in direct mode. -/
structure Bare (g : GSS) (K : GPBook) (D : List BaseBlk) : Prop where
  fam : GFam g.s.w.debug K.bare g.pcs [] (D.map BaseBlk.own) 0
  thr : ∀ t, GTOK false g.s.w.mem (K.snap t) (Book.empty.snap t) (K.busy t) (g.pcs t) none

theorem Bare.gs {g : GSS} {K : GPBook} {D F : List BaseBlk} (h : Bare g K D) (hm : K.blinkMode = false) (hh : HeldOK g.s.w)
    (hp : g.s.w.held.Perm (D ++ F)) (hg : ∀ d ∈ D, d.Good) (hd : DLog g.dlog D) (ht : g.s.w.top ≤ HUGE) :
    GSInv (g.bare.before F) g.bare [] D K.bare Book.empty (fun _ => []) where
  inner :=
    { arena := ⟨trivial, by simp, hp, ⟨hh.top, hh.dis, hh.rng⟩, trivial⟩
      root := rfl
      min := rfl
      dbg := fun _ => ⟨Nat.one_pos, by show 1 ≤ _; omega, Nat.le_trans ht (by decide)⟩
      oracle := rfl
      top := rfl
      log := ⟨rfl, trivial⟩
      seen := by intro c t hc; cases hc
      fam := ⟨[], .nil, fun _ _ => rfl, .nil⟩
      lock := ⟨.nil, by intro t; simp [GSS.bare, Pc.holdsR], by intro t; simp [GSS.bare, Pc.holdsW], by intro _; rfl⟩
      thr := by intro t; exact .idle }
  mode := hm.symm
  fam := h.fam
  good := hg
  sz := by intro b hb; cases hb
  dlg := hd
  dbg := rfl
  thr := fun t => by rw [show K.bare.blinkMode = false from hm]; exact h.thr t

theorem Bare.of {g g0 : GSS} {K : GPBook} {D cs I B} (h : GSInv g0 g.bare cs D K.bare I B) (hm : K.blinkMode = false) : cs = [] ∧ Bare g K D := by
  have hcs : cs = [] := by
    have hr : 0 = rootOf cs := h.inner.root
    cases cs with
    | nil => rfl
    | cons c t =>
      have := (h.inner.arena.ok c List.mem_cons_self).lo
      have := (h.inner.arena.ok c List.mem_cons_self).pos
      have := (h.inner.arena.ok c List.mem_cons_self).hi
      simp only [rootOf] at hr
      omega
  subst hcs
  have hb : ∀ t, I.busy t = none := by
    intro t
    have := h.inner.thr t
    change TOK _ _ _ (I.busy t) .idle _ at this
    generalize I.busy t = bz at this
    generalize B t = bt at this
    cases this
    rfl
  have how : I.owned = [] := by
    cases ho : I.owned with
    | nil => rfl
    | cons b t =>
      have := (h.inner.fam.owned.each b (by rw [ho]; exact List.mem_cons_self)).2.2.2
      obtain ⟨c, hc, _⟩ := this
      cases hc
  refine ⟨rfl, ?_, ?_⟩
  · have := h.fam
    rw [how] at this
    exact this
  · intro t
    have := h.thr t
    rw [hb t, show K.bare.blinkMode = false from hm] at this
    exact this.resnap

/-- Steps of direct calls. -/
inductive BareAct (g : GSS) : GAct → Prop
  | call {t c} : BareAct g (.call t c)
  | write {y b} : BareAct g (.write y b)
  | idle {t ch} (h : g.pcs t = .idle) : BareAct g (.go t ch)
  | direct {t ch c} (h : g.pcs t = .direct c) : BareAct g (.go t ch)
  | fin {t ch p l n} (h : g.pcs t = .fin (.realloc p l n) .err) : BareAct g (.go t ch)

/-- The state after a step of a direct call. -/
def GSS.after (g : GSS) (w : World) (d : List BaseEvent) (f : Nat → GPc) : GSS := { g with s := { g.s with w := w }, dlog := d, pcs := f }

theorem gsstep_bare {g : GSS} {a : GAct} (hen : g.enabled = false) (ha : BareAct g a) :
    (∃ e, gsstep g a = .error e ∧ gsstep g.bare a = .error e) ∨ (gsstep g a = .ok none ∧ gsstep g.bare a = .ok none) ∨
    ∃ r w1 d f, gsstep g a = .ok (some (r, g.after w1 d f)) ∧ gsstep g.bare a = .ok (some (r, (g.after w1 d f).bare)) ∧ w1.log = g.s.w.log := by
  have hne : ¬ g.enabled = true := by rw [hen]; simp
  have hneb : ¬ g.bare.enabled = true := by show ¬ false = true; simp
  cases ha with
  | @call t c =>
    by_cases hpc : g.pcs t = .idle
    · have h1 : gsstep g (.call t c) = g.begin t c := if_pos hpc
      have h2 : gsstep g.bare (.call t c) = g.bare.begin t c := if_pos (show g.bare.pcs t = .idle from hpc)
      rw [h1, h2]
      have hset : ∀ pc, g.begin t c = .ok (some (none, g.setPc t pc)) → g.bare.begin t c = .ok (some (none, g.bare.setPc t pc)) →
          (∃ e, g.begin t c = .error e ∧ g.bare.begin t c = .error e) ∨ (g.begin t c = .ok none ∧ g.bare.begin t c = .ok none) ∨
          ∃ r w1 d f, g.begin t c = .ok (some (r, g.after w1 d f)) ∧ g.bare.begin t c = .ok (some (r, (g.after w1 d f).bare)) ∧
            w1.log = g.s.w.log :=
        fun pc e1 e2 => .inr (.inr ⟨none, g.s.w, g.dlog, (g.setPc t pc).pcs, e1, e2, rfl⟩)
      cases c with
      | alloc l =>
        exact hset (.direct (.alloc l)) (by unfold GSS.begin; dsimp only; rw [if_neg hne]; rfl) (by unfold GSS.begin; dsimp only; rw [if_neg hneb]; rfl)
      | allocZeroed l =>
        exact hset (.direct (.allocZeroed l)) (by unfold GSS.begin; dsimp only; rw [if_neg hne]; rfl)
          (by unfold GSS.begin; dsimp only; rw [if_neg hneb]; rfl)
      | dealloc p l =>
        by_cases hp : p = 0
        · exact .inl ⟨_, by unfold GSS.begin; dsimp only; rw [if_pos hp], by unfold GSS.begin; dsimp only; rw [if_pos hp]⟩
        · exact hset (.direct (.dealloc p l)) (by unfold GSS.begin; dsimp only; rw [if_neg hp, if_neg hne]; rfl)
            (by unfold GSS.begin; dsimp only; rw [if_neg hp, if_neg hneb]; rfl)
      | realloc p l n =>
        cases hlf : layoutFrom n l.align with
        | none =>
          exact hset (.fin (.realloc p l n) .err) (by unfold GSS.begin; dsimp only; rw [hlf]; rfl) (by unfold GSS.begin; dsimp only; rw [hlf]; rfl)
        | some new =>
          exact hset (.direct (.realloc p l n)) (by unfold GSS.begin; dsimp only; rw [hlf]; dsimp only; rw [if_neg hne]; rfl)
            (by unfold GSS.begin; dsimp only; rw [hlf]; dsimp only; rw [if_neg hneb]; rfl)
    · exact .inr (.inl ⟨if_neg hpc, if_neg (show ¬ g.bare.pcs t = .idle from hpc)⟩)
  | @write y b => exact .inr (.inr ⟨some .unit, { g.s.w with mem := setBytes g.s.w.mem y 1 (fun _ => b) }, g.dlog, g.pcs, rfl, rfl, rfl⟩)
  | @idle t ch h =>
    refine .inr (.inl ⟨?_, ?_⟩)
    · show ggo g t ch = _; unfold ggo; rw [h]; rfl
    · show ggo g.bare t ch = _; unfold ggo; rw [show g.bare.pcs t = .idle from h]; rfl
  | @direct t ch c h =>
    show (∃ e, ggo g t ch = _ ∧ ggo g.bare t ch = _) ∨ (ggo g t ch = _ ∧ ggo g.bare t ch = _) ∨
      ∃ r w1 d f, ggo g t ch = _ ∧ ggo g.bare t ch = _ ∧ _
    cases hb : baseFor c { g.s.w with log := g.dlog } with
    | error e => exact .inl ⟨e, ggo_direct_err h hb, ggo_direct_err (g := g.bare) h hb⟩
    | ok z =>
      obtain ⟨r, w'⟩ := z
      exact .inr (.inr ⟨_, { w' with log := g.s.w.log }, w'.log, (g.passed t w').pcs, ggo_direct h hen hb,
        ggo_direct (g := g.bare) h rfl hb, rfl⟩)
  | @fin t ch p l n h =>
    refine .inr (.inr ⟨some (.ptr 0), g.s.w, g.dlog, (g.setPc t .idle).pcs, ?_, ?_, rfl⟩)
    · show ggo g t ch = _
      unfold ggo
      rw [h]
      dsimp only
      unfold GSS.counted
      rw [if_neg (by rw [hen]; simp)]
      rfl
    · show ggo g.bare t ch = _
      unfold ggo
      rw [show g.bare.pcs t = .fin (.realloc p l n) .err from h]
      dsimp only
      unfold GSS.counted
      rw [if_neg (by show ¬ (_ ∧ false = true); simp)]
      rfl

theorem GSAfter.bare {m : Nat → Byte} {K : GPBook} {a : GAct} {r} {G : GSBook} (hm : K.blinkMode = false) {g : GSS} (hb : BareAct g a)
    (h : GSAfter m K.toGSBook a r G) :
    GSAfter m K.bare a r { G with blink := [] } ∧ G.blink = K.blink ∧ G.blinkMode = false ∧
      ∀ t, G.busy t ≠ none → K.busy t ≠ none ∨ ∃ c, a = .call t c := by
  have hmf : ¬ K.blinkMode = true := by rw [hm]; simp
  have cur : K.bare.cur = K.cur := by unfold GBook.cur; rw [if_neg hmf, if_neg (show ¬ K.bare.blinkMode = true from hmf)]; rfl
  have del : ∀ b, K.toGBook.del b = { K.toGBook with direct := K.direct.erase b } := by
    intro b; unfold GBook.del; rw [if_neg hmf]
  have delb : ∀ b, K.bare.toGBook.del b = { K.bare.toGBook with direct := K.direct.erase b } := by
    intro b; unfold GBook.del; rw [if_neg (show ¬ K.bare.blinkMode = true from hmf)]; rfl
  have own : ∀ {t q u} {c : GCall}, put K.busy t q u ≠ none → a = .call t c → K.busy u ≠ none ∨ ∃ c, a = .call u c := by
    intro t q u c hu ha
    by_cases he : u = t
    · subst he; exact .inr ⟨c, ha⟩
    · rw [put_ne _ _ he] at hu; exact .inl hu
  cases h with
  | alloc => exact ⟨.alloc, rfl, hm, fun t ht => own ht rfl⟩
  | allocZeroed => exact ⟨.allocZeroed, rfl, hm, fun t ht => own ht rfl⟩
  | @dealloc t b p l ho hi =>
    have h1 : GSAfter m K.bare (.call t (.dealloc p l)) none _ := .dealloc (by rw [cur]; exact ho) hi
    rw [delb] at h1
    rw [del]
    exact ⟨h1, rfl, hm, fun t ht => own ht rfl⟩
  | @realloc t b p l n ho hi =>
    have h1 : GSAfter m K.bare (.call t (.realloc p l n)) none _ := .realloc (by rw [cur]; exact ho) hi
    rw [delb] at h1
    rw [del]
    exact ⟨h1, rfl, hm, fun t ht => own ht rfl⟩
  | inside => exact ⟨.inside, rfl, hm, fun t ht => .inl ht⟩
  | @ret t ch c ob q hb' =>
    have h1 : GSAfter m K.bare (.go t ch) (some q) _ := .ret (show K.bare.busy t = _ from hb')
    have e : K.addL (ggets c ob q) = { K.toGBook with direct := ggets c ob q ++ K.direct } := by unfold GBook.addL; rw [if_neg hmf]
    have e1 : K.bare.addL (ggets c ob q) = { K.bare.toGBook with direct := ggets c ob q ++ K.direct } := by
      unfold GBook.addL; rw [if_neg (show ¬ K.bare.blinkMode = true from hmf)]; rfl
    rw [e1] at h1
    rw [e]
    refine ⟨h1, rfl, hm, fun u hu => .inl ?_⟩
    dsimp only at hu
    by_cases he : u = t
    · subst he; rw [put_same] at hu; exact absurd rfl hu
    · rwa [put_ne _ _ he] at hu
  | write => exact ⟨.write, rfl, hm, fun t ht => .inl ht⟩
  | reset => cases hb
  | resetPanic => cases hb
  | blinkMode => cases hb
  | directMode => cases hb
  | directPanic => cases hb

theorem GSLegal.bare {K : GPBook} {t : Nat} {c : GCall} (hm : K.blinkMode = false) (h : GSLegal K.toGSBook (.call t c)) : GSLegal K.bare (.call t c) := by
  have hmf : ¬ K.blinkMode = true := by rw [hm]; simp
  have cur : K.bare.cur = K.cur := by unfold GBook.cur; rw [if_neg hmf, if_neg (show ¬ K.bare.blinkMode = true from hmf)]; rfl
  cases h with
  | alloc hb hv hz => exact .alloc hb hv hz
  | allocZeroed hb hv hz => exact .allocZeroed hb hv hz
  | dealloc hb ho hi => exact .dealloc hb (by rw [cur]; exact ho) hi
  | realloc hb ho hi hz => exact .realloc hb (by rw [cur]; exact ho) hi hz

/-- Steps of direct calls leave the blocks of others alone. -/
theorem GSInv.bareForeign {g g0 : GSS} {K : GPBook} {D cs I B} (h : GSInv g0 g.bare cs D K.bare I B) {a : GAct} (hl : GSLegal K.bare a) (ha : BareAct g a)
    {r g'} (hs : gsstep g.bare a = .ok (some (r, g'))) : ∀ b ∈ g0.s.w.held, ∀ y, b.Holds y → g'.s.w.mem y = g.s.w.mem y := by
  cases ha with
  | @call t c =>
    rcases gsstep_bare (g := g.bare) rfl (.call (t := t) (c := c)) with ⟨e, he, _⟩ | ⟨he, _⟩ | ⟨r1, w1, d, f, he, h2, _⟩
    · rw [hs] at he; cases he
    · rw [hs] at he; cases he
    · intro b hb y hy
      have hcs : gsstep g.bare (.call t c) = if g.bare.pcs t = .idle then g.bare.begin t c else pure none := rfl
      rw [hcs] at hs
      split at hs
      · have hneb : ¬ g.bare.enabled = true := by show ¬ false = true; simp
        cases c with
        | alloc l => unfold GSS.begin at hs; dsimp only at hs; rw [if_neg hneb] at hs; cases hs; rfl
        | allocZeroed l => unfold GSS.begin at hs; dsimp only at hs; rw [if_neg hneb] at hs; cases hs; rfl
        | dealloc p l =>
          unfold GSS.begin at hs; dsimp only at hs
          split at hs
          · cases hs
          · cases hs; rfl
        | realloc p l n =>
          unfold GSS.begin at hs; dsimp only at hs
          split at hs
          · cases hs; rfl
          · rw [if_neg hneb] at hs; cases hs; rfl
      · cases hs
  | @write y v =>
    cases hl with
    | @write c _ _ ho hx =>
      cases hs
      intro b hb z hz
      have hc : c ∈ K.direct := by
        rcases List.mem_append.mp ho with h' | h'
        · cases h'
        · exact h'
      obtain ⟨d, hd, rfl⟩ := h.direct_mem hc
      show setBytes g.s.w.mem y 1 (fun _ => v) z = g.s.w.mem z
      refine setBytes_out ?_
      have hp := (h.inner.arena.perm.pairwise_iff (fun h => BaseBlk.Disjoint.symm' h)).mp h.inner.arena.held.dis
      rw [List.pairwise_append] at hp
      have hp : ((D ++ g0.s.w.held)).Pairwise BaseBlk.Disjoint := hp.2.1
      rw [List.pairwise_append] at hp
      by_cases he : z = y
      · subst he
        exfalso
        refine (hp.2.2 d hd b hb).holds ?_ hz
        obtain ⟨h1, h2⟩ := hx
        have := (h.good d hd).len
        exact ⟨h1, by simp only [BaseBlk.own, granted] at h2; omega⟩
      · omega
  | idle hpc => exact absurd hs (by show ggo g.bare _ _ ≠ _; unfold ggo; rw [show g.bare.pcs _ = .idle from hpc]; intro h'; cases h')
  | direct hpc => exact h.foreign (t := _) (show g.bare.pcs _ = .direct _ from hpc) hs
  | @fin t ch p l n hpc =>
    intro b hb y hy
    have hs' : ggo g.bare t ch = _ := hs
    unfold ggo at hs'
    rw [show g.bare.pcs t = .fin (.realloc p l n) .err from hpc] at hs'
    cases hs'
    rfl

end Blink
