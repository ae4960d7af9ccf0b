import Verif.Props.GlobalSync
import Verif.Props.SyncMore
import Verif.Proofs.ProxyMax
import Verif.Spec.GlobalSyncCall
/-
  C49 for threads: in blink mode the global allocator answers null only for a reason.
-/
namespace Blink

/-- What a call asks for. -/
def GCall.wants : GCall → Option Layout
  | .alloc l => some l
  | .allocZeroed l => some l
  | .dealloc _ _ => none
  | .realloc _ l n => some ⟨n, l.align⟩

theorem GSRun.cross {g1 K1 tr g2 K2} (h : GSRun g1 K1 tr g2 K2) (Q : GSS → Prop) (h1 : ¬ Q g1) (h2 : Q g2) :
    ∃ tr1 gm Km a r gm' Km' tr2, tr = tr1 ++ (a, r) :: tr2 ∧ GSRun g1 K1 tr1 gm Km ∧ GSLegal Km a ∧
      gsstep gm a = .ok (some (r, gm')) ∧ GSAfter gm.s.w.mem Km a r Km' ∧ GSRun gm' Km' tr2 g2 K2 ∧ ¬ Q gm ∧ Q gm' := by
  induction h with
  | nil => exact absurd h2 h1
  | @snoc tr s K a r s' K' hr hl hs ha ih =>
    by_cases hq : Q s
    · obtain ⟨tr1, sm, Km, a1, r1, sm', Km', tr2, e, b1, b2, b3, b4, b5, b6, b7⟩ := ih hq
      exact ⟨tr1, sm, Km, a1, r1, sm', Km', tr2 ++ [(a, r)], by rw [e]; simp, b1, b2, b3, b4, b5.snoc hl hs ha, b6, b7⟩
    · exact ⟨tr, s, K, a, r, s', K', [], by simp, hr, hl, hs, ha, .nil, hq, h2⟩

/-- Modes do not change while a call is under way. -/
theorem GSRun.mode {g1 K1 tr g2 K2} (h : GSRun g1 K1 tr g2 K2) {t : Nat} {x} (hb : K1.busy t = some x)
    (hno : ∀ ch r, (GAct.go t ch, some r) ∉ tr) : K2.blinkMode = K1.blinkMode := by
  induction h with
  | nil => rfl
  | @snoc tr g K a r g' K' hr hl hs ha ih =>
    have hno' : ∀ ch r, (GAct.go t ch, some r) ∉ tr := fun ch r hm => hno ch r (List.mem_append_left _ hm)
    have h1 := (hr.snap hb hno').1
    rw [← ih hno']
    have hdel : ∀ b, (K.del b).blinkMode = K.blinkMode := by intro b; unfold GBook.del; split <;> rfl
    have hadd : ∀ bs, (K.addL bs).blinkMode = K.blinkMode := by intro b; unfold GBook.addL; split <;> rfl
    cases ha with
    | dealloc => exact hdel _
    | realloc => exact hdel _
    | ret => exact hadd _
    | blinkMode => cases hl with | blinkMode hq => rw [hq t] at h1; cases h1
    | directMode => cases hl with | directMode hq => rw [hq t] at h1; cases h1
    | _ => rfl

/-- Thread `t` is about to answer null. -/
def GSS.Failing (g : GSS) (t : Nat) : Prop :=
  (∃ c wr, g.pcs t = .blink c ∧ g.s.pcs t = .ret wr .err) ∨ ∃ c, g.pcs t = .fin c .err

/-- Steps of others change neither where `t` is. -/
theorem GSInv.others {g0 g cs D K I B} (h : GSInv g0 g cs D K I B) {t : Nat} (hb : K.busy t ≠ none) {a : GAct} (hl : GSLegal K a)
    (hne : ∀ ch, a ≠ .go t ch) {r g'} (hs : gsstep g a = .ok (some (r, g'))) : g'.pcs t = g.pcs t ∧ g'.s.pcs t = g.s.pcs t := by
  have hcall : ∀ {u c}, K.busy u = none → gsstep g (.call u c) = .ok (some (r, g')) → g'.pcs t = g.pcs t ∧ g'.s.pcs t = g.s.pcs t := by
    intro u c hu hs
    have htu : t ≠ u := by rintro rfl; exact hb hu
    have henter : ∀ {i}, g.enter u c i = .ok (some (r, g')) → g'.pcs t = g.pcs t ∧ g'.s.pcs t = g.s.pcs t := by
      intro i he
      unfold GSS.enter at he
      obtain ⟨x, hx, he⟩ := ebind_inv he
      rcases x with _ | ⟨r', s'⟩
      · cases he
      · injection he with he; injection he with he; injection he with _ he; subst he
        refine ⟨GSS.setPc_ne _ _ htu, ?_⟩
        show s'.pcs t = _
        simp only [sstep] at hx
        split at hx
        · injection hx with hx; injection hx with hx; injection hx with _ hx; subst hx
          exact SS.setPc_ne _ _ htu
        · cases hx
    have hpark : ∀ {pc}, (.ok (some (none, g.setPc u pc)) : Except Fault (Option (Option GResp × GSS))) = .ok (some (r, g')) →
        g'.pcs t = g.pcs t ∧ g'.s.pcs t = g.s.pcs t := by
      intro pc he
      injection he with he; injection he with he; injection he with _ he; subst he
      exact ⟨GSS.setPc_ne _ _ htu, rfl⟩
    simp only [gsstep] at hs
    split at hs
    · cases c with
      | alloc l =>
        simp only [GSS.begin] at hs
        split at hs
        · exact henter hs
        · exact hpark hs
      | allocZeroed l =>
        simp only [GSS.begin] at hs
        split at hs
        · exact henter hs
        · exact hpark hs
      | dealloc p l =>
        simp only [GSS.begin] at hs
        split at hs
        · cases hs
        · split at hs
          · exact henter hs
          · exact hpark hs
      | realloc p l n =>
        simp only [GSS.begin] at hs
        split at hs
        · exact hpark hs
        · split at hs
          · exact henter hs
          · exact hpark hs
    · cases hs
  cases hl with
  | alloc hu => exact hcall hu hs
  | allocZeroed hu => exact hcall hu hs
  | dealloc hu => exact hcall hu hs
  | realloc hu => exact hcall hu hs
  | reset hq => exact absurd (hq t) hb
  | blinkMode hq => exact absurd (hq t) hb
  | directMode hq => exact absurd (hq t) hb
  | write =>
    simp only [gsstep, sstep] at hs
    obtain ⟨x, hx, hs⟩ := ebind_inv hs
    injection hx with hx; subst hx
    injection hs with hs; injection hs with hs; injection hs with _ hs; subst hs
    exact ⟨rfl, rfl⟩
  | @go u ch =>
    have htu : t ≠ u := by rintro rfl; exact hne _ rfl
    simp only [gsstep, ggo] at hs
    split at hs
    · cases hs
    · obtain ⟨x, hx, hs⟩ := ebind_inv hs
      rcases x with _ | ⟨r', s'⟩
      · cases hs
      · have ho : s'.pcs t = g.s.pcs t := (h.inner.go_res (t := u) (ch := ch) hx).others htu
        cases r' with
        | none =>
          injection hs with hs; injection hs with hs; injection hs with _ hs; subst hs
          exact ⟨rfl, ho⟩
        | some r' =>
          simp only at hs
          split at hs
          all_goals
            injection hs with hs; injection hs with hs; injection hs with _ hs; subst hs
            exact ⟨GSS.setPc_ne _ _ htu, ho⟩
    · obtain ⟨⟨r', g1⟩, hx, hs⟩ := ebind_inv hs
      injection hs with hs; injection hs with hs; injection hs with _ hs; subst hs
      simp only [GSS.bypass] at hx
      obtain ⟨⟨y, w⟩, _, hx⟩ := ebind_inv hx
      injection hx with hx; injection hx with _ hx; subst hx
      exact ⟨GSS.setPc_ne _ _ htu, rfl⟩
    · split at hs
      · split at hs
        · simp only [sstep] at hs
          obtain ⟨x, hx, hs⟩ := ebind_inv hs
          injection hx with hx; subst hx
          injection hs with hs; injection hs with hs; injection hs with _ hs; subst hs
          exact ⟨GSS.setPc_ne _ _ htu, rfl⟩
        · cases hs
      · injection hs with hs; injection hs with hs; injection hs with _ hs; subst hs
        exact ⟨GSS.setPc_ne _ _ htu, rfl⟩
    · injection hs with hs; injection hs with hs; injection hs with _ hs; subst hs
      exact ⟨GSS.setPc_ne _ _ htu, rfl⟩

/-- The step of the `SyncBlinkAlloc` in which a thread learns that its call fails. -/
theorem SInv.fails {s0 s cs K B} (hi : SInv s0 s cs K B) {t : Nat} {ch : Choice} {c : Call} {l : Layout} {ob} (hb : K.busy t = some (c, ob))
    (hw : c.wants = some l) {s'} (hs : goStep s t ch = .ok (some (none, s')))
    (hy : ∃ wr, s'.pcs t = .ret wr .err) :
    (∃ R, s'.w.log = .refused R :: s.w.log ∧ s.w.oracle s.w.calls = none ∧ s'.w.calls = s.w.calls + 1) ∨
    (s'.w = s.w ∧ USIZE ≤ max s.minChunk (totalLen (openBlocks s.w.log)) + max l.size 64 + l.align + 32 + 16384 + 8) := by
  have hlay : ∀ j, s.pcs t = .slow j → j.layout = l ∧ l.Valid := by
    intro j hpc
    have ht := hi.thr t
    obtain ⟨Bt, hB⟩ : ∃ Bt, B t = Bt := ⟨_, rfl⟩
    rw [hb, hB, hpc] at ht
    cases ht with
    | slow hj =>
      have hv := hj.valid
      cases hj with
      | alloc => injection hw with hw; subst hw; exact ⟨rfl, hv⟩
      | resize => injection hw with hw; subst hw; exact ⟨rfl, hv⟩
  have hg := hi.go_res hs
  cases hg with
  | @slowErr j w' cs' hpc he =>
    obtain ⟨rfl, hv⟩ := hlay j hpc
    rcases allocSlow_spec hi.arena hv hi.dbg with ⟨e', _, he'⟩ | ⟨r, w'', cs'', he', hsl, _⟩
    · rw [← hi.root, he] at he'; cases he'
    · rw [← hi.root, he] at he'
      injection he' with he'
      injection he' with he1 he2
      injection he1 with he1 he3
      subst he1 he2
      cases hsl with
      | tooBig hreq => exact .inr ⟨rfl, tooBig_facts hi.arena hi.log hreq⟩
      | refused R hreq ho => exact .inl ⟨_, rfl, ho, rfl⟩
  | @commit c tl j => obtain ⟨wr, hx⟩ := hy; rw [SS.setPc_same] at hx; cases j <;> cases hx
  | @slowOk j => obtain ⟨wr, hx⟩ := hy; rw [SS.setPc_same] at hx; cases j <;> cases hx
  | @acq cl =>
    obtain ⟨wr, hx⟩ := hy
    rw [SS.setPc_same] at hx
    unfold enter at hx
    cases cl <;> dsimp only at hx <;> repeat' split at hx
    all_goals cases hx
  | _ => obtain ⟨wr, hx⟩ := hy; rw [SS.setPc_same] at hx; cases hx

/-- The step in which a thread learns that its call fails. -/
theorem GSInv.fails {g0 g cs D K I B} (h : GSInv g0 g cs D K I B) {t : Nat} {ch : Choice} {c : GCall} {l : Layout} {ob}
    (hb : K.busy t = some (c, ob)) (hw : c.wants = some l) {g'} (hs : gsstep g (.go t ch) = .ok (some (none, g')))
    (hn : ¬ g.Failing t) (hy : g'.Failing t) :
    g'.dlog = g.dlog ∧
    ((∃ R, g'.s.w.log = .refused R :: g.s.w.log ∧ g.s.w.oracle g.s.w.calls = none ∧ g'.s.w.calls = g.s.w.calls + 1) ∨
     (g'.s.w = g.s.w ∧ USIZE ≤ max g.s.minChunk (totalLen (openBlocks g.s.w.log)) + max l.size 64 + l.align + 32 + 16384 + 8)) := by
  simp only [gsstep, ggo] at hs
  split at hs
  · cases hs
  · rename_i c' hpc
    obtain ⟨x, hx, hs⟩ := ebind_inv hs
    rcases x with _ | ⟨r', s'⟩
    · cases hs
    · cases r' with
      | none =>
        injection hs with hs; injection hs with hs; injection hs with _ hs; subst hs
        refine ⟨rfl, ?_⟩
        have hy' : ∃ wr, s'.pcs t = .ret wr .err := by
          rcases hy with ⟨_, wr, _, hy⟩ | ⟨_, hy⟩
          · exact ⟨wr, hy⟩
          · have hy : g.pcs t = _ := hy
            rw [hpc] at hy; cases hy
        have ht := h.thr t
        rw [hb, hpc] at ht
        obtain ⟨ibz, hib⟩ : ∃ ibz, I.busy t = ibz := ⟨_, rfl⟩
        rw [hib] at ht
        cases ht with
        | bAlloc => injection hw with hw; subst hw; exact h.inner.fails hib rfl hx hy'
        | bZeroed => injection hw with hw; subst hw; exact h.inner.fails hib rfl hx hy'
        | bDealloc => cases hw
        | bRealloc => injection hw with hw; subst hw; exact h.inner.fails hib rfl hx hy'
      | some r' =>
        exfalso
        have he : r' = .err → g.Failing t := by
          rintro rfl
          cases h.inner.go_res hx with
          | retW hq => exact .inl ⟨_, _, hpc, hq⟩
          | retR hq => exact .inl ⟨_, _, hpc, hq⟩
        simp only at hs
        split at hs
        · injection hs with hs; injection hs with hs; injection hs with _ hs; subst hs
          rcases hy with ⟨_, _, hy, _⟩ | ⟨_, hy⟩ <;> rw [GSS.setPc_same] at hy <;> cases hy
        · injection hs with hs; injection hs with hs; injection hs with _ hs; subst hs
          rcases hy with ⟨_, _, hy, _⟩ | ⟨_, hy⟩ <;> rw [GSS.setPc_same] at hy
          · cases hy
          · injection hy with _ hy; exact hn (he hy)
  · obtain ⟨⟨r', g1⟩, hx, hs⟩ := ebind_inv hs
    cases hs
  · exfalso
    split at hs
    · split at hs
      · simp only [sstep] at hs
        obtain ⟨x, hx, hs⟩ := ebind_inv hs
        injection hx with hx; subst hx
        injection hs with hs; injection hs with hs; injection hs with _ hs; subst hs
        rcases hy with ⟨_, _, hy, _⟩ | ⟨_, hy⟩ <;> rw [GSS.setPc_same] at hy <;> cases hy
      · cases hs
    · injection hs with hs; injection hs with hs; injection hs with _ hs; subst hs
      rcases hy with ⟨_, _, hy, _⟩ | ⟨_, hy⟩ <;> rw [GSS.setPc_same] at hy <;> cases hy
  · cases hs

/-- A thread that answers null in blink mode was about to. -/
theorem GSInv.failing {g0 g cs D K I B} (h : GSInv g0 g cs D K I B) (hm : K.blinkMode = true) {t : Nat} {ch : Choice} {g'}
    (hs : gsstep g (.go t ch) = .ok (some (some (.ptr 0), g'))) : g.Failing t := by
  obtain ⟨bz, hbz⟩ : ∃ bz, K.busy t = bz := ⟨_, rfl⟩
  have ht := h.thr t
  simp only [gsstep, ggo] at hs
  split at hs
  · cases hs
  · obtain ⟨x, hx, hs⟩ := ebind_inv hs
    rcases x with _ | ⟨r', s'⟩
    · cases hs
    · cases r' with
      | none => cases hs
      | some r' =>
        simp only at hs
        split at hs <;> cases hs
  · rename_i c' hpc
    rw [hpc, hm] at ht
    generalize K.busy t = bz, I.busy t = ibz, K.snap t = sn, I.snap t = isn at ht
    cases ht with
    | dAlloc hf => cases hf
    | dZeroed hf => cases hf
    | dDealloc hf => cases hf
    | dRealloc hf => cases hf
  · exfalso
    split at hs
    · split at hs
      · simp only [sstep] at hs
        obtain ⟨x, hx, hs⟩ := ebind_inv hs
        injection hx with hx; subst hx
        cases hs
      · cases hs
    · cases hs
  · rename_i c r hpc
    have hX : xOf K.blinkMode (K.busy t) (g.pcs t) = xOf K.blinkMode bz (.fin c r) := by rw [hbz, hpc]
    have hpos : ∀ b ∈ xOf K.blinkMode bz (.fin c r), b.addr ≠ 0 := by
      intro b hb
      obtain ⟨R, S, f1, _⟩ := h.fam.focus t
      rw [hX] at f1
      have := h.inner.pos (f1.mem_iff.mpr (List.mem_append_right _ (List.mem_append_left _ hb)))
      omega
    injection hs with hs; injection hs with hs; injection hs with hr hs
    injection hr with hr
    rw [hpc, hbz] at ht
    generalize I.busy t = ibz, K.snap t = sn, I.snap t = isn at ht
    cases ht with
    | finAlloc => exact absurd (by injection hr) (hpos _ List.mem_cons_self)
    | finZeroed => exact absurd (by injection hr) (hpos _ List.mem_cons_self)
    | finRealloc => exact absurd (by injection hr) (hpos _ List.mem_cons_self)
    | finDealloc => cases hr
    | finAllocErr => exact .inr ⟨_, hpc⟩
    | finZeroedErr => exact .inr ⟨_, hpc⟩
    | finReallocErr => exact .inr ⟨_, hpc⟩

/-- At the beginning of a call in blink mode it has failed only if what is asked for is no layout. -/
theorem GSS.begin_failing {g g1 : GSS} {t : Nat} {c : GCall} {l : Layout} (hw : c.wants = some l) (hm : g.enabled = true) {r}
    (hs : gsstep g (.call t c) = .ok (some (r, g1))) (hf : g1.Failing t) : layoutFrom l.size l.align = none := by
  have henter : ∀ {i}, g.enter t c i = .ok (some (r, g1)) → False := by
    intro i he
    unfold GSS.enter at he
    obtain ⟨x, hx, he⟩ := ebind_inv he
    rcases x with _ | ⟨r', s'⟩
    · cases he
    · injection he with he; injection he with he; injection he with _ he; subst he
      rcases hf with ⟨_, wr, _, hf⟩ | ⟨_, hf⟩
      · have hf : s'.pcs t = _ := hf
        rw [call_pc hx] at hf; cases hf
      · rw [GSS.setPc_same] at hf; cases hf
  simp only [gsstep] at hs
  split at hs
  · cases c with
    | alloc l' =>
      simp only [GSS.begin, if_pos hm] at hs
      exact (henter hs).elim
    | allocZeroed l' =>
      simp only [GSS.begin, if_pos hm] at hs
      exact (henter hs).elim
    | dealloc p l' => cases hw
    | realloc p l' n =>
      injection hw with hw; subst hw
      simp only [GSS.begin, if_pos hm] at hs
      split at hs
      · assumption
      · exact (henter hs).elim
  · cases hs

theorem gcall_busy_after {m : Nat → Byte} {K K1 : GSBook} {t : Nat} {c : GCall} {r} (ha : GSAfter m K (.call t c) r K1) :
    (∃ ob, K1.busy t = some (c, ob)) ∧ K1.blinkMode = K.blinkMode := by
  have hdel : ∀ b, (K.del b).blinkMode = K.blinkMode := by intro b; unfold GBook.del; split <;> rfl
  cases ha
  · exact ⟨⟨_, put_same _ _ _⟩, rfl⟩
  · exact ⟨⟨_, put_same _ _ _⟩, rfl⟩
  · exact ⟨⟨_, put_same _ _ _⟩, hdel _⟩
  · exact ⟨⟨_, put_same _ _ _⟩, hdel _⟩

/-- C49: in blink mode a call that asks for memory answers null only if what it asks for is no layout at all, or if, at some moment
between call and return, the underlying allocator refused a request made by this thread for this call, or no request could be made
because the chunk size computation left the range of `usize`. -/
theorem C49_threads_null_for_a_reason {g0 g g1 g2 g3 : GSS} {K K1 K2 : GSBook} (h : GSReach g0 g K) (hm : K.blinkMode = true) {t : Nat}
    {c : GCall} {l : Layout} (hw : c.wants = some l) (hl : GSLegal K (.call t c))
    (hs : gsstep g (.call t c) = .ok (some (none, g1))) (ha : GSAfter g.s.w.mem K (.call t c) none K1) {tr} (hr : GSRun g1 K1 tr g2 K2)
    (hno : ∀ ch r, (GAct.go t ch, some r) ∉ tr) {ch : Choice} (hret : gsstep g2 (.go t ch) = .ok (some (some (.ptr 0), g3))) :
    (∃ p l0 n, c = .realloc p l0 n ∧ ISIZE < n + l0.align) ∨
    ∃ tr1 gm Km ch' gm' tr2, tr = tr1 ++ (.go t ch', none) :: tr2 ∧ GSRun g1 K1 tr1 gm Km ∧
      gsstep gm (.go t ch') = .ok (some (none, gm')) ∧ gm'.dlog = gm.dlog ∧
      ((∃ R, gm'.s.w.log = .refused R :: gm.s.w.log ∧ gm.s.w.oracle gm.s.w.calls = none ∧ gm'.s.w.calls = gm.s.w.calls + 1) ∨
       (gm'.s.w = gm.s.w ∧
        USIZE ≤ max gm.s.minChunk (totalLen (openBlocks gm.s.w.log)) + max l.size 64 + l.align + 32 + 16384 + 8)) := by
  obtain ⟨h0, tr0, hr0⟩ := h
  obtain ⟨_, _, _, _, hI⟩ := GSReach.inv ⟨h0, _, hr0⟩
  have hr1 := hr0.snoc hl hs ha
  obtain ⟨⟨ob, hb1⟩, hm1⟩ := gcall_busy_after ha
  have hm2 := (hr.mode hb1 hno).trans (hm1.trans hm)
  have hf2 : g2.Failing t := by
    obtain ⟨_, _, _, _, hI2⟩ := GSReach.inv ⟨h0, _, hr1.trans hr⟩
    exact hI2.failing hm2 hret
  by_cases hf1 : g1.Failing t
  · left
    have hn := GSS.begin_failing hw (hI.mode.trans hm) hs hf1
    have hv : ISIZE < l.size + l.align := by
      unfold layoutFrom at hn
      split at hn
      · cases hn
      · omega
    cases hl with
    | alloc _ h2 => injection hw with hw; subst hw; have := h2.2; omega
    | allocZeroed _ h2 => injection hw with hw; subst hw; have := h2.2; omega
    | dealloc => cases hw
    | realloc => injection hw with hw; subst hw; exact ⟨_, _, _, rfl, hv⟩
  · right
    obtain ⟨tr1, gm, Km, a, r, gm', Km', tr2, e, b1, b2, b3, b4, b5, b6, b7⟩ := hr.cross (fun g => g.Failing t) hf1 hf2
    obtain ⟨_, _, _, _, hIm⟩ := GSReach.inv ⟨h0, _, hr1.trans b1⟩
    have hbz := (b1.snap hb1 fun ch r hm => hno ch r (by rw [e]; exact List.mem_append_left _ hm)).1
    have hgo : ∃ ch', a = .go t ch' := by
      by_cases hq : ∃ ch', a = .go t ch'
      · exact hq
      · have ho := hIm.others (t := t) (by rw [hbz]; simp) b2 (fun ch' he => hq ⟨ch', he⟩) b3
        refine absurd ?_ b6
        have b7 : gm'.Failing t := b7
        unfold GSS.Failing at b7 ⊢
        rw [ho.1, ho.2] at b7
        exact b7
    obtain ⟨ch', rfl⟩ := hgo
    have hrn : r = none := by
      cases r with
      | none => rfl
      | some r => exact absurd (by rw [e]; simp) (hno ch' r)
    subst hrn
    obtain ⟨c1, c2⟩ := hIm.fails hbz hw b3 b6 b7
    exact ⟨tr1, gm, Km, ch', gm', tr2, e, b1, b3, c1, c2⟩

/-- Non-vacuity of `C49_threads_null_for_a_reason`: thread 1 is refused the chunk it asks for in `alloc_zeroed`; in the meantime thread
2 works in the current one. -/
example : ∃ g0 g K g1 K1 tr g2 K2 g3, GSReach g0 g K ∧ K.blinkMode = true ∧ GSLegal K (.call 1 (.allocZeroed ⟨900, 8⟩)) ∧
    gsstep g (.call 1 (.allocZeroed ⟨900, 8⟩)) = .ok (some (none, g1)) ∧
    GSAfter g.s.w.mem K (.call 1 (.allocZeroed ⟨900, 8⟩)) none K1 ∧ GSRun g1 K1 tr g2 K2 ∧ (∀ ch r, (GAct.go 1 ch, some r) ∉ tr) ∧
    gsstep g2 (.go 1 fresh) = .ok (some (some (.ptr 0), g3)) := by
  obtain ⟨g, K, g1, K1, tr, g2, K2, r, g3, h1, h2, h3, h4, h5, h6, h7, h8⟩ := of_gscallAt (sizes := [512]) (debug := true)
    (pre := [.blinkMode, .call 1 (.alloc ⟨100, 8⟩)] ++ ggoes 1 6) (t := 1) (c := .allocZeroed ⟨900, 8⟩)
    (mid := ggoes 1 2 ++ [.call 2 (.alloc ⟨10, 8⟩)] ++ ggoes 2 5 ++ ggoes 1 5)
    (f := fun K _ r _ => K.blinkMode && decide (r = some (.ptr 0))) (by decide +kernel)
  simp only [Bool.and_eq_true, decide_eq_true_eq] at h8
  obtain ⟨h8, h9⟩ := h8
  subst h9
  exact ⟨_, g, K, g1, K1, tr, g2, K2, g3, h1, h8, h2, h3, h4, h5, h6, h7⟩

/-- ... and a thread that asks `realloc` for something that is no layout. -/
example : ∃ g0 g K g1 K1 tr g2 K2 g3 p, GSReach g0 g K ∧ K.blinkMode = true ∧
    GSLegal K (.call 1 (.realloc p ⟨100, 8⟩ 9223372036854775807)) ∧
    gsstep g (.call 1 (.realloc p ⟨100, 8⟩ 9223372036854775807)) = .ok (some (none, g1)) ∧
    GSAfter g.s.w.mem K (.call 1 (.realloc p ⟨100, 8⟩ 9223372036854775807)) none K1 ∧ GSRun g1 K1 tr g2 K2 ∧
    (∀ ch r, (GAct.go 1 ch, some r) ∉ tr) ∧ gsstep g2 (.go 1 fresh) = .ok (some (some (.ptr 0), g3)) := by
  obtain ⟨g, K, g1, K1, tr, g2, K2, r, g3, h1, h2, h3, h4, h5, h6, h7, h8⟩ := of_gscallAt (sizes := [512]) (debug := true)
    (pre := [.blinkMode, .call 1 (.alloc ⟨100, 8⟩)] ++ ggoes 1 6) (t := 1) (c := .realloc 65568 ⟨100, 8⟩ 9223372036854775807)
    (mid := [.call 2 (.alloc ⟨10, 8⟩)] ++ ggoes 2 5)
    (f := fun K _ r _ => K.blinkMode && decide (r = some (.ptr 0))) (by decide +kernel)
  simp only [Bool.and_eq_true, decide_eq_true_eq] at h8
  obtain ⟨h8, h9⟩ := h8
  subst h9
  exact ⟨_, g, K, g1, K1, tr, g2, K2, g3, _, h1, h8, h2, h3, h4, h5, h6, h7⟩

end Blink
