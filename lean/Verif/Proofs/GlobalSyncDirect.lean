import Verif.Proofs.GlobalSyncStep
/-
  Steps of threads using a global allocator with two modes: direct calls of the underlying allocator.
-/
namespace Blink

/-- The state after a direct call that left the world `w'`. -/
def GSS.passed (g : GSS) (t : Nat) (w' : World) : GSS :=
  ({ g with s := { g.s with w := { w' with log := g.s.w.log } }, dlog := w'.log } : GSS).setPc t .idle

theorem ggo_direct {g : GSS} {t : Nat} {ch : Choice} {c : GCall} {r : Resp} {w' : World} (hpc : g.pcs t = .direct c)
    (hen : g.enabled = false) (he : baseFor c { g.s.w with log := g.dlog } = .ok (r, w')) :
    ggo g t ch = .ok (some (some (c.resp r), g.passed t w')) := by
  have hb : g.bypass (baseFor c) = .ok (r, { g with s := { g.s with w := { w' with log := g.s.w.log } }, dlog := w'.log }) := by
    unfold GSS.bypass
    rw [ebind_ok' he]
    rfl
  unfold ggo
  rw [hpc]
  dsimp only
  rw [ebind_ok' hb]
  unfold GSS.counted
  rw [if_neg (by rw [hen]; simp)]
  rfl

theorem ggo_direct_err {g : GSS} {t : Nat} {ch : Choice} {c : GCall} {e : Fault} (hpc : g.pcs t = .direct c)
    (he : baseFor c { g.s.w with log := g.dlog } = .error e) : ggo g t ch = .error e := by
  have hb : g.bypass (baseFor c) = .error e := by
    unfold GSS.bypass
    rw [ebind_err' he]
  unfold ggo
  rw [hpc]
  dsimp only
  rw [ebind_err' hb]

/-- The blocks handed over to a call in direct mode. -/
theorem GSInv.lentDirect {g0 g cs D K I B} (h : GSInv g0 g cs D K I B) (hm : K.blinkMode = false) {t : Nat} {c : GCall} {b : Owned}
    (hb : K.busy t = some (c, some b)) {p : Nat} {l : Layout} (hi : b.Is p l) : ∃ d ∈ D, b = d.own ∧ d.addr = p ∧ d.req = l ∧ p ≠ 0 := by
  obtain ⟨R, S, _, f2, _⟩ := h.fam.focus t
  rw [hm, hb] at f2
  have hmem : b ∈ D.map BaseBlk.own := f2.mem_iff.mp (List.mem_append_right _ (List.mem_append_left _ List.mem_cons_self))
  obtain ⟨d, hd, rfl⟩ := List.mem_map.mp hmem
  refine ⟨d, hd, rfl, hi.1, ?_, ?_⟩
  · have h2 := hi.2.1; have h3 := hi.2.2
    simp only [BaseBlk.own, granted] at h2 h3
    cases l; cases hq : d.req; rw [hq] at h2 h3; simp only at h2 h3; rw [h2, h3]
  · have := h.direct_pos hd
    have h1 := hi.1
    simp only [BaseBlk.own, granted] at h1
    omega

/-- A direct call that comes back. -/
theorem GSInv.goPassed {g0 g cs D K I B} (h : GSInv g0 g cs D K I B) {t : Nat} {ch : Choice} {c : GCall} {ob : Option Owned} {r : Resp}
    {w' : World} {d? : Option BaseBlk} {D' : List BaseBlk}
    (hpc : g.pcs t = .direct c) (hm : K.blinkMode = false) (hbz : K.busy t = some (c, ob)) (hib : I.busy t = none)
    (he : baseFor c { g.s.w with log := g.dlog } = .ok (r, w'))
    (hd : ∀ d, d? = some d → d ∈ D ∧ lent (K.busy t) = [d.own])
    (hI : DInv w' cs D' g0.s.w.held) (hdl : DLog w'.log D')
    (hc : w'.debug = g.s.w.debug ∧ w'.top = g.s.w.top ∧ w'.oracle = g.s.w.oracle)
    (hmem : ∀ x, Elsewhere { g.s.w with log := g.dlog } d? x → w'.mem x = g.s.w.mem x)
    (hperm : ∀ S, (K.direct ++ (lent (K.busy t) ++ S)).Perm (D.map BaseBlk.own) →
      (ggets c ob (c.resp r) ++ K.direct ++ S).Perm (D'.map BaseBlk.own))
    (hret : Returned w'.mem (K.snap t) c ob (c.resp r)) :
    GSGood g0 g K (.go t ch) (ggo g t ch) := by
  right; right
  have hen : g.enabled = false := h.mode.trans hm
  obtain ⟨R, S, f1, f2, f3, f4, f5, f6⟩ := h.fam.focus t
  rw [hm] at f2
  have hdD : ∀ d, d? = some d → d ∈ D := fun d hd' => (hd d hd').1
  -- bytes of the other blocks
  have hother : ∀ b, b ∈ K.direct ∨ b ∈ S → ∀ x, b.Has x → w'.mem x = g.s.w.mem x := by
    intro b hb x hx
    have hbD : b ∈ D.map BaseBlk.own := by
      refine f2.mem_iff.mp ?_
      rcases hb with hb | hb
      · exact List.mem_append_left _ hb
      · exact List.mem_append_right _ (List.mem_append_right _ hb)
    obtain ⟨d', hd', rfl⟩ := List.mem_map.mp hbD
    refine hmem x (h.direct_elsewhere hd' ?_ hx)
    intro heq
    have hl := (hd d' heq.symm).2
    have hap := h.apart
    rw [List.pairwise_append] at hap
    have hap := (f2.pairwise_iff fun h => Owned.Apart.symm h).mpr hap.2.1
    rw [hl] at hap
    change (K.direct ++ (d'.own :: S)).Pairwise Owned.Apart at hap
    rw [List.pairwise_append, List.pairwise_cons] at hap
    rcases hb with hb | hb
    · exact hap.2.2 _ hb _ List.mem_cons_self _ ⟨hx, hx⟩
    · exact hap.2.1.1 _ hb _ ⟨hx, hx⟩
  have hused : ∀ x, InUsed cs x 1 → w'.mem x = g.s.w.mem x := fun x hx => hmem x (h.used_elsewhere hdD hx)
  refine ⟨_, _, ggo_direct hpc hen he, ⟨?_, ?_⟩, ⟨_, .ret hbz⟩, ?_⟩
  · intro b hb _ x hx _
    rcases List.mem_append.mp hb with hb | hb
    · exact hused x (h.blink_lok.byte hb hx)
    · exact hother b (.inl hb) x hx
  · rintro _ _ _ _ _ ⟨⟩ ⟨⟩ hb
    rw [hbz] at hb; cases hb
    exact hret
  · intro K' ha
    cases ha with
    | ret hb =>
      rw [hbz] at hb; cases hb
      have hin : SInv (g0.origin D') (g.passed t w').s cs I B :=
        h.inner.rebase (s0' := g0.origin D') (w' := { w' with log := g.s.w.log }) (hI.arena.congr rfl rfl rfl) hused hc.1 hc.2.1 hc.2.2
          rfl rfl rfl rfl
      have hadd : K.addL (ggets c ob (c.resp r)) = { K.toGBook with direct := ggets c ob (c.resp r) ++ K.direct } := by
        unfold GBook.addL; rw [if_neg (by rw [hm]; simp)]
      rw [hadd]
      refine ⟨cs, D', I, B, h.upd t hin ⟨rfl, rfl⟩ ?_ hI.good h.sz hdl hc.1 ?_
        (fun u hu => ⟨put_ne _ _ hu, rfl, GSS.setPc_ne _ _ hu, rfl, rfl⟩) ?_⟩
      · refine hc.1.symm ▸ f6 rfl (fun u hu => put_ne _ _ hu) (fun u hu => GSS.setPc_ne _ _ hu) ?_ ?_ ?_
        · show _root_.List.Perm _ (_ ++ (xOf _ _ ((g.passed t w').pcs t) ++ _))
          unfold GSS.passed
          rw [GSS.setPc_same]
          rw [hpc] at f1
          exact f1
        · dsimp only
          rw [hm, put_same]
          exact hperm S f2
        · rw [hm] at f3 ⊢
          exact f3
      · intro u hu
        refine ⟨fun b hb x hx => ?_, fun _ b hb x hx => hother b (.inr (f5 u hu b hb)) x hx⟩
        have hbI : b ∈ I.owned := f1.mem_iff.mpr (List.mem_append_right _ (List.mem_append_right _ (f4 u hu b hb)))
        exact hused x (h.inner.fam.owned.byte hbI hx)
      · unfold GSS.passed
        rw [GSS.setPc_same]
        dsimp only
        rw [put_same, hib]
        exact .idle

/-- What a step does that makes a direct call: the step is good, and if it comes back, the call was passed on. -/
def GSDirect (g0 g : GSS) (K : GSBook) (t : Nat) (ch : Choice) (c : GCall) : Prop :=
  GSGood g0 g K (.go t ch) (ggo g t ch) ∧
  ∀ r g', ggo g t ch = .ok (some (r, g')) → ∃ q, r = some q ∧ SForwarded c q g g'

theorem own_map_erase {D : List BaseBlk} {d : BaseBlk} (hd : d ∈ D) : (D.map BaseBlk.own).Perm (d.own :: (D.erase d).map BaseBlk.own) :=
  (List.perm_cons_erase hd).map BaseBlk.own

/-- `alloc` and `alloc_zeroed` in direct mode. -/
theorem GSInv.goGrant {g0 g cs D K I B} (h : GSInv g0 g cs D K I B) {t : Nat} {ch : Choice} {l : Layout} {z : Bool} {c : GCall}
    (hcl : (z = false ∧ c = .alloc l) ∨ (z = true ∧ c = .allocZeroed l)) (hm : K.blinkMode = false) (hv : l.Valid) (hz : 0 < l.size)
    (hpc : g.pcs t = .direct c) (hbz : K.busy t = some (c, none)) (hib : I.busy t = none) {o : Option Slice} {w' : World}
    (he : baseFor c { g.s.w with log := g.dlog } = .ok (.ofOption o, w')) (hr : DAlloc { g.s.w with log := g.dlog } l z o w') :
    GSDirect g0 g K t ch c := by
  have hen : g.enabled = false := h.mode.trans hm
  have hcst := hr.consts
  cases o with
  | none =>
    obtain ⟨h1, h2, _⟩ := hr.none_inv h.dinv
    have hlog : w'.log = .refused l :: g.dlog ∧ g.s.w.oracle g.s.w.calls = none := by cases hr with | refused ho => exact ⟨rfl, ho⟩
    have hresp : c.resp (Resp.ofOption none) = .ptr 0 := by rcases hcl with ⟨_, rfl⟩ | ⟨_, rfl⟩ <;> rfl
    have hgets : ggets c none (.ptr 0) = [] := by
      rcases hcl with ⟨_, rfl⟩ | ⟨_, rfl⟩ <;> (simp only [ggets]; rw [if_pos trivial])
    constructor
    · refine h.goPassed (d? := none) hpc hm hbz hib he (by simp) h1 (by rw [hlog.1]; exact h.dlg.refused) ⟨hcst.1, hcst.2.1, hcst.2.2.1⟩
        (fun x _ => congrFun h2 x) ?_ ?_
      · intro S hS
        rw [hbz] at hS
        rw [hresp, hgets]
        exact hS
      · rw [hresp]
        rcases hcl with ⟨_, rfl⟩ | ⟨_, rfl⟩
        · trivial
        · exact fun hq => absurd rfl hq
    · intro r g' hg
      rw [ggo_direct hpc hen he] at hg
      cases hg
      refine ⟨_, rfl, rfl, rfl, ?_⟩
      rcases hcl with ⟨_, rfl⟩ | ⟨_, rfl⟩ <;> exact .inl ⟨hlog.2, rfl, hlog.1⟩
  | some s =>
    obtain ⟨h1, h2, h3⟩ := hr.inv h.dinv hv hz
    have hlog : w'.log = .alloc l s :: g.dlog ∧ g.s.w.oracle g.s.w.calls = some s := by cases hr with | given _ _ ho => exact ⟨rfl, ho⟩
    have hzr : z = true → ∀ i, i < l.size → w'.mem (s.addr + i) = .raw 0 := by
      cases hr with
      | given _ m' ho hf hm hz' =>
        intro hz i hi
        exact hz' hz i (by have := (freshOk_facts hf).2.2.1; omega)
    have hne : s.addr ≠ 0 := by omega
    have hresp : c.resp (Resp.ofOption (some s)) = .ptr s.addr := by rcases hcl with ⟨_, rfl⟩ | ⟨_, rfl⟩ <;> rfl
    have hgets : ggets c none (.ptr s.addr) = [granted s.addr l] := by
      rcases hcl with ⟨_, rfl⟩ | ⟨_, rfl⟩ <;> (simp only [ggets]; rw [if_neg hne])
    constructor
    · refine h.goPassed (d? := none) hpc hm hbz hib he (by simp) h1 (by rw [hlog.1]; exact h.dlg.alloc) ⟨hcst.1, hcst.2.1, hcst.2.2.1⟩
        h3 ?_ ?_
      · intro S hS
        rw [hbz] at hS
        rw [hresp, hgets]
        exact hS.cons _
      · rw [hresp]
        rcases hcl with ⟨_, rfl⟩ | ⟨hzt, rfl⟩
        · trivial
        · exact fun _ => hzr hzt
    · intro r g' hg
      rw [ggo_direct hpc hen he] at hg
      cases hg
      refine ⟨_, rfl, rfl, rfl, ?_⟩
      rcases hcl with ⟨_, rfl⟩ | ⟨_, rfl⟩ <;> exact .inr ⟨s, hlog.2, hne, rfl, hlog.1⟩

/-- `dealloc` in direct mode. -/
theorem GSInv.goFree {g0 g cs D K I B} (h : GSInv g0 g cs D K I B) {t : Nat} {ch : Choice} {l : Layout} {p : Nat} {b : Owned}
    (hm : K.blinkMode = false) (hi : b.Is p l) (hpc : g.pcs t = .direct (.dealloc p l)) (hbz : K.busy t = some (.dealloc p l, some b))
    (hib : I.busy t = none) : GSDirect g0 g K t ch (.dealloc p l) := by
  have hen : g.enabled = false := h.mode.trans hm
  obtain ⟨d, hd, rfl, rfl, rfl, hp⟩ := h.lentDirect hm hbz hi
  have he : baseFor (.dealloc d.addr d.req) { g.s.w with log := g.dlog } = .ok (.unit, freeDirect { g.s.w with log := g.dlog } d) := by
    unfold baseFor
    dsimp only
    rw [bind_ok (baseDealloc_dspec h.dinv hd)]
    rfl
  obtain ⟨h1, h2⟩ := h.dinv.free hd
  have hlent : lent (K.busy t) = [d.own] := by rw [hbz]; rfl
  constructor
  · refine h.goPassed (d? := some d) hpc hm hbz hib he (by rintro _ ⟨⟩; exact ⟨hd, hlent⟩) h1 (h.dlg.dealloc h.dinv hd) ⟨rfl, rfl, rfl⟩ h2 ?_ trivial
    intro S hS
    rw [hlent] at hS
    have := (List.perm_middle.symm.trans (hS.trans (own_map_erase hd)))
    exact this.cons_inv
  · intro r g' hg
    rw [ggo_direct hpc hen he] at hg
    cases hg
    exact ⟨_, rfl, rfl, rfl, rfl, rfl⟩

/-- `realloc` in direct mode, if the size stays the same. -/
theorem GSInv.goSame {g0 g cs D K I B} (h : GSInv g0 g cs D K I B) {t : Nat} {ch : Choice} {l : Layout} {p : Nat} {b : Owned}
    (hm : K.blinkMode = false) (hi : b.Is p l) (hz : 0 < l.size) (hv : l.size + l.align ≤ ISIZE)
    (hc : ∀ x, b.Has x → g.s.w.mem x = K.snap t x) (hpc : g.pcs t = .direct (.realloc p l l.size))
    (hbz : K.busy t = some (.realloc p l l.size, some b)) (hib : I.busy t = none) : GSDirect g0 g K t ch (.realloc p l l.size) := by
  have hen : g.enabled = false := h.mode.trans hm
  obtain ⟨d, hd, rfl, rfl, rfl, hp⟩ := h.lentDirect hm hbz hi
  have hval : d.req.Valid := ⟨(h.good d hd).pow, hv⟩
  have hlent : lent (K.busy t) = [d.own] := by rw [hbz]; rfl
  have hs : baseFor (.realloc d.addr d.req d.req.size) = (do pure (.ofOption (← baseResize true d.addr d.req d.req))) := by
    unfold baseFor
    dsimp only
    rw [if_neg hp, if_pos (Nat.le_refl _)]
  rcases baseResize_dspec h.dinv hd (g := true) (new := d.req) (by simp) with ⟨l', sl, ho, hf, he⟩ | ⟨o, w', he, hr⟩
  · have he' := ggo_direct_err (ch := ch) hpc (by rw [hs, bind_err he])
    refine ⟨.inl ⟨_, .inr ⟨t, ch, _, _, _, _, rfl, hm, hbz, ?_⟩, he'⟩, fun r g' hg => by rw [he'] at hg; cases hg⟩
    rw [find_eraseP (h.dinv.arena.held.find (h.dinv.mem hd) (h.good d hd) rfl)]
    exact ⟨l', sl, rfl, ho, hf⟩
  · have he : baseFor (.realloc d.addr d.req d.req.size) { g.s.w with log := g.dlog } = .ok (.ofOption o, w') := by
      rw [hs, bind_ok he]; rfl
    have hcst := hr.consts
    cases o with
    | none =>
      obtain ⟨h1, h2, _⟩ := hr.none_inv h.dinv
      have hlog : w'.log = .refused d.req :: g.dlog ∧ g.s.w.oracle g.s.w.calls = none := by cases hr with | refused ho => exact ⟨rfl, ho⟩
      have hgets : ggets (.realloc d.addr d.req d.req.size) (some d.own) (GCall.resp (.realloc d.addr d.req d.req.size) (Resp.ofOption none)) =
          [d.own] := by
        simp only [ggets, GCall.resp, GResp.ofResp, Resp.ofOption]; rw [if_pos trivial]
      constructor
      · refine h.goPassed (d? := none) hpc hm hbz hib he (by simp) h1 (by rw [hlog.1]; exact h.dlg.refused) ⟨hcst.1, hcst.2.1, hcst.2.2.1⟩
          (fun x _ => congrFun h2 x) ?_ ⟨fun hq => absurd rfl hq, fun _ x hx => (congrFun h2 x).trans (hc x hx)⟩
        intro S hS
        rw [hlent] at hS
        rw [hgets]
        exact List.perm_middle.symm.trans hS
      · intro r g' hg
        rw [ggo_direct hpc hen he] at hg
        cases hg
        exact ⟨_, rfl, rfl, rfl, .inl ⟨hlog.2, rfl, hlog.1⟩⟩
    | some s =>
      obtain ⟨h1, h2, h3, h4⟩ := hr.inv h.dinv hd hval hz
      have hlog : w'.log = .alloc d.req s :: .dealloc d.addr d.req :: g.dlog ∧ g.s.w.oracle g.s.w.calls = some s := by
        cases hr with | given _ _ ho => exact ⟨rfl, ho⟩
      have hne : s.addr ≠ 0 := by omega
      have hgets : ggets (.realloc d.addr d.req d.req.size) (some d.own) (GCall.resp (.realloc d.addr d.req d.req.size) (Resp.ofOption (some s))) =
          [granted s.addr d.req] := by
        simp only [ggets, GCall.resp, GResp.ofResp, Resp.ofOption]; rw [if_neg hne]
      constructor
      · refine h.goPassed (d? := some d) hpc hm hbz hib he (by rintro _ ⟨⟩; exact ⟨hd, hlent⟩) h1
          (by rw [hlog.1]; exact (h.dlg.dealloc h.dinv hd).alloc) ⟨hcst.1, hcst.2.1, hcst.2.2.1⟩ h3 ?_ ⟨fun _ i hi => ?_, fun hq => absurd hq hne⟩
        · intro S hS
          rw [hlent] at hS
          rw [hgets]
          have := (List.perm_middle.symm.trans (hS.trans (own_map_erase hd)))
          exact this.cons_inv.cons _
        · rw [h4 i (by omega)]
          exact hc _ ⟨by simp only [BaseBlk.own, granted]; omega, by simp only [BaseBlk.own, granted]; omega⟩
      · intro r g' hg
        rw [ggo_direct hpc hen he] at hg
        cases hg
        exact ⟨_, rfl, rfl, rfl, .inr ⟨s, hlog.2, hne, rfl, hlog.1⟩⟩

/-- `realloc` in direct mode, if the size changes: the wrong function of the underlying allocator is called. -/
theorem GSInv.goWrong {g0 g cs D K I B} (h : GSInv g0 g cs D K I B) {t : Nat} {ch : Choice} {l : Layout} {p n : Nat} {b : Owned}
    (hm : K.blinkMode = false) (hi : b.Is p l) (hn : n ≠ l.size) (hpc : g.pcs t = .direct (.realloc p l n))
    (hbz : K.busy t = some (.realloc p l n, some b)) : ∃ msg, ggo g t ch = .error (.ub msg) := by
  obtain ⟨d, hd, rfl, rfl, rfl, hp⟩ := h.lentDirect hm hbz hi
  have hfind := h.dinv.arena.held.find (h.dinv.mem hd) (h.good d hd) rfl
  by_cases hlt : n ≤ d.req.size
  · have he : baseResize true d.addr d.req ⟨n, d.req.align⟩ { g.s.w with log := g.dlog } = .error (.ub "grow to a smaller layout") := by
      unfold baseResize
      rw [hfind]
      dsimp only
      rw [if_pos ⟨rfl, by omega⟩]
    refine ⟨"grow to a smaller layout", ggo_direct_err hpc ?_⟩
    unfold baseFor
    dsimp only
    rw [if_neg hp, if_pos hlt]
    exact bind_err he
  · have he : baseResize false d.addr d.req ⟨n, d.req.align⟩ { g.s.w with log := g.dlog } = .error (.ub "shrink to a larger layout") := by
      unfold baseResize
      rw [hfind]
      dsimp only
      rw [if_neg (by simp), if_pos ⟨rfl, by omega⟩]
    refine ⟨"shrink to a larger layout", ggo_direct_err hpc ?_⟩
    unfold baseFor
    dsimp only
    rw [if_neg hp, if_neg hlt]
    exact bind_err he

/-- A step at a direct call, unless it is a `realloc` that changes the size. -/
theorem GSInv.goDirect {g0 g cs D K I B} (h : GSInv g0 g cs D K I B) {t : Nat} {ch : Choice} {c : GCall}
    (hpc : g.pcs t = .direct c) (hcalm : ∀ p l n, c = .realloc p l n → n = l.size) : GSDirect g0 g K t ch c := by
  have ht := h.thr t
  rw [hpc] at ht
  obtain ⟨bz, hbz⟩ : ∃ bz, K.busy t = bz := ⟨_, rfl⟩
  obtain ⟨ibz, hib⟩ : ∃ ibz, I.busy t = ibz := ⟨_, rfl⟩
  rw [hbz, hib] at ht
  have bad : ∀ {e}, BadAnswer { g.s.w with log := g.dlog } e → baseFor c { g.s.w with log := g.dlog } = .error e → GSDirect g0 g K t ch c := by
    intro e hb he
    have he' := ggo_direct_err (ch := ch) hpc he
    exact ⟨.inl ⟨e, .inl hb, he'⟩, fun r g' hg => by rw [he'] at hg; cases hg⟩
  cases ht with
  | @dAlloc l hm hv hz =>
    rcases baseAlloc_dspec { g.s.w with log := g.dlog } l with ⟨e, hb, he⟩ | ⟨o, w', he, hr⟩
    · exact bad hb (by unfold baseFor; dsimp only; rw [bind_err he])
    · exact h.goGrant (.inl ⟨rfl, rfl⟩) hm hv hz hpc hbz hib (by unfold baseFor; dsimp only; rw [bind_ok he]; rfl) hr
  | @dZeroed l hm hv hz =>
    rcases baseAllocZeroed_dspec { g.s.w with log := g.dlog } l with ⟨e, hb, he⟩ | ⟨o, w', he, hr⟩
    · exact bad hb (by unfold baseFor; dsimp only; rw [bind_err he])
    · exact h.goGrant (.inr ⟨rfl, rfl⟩) hm hv hz hpc hbz hib (by unfold baseFor; dsimp only; rw [bind_ok he]; rfl) hr
  | dDealloc hm hi => exact h.goFree hm hi hpc hbz hib
  | dRealloc hm hi hz hv hc =>
    have := hcalm _ _ _ rfl
    subst this
    exact h.goSame hm hi hz hv hc hpc hbz hib

end Blink
