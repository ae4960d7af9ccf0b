import Verif.Proofs.GlobalProxyStep
/-
  Steps of proxies of a global allocator, and histories of the whole.
-/
namespace Blink

/-! ### Steps at proxies do not concern those who call the `SyncBlinkAlloc` directly -/

theorem PLegal.redirect {K : PBook} {a : PAct} (ha : a.atProxy = true) (h : PLegal K a) {D : Book}
    (hb : ∀ i, a.proxy = some i → D.busy i = none) : PLegal { K with direct := D } a := by
  have ready : ∀ {i}, a.proxy = some i → K.Ready i → PBook.Ready { K with direct := D } i := fun hi hr => ⟨hr.1, hr.2.1, hb _ hi⟩
  cases h with
  | call => cases ha
  | go => exact .go
  | write => cases ha
  | pwrite => cases ha
  | sreset h => rcases h with rfl | rfl | rfl <;> cases ha
  | spawn h => exact .spawn h
  | allocate h hl => exact .allocate (ready rfl h) hl
  | resize h h1 h2 h3 => exact .resize (ready rfl h) h1 h2 h3
  | deallocate h h1 h2 => exact .deallocate (ready rfl h) h1 h2
  | reset h => exact .reset (ready rfl h)
  | resetUnchecked h => exact .resetUnchecked (ready rfl h)
  | drop h => exact .drop (ready rfl h)
  | updateMax => cases ha
  | sync => exact .sync

theorem PAfter.redirect {m : Nat → Byte} {K : PBook} {a : PAct} {r K'} (ha : a.atProxy = true) (h : PAfter m K a r K')
    (hg : ∀ t ch, a = .shared (.go t ch) → K.direct.busy t = none) (D : Book) :
    PAfter m { K with direct := D } a r { K' with direct := D } ∧ K'.direct = K.direct := by
  cases h with
  | @direct a r D' h hr =>
    cases a with
    | go t ch =>
      cases h with
      | inside => exact ⟨.direct .inside (.inl rfl), rfl⟩
      | ret hb => rw [hg t ch rfl] at hb; cases hb
    | _ => cases ha
  | @back t ch c ob r hb => exact ⟨.back (K := { K with direct := D }) hb, rfl⟩
  | @spawn i k => exact ⟨.spawn (K := { K with direct := D }), rfl⟩
  | @allocate i l r => cases r <;> exact ⟨.allocate (K := { K with direct := D }), rfl⟩
  | @resize i b p old new r hb hf => cases r <;> exact ⟨.resize (K := { K with direct := D }) hb hf, rfl⟩
  | @deallocate i b p n hb hf => exact ⟨.deallocate (K := { K with direct := D }) hb hf, rfl⟩
  | @reset i => exact ⟨.reset (K := { K with direct := D }), rfl⟩
  | @resetUnchecked i r => cases r <;> exact ⟨.resetUnchecked (K := { K with direct := D }), rfl⟩
  | @drop i => exact ⟨.drop (K := { K with direct := D }), rfl⟩
  | updateMax => cases ha
  | sync => exact ⟨.sync (K := { K with direct := D }), rfl⟩

theorem PAfter.pbusy_of {m : Nat → Byte} {K : PBook} {a : PAct} {r K'} (h : PAfter m K a r K') {u : Nat} (hu : K'.pbusy u ≠ none) :
    K.pbusy u ≠ none ∨ a.proxy = some u := by
  have ent : ∀ {i left c ob r}, (K.enter i left c ob r).pbusy u ≠ none → K.pbusy u ≠ none ∨ i = u := by
    intro i left c ob r h
    by_cases he : i = u
    · exact .inr he
    · refine .inl ?_
      cases r with
      | none => simp only [PBook.enter] at h; rwa [put_ne _ _ (fun e => he e.symm)] at h
      | some r => exact h
  cases h with
  | direct h hr => exact .inl hu
  | @back t ch c ob r hb =>
    by_cases he : u = t
    · subst he; exact .inl (by rw [hb]; simp)
    · dsimp only at hu; rw [put_ne _ _ he] at hu; exact .inl hu
  | spawn => exact .inl hu
  | allocate => exact (ent hu).imp id fun h => by rw [← h]; rfl
  | resize => exact (ent hu).imp id fun h => by rw [← h]; rfl
  | deallocate => exact .inl hu
  | reset => exact .inl hu
  | resetUnchecked => exact (ent hu).imp id fun h => by rw [← h]; rfl
  | drop => exact .inl hu
  | updateMax => exact .inl hu
  | sync => exact .inl hu

theorem PResp.map_inj {r r' : Option Resp} (h : r.map GPResp.proxy = r'.map .proxy) : r = r' := by
  cases r <;> cases r' <;> simp at h <;> first | rfl | rw [h]

theorem GPTie.proxyStep {p0 x K P Z} (hR : PReach p0 x.ps P) (h : GPTie x K P Z) {a : PAct} (ha : a.atProxy = true) (hl : PLegal K.px a)
    (hb : ∀ i, a.proxy = some i → K.busy i = none) : GPGood x K P (.proxy a) (gpstep x (.proxy a)) := by
  have hP : ({ K.px with direct := P.direct } : PBook) = P := by
    unfold GPBook.px
    rw [← h.live, ← h.led, ← h.pbusy]
  have hK : ({ P with direct := Book.empty } : PBook) = K.px := by
    unfold GPBook.px
    rw [← h.live, ← h.led, ← h.pbusy]
  have hl' : PLegal P a := hP ▸ hl.redirect ha fun i hi => (h.busy_none (hb i hi)).2
  by_cases hgo : ∀ t ch, a = .shared (.go t ch) → x.g.pcs t = .idle
  · have heq : gpstep x (.proxy a) = (do
        match ← pstep x.ps a with
        | none => pure none
        | some (r, p) => pure (some (r.map .proxy, x.withPS p))) := by
      unfold gpstep
      split
      · rename_i h'; cases h'
      · rename_i t ch h'
        cases h'
        rw [if_pos (hgo t ch rfl)]
        rfl
      · rename_i h'
        injection h' with h'
        rw [h']
        rfl
    rw [heq]
    have hdb : ∀ t ch, a = .shared (.go t ch) → P.direct.busy t = none := fun t ch he => (h.busy_none (h.pc_idle (hgo t ch he))).2
    cases hs : pstep x.ps a with
    | error e =>
      rw [ebind_err' rfl]
      refine .inl ⟨e, ?_, rfl⟩
      exact (C26_no_ub hR hl' hs).imp id fun h => ⟨a, rfl, h⟩
    | ok y =>
      cases y with
      | none => exact .inr (.inl rfl)
      | some z =>
        obtain ⟨r, p⟩ := z
        have hnr : ∀ a', a = .shared a' → ¬ a'.isReset := by
          rintro _ rfl (rfl | rfl | rfl) <;> cases ha
        have hnw : ∀ y v, a ≠ .shared (.write y v) := by rintro y v rfl; cases ha
        obtain ⟨KS, cs, pend, hI⟩ := hR.inv
        obtain ⟨P1, haf⟩ := hI.afterStep hl' hs
        refine .inr (.inr ⟨r.map .proxy, x.withPS p, rfl, ⟨?_, by rintro _ _ _ _ _ ⟨⟩⟩, ⟨_, .proxy (hK ▸ (haf.redirect ha hdb Book.empty).1)⟩, ?_⟩)
        · intro b y hy _ hbl
          refine h.kept hR hl' hs hy (hnw y) ?_
          rcases hbl with ⟨hbl, _⟩ | ⟨i, hbl, h1, h2, h3⟩
          · obtain ⟨b', hz, _⟩ := h.inZ hbl
            exact .inl ⟨List.mem_map_of_mem (f := Prod.fst) hz, hnr⟩
          · exact .inr ⟨i, hbl, fun e => h1 (by rw [e]), fun e => h2 (by rw [e]), fun e => h3 (by rw [e])⟩
        · intro K' hK'
          generalize hr : r.map GPResp.proxy = r' at hK'
          cases hK' with
          | @proxy _ r1 Q hQ =>
            cases PResp.map_inj hr
            obtain ⟨hQ1, hQ2⟩ := hQ.redirect ha (fun _ _ _ => rfl) P.direct
            rw [hP] at hQ1
            have hdbg := hR.snoc_debug hl' hs hQ1
            refine ⟨_, Z, _, .proxy hl' hs hQ1, ?_⟩
            refine ⟨rfl, rfl, rfl, h.mode, h.nod, h.sz, h.off, h.short, h.own, ?_, fun u => ?_, fun u hu => ?_⟩
            · show GFam p.s.w.debug _ _ _ _ _
              rw [hdbg]
              exact h.fam
            · obtain ⟨ibz, g1, g2⟩ := h.thr u
              obtain ⟨R, S, f1, _⟩ := h.fam.focus u
              exact ⟨ibz, g1.frame (fun c hc z hz => h.kept hR hl' hs hz (hnw z)
                  (.inl ⟨f1.mem_iff.mpr (List.mem_append_right _ (List.mem_append_left _ hc)), hnr⟩))
                (fun hf c hc => by rw [h.off hf u] at hc; cases hc), g2⟩
            · cases hq : Q.pbusy u with
              | none => exact hq
              | some q =>
                rcases hQ.pbusy_of (u := u) (by rw [hq]; simp) with h1 | h1
                · exact absurd (h.one u hu) h1
                · exact absurd (hb u h1) hu
  · have : ∃ t ch, a = .shared (.go t ch) ∧ x.g.pcs t ≠ .idle := by
      refine Classical.byContradiction fun hc => hgo fun t ch he => Classical.byContradiction fun hne => hc ⟨t, ch, he, hne⟩
    obtain ⟨t, ch, rfl, hne⟩ := this
    exact .inr (.inl (by simp only [gpstep]; rw [if_neg hne]; rfl))

/-! ### Any step -/

theorem GPTie.goStep {p0 x K P Z} (hR : PReach p0 x.ps P) (h : GPTie x K P Z) {t : Nat} {ch : Choice} :
    GPGood x K P (.glob (.go t ch)) (gpstep x (.glob (.go t ch))) := by
  cases hpc : x.g.pcs t with
  | idle => exact .inr (.inl (gpstep_none (by show ggo _ _ _ = _; unfold ggo; rw [hpc]; rfl)))
  | blink c => exact h.goBlink hR hpc
  | zero l s k => exact (h.goZero hR hpc).good
  | fin c r => exact (h.goFin hR hpc).good
  | direct c =>
    exfalso
    obtain ⟨ibz, ht, _⟩ := h.thr t
    have hoff := h.off
    rw [hpc] at ht
    revert ht
    generalize hbz : K.busy t = bz
    intro ht
    have key : K.blinkMode = false → bz ≠ none → False := fun hm hn => hn (by rw [← hbz]; exact hoff hm t)
    cases ht with
    | dAlloc hm => exact key hm (by simp)
    | dZeroed hm => exact key hm (by simp)
    | dDealloc hm => exact key hm (by simp)
    | dRealloc hm => exact key hm (by simp)

theorem GPTie.step {p0 x K P Z} (hR : PReach p0 x.ps P) (h : GPTie x K P Z) {a : GPAct} (hl : GPLegal K a) : GPGood x K P a (gpstep x a) := by
  cases hl with
  | call hl hm hp => exact (h.callStep hR hl hm hp).good
  | go => exact h.goStep hR
  | write hl =>
    cases hl with
    | @write b _ _ ho hx =>
      refine (h.writeStep hR (.inl ?_) hx).good
      rcases List.mem_append.mp ho with ho | ho
      · exact ho
      · rw [h.nod] at ho; cases ho
  | pwrite hb hx => exact (h.writeStep hR (.inr ⟨_, hb⟩) hx).good
  | reset hl hn => cases hl with | reset hq => exact (h.resetStep hR hq hn).good
  | blinkMode hl => cases hl with | blinkMode hq => exact (h.blinkStep hq).good
  | directMode hl hn => cases hl with | directMode hq => exact (h.directStep hR hq hn).good
  | proxy ha hl hb => exact h.proxyStep hR ha hl hb

theorem GPTie.step_ok {p0 x K P Z} (hR : PReach p0 x.ps P) (h : GPTie x K P Z) {a : GPAct} (hl : GPLegal K a) {r x' K'}
    (hs : gpstep x a = .ok (some (r, x'))) (ha : GPAfter x.g.s.w.mem K a r K') :
    GPRes K a r x x' ∧ ∃ P' Z' e, Shade x P a r x' P' e ∧ GPTie x' K' P' Z' := by
  rcases h.step hR hl with ⟨e, _, he⟩ | he | ⟨r1, x1, he, hr, _, hi⟩
  · rw [he] at hs; cases hs
  · rw [he] at hs; cases hs
  · rw [he] at hs
    cases hs
    exact ⟨hr, hi _ ha⟩

/-- A history of a global allocator with proxies is one of its `SyncBlinkAlloc` with proxies. -/
theorem GPRun.inv {x0 x : GPS} {K : GPBook} {tr : List (GPAct × Option GPResp)} (h0 : GPStart x0) (h : GPRun x0 GPBook.empty tr x K) :
    ∃ trp P Z, PRun x0.ps PBook.empty trp x.ps P ∧ Shadow tr trp ∧ GPTie x K P Z := by
  induction h with
  | nil => exact ⟨[], _, _, .nil, .nil, h0.tie⟩
  | snoc _ hl hs ha ih =>
    obtain ⟨trp, P, Z, hr, hsh, hi⟩ := ih
    obtain ⟨_, P', Z', e, hsd, ht⟩ := hi.step_ok ⟨h0.pstart, _, hr⟩ hl hs ha
    cases hsd with
    | silent he => exact ⟨trp, P, Z', he ▸ hr, .silent hsh, ht⟩
    | glob h1 h2 h3 h4 => exact ⟨_, P', Z', hr.snoc h2 h3 h4, .glob hsh h1, ht⟩
    | proxy h1 h2 h3 => exact ⟨_, P', Z', hr.snoc h1 h2 h3, .proxy hsh, ht⟩

theorem GPReach.inv {x0 x : GPS} {K : GPBook} (h : GPReach x0 x K) : ∃ P Z, PReach x0.ps x.ps P ∧ GPTie x K P Z := by
  obtain ⟨h0, tr, hr⟩ := h
  obtain ⟨trp, P, Z, h1, _, h2⟩ := hr.inv h0
  exact ⟨P, Z, ⟨h0.pstart, trp, h1⟩, h2⟩

end Blink
