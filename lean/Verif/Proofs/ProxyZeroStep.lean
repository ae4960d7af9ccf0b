import Verif.Proofs.ProxyZero
/-
  Every legal step keeps the invariant of `Proofs/ProxyZero.lean`.
-/
namespace Blink

/-- The places in a default method, with the call being executed. -/
theorem ZPInv.at_alloc {p0 z V K} (h : ZPInv p0 z V K) {i j} (hpc : z.zpcs i = .alloc j) : ∃ ob, V.zbusy i = some (j, ob) ∧
    ZJobOK z.p.s.w.mem (V.snap i) j ob ∧ K.pbusy i = some (.allocate j.layout, none) ∧ V.k.pbusy i = none ∧ (K.led i).Perm (ob.toList ++ V.k.led i) := by
  have ht := h.thr i
  have hp := h.parts i
  rw [hpc] at ht hp
  generalize V.zbusy i = bz at ht hp
  generalize K.pbusy i = kp at ht
  generalize V.k.pbusy i = vp at ht
  cases ht with
  | alloc hj => exact ⟨_, rfl, hj, rfl, rfl, hp⟩

theorem ZPInv.at_zero {p0 z V K} (h : ZPInv p0 z V K) {i j b k} (hpc : z.zpcs i = .zero j b k) : ∃ ob, V.zbusy i = some (j, ob) ∧
    ZJobOK z.p.s.w.mem (V.snap i) j ob ∧ K.pbusy i = none ∧ V.k.pbusy i = none ∧ (K.led i).Perm (Owned.of b j.layout :: (ob.toList ++ V.k.led i)) ∧
    k ≤ b.len ∧ ∀ n, n < k → z.p.s.w.mem (b.addr + n) = .raw 0 := by
  have ht := h.thr i
  have hp := h.parts i
  rw [hpc] at ht hp
  generalize V.zbusy i = bz at ht hp
  generalize K.pbusy i = kp at ht
  generalize V.k.pbusy i = vp at ht
  cases ht with
  | zero hj hk hz => exact ⟨_, rfl, hj, rfl, rfl, hp, hk, hz⟩

theorem ZPInv.at_copy {p0 z V K} (h : ZPInv p0 z V K) {i p old new b k} (hpc : z.zpcs i = .copy p old new b k) :
    ∃ o, V.zbusy i = some (.growZeroed p old new, some o) ∧
    ZJobOK z.p.s.w.mem (V.snap i) (.growZeroed p old new) (some o) ∧ K.pbusy i = none ∧ V.k.pbusy i = none ∧
    (K.led i).Perm (Owned.of b new :: o :: V.k.led i) ∧ k ≤ old.size ∧ new.size ≤ b.len ∧
    (∀ n, n < k → z.p.s.w.mem (b.addr + n) = V.snap i (p + n)) ∧ ∀ n, k ≤ n → n < b.len → z.p.s.w.mem (b.addr + n) = .raw 0 := by
  have ht := h.thr i
  have hp := h.parts i
  rw [hpc] at ht hp
  generalize V.zbusy i = bz at ht hp
  generalize K.pbusy i = kp at ht
  generalize V.k.pbusy i = vp at ht
  cases ht with
  | copy hj hk hlen hc hz => exact ⟨_, rfl, hj, rfl, rfl, hp, hk, hlen, hc, hz⟩

theorem ZPAfter.runs_none {m V a V' i} (h : ZPAfter m V a none V') (ha : a.Runs i) (hb : V.zbusy i ≠ none) : V' = V := by
  cases h with
  | base h hz =>
    rcases ha with ha | ⟨ch, ha⟩
    · cases ha
    · cases ha; exact absurd (hz i ch rfl) hb
  | inside => rfl
  | zeroed => rcases ha with ha | ⟨ch, ha⟩ <;> cases ha
  | growZeroed => rcases ha with ha | ⟨ch, ha⟩ <;> cases ha

theorem ZPAct.Runs.eq {a : ZPAct} {i u} (h : a.Runs i) (h' : a.Runs u) : u = i := by
  rcases h with rfl | ⟨ch, rfl⟩ <;> rcases h' with h' | ⟨ch', h'⟩ <;> cases h' <;> rfl

theorem ZPAfter.runs_some {m V a v V' i} (h : ZPAfter m V a (some v) V') (ha : a.Runs i) {j ob} (hb : V.zbusy i = some (j, ob)) :
    V' = { V with k := { V.k with led := put V.k.led i (zgets (.zeroed j) ob v ++ V.k.led i) }, zbusy := put V.zbusy i none } := by
  cases h with
  | base h hz =>
    rcases ha with ha | ⟨ch, ha⟩
    · cases ha
    · cases ha; rw [hz i ch rfl] at hb; cases hb
  | @ret _ u j' ob' _ ha' hb' =>
    have := ha.eq ha'
    subst this
    rw [hb'] at hb; cases hb; rfl
  | zeroed => rcases ha with ha | ⟨ch, ha⟩ <;> cases ha
  | growZeroed => rcases ha with ha | ⟨ch, ha⟩ <;> cases ha

theorem ZPInv.zgo {p0 z V K} (h : ZPInv p0 z V K) {i r z'} (hg : ZPGo z i r z') {V'} (ha : ZPAfter z.p.s.w.mem V (.zgo i) r V') :
    ∃ K', ZPInv p0 z' V' K' := by
  have hr : (ZPAct.zgo i).Runs i := .inl rfl
  -- a store into the new block
  have store : ∀ {b : Slice} {l : Layout} {n : Nat} {v : Byte} {p' : PS} {pc : ZPc}, Owned.of b l ∈ zpheld (z.zpcs i) (V.zbusy i) → n < b.len →
      pstep z.p (.shared (.write (b.addr + n) v)) = .ok (some (none, p')) → K.pbusy i = none → V.k.pbusy i = none →
      (K.led i).Perm (zpheld pc (V.zbusy i) ++ V.k.led i) →
      ((∀ x, x ≠ b.addr + n → p'.s.w.mem x = z.p.s.w.mem x) → p'.s.w.mem (b.addr + n) = v → ZPThr p'.s.w.mem (V.snap i) pc (V.zbusy i) none none) →
      V' = V → ∃ K', ZPInv p0 ({ z with p := p' }.setZ i pc) V' K' := by
    intro b l n v p' pc hm hn hs hk hv hp ht hV
    subst hV
    have hin : (Owned.of b l).Has (b.addr + n) := ⟨Nat.le_add_right .., Nat.add_lt_add_left hn _⟩
    have hl : PLegal K (.shared (.write (b.addr + n) v)) := .pwrite (h.held_mem hm) hin
    have hw := pstep_write z.p (b.addr + n) v
    rw [hs] at hw
    injection hw with hw; injection hw with hw; injection hw with _ hw
    have h1 : ∀ x, x ≠ b.addr + n → p'.s.w.mem x = z.p.s.w.mem x := by
      intro x hx
      rw [hw]
      show setBytes z.p.s.w.mem (b.addr + n) 1 (fun _ => v) x = _
      exact setBytes_out (by omega)
    have h2 : p'.s.w.mem (b.addr + n) = v := by
      rw [hw]
      have := setBytes_in (m := z.p.s.w.mem) (a := b.addr + n) (f := fun _ => v) (i := 0) (n := 1) (by omega)
      exact this
    refine ⟨K, h.move i (z' := { z with p := p' }.setZ i pc) (h.base.snoc hl hs (.direct .write (.inl rfl))) (fun u hu => ZPS.setZ_ne _ _ hu) ⟨rfl, rfl⟩
      ⟨rfl, rfl⟩ (fun u _ => ⟨rfl, rfl⟩) (fun u _ => ⟨rfl, rfl, rfl, rfl⟩) ?_ ?_ ?_ (h.act i)⟩
    · intro u hu c hc x hx
      exact h1 x fun he => (h.apart hm).2.2 u hu c hc x ⟨hx, he ▸ hin⟩
    · rw [ZPS.setZ_same]; exact hp
    · rw [ZPS.setZ_same, hk, hv]; exact ht h1 h2
  cases hg with
  | @zero j b k p' hpc hk hs =>
    obtain ⟨ob, hb, hj, hkp, hvp, hp, _, hz⟩ := h.at_zero hpc
    have hm : Owned.of b j.layout ∈ zpheld (z.zpcs i) (V.zbusy i) := by rw [hpc]; exact List.mem_cons_self
    refine store (pc := .zero j b (k + 1)) hm hk hs hkp hvp (by rw [hb]; exact hp) ?_ (ha.runs_none hr (by rw [hb]; nofun))
    intro h1 h2
    rw [hb]
    refine .zero (hj.frame fun c hc x hx => h1 x fun he => ?_) hk fun n hn => ?_
    · have := h.own i
      rw [hpc, hb] at this
      exact (List.pairwise_cons.mp (List.pairwise_append.mp this).1).1 c hc x ⟨⟨by show b.addr ≤ x; omega, by show x < b.addr + b.len; omega⟩, hx⟩
    · by_cases he : n = k
      · subst he; exact h2
      · rw [h1 _ (by omega)]; exact hz n (by omega)
  | @zeroed l b k hpc hk =>
    obtain ⟨ob, hb, hj, hkp, hvp, hp, _, hz⟩ := h.at_zero hpc
    have hV := ha.runs_some hr hb
    subst hV
    cases hj with
    | zeroed hv =>
    refine ⟨K, h.move i (z' := z.setZ i .off) h.base (fun u hu => ZPS.setZ_ne _ _ hu) ⟨rfl, rfl⟩ ⟨rfl, rfl⟩ (fun u _ => ⟨rfl, rfl⟩)
      (fun u hu => ⟨rfl, put_ne _ _ hu, put_ne _ _ hu, rfl⟩) (fun _ _ _ _ _ _ => rfl) ?_ ?_ ?_⟩
    · dsimp only; rw [ZPS.setZ_same, put_same, put_same]; exact hp
    · dsimp only; rw [ZPS.setZ_same, put_same, hkp, hvp]; exact .off
    · dsimp only; rw [put_same]; exact fun hn => absurd rfl hn
  | @toCopy p old new b k hpc hk =>
    obtain ⟨ob, hb, hj, hkp, hvp, hp, hk', hz⟩ := h.at_zero hpc
    have hV := ha.runs_none hr (by rw [hb]; nofun)
    subst hV
    have hlen : new.size ≤ b.len := (C26_memory h.base (b := Owned.of b new) (.inr ⟨i, List.mem_append_right _ (hp.mem_iff.mpr List.mem_cons_self)⟩)).2.1
    have hk2 : k = b.len := by omega
    subst hk2
    refine ⟨K, h.move i (z' := z.setZ i (.copy p old new b 0)) h.base (fun u hu => ZPS.setZ_ne _ _ hu) ⟨rfl, rfl⟩ ⟨rfl, rfl⟩ (fun u _ => ⟨rfl, rfl⟩)
      (fun u hu => ⟨rfl, rfl, rfl, rfl⟩) (fun _ _ _ _ _ _ => rfl) ?_ ?_ (h.act i)⟩
    · rw [ZPS.setZ_same, hb]; exact hp
    · rw [ZPS.setZ_same, hb, hkp, hvp]
      cases hj with
      | grow hf hv hsz same => exact .copy (.grow hf hv hsz same) (Nat.zero_le _) hlen nofun fun n _ hn => hz n hn
  | @copy p old new b k p' hpc hk hs =>
    obtain ⟨o, hb, hj, hkp, hvp, hp, _, hlen, hc, hz⟩ := h.at_copy hpc
    have hm : Owned.of b new ∈ zpheld (z.zpcs i) (V.zbusy i) := by rw [hpc]; exact List.mem_cons_self
    cases hj with
    | grow hf hv hsz same =>
    refine store (pc := .copy p old new b (k + 1)) hm (by omega) hs hkp hvp (by rw [hb]; exact hp) ?_ (ha.runs_none hr (by rw [hb]; nofun))
    intro h1 h2
    rw [hb]
    have hap : (Owned.of b new).Apart o := by
      have := h.own i
      rw [hpc, hb] at this
      exact (List.pairwise_cons.mp (List.pairwise_append.mp this).1).1 o (by simp)
    have hout : ∀ x, o.Has x → x ≠ b.addr + k := fun x hx he =>
      hap x ⟨⟨by show b.addr ≤ x; omega, by show x < b.addr + b.len; omega⟩, hx⟩
    refine .copy (.grow hf hv hsz fun x hx => (h1 x (hout x hx)).trans (same x hx)) hk hlen (fun n hn => ?_) fun n hn hn2 => ?_
    · by_cases he : n = k
      · subst he
        rw [h2]
        exact same _ (by have := hf.1; have := hf.2.2.2; exact ⟨by omega, by omega⟩)
      · rw [h1 _ (by omega)]; exact hc n (by omega)
    · rw [h1 _ (by omega)]; exact hz n (by omega) hn2
  | @free p old new b k r p' hpc hk hs =>
    obtain ⟨o, hb, hj, hkp, hvp, hp, hk', hlen, hc, hz⟩ := h.at_copy hpc
    have hV := ha.runs_some hr hb
    subst hV
    have hr' := pstep_dealloc hs
    subst hr'
    cases hj with
    | grow hf hv hsz same =>
    have ho : o ∈ K.led i := hp.mem_iff.mpr (by simp)
    have hact := h.act i (by rw [hb]; nofun)
    have hl : PLegal K (.deallocate i p old.size) :=
      .deallocate ⟨by rw [h.live]; exact hact.1, hkp, by rw [h.direct]; exact hact.2⟩ ho ⟨hf.1, hf.2.2.1, hf.2.2.2⟩
    refine ⟨_, h.move i (z' := { z with p := p' }.setZ i .off)
      (V' := { V with k := { V.k with led := put V.k.led i (zgets (.zeroed (.growZeroed p old new)) (some o) (.block b) ++ V.k.led i) }, zbusy := put V.zbusy i none })
      (h.base.snoc hl hs (.deallocate ho ⟨hf.1, hf.2.2.1, hf.2.2.2⟩))
      (fun u hu => ZPS.setZ_ne _ _ hu) ⟨rfl, rfl⟩ ⟨rfl, rfl⟩ (fun u hu => ⟨rfl, put_ne _ _ hu⟩)
      (fun u hu => ⟨rfl, put_ne _ _ hu, put_ne _ _ hu, rfl⟩) ?_ ?_ ?_ ?_⟩
    · exact fun u hu c hc x hx => h.base.keeps hl hs (h.held_mem hc) hx nofun ⟨nofun, nofun, nofun⟩
    · dsimp only; rw [ZPS.setZ_same, put_same, put_same, put_same]
      refine (hp.erase o).trans ?_
      show ((Owned.of b new :: o :: V.k.led i).erase o).Perm (Owned.of b new :: V.k.led i)
      have h1 : (Owned.of b new :: o :: V.k.led i).Perm (o :: Owned.of b new :: V.k.led i) := .swap _ _ _
      have h2 := h1.erase o
      rwa [List.erase_cons_head] at h2
    · dsimp only; rw [ZPS.setZ_same, put_same, hkp, hvp]; exact .off
    · dsimp only; rw [put_same]; exact fun hn => absurd rfl hn

theorem PAct.no_go {i l} : ∀ t ch, (PAct.allocate i l) ≠ .shared (.go t ch) := nofun

/-- Every legal step keeps the invariant. -/
theorem ZPInv.step {p0 z V K} (h : ZPInv p0 z V K) {a : ZPAct} (hl : ZPLegal V a) {r z'} (hs : zpstep z a = .ok (some (r, z'))) {V'}
    (ha : ZPAfter z.p.s.w.mem V a r V') : ∃ K', ZPInv p0 z' V' K' := by
  -- a zeroed call is made
  have call : ∀ {i : Nat} {j : ZJob} {ob : Option Owned} {left : List Owned}, V.k.Ready i → V.zbusy i = none → j.layout.Modest →
      (V.k.led i).Perm (ob.toList ++ left) → ZJobOK z.p.s.w.mem z.p.s.w.mem j ob → zpstep z (.zcall i j) = .ok (some (r, z')) →
      ∃ K', ZPInv p0 z' (V.enter z.p.s.w.mem i left j ob r) K' := by
    intro i j ob left hR hz hm hL hj hs
    obtain ⟨_, r0, p', hs', hg⟩ := zpstep_zcall hs
    have hkp := (h.idle hz).2.1
    have hKR : K.Ready i := ⟨by rw [h.live]; exact hR.1, by rw [hkp]; exact hR.2.1, by rw [h.direct]; exact hR.2.2⟩
    have hV : ∀ r', (V.enter z.p.s.w.mem i left j ob r').k.direct = V.k.direct ∧ (V.enter z.p.s.w.mem i left j ob r').k.live = V.k.live ∧
        (V.enter z.p.s.w.mem i left j ob r').k.pbusy = V.k.pbusy ∧
        ∀ u, u ≠ i → (V.enter z.p.s.w.mem i left j ob r').k.led u = V.k.led u ∧ (V.enter z.p.s.w.mem i left j ob r').zbusy u = V.zbusy u ∧
          (V.enter z.p.s.w.mem i left j ob r').snap u = V.snap u := by
      intro r'
      cases r' with
      | none => exact ⟨rfl, rfl, rfl, fun u hu => ⟨put_ne _ _ hu, put_ne _ _ hu, put_ne _ _ hu⟩⟩
      | some v => exact ⟨rfl, rfl, rfl, fun u hu => ⟨put_ne _ _ hu, rfl, rfl⟩⟩
    have hE : (K.enter i (K.led i) (.allocate j.layout) none r0).direct = K.direct ∧ (K.enter i (K.led i) (.allocate j.layout) none r0).live = K.live ∧
        (∀ u, u ≠ i → (K.enter i (K.led i) (.allocate j.layout) none r0).pbusy u = K.pbusy u ∧
          (K.enter i (K.led i) (.allocate j.layout) none r0).led u = K.led u) ∧
        (K.enter i (K.led i) (.allocate j.layout) none r0).pbusy i = zpwait j r0 ∧
        (K.enter i (K.led i) (.allocate j.layout) none r0).led i =
          zpnew j r0 ++ K.led i := by
      cases r0 with
      | none => exact ⟨rfl, rfl, fun u hu => ⟨put_ne _ _ hu, put_ne _ _ hu⟩, put_same _ _ _, put_same _ _ _⟩
      | some v => exact ⟨rfl, rfl, fun u hu => ⟨rfl, put_ne _ _ hu⟩, hKR.2.1, put_same _ _ _⟩
    refine ⟨_, h.got (i := i) (j := j) (ob := ob) (left := left) (sn := z.p.s.w.mem) (.allocate hKR hm) hs' (fun u hu => by cases hu; rfl)
      ⟨nofun, nofun, nofun⟩ nofun .allocate hE.1 hE.2.1 hE.2.2.1 hE.2.2.2 ((h.idle hz).2.2.trans hL) hj ⟨hR.1, hR.2.2⟩ hg (hV r).1 (hV r).2.1
      (fun u hu => ⟨by rw [(hV r).2.2.1], ((hV r).2.2.2 u hu).1, ((hV r).2.2.2 u hu).2⟩) (by rw [(hV r).2.2.1]; exact hR.2.1) ⟨?_, ?_⟩⟩
    · rintro rfl
      exact ⟨put_same _ _ _, put_same _ _ _, put_same _ _ _⟩
    · rintro v rfl
      exact ⟨hz, put_same _ _ _⟩
  cases hl with
  | @zeroed i l hR hz hm =>
    have hV : V' = V.enter z.p.s.w.mem i (V.k.led i) (.zeroed l) none r := by
      cases ha with
      | zeroed => rfl
      | inside ha => rcases ha with ha | ⟨_, ha⟩ <;> cases ha
      | ret ha => rcases ha with ha | ⟨_, ha⟩ <;> cases ha
    subst hV
    exact call hR hz hm (.refl _) (.zeroed hm.1) hs
  | @growZeroed i b p old new hR hz hb hf hm hsz =>
    obtain ⟨b, hb, hf, hV⟩ : ∃ b ∈ V.k.led i, b.Fits p old ∧ V' = V.enter z.p.s.w.mem i ((V.k.led i).erase b) (.growZeroed p old new) (some b) r := by
      cases ha with
      | growZeroed hb hf => exact ⟨_, hb, hf, rfl⟩
      | inside ha => rcases ha with ha | ⟨_, ha⟩ <;> cases ha
      | ret ha => rcases ha with ha | ⟨_, ha⟩ <;> cases ha
    subst hV
    exact call hR hz hm (List.perm_cons_erase hb) (.grow hf hm.1 hsz fun _ _ => rfl) hs
  | @zgo i => exact h.zgo (zpgo_cases hs) ha
  | @base a hl hp hc =>
    obtain ⟨_, r0, p', hs', hcase⟩ := zpstep_base hs
    rcases hcase with ⟨i, ch, j, rfl, hpc, hg⟩ | ⟨hno, rfl, rfl⟩
    · obtain ⟨ob, hb, hj, hkp, hvp, hL⟩ := h.at_alloc hpc
      have hr : (ZPAct.base (.shared (.go i ch))).Runs i := .inr ⟨ch, rfl⟩
      have hact := h.act i (by rw [hb]; nofun)
      have fin : ∀ {K'}, PAfter z.p.s.w.mem K (.shared (.go i ch)) r0 K' → K'.direct = K.direct → K'.live = K.live →
          (∀ u, u ≠ i → K'.pbusy u = K.pbusy u ∧ K'.led u = K.led u) →
          (K'.pbusy i = zpwait j r0 ∧
            K'.led i = zpnew j r0 ++ K.led i) → ZPInv p0 z' V' K' := by
        intro K' haK hd hlv hKu hKi
        rcases r with _ | v
        · have hV := ha.runs_none hr (by rw [hb]; nofun)
          subst hV
          exact h.got (i := i) (j := j) (ob := ob) (sn := V'.snap i) .go hs' nofun ⟨nofun, nofun, nofun⟩ nofun haK hd hlv hKu hKi hL hj hact hg rfl rfl
            (fun u hu => ⟨rfl, rfl, rfl, rfl⟩) hvp ⟨fun _ => ⟨hb, rfl, rfl⟩, nofun⟩
        · have hV := ha.runs_some hr hb
          subst hV
          refine h.got (i := i) (j := j) (ob := ob) (sn := V.snap i) .go hs' nofun ⟨nofun, nofun, nofun⟩ nofun haK hd hlv hKu hKi hL hj hact hg rfl rfl
            (fun u hu => ⟨rfl, put_ne _ _ hu, put_ne _ _ hu, rfl⟩) hvp ⟨nofun, ?_⟩
          rintro v' hv
          cases hv
          exact ⟨put_same _ _ _, put_same _ _ _⟩
      rcases r0 with _ | v
      · exact ⟨{ K with direct := K.direct }, fin (.direct .inside (.inl rfl)) rfl rfl (fun u _ => ⟨rfl, rfl⟩) ⟨hkp, rfl⟩⟩
      · exact ⟨_, fin (.back hkp) rfl rfl (fun u hu => ⟨put_ne _ _ hu, put_ne _ _ hu⟩) ⟨put_same _ _ _, put_same _ _ _⟩⟩
    · -- nobody makes steps of a proxy's method while zeroing or copying
      have quiet : ∀ i, (ZPAct.base a).Runs i → V.zbusy i ≠ none → False := by
        intro i hr hb
        rcases hr with hr | ⟨ch, hr⟩
        · cases hr
        · cases hr
          have hkp : K.pbusy i = none := by
            have ht := h.thr i
            have hno' := hno i ch rfl
            generalize z.zpcs i = pc at ht hno'
            generalize V.zbusy i = bz at ht hb
            generalize K.pbusy i = kp at ht
            generalize V.k.pbusy i = vp at ht
            cases ht with
            | off => exact absurd rfl hb
            | alloc => exact absurd rfl (hno' _)
            | zero => rfl
            | copy => rfl
          rw [h.base.still hkp (by rw [h.direct]; exact (h.act i hb).2)] at hs'
          cases hs'
      cases ha with
      | base ha hz => exact h.plain hl hp hc hs' ha hz
      | inside ha hb => exact (quiet _ ha hb).elim
      | ret ha hb => exact (quiet _ ha (by rw [hb]; nofun)).elim

theorem PStart.zinv {p0 : PS} (h : PStart p0) : ZPInv p0 (ZPS.start p0) ZPBook.empty PBook.empty :=
  ⟨⟨h, [], .nil⟩, rfl, rfl, fun _ => .refl _, fun _ => .off, fun _ hn => absurd rfl hn⟩

theorem ZPReach.inv {p0 z V} (h : ZPReach p0 z V) : ∃ K, ZPInv p0 z V K := by
  obtain ⟨h0, tr, hr⟩ := h
  induction hr with
  | nil => exact ⟨_, h0.zinv⟩
  | snoc _ hl hs ha ih =>
    obtain ⟨K, hi⟩ := ih
    exact hi.step hl hs ha

end Blink
