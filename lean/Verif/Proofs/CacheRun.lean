import Verif.Proofs.Cache
/-
  The invariant is kept by every step, no step goes wrong, and every step is a step of the atomic queue (or nothing).
-/
namespace Blink

/-- Exactly what a step of a thread of the cache does. -/
inductive CGo (s : CS) (t : Nat) : Option CRet → CS → Prop
  | rdEmpty (hp : s.pcs t = .popRd) (hw : s.writer = none) (he : s.popArr = []) :
      CGo s t none ({ s with readers := t :: s.readers }.setPc t .popCheck)
  | rd (hp : s.pcs t = .popRd) (hw : s.writer = none) (he : s.popArr ≠ []) :
      CGo s t none ({ s with readers := t :: s.readers }.setPc t .popAdd)
  | add (hp : s.pcs t = .popAdd) :
      CGo s t none ({ s with nextPop := fetchAdd1 s.nextPop }.setPc t
        (if s.nextPop < s.popArr.length then .popTake s.nextPop else if ISIZE_MAX ≤ s.nextPop then .popStore else .popCheck))
  | take {i b} (hp : s.pcs t = .popTake i) (hi : s.popArr[i]? = some (some b)) :
      CGo s t none ({ s with popArr := s.popArr.set i none }.setPc t (.ret false (.got (some b))))
  | store (hp : s.pcs t = .popStore) : CGo s t none ({ s with nextPop := s.popArr.length }.setPc t .popCheck)
  | check (hp : s.pcs t = .popCheck) : CGo s t none (s.setPc t (.ret false (.got none)))
  | popRet {o} (hp : s.pcs t = .ret false (.got o)) :
      CGo s t (some (.got o)) ({ s with readers := s.readers.erase t }.setPc t .idle)
  | pushRd {b} (hp : s.pcs t = .pushRd b) (hw : s.writer = none) :
      CGo s t none ({ s with readers := t :: s.readers }.setPc t (.pushUnlock b))
  | pushUnlock {b} (hp : s.pcs t = .pushUnlock b) :
      CGo s t none ({ s with readers := s.readers.erase t }.setPc t (.pushWr b))
  | pushWr {b} (hp : s.pcs t = .pushWr b) (hw : s.writer = none) (hr : s.readers = []) :
      CGo s t none ({ s with writer := some t }.setPc t (.pushSlow b))
  | pushSlow {b} (hp : s.pcs t = .pushSlow b)
      (hc : (s.popArr.drop (min s.nextPop s.popArr.length)).length < ISIZE_MAX) :
      CGo s t none ({ s with
        nextPop := 0
        popArr := s.popArr.drop (min s.nextPop s.popArr.length) ++ [some b] }.setPc t (.ret true .unit))
  | pushRet (hp : s.pcs t = .ret true .unit) : CGo s t (some .unit) ({ s with writer := none }.setPc t .idle)

theorem CInv.cgo {T U s K} (h : CInv T U s K) (t : Nat) :
    Blink.cgo s t = .ok none ∨ ∃ r s', Blink.cgo s t = .ok (some (r, s')) ∧ CGo s t r s' := by
  have ht := h.thr t
  obtain ⟨bz, hbz⟩ : ∃ bz, K.busy t = bz := ⟨_, rfl⟩
  obtain ⟨pc, hpc⟩ : ∃ pc, s.pcs t = pc := ⟨_, rfl⟩
  rw [hbz, hpc] at ht
  unfold Blink.cgo
  rw [hpc]
  cases ht with
  | idle => exact .inl rfl
  | popRd =>
    by_cases hw : s.writer = none
    · right
      by_cases he : s.popArr = []
      · refine ⟨_, _, ?_, .rdEmpty hpc hw he⟩
        have : s.popArr.isEmpty = true := by rw [he]; rfl
        simp [hw, this]; rfl
      · refine ⟨_, _, ?_, .rd hpc hw he⟩
        have : s.popArr.isEmpty = false := by cases hl : s.popArr with
          | nil => exact absurd hl he
          | cons => rfl
        simp [hw, this]; rfl
    · left; simp [hw]; rfl
  | popAdd => exact .inr ⟨_, _, rfl, .add hpc⟩
  | popTake =>
    rename_i i
    obtain ⟨_, b, hb⟩ := h.take t i hpc
    refine .inr ⟨_, _, ?_, .take hpc hb⟩
    simp only [hb]; rfl
  | popStore => exact .inr ⟨_, _, rfl, .store hpc⟩
  | popCheck => exact .inr ⟨_, _, by simp only [h.np, if_true]; rfl, .check hpc⟩
  | popRet => exact .inr ⟨_, _, rfl, .popRet hpc⟩
  | pushRd =>
    by_cases hw : s.writer = none
    · refine .inr ⟨_, _, ?_, .pushRd hpc hw⟩
      simp [hw, h.pa]; rfl
    · left; simp [hw]; rfl
  | pushUnlock => exact .inr ⟨_, _, rfl, .pushUnlock hpc⟩
  | pushWr =>
    by_cases hw : s.writer = none ∧ s.readers = []
    · refine .inr ⟨_, _, ?_, .pushWr hpc hw.1 hw.2⟩
      dsimp only
      rw [if_pos hw]; rfl
    · left; dsimp only; rw [if_neg hw]; rfl
  | pushSlow =>
    dsimp only
    rw [ebind_ok h.flush]
    dsimp only
    by_cases hc : (s.popArr.drop (min s.nextPop s.popArr.length)).length < ISIZE_MAX
    · refine .inr ⟨_, _, ?_, .pushSlow hpc hc⟩
      rw [if_pos hc]; rfl
    · left; rw [if_neg hc]; rfl
  | pushRet => exact .inr ⟨_, _, rfl, .pushRet hpc⟩

theorem CInv.go {T U s K} (hT : T ≤ ISIZE) (h : CInv T U s K) {t : Nat} {r s' K'} (hg : CGo s t r s')
    (ha : CAfter K (.go t) r K') : CInv T U s' K' := by
  have hthr := h.thr t
  have hlt : s.pcs t ≠ .idle → t < T := h.lt
  cases hg with
  | rdEmpty hp hw he =>
    cases ha
    rw [hp] at hthr
    refine h.move (hlt (by rw [hp]; simp)) (pc := .popCheck) rfl rfl rfl rfl ?_ (by rw [hp]; simp) (by simp) rfl (by rw [hp]; rfl)
      (fun _ _ => rfl) (by cases hb : K.busy t with | none => rw [hb] at hthr; cases hthr | some c => rw [hb] at hthr; cases hthr; exact .popCheck) (by intro b; rw [hp]; rfl)
    exact h.lock.acqR (t := t) (fun u hu => put_ne _ _ hu) hw (by rw [hp]; rfl) (by rw [CS.setPc_pcs, put_same]; rfl)
      (by rw [CS.setPc_pcs, put_same]; rfl)
  | rd hp hw he =>
    cases ha
    rw [hp] at hthr
    refine h.move (hlt (by rw [hp]; simp)) (pc := .popAdd) rfl rfl rfl rfl ?_ (by rw [hp]; simp) (by simp) rfl (by rw [hp]; rfl)
      (fun _ _ => rfl) (by cases hb : K.busy t with | none => rw [hb] at hthr; cases hthr | some c => rw [hb] at hthr; cases hthr; exact .popAdd) (by intro b; rw [hp]; rfl)
    exact h.lock.acqR (t := t) (fun u hu => put_ne _ _ hu) hw (by rw [hp]; rfl) (by rw [CS.setPc_pcs, put_same]; rfl)
      (by rw [CS.setPc_pcs, put_same]; rfl)
  | add hp =>
    cases ha
    rw [hp] at hthr
    refine h.add hT hp ?_ rfl
    cases hb : K.busy t with
    | none => rw [hb] at hthr; cases hthr
    | some c => rw [hb] at hthr; cases hthr; rfl
  | take hp hi =>
    cases ha
    rw [hp] at hthr
    refine h.takeOut hp ?_ hi
    cases hb : K.busy t with
    | none => rw [hb] at hthr; cases hthr
    | some c => rw [hb] at hthr; cases hthr; rfl
  | store hp =>
    cases ha
    rw [hp] at hthr
    refine h.store hp ?_
    cases hb : K.busy t with
    | none => rw [hb] at hthr; cases hthr
    | some c => rw [hb] at hthr; cases hthr; rfl
  | check hp =>
    cases ha
    rw [hp] at hthr
    refine h.move (hlt (by rw [hp]; simp)) (pc := .ret false (.got none)) rfl rfl rfl rfl ?_ (by rw [hp]; simp) (by simp) rfl (by rw [hp]; rfl)
      (fun _ _ => rfl) (by cases hb : K.busy t with | none => rw [hb] at hthr; cases hthr | some c => rw [hb] at hthr; cases hthr; exact .popRet) (by intro b; rw [hp]; rfl)
    exact h.lock.same (t := t) (fun u hu => put_ne _ _ hu) (by rw [hp]; rw [CS.setPc_pcs, put_same]; rfl)
      (by rw [hp]; rw [CS.setPc_pcs, put_same]; rfl)
  | popRet hp =>
    rw [hp] at hthr
    have hlk : CLock (s.readers.erase t) s.writer (({ s with readers := s.readers.erase t } : CS).setPc t .idle).pcs :=
      h.lock.relR (t := t) (fun u hu => put_ne _ _ hu) (by rw [hp]; rfl) (by rw [CS.setPc_pcs, put_same]; rfl)
        (by rw [CS.setPc_pcs, put_same]; rfl)
    cases ha with
    | empty =>
      refine h.move (hlt (by rw [hp]; simp)) (pc := .idle) rfl rfl rfl rfl hlk (by rw [hp]; simp) (by simp) rfl (by rw [hp]; rfl)
        (fun u hu => put_ne _ _ hu) (by rw [show ({ K with busy := put K.busy t none } : CBook).busy t = none from put_same ..]; exact .idle)
        (by intro b; rw [hp]; rfl)
    | got =>
      rename_i b
      refine h.move (hlt (by rw [hp]; simp)) (pc := .idle) rfl rfl rfl rfl hlk (by rw [hp]; simp) (by simp) rfl (by rw [hp]; rfl)
        (fun u hu => put_ne _ _ hu) (by rw [show ({ out := b :: K.out, busy := put K.busy t none } : CBook).busy t = none from put_same ..]; exact .idle)
        (by intro c; rw [hp]; simp [CPc.hand, List.count_cons])
  | pushRd hp hw =>
    cases ha
    rename_i b
    rw [hp] at hthr
    refine h.move (hlt (by rw [hp]; simp)) (pc := .pushUnlock b) rfl rfl rfl rfl ?_ (by rw [hp]; simp) (by simp) rfl (by rw [hp]; rfl)
      (fun _ _ => rfl) (by cases hb : K.busy t with | none => rw [hb] at hthr; cases hthr | some c => rw [hb] at hthr; cases hthr; exact .pushUnlock) (by intro b; rw [hp]; rfl)
    exact h.lock.acqR (t := t) (fun u hu => put_ne _ _ hu) hw (by rw [hp]; rfl) (by rw [CS.setPc_pcs, put_same]; rfl)
      (by rw [CS.setPc_pcs, put_same]; rfl)
  | pushUnlock hp =>
    cases ha
    rename_i b
    rw [hp] at hthr
    refine h.move (hlt (by rw [hp]; simp)) (pc := .pushWr b) rfl rfl rfl rfl ?_ (by rw [hp]; simp) (by simp) rfl (by rw [hp]; rfl)
      (fun _ _ => rfl) (by cases hb : K.busy t with | none => rw [hb] at hthr; cases hthr | some c => rw [hb] at hthr; cases hthr; exact .pushWr) (by intro b; rw [hp]; rfl)
    exact h.lock.relR (t := t) (fun u hu => put_ne _ _ hu) (by rw [hp]; rfl) (by rw [CS.setPc_pcs, put_same]; rfl)
        (by rw [CS.setPc_pcs, put_same]; rfl)
  | pushWr hp hw hr =>
    cases ha
    rename_i b
    rw [hp] at hthr
    refine h.move (hlt (by rw [hp]; simp)) (pc := .pushSlow b) rfl rfl rfl rfl ?_ (by rw [hp]; simp) (by simp) rfl (by rw [hp]; rfl)
      (fun _ _ => rfl) (by cases hb : K.busy t with | none => rw [hb] at hthr; cases hthr | some c => rw [hb] at hthr; cases hthr; exact .pushSlow) (by intro b; rw [hp]; rfl)
    exact h.lock.acqW (t := t) (fun u hu => put_ne _ _ hu) hw hr (by rw [CS.setPc_pcs, put_same]; rfl)
        (by rw [CS.setPc_pcs, put_same]; rfl)
  | pushSlow hp hc =>
    cases ha
    rw [hp] at hthr
    refine h.slow hp ?_ hc
    cases hb : K.busy t with
    | none => rw [hb] at hthr; cases hthr
    | some c => rw [hb] at hthr; cases hthr; rfl
  | pushRet hp =>
    cases ha
    refine h.move (hlt (by rw [hp]; simp)) (pc := .idle) rfl rfl rfl rfl ?_ (by rw [hp]; simp) (by simp) rfl (by rw [hp]; rfl)
        (fun u hu => put_ne _ _ hu) (by rw [show ({ K with busy := put K.busy t none } : CBook).busy t = none from put_same ..]; exact .idle)
        (by intro b; rw [hp]; rfl)
    exact h.lock.relW (t := t) (fun u hu => put_ne _ _ hu) (by rw [hp]; rfl) (by rw [CS.setPc_pcs, put_same]; rfl)
        (by rw [CS.setPc_pcs, put_same]; rfl)

theorem CRun.inv {T U tr s K} (hT : T ≤ ISIZE) (h : CRun T U tr s K) : CInv T U s K := by
  induction h with
  | nil => exact CInv.init T U
  | snoc _ hl hs ha ih =>
    rename_i _ _ _ a r s' K' _
    cases a with
    | call t c => exact ih.call hl hs ha
    | go t =>
      rcases ih.cgo t with h1 | ⟨r1, s1, h1, hg⟩
      · have hs : Blink.cgo _ t = _ := hs
        rw [h1] at hs; cases hs
      · have hs : Blink.cgo _ t = _ := hs
        rw [h1] at hs; cases hs
        exact ih.go hT hg ha

/-! ### The queue -/

/-- What the atomic queue says about a thread at this point. -/
def cstat (s : CS) : CPc → QStat
  | .idle => .idle
  | .popRd | .popAdd | .popUnlock | .popWr | .popSlow => .called .pop
  | .popTake i => .done (.got (s.popArr[i]?.join))
  | .popStore | .popCheck => .done (.got none)
  | .pushRd b | .pushAdd b | .pushWrite b _ | .pushStore b | .pushUnlock b | .pushWr b | .pushSlow b => .called (.push b)
  | .ret _ r => .done r

structure CSim (s : CS) (q : Queue) : Prop where
  items : q.items.map some = s.popArr.drop s.nextPop
  stat : ∀ t, q.stat t = cstat s (s.pcs t)

theorem cstat_congr {s s' : CS} {pc : CPc} (h : ∀ i, pc = .popTake i → s'.popArr[i]? = s.popArr[i]?) :
    cstat s' pc = cstat s pc := by
  cases pc <;> simp only [cstat]
  rw [h _ rfl]

/-- Thread `t` moves; the others see nothing of it. -/
theorem CSim.move {s q} (h : CSim s q) {t : Nat} {s' : CS} {pc : CPc} {items' : List Nat} {st : QStat}
    (hp : s'.pcs = put s.pcs t pc) (hit : items'.map some = s'.popArr.drop s'.nextPop)
    (hc : ∀ u i, u ≠ t → s.pcs u = .popTake i → s'.popArr[i]? = s.popArr[i]?)
    (hst : cstat s' pc = st) : CSim s' ⟨items', put q.stat t st⟩ where
  items := hit
  stat := by
    intro u
    rw [hp]
    show put q.stat t st u = _
    by_cases hu : u = t
    · subst hu; rw [put_same, put_same, hst]
    · rw [put_ne _ _ hu, put_ne _ _ hu, h.stat u]
      exact (cstat_congr (fun i hi => hc u i hu hi)).symm

/-- As before, nothing observable happens. -/
theorem CSim.quiet {s q} (h : CSim s q) {t : Nat} {s' : CS} {pc : CPc} (hp : s'.pcs = put s.pcs t pc)
    (hit : s'.popArr.drop s'.nextPop = s.popArr.drop s.nextPop)
    (hc : ∀ u i, u ≠ t → s.pcs u = .popTake i → s'.popArr[i]? = s.popArr[i]?)
    (hst : cstat s' pc = cstat s (s.pcs t)) : CSim s' q := by
  have := h.move (items' := q.items) hp (by rw [h.items, hit]) hc hst
  rw [← h.stat t, put_self] at this
  exact this

theorem CSim.go {T U s K q} (hT : T ≤ ISIZE) (hI : CInv T U s K) (h : CSim s q) {t : Nat} {r s'} (hg : CGo s t r s') :
    (r = none ∧ CSim s' q) ∨ (r = none ∧ ∃ q', QStep q none q' ∧ CSim s' q') ∨
      (∃ x q', r = some x ∧ QStep q (some (.go t, some x)) q' ∧ CSim s' q') := by
  have hst := h.stat t
  cases hg with
  | rdEmpty hp hw he =>
    right; left
    rw [hp] at hst
    have hq : q.items = [] := by
      have := h.items
      rw [he] at this
      simpa using this
    refine ⟨rfl, _, .none hst hq, ?_⟩
    exact h.move (items' := q.items) rfl h.items (fun _ _ _ _ => rfl) rfl
  | rd hp hw he =>
    left; refine ⟨rfl, h.quiet (t := t) rfl rfl (fun _ _ _ _ => rfl) ?_⟩
    rw [hp]; rfl
  | add hp =>
    right; left
    rw [hp] at hst
    have hw := hI.noWrap hT hp
    refine ⟨rfl, ?_⟩
    rw [fetchAdd1_eq hw]
    by_cases hlt : s.nextPop < s.popArr.length
    · rw [if_pos hlt]
      obtain ⟨b, hb⟩ := hI.live _ (Nat.le_refl _) hlt
      have hd := h.items
      rw [List.drop_eq_getElem_cons hlt] at hd
      have hb' : s.popArr[s.nextPop] = some b := by
        rw [List.getElem?_eq_getElem hlt] at hb
        exact Option.some.inj hb
      cases hq : q.items with
      | nil => rw [hq] at hd; cases hd
      | cons c l =>
        rw [hq, List.map_cons] at hd
        have h1 := (List.cons.inj hd).1
        rw [hb'] at h1
        cases h1
        refine ⟨_, .pop hst hq, ?_⟩
        exact h.move (items' := l) rfl (List.cons.inj hd).2 (fun _ _ _ _ => rfl)
          (show QStat.done (.got (s.popArr[s.nextPop]?.join)) = _ by rw [hb]; rfl)
    · rw [if_neg hlt]
      have hq : q.items = [] := by
        have := h.items
        rw [List.drop_eq_nil_of_le (by omega)] at this
        simpa using this
      refine ⟨_, .none hst hq, ?_⟩
      refine h.move (items' := q.items) rfl ?_ (fun _ _ _ _ => rfl) ?_
      · rw [hq]; exact (List.drop_eq_nil_of_le (by show s.popArr.length ≤ s.nextPop + 1; omega)).symm
      · split <;> rfl
  | take hp hi =>
    rename_i i b
    have hin := (hI.take t i hp).1
    left; refine ⟨rfl, h.quiet (t := t) rfl ?_ ?_ ?_⟩
    · show (s.popArr.set i none).drop s.nextPop = _
      exact List.drop_set_of_lt hin
    · intro u j hu hj
      show (s.popArr.set i none)[j]? = _
      have : i ≠ j := fun he => hu (hI.inj u t j hj (he ▸ hp))
      rw [List.getElem?_set_ne this]
    · rw [hp]
      show QStat.done (.got (some b)) = .done (.got (s.popArr[i]?.join))
      rw [hi]; rfl
  | store hp =>
    have hf := hI.full t hp
    left; refine ⟨rfl, h.quiet (t := t) rfl ?_ (fun _ _ _ _ => rfl) (by rw [hp]; rfl)⟩
    show s.popArr.drop s.popArr.length = _
    rw [List.drop_length, List.drop_eq_nil_of_le hf]
  | check hp =>
    left; exact ⟨rfl, h.quiet (t := t) rfl rfl (fun _ _ _ _ => rfl) (by rw [hp]; rfl)⟩
  | popRet hp =>
    right; right
    rw [hp] at hst
    exact ⟨_, _, rfl, .ret hst, h.move (items' := q.items) rfl h.items (fun _ _ _ _ => rfl) rfl⟩
  | pushRd hp hw =>
    left; exact ⟨rfl, h.quiet (t := t) rfl rfl (fun _ _ _ _ => rfl) (by rw [hp]; rfl)⟩
  | pushUnlock hp =>
    left; exact ⟨rfl, h.quiet (t := t) rfl rfl (fun _ _ _ _ => rfl) (by rw [hp]; rfl)⟩
  | pushWr hp hw hr =>
    left; exact ⟨rfl, h.quiet (t := t) rfl rfl (fun _ _ _ _ => rfl) (by rw [hp]; rfl)⟩
  | pushSlow hp hc =>
    rename_i b
    right; left
    rw [hp] at hst
    refine ⟨rfl, _, .push hst, ?_⟩
    rw [drop_min]
    refine h.move (items' := q.items ++ [b]) rfl ?_ ?_ rfl
    · rw [List.map_append, h.items]; rfl
    · intro u i _ hu
      exact absurd hu (hI.quiet (t := t) (by rw [hp]; rfl) u i).1
  | pushRet hp =>
    right; right
    rw [hp] at hst
    exact ⟨_, _, rfl, .ret hst, h.move (items' := q.items) rfl h.items (fun _ _ _ _ => rfl) rfl⟩

theorem CRun.sim {T U tr s K} (hT : T ≤ ISIZE) (h : CRun T U tr s K) : ∃ q, QRun (visible tr) q ∧ CSim s q := by
  induction h with
  | nil => exact ⟨Queue.init, .nil, ⟨rfl, fun _ => rfl⟩⟩
  | snoc hr hl hs ha ih =>
    rename_i tr s K a r s' K'
    obtain ⟨q, hq, hsim⟩ := ih
    have hI := hr.inv hT
    have hv : visible (tr ++ [(a, r)]) = visible tr ++ visible [(a, r)] := by simp [visible]
    rw [hv]
    cases a with
    | call t c =>
      have hi : s.pcs t = .idle := by
        by_cases hi : s.pcs t = .idle
        · exact hi
        · simp [cstep, hi, pure, Except.pure] at hs
      simp only [cstep, hi, if_true, pure, Except.pure, Except.ok.injEq, Option.some.injEq, Prod.mk.injEq] at hs
      obtain ⟨hrn, hs⟩ := hs
      subst hs; subst hrn
      have hst := hsim.stat t
      rw [hi] at hst
      refine ⟨_, .seen hq (.call (c := c) hst), ?_⟩
      refine hsim.move (items' := q.items) rfl hsim.items (fun _ _ _ _ => rfl) ?_
      cases c <;> rfl
    | go t =>
      have hs : Blink.cgo s t = _ := hs
      rcases hI.cgo t with h1 | ⟨r1, s1, h1, hg⟩
      · rw [h1] at hs; cases hs
      · rw [h1] at hs; cases hs
        rcases hsim.go hT hI hg with ⟨h2, h3⟩ | ⟨h2, q', h3, h4⟩ | ⟨x, q', h2, h3, h4⟩
        · subst h2; exact ⟨q, by simpa [visible] using hq, h3⟩
        · subst h2; exact ⟨q', .quiet (by simpa [visible] using hq) h3, h4⟩
        · subst h2; exact ⟨q', .seen hq h3, h4⟩

end Blink
