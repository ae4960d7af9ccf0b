import Verif.Proofs.ProxyTwin
/-
  Step by step: whatever happens, the `BlinkAlloc` can follow the proxy.
-/
namespace Blink

/-- The call of a `BlinkAlloc` corresponding to a call of a proxy. -/
def PCall.op : PCall → Op
  | .allocate l => .allocate l
  | .resize p old new => .resize p old new
  | .resetUnchecked => .reset

/-- The history, with a reset that has begun taken for done. -/
def PView.shown (v : PView) : List (Op × Resp) :=
  v.done ++ match v.wait with
    | some .reset => [(.reset, .unit)]
    | _ => []

theorem PView.shown_none {v : PView} (h : v.wait = none) : v.shown = v.done := by simp [PView.shown, h]

theorem PView.shown_call {v : PView} (h : v.wait = none) {op : Op} (ho : op ≠ .reset) (r : Option Resp) :
    (v.call op r).shown = v.shown ++ retOf op r := by
  rw [v.shown_none h]
  cases r with
  | some r => simp [PView.call, PView.shown, retOf]
  | none =>
    cases op <;> simp [PView.call, PView.shown, retOf] at ho ⊢

theorem PView.shown_reset {v : PView} (h : v.wait = none) {r : Option Resp} (hr : r = none ∨ r = some .unit) :
    (v.call .reset r).shown = v.shown ++ [(.reset, .unit)] := by
  rw [v.shown_none h]
  rcases hr with rfl | rfl <;> simp [PView.call, PView.shown]

/-! ### Steps of others -/

theorem PView.next_other {i : Nat} {v : PView} {a : PAct} (ha : a.who ≠ some i) (r : Option Resp) : v.next i (a, r) = v := by
  cases a with
  | shared a =>
    cases a with
    | go t ch =>
      have : t ≠ i := fun e => ha (by rw [e]; rfl)
      cases r with
      | none => rfl
      | some r => simp [PView.next, this]
    | _ => rfl
  | spawn j k => have : j ≠ i := fun e => ha (by rw [e]; rfl); simp [PView.next, this]
  | allocate j l => have : j ≠ i := fun e => ha (by rw [e]; rfl); simp [PView.next, this]
  | resize j p o n => have : j ≠ i := fun e => ha (by rw [e]; rfl); simp [PView.next, this]
  | deallocate j p n => have : j ≠ i := fun e => ha (by rw [e]; rfl); simp [PView.next, this]
  | reset j => have : j ≠ i := fun e => ha (by rw [e]; rfl); simp [PView.next, this]
  | resetUnchecked j => have : j ≠ i := fun e => ha (by rw [e]; rfl); simp [PView.next, this]
  | drop j => rfl
  | updateMax => rfl
  | sync => rfl

theorem PS.given_other {ps : PS} {i : Nat} {a : PAct} (ha : a.who ≠ some i) : ps.given i a = [] := by
  cases a with
  | shared a =>
    cases a with
    | go t ch =>
      have : t ≠ i := fun e => ha (by rw [e]; rfl)
      simp [PS.given, this]
    | _ => rfl
  | _ => rfl

theorem PBook.enter_other {K : PBook} {i j : Nat} (h : i ≠ j) (left c ob) (r : Option Resp) :
    (K.enter j left c ob r).led i = K.led i ∧ (K.enter j left c ob r).pbusy i = K.pbusy i := by
  cases r with
  | none => exact ⟨put_ne _ _ h, put_ne _ _ h⟩
  | some r => exact ⟨put_ne _ _ h, rfl⟩

theorem PAfter.other {m K a r K'} (h : PAfter m K a r K') {i : Nat} (ha : a.who ≠ some i) :
    K'.led i = K.led i ∧ K'.pbusy i = K.pbusy i := by
  cases h with
  | direct => exact ⟨rfl, rfl⟩
  | back =>
    have hne : i ≠ _ := fun e => ha (by rw [e]; rfl)
    exact ⟨put_ne _ _ hne, put_ne _ _ hne⟩
  | spawn => exact ⟨rfl, rfl⟩
  | allocate => exact PBook.enter_other (fun e => ha (by rw [e]; rfl)) _ _ _ _
  | resize => exact PBook.enter_other (fun e => ha (by rw [e]; rfl)) _ _ _ _
  | deallocate => exact ⟨put_ne _ _ (fun e => ha (by rw [e]; rfl)), rfl⟩
  | reset => exact ⟨put_ne _ _ (fun e => ha (by rw [e]; rfl)), rfl⟩
  | resetUnchecked => exact PBook.enter_other (fun e => ha (by rw [e]; rfl)) _ _ _ _
  | drop => exact ⟨put_ne _ _ (fun e => ha (by rw [e]; rfl)), rfl⟩
  | updateMax => exact ⟨rfl, rfl⟩
  | sync => exact ⟨rfl, rfl⟩

/-! ### The call waited for -/

theorem PView.next_wait {p0 ps ps' K K' KS cs pend} (h : PInv p0 ps K KS cs pend) {i : Nat} {v : PView} {a r}
    (hv : v.wait = (K.pbusy i).map (·.1.op)) (hl : PLegal K a) (hs : pstep ps a = .ok (some (r, ps')))
    (ha : PAfter ps.s.w.mem K a r K') : (v.next i (a, r)).wait = (K'.pbusy i).map (·.1.op) := by
  by_cases hw : a.who = some i
  · cases ha with
    | @direct a r D hA hr =>
      cases a with
      | go t ch =>
        injection hw with hw; subst hw
        cases r with
        | none => exact hv
        | some r =>
          have hb : K.pbusy t = none := by
            rcases hr with hr | hr
            · cases hr
            · exact hr t ch rfl
          rw [hb] at hv
          simp only [PView.next, if_pos, hv, hb, Option.map_none]
      | _ => cases hw
    | @back t ch c ob r hb =>
      injection hw with hw; subst hw
      rw [hb] at hv
      simp only [PView.next, if_pos, hv, put_same, Option.map_none, Option.map_some]
    | @spawn j k =>
      injection hw with hw; subst hw
      cases hl with
      | spawn hd =>
      have hx := h.px j
      rw [hd] at hx
      simp [PView.next, hx.dead.2.2.1]
    | @allocate j l r =>
      injection hw with hw; subst hw
      cases hl with
      | allocate hr hm =>
      cases r with
      | none => simp [PView.next, PView.call, PBook.enter, PCall.op, put_same]
      | some r => simp [PView.next, PView.call, PBook.enter, hr.2.1]
    | @resize j b p old new r =>
      injection hw with hw; subst hw
      cases hl with
      | resize hr =>
      cases r with
      | none => simp [PView.next, PView.call, PBook.enter, PCall.op, put_same]
      | some r => simp [PView.next, PView.call, PBook.enter, hr.2.1]
    | @deallocate j b p n =>
      injection hw with hw; subst hw
      cases hl with
      | deallocate hr => simp [PView.next, PView.call, hr.2.1]
    | @reset j =>
      injection hw with hw; subst hw
      cases hl with
      | reset hr => simp [PView.next, PView.call, hr.2.1]
    | @resetUnchecked j r =>
      injection hw with hw; subst hw
      cases hl with
      | resetUnchecked hr =>
      cases r with
      | none => simp [PView.next, PView.call, PBook.enter, PCall.op, put_same]
      | some r => simp [PView.next, PView.call, PBook.enter, hr.2.1]
    | @drop j => exact hv
    | updateMax => cases hw
    | sync => cases hw
  · rw [PView.next_other hw, (ha.other hw).2, hv]

/-! ### One step -/

theorem drop_px {ps ps' : PS} {i r} (h : pstep ps (.drop i) = .ok (some (r, ps'))) : ps'.px i = none := by
  simp only [pstep] at h
  split at h
  · obtain ⟨x, _, h⟩ := ebind_inv h
    obtain ⟨y, _, h⟩ := ebind_inv h
    obtain ⟨z, _, h⟩ := ebind_inv h
    injection h with h; injection h with h; injection h with _ h; subst h
    exact PS.setPx_same _ _ _
  · cases h


theorem SameBody.setByte {cs m1 m2} (h : SameBody cs m1 m2) (x : Nat) (v : Byte) :
    SameBody cs (setBytes m1 x 1 fun _ => v) (setBytes m2 x 1 fun _ => v) := by
  intro y hy
  have := h y hy
  simp only [setBytes]
  split
  · rfl
  · exact this

namespace Mirror

variable {p0 ps ps' : PS} {K K' : PBook} {KS : Book} {i : Nat} {p p' : Proxy} {calls : List (Op × Resp)} {n : Nat} {s0 : St}
  {tr : List (Op × Resp)} {s : St} {L : List Owned} {cs : List Chunk} {csP pend : Nat → List Chunk}

/-- A byte is stored. -/
theorem store (M : Mirror ps K i p calls n s0 tr s L cs) (h : PInv p0 ps K KS csP pend) (hp : ps.px i = some p) {x v r}
    (hl : PLegal K (.shared (.write x v))) (hs : pstep ps (.shared (.write x v)) = .ok (some (r, ps')))
    (ha : PAfter ps.s.w.mem K (.shared (.write x v)) r K') (hp' : ps'.px i = some p') :
    ∃ tr' s' L' cs', Mirror ps' K' i p' calls n s0 tr' s' L' cs' := by
  have hpx := pstep_px hs (u := i) (by simp [PAct.who])
  rw [hp, hp'] at hpx
  injection hpx with hpx
  obtain ⟨k1, k2⟩ := ha.other (i := i) (by simp [PAct.who])
  have hB : K'.blocks i = K.blocks i := by simp only [PBook.blocks, k1, k2]
  have he : ps'.s.w = { ps.s.w with mem := setBytes ps.s.w.mem x 1 (fun _ => v) } := by
    simp only [pstep, sstep] at hs
    injection hs with hs; injection hs with hs; injection hs with _ hs; subst hs; rfl
  by_cases hin : ∃ b ∈ K.led i, b.Has x
  · obtain ⟨b, hb, hx⟩ := hin
    have hbL : b ∈ L := M.led.mem_iff.mpr (List.mem_append_right _ hb)
    have hst : Blink.step s (.write x v) = .ok (.unit, ⟨{ s.w with mem := setBytes s.w.mem x 1 (fun _ => v) }, s.a⟩) := rfl
    obtain ⟨cs', ⟨_, _, hcs⟩, hi⟩ := M.inv.step_ok (.write hbL hx) hst .write
    subst hcs
    refine ⟨_, _, _, _, M.call (.write hbL hx) hst .write hi (by rw [hpx]; exact M.a) ?_ (by rw [hB]; exact M.led) ?_ (by rw [he])
      (by simp [callsIn]) M.count⟩
    · rw [he]
      exact AInv.setUsed (f := fun _ => v) M.arena (.inr (M.inv.led.byte hbL hx))
    · rw [he]
      exact M.body.setByte x v
  · refine ⟨tr, s, L, cs, M.frame h hp (fun y hy => ?_) (by rw [he]) (by rw [hpx]) (by rw [hB]) rfl⟩
    rw [he]
    show setBytes ps.s.w.mem x 1 (fun _ => v) y = ps.s.w.mem y
    apply setBytes_out
    apply Decidable.byContradiction
    intro hne
    have hyx : y = x := by omega
    subst hyx
    cases hl with
    | write hd =>
      cases hd with
      | write ho hx => exact h.sepD ho hx hy
    | @pwrite j b _ _ hb hx =>
      by_cases hj : j = i
      · subst hj; exact hin ⟨b, hb, hx⟩
      · exact h.sep hj hy ((h.led_used (.inl hb) hx).inCs (fun c hc => (h.px j).ok c (List.mem_append_left _ hc))).left
    | sreset hr => rcases hr with hr | hr | hr <;> cases hr

/-- Somebody else does something. -/
theorem others (M : Mirror ps K i p calls n s0 tr s L cs) (h : PInv p0 ps K KS csP pend) {a r} (hE : PEff ps K csP pend a r ps')
    (hp : ps.px i = some p) (hw : ∀ x v, a ≠ .shared (.write x v)) (hwho : a.who ≠ some i) (hs : pstep ps a = .ok (some (r, ps')))
    (ha : PAfter ps.s.w.mem K a r K') (hp' : ps'.px i = some p') (ht : ps'.s.w.top = ps.s.w.top) :
    ∃ tr' s' L' cs', Mirror ps' K' i p' calls n s0 tr' s' L' cs' := by
  have hpx := pstep_px hs hwho
  rw [hp, hp'] at hpx
  injection hpx with hpx
  obtain ⟨k1, k2⟩ := ha.other hwho
  refine ⟨tr, s, L, cs, M.frame h hp (fun x hx => hE.kept i x hx (hw x) ?_) ht (by rw [hpx]) (by simp only [PBook.blocks, k1, k2, List.Perm.refl]) rfl⟩
  intro hc
  apply hwho
  cases a with
  | shared a => cases hc
  | spawn | updateMax | sync => cases hc
  | _ => exact hc

/-- A step of the thread of the proxy inside the shared allocator. -/
theorem goes {ch : Choice} {v : PView} (M : Mirror ps K i p v.shown n s0 tr s L cs) (h : PInv p0 ps K KS csP pend) {r}
    (hE : PEff ps K csP pend (.shared (.go i ch)) r ps') (hp : ps.px i = some p) (hv : v.wait = (K.pbusy i).map (·.1.op))
    (hs : pstep ps (.shared (.go i ch)) = .ok (some (r, ps'))) (ha : PAfter ps.s.w.mem K (.shared (.go i ch)) r K')
    (hp' : ps'.px i = some p') (ht : ps'.s.w.top = ps.s.w.top)
    (ho : ∀ k o, (ps.given i (.shared (.go i ch)))[k]? = some o → s0.w.oracle (n + k) = o) :
    ∃ tr' s' L' cs', Mirror ps' K' i p' (v.next i (.shared (.go i ch), r)).shown (n + (ps.given i (.shared (.go i ch))).length) s0 tr' s' L' cs' := by
  have frame : ps'.px i = ps.px i → K'.blocks i = K.blocks i →
      ∃ tr' s' L' cs', Mirror ps' K' i p' v.shown n s0 tr' s' L' cs' := by
    intro hpx hB
    rw [hp, hp'] at hpx
    injection hpx with hpx
    exact ⟨tr, s, L, cs, M.frame h hp (fun x hx => hE.kept i x hx (by simp) (by simp [PAct.proxy])) ht (by rw [hpx]) (by rw [hB]) rfl⟩
  have hs0 := hs
  simp only [pstep] at hs
  obtain ⟨x, hss, hs⟩ := ebind_inv hs
  match x, hss, hs with
  | none, hss, hs => cases hs
  | some (none, s'), hss, hs =>
    injection hs with hs; injection hs with hs; injection hs with e1 e2
    subst e1; subst e2
    have hg : ps.given i (.shared (.go i ch)) = [] := by simp [PS.given, hss]
    rw [hg]
    refine frame rfl ?_
    cases ha
    rfl
  | some (some r0, s'), hss, hs =>
    rw [hp] at hs
    simp only at hs
    have hgo : ∀ {r1 : Resp} {op : Op}, v.wait = some op → v.next i (.shared (.go i ch), some r1) = ⟨v.done ++ [(op, r1)], none⟩ := by
      intro r1 op hop
      simp [PView.next, hop]
    cases hpc : p.pc with
    | idle =>
      rw [if_pos hpc] at hs
      injection hs with hs; injection hs with hs; injection hs with e1 e2
      subst e1; subst e2
      have hb := h.at_idle hp hpc
      have hg : ps.given i (.shared (.go i ch)) = [] := by simp [PS.given, hss, hp, hpc]
      rw [hb] at hv
      have hnx : v.next i (.shared (.go i ch), some r0) = v := by simp [PView.next, hv]
      rw [hg, hnx]
      refine frame rfl ?_
      cases ha with
      | direct => rfl
      | back hb' => rw [hb] at hb'; cases hb'
    | alloc l =>
      have hg : ps.given i (.shared (.go i ch)) = [r0.slice?] := by simp [PS.given, hss, hp, hpc]
      obtain ⟨R, hb, _⟩ := h.at_alloc hp hpc
      rw [hb] at hv
      rw [hg] at ho
      obtain ⟨r1, rfl, tr', s1, L', cs', M'⟩ := M.resumeAlloc h hp hpc hss hs0 ha hp' (ho 0 _ rfl)
      rw [hgo hv, hg]
      have : v.shown = v.done := by simp [PView.shown, hv, PCall.op]
      rw [this] at M'
      exact ⟨tr', s1, L', cs', by simpa [PView.shown, PCall.op] using M'⟩
    | resize q old new =>
      have hg : ps.given i (.shared (.go i ch)) = [r0.slice?] := by simp [PS.given, hss, hp, hpc]
      obtain ⟨R, b, hb, _⟩ := h.at_resize hp hpc
      rw [hb] at hv
      rw [hg] at ho
      obtain ⟨r1, rfl, tr', s1, L', cs', M'⟩ := M.resumeResize h hp hpc hss hs0 ha hp' (ho 0 _ rfl)
      rw [hgo hv, hg]
      have : v.shown = v.done := by simp [PView.shown, hv, PCall.op]
      rw [this] at M'
      exact ⟨tr', s1, L', cs', by simpa [PView.shown, PCall.op] using M'⟩
    | chain q =>
      have hg : ps.given i (.shared (.go i ch)) = [] := by simp [PS.given, hss, hp, hpc]
      obtain ⟨hb, _⟩ := h.at_chain hp hpc
      rw [hb] at hv
      obtain ⟨hr, tr', s1, L', cs', M'⟩ := M.resumeChain h hE hp hpc hss hs0 ha hp' ht
      have : v.shown = v.done ++ [(.reset, .unit)] := by simp [PView.shown, hv, PCall.op]
      rw [this] at M'
      rw [hg]
      refine ⟨tr', s1, L', cs', ?_⟩
      rcases hr with rfl | rfl
      · show Mirror ps' K' i p' v.shown _ s0 tr' s1 L' cs'
        rw [this]; exact M'
      · rw [hgo hv]
        simpa [PView.shown, PCall.op] using M'

theorem follow {v : PView} (M : Mirror ps K i p v.shown n s0 tr s L cs) (h : PInv p0 ps K KS csP pend) {a r}
    (hE : PEff ps K csP pend a r ps') (hp : ps.px i = some p) (hv : v.wait = (K.pbusy i).map (·.1.op))
    (hl : PLegal K a) (hs : pstep ps a = .ok (some (r, ps'))) (ha : PAfter ps.s.w.mem K a r K')
    (hp' : ps'.px i = some p') (ht : ps'.s.w.top = ps.s.w.top)
    (ho : ∀ k o, (ps.given i a)[k]? = some o → s0.w.oracle (n + k) = o) :
    ∃ tr' s' L' cs', Mirror ps' K' i p' (v.next i (a, r)).shown (n + (ps.given i a).length) s0 tr' s' L' cs' := by
  have hready : K.Ready i → v.wait = none := by
    intro hr
    rw [hv, hr.2.1]; rfl
  by_cases hwho : a.who = some i
  · cases a with
    | shared a =>
      cases a with
      | go t ch =>
        injection hwho with hwho; subst hwho
        exact M.goes h hE hp hv hs ha hp' ht ho
      | _ => cases hwho
    | spawn j k =>
      injection hwho with hwho; subst hwho
      simp only [pstep, hp] at hs
      cases hs
    | allocate j l =>
      injection hwho with hwho; subst hwho
      cases hl with
      | allocate hr hm =>
      obtain ⟨tr', s', L', cs', M'⟩ := M.allocate h hp hr hm hs ha hp'
      refine ⟨tr', s', L', cs', ?_⟩
      simp only [PView.next, if_pos, PView.shown_call (hready hr) (show Op.allocate l ≠ .reset by simp)]
      exact M'
    | resize j q old new =>
      injection hwho with hwho; subst hwho
      cases hl with
      | resize hr hb hf hm =>
      obtain ⟨tr', s', L', cs', M'⟩ := M.resize h hp hr hb hf hm hs ha hp'
      refine ⟨tr', s', L', cs', ?_⟩
      simp only [PView.next, if_pos, PView.shown_call (hready hr) (show Op.resize q old new ≠ .reset by simp)]
      exact M'
    | deallocate j q len =>
      injection hwho with hwho; subst hwho
      cases hl with
      | deallocate hr hb hf =>
      obtain ⟨tr', s', L', cs', M'⟩ := M.deallocate h hp hr hb hf hs ha hp'
      refine ⟨tr', s', L', cs', ?_⟩
      simp only [PView.next, if_pos, PView.shown_call (hready hr) (show Op.deallocate q len ≠ .reset by simp)]
      exact M'
    | reset j =>
      injection hwho with hwho; subst hwho
      cases hl with
      | reset hr =>
      obtain ⟨e, tr', s', L', cs', M'⟩ := M.reset h hp hr hs ha hp'
      refine ⟨tr', s', L', cs', ?_⟩
      simp only [PView.next, if_pos, PView.shown_reset (hready hr) (.inr e)]
      exact M'
    | resetUnchecked j =>
      injection hwho with hwho; subst hwho
      cases hl with
      | resetUnchecked hr =>
      obtain ⟨e, tr', s', L', cs', M'⟩ := M.resetUnchecked h hp hr hs ha hp' (hE.mem (by simp))
      refine ⟨tr', s', L', cs', ?_⟩
      simp only [PView.next, if_pos, PView.shown_reset (hready hr) e]
      exact M'
    | drop j =>
      injection hwho with hwho; subst hwho
      have := drop_px hs
      rw [hp'] at this
      cases this
    | updateMax => cases hwho
    | sync => cases hwho
  · rw [PView.next_other hwho, PS.given_other hwho]
    by_cases hw : ∃ x v, a = .shared (.write x v)
    · obtain ⟨x, v, rfl⟩ := hw
      exact M.store h hp hl hs ha hp'
    · exact M.others h hE hp (fun x v e => hw ⟨x, v, e⟩) hwho hs ha hp' ht

/-- A new proxy. -/
theorem start {K : PBook} (h0 : Start s0) (hh : s0.w.held = []) (ht : s0.w.top = ps.s.w.top) (hU : ps.s.w.top ≤ USIZE)
    (hc : s0.w.calls = 0) (ha : s0.a = p.a) (hb : K.blocks i = []) : Mirror ps K i p [] 0 s0 [] s0 [] [] where
  held0 := hh
  run := .nil
  inv := h0.inv
  calls := rfl
  a := ha
  arena := VInv.nil hU
  led := by rw [hb]
  body := by rintro x ⟨c, hc, _⟩; cases hc
  count := hc
  top := ht

end Mirror

/-! ### The whole history -/

/-- The answers after one more step. -/
def PS.givenNext (ps : PS) (i : Nat) (a : PAct) (acc : List (Option Slice)) : List (Option Slice) :=
  match a with
  | .spawn j _ => if j = i then [] else acc
  | a => acc ++ ps.given i a

theorem answersTo_append {p0 K0 tr ps K} (h : PRun p0 K0 tr ps K) (i : Nat) (acc) :
    ∀ tr2, answersTo i p0 (tr ++ tr2) acc = answersTo i ps tr2 (answersTo i p0 tr acc) := by
  induction h with
  | nil => intro tr2; rfl
  | @snoc tr s K a r s' K' h hl hs ha ih =>
    intro tr2
    have e : answersTo i p0 (tr ++ [(a, r)]) acc = s.givenNext i a (answersTo i p0 tr acc) := by
      rw [ih]; simp only [answersTo, hs]; rfl
    rw [e, List.append_assoc, ih]
    simp only [List.singleton_append, answersTo, hs]
    rfl

theorem answersTo_snoc {p0 K0 tr ps K} (h : PRun p0 K0 tr ps K) (i : Nat) {a r ps'} (hs : pstep ps a = .ok (some (r, ps'))) (acc) :
    answersTo i p0 (tr ++ [(a, r)]) acc = ps.givenNext i a (answersTo i p0 tr acc) := by
  rw [answersTo_append h]; simp only [answersTo, hs]; rfl

theorem PS.givenNext_of {ps : PS} {i : Nat} {a : PAct} (ha : ∀ k, a ≠ .spawn i k) (acc) : ps.givenNext i a acc = acc ++ ps.given i a := by
  cases a with
  | spawn j k =>
    have : j ≠ i := fun e => ha k (by rw [e])
    simp [PS.givenNext, this, PS.given]
  | _ => rfl

theorem pview_snoc {i tr x} : pview i (tr ++ [x]) = (pview i tr).next i x := by simp [pview, List.foldl_append]

theorem pstep_old {ps ps' : PS} {a : PAct} {r} (hs : pstep ps a = .ok (some (r, ps'))) {u p'} (hp' : ps'.px u = some p')
    (ha : ∀ k, a ≠ .spawn u k) : ∃ p, ps.px u = some p ∧ p'.a.minChunk = p.a.minChunk := by
  cases hp : ps.px u with
  | none =>
    exfalso
    by_cases hw : a.who = some u
    · cases a with
      | shared a =>
        cases a with
        | go t ch =>
          injection hw with hw; subst hw
          simp only [pstep] at hs
          obtain ⟨x, _, hs⟩ := ebind_inv hs
          have key : ps'.px t = ps.px t := by
            match x, hs with
            | none, hs => cases hs
            | some (none, s'), hs => injection hs with hs; injection hs with hs; injection hs with _ hs; subst hs; rfl
            | some (some r, s'), hs =>
              rw [hp] at hs
              injection hs with hs; injection hs with hs; injection hs with _ hs; subst hs; rfl
          rw [hp, hp'] at key
          cases key
        | _ => cases hw
      | spawn j k => injection hw with hw; exact ha k (by rw [hw])
      | updateMax | sync => cases hw
      | _ => injection hw with hw; subst hw; simp only [pstep, hp] at hs; cases hs
    · have := pstep_px hs hw
      rw [hp, hp'] at this
      cases this
  | some p =>
    have hd : a ≠ .drop u := by
      rintro rfl
      have := drop_px hs
      rw [hp'] at this
      cases this
    obtain ⟨p1, h1, h2⟩ := pstep_stays hs hp hd
    rw [hp'] at h1
    injection h1 with h1
    subst h1
    exact ⟨p, rfl, h2⟩

theorem PRun.twin {p0 ps K tr} (h0 : PStart p0) (h : PRun p0 PBook.empty tr ps K) (i : Nat) :
    (pview i tr).wait = (K.pbusy i).map (·.1.op) ∧
    ∀ p, ps.px i = some p → ∀ s0 : St, Start s0 → s0.a.minChunk = p.a.minChunk → s0.w.held = [] → s0.w.top = p0.s.w.top →
      s0.w.calls = 0 → (∀ k o, (answersTo i p0 tr [])[k]? = some o → s0.w.oracle k = o) →
      ∃ tr' s L cs, Mirror ps K i p (pview i tr).shown (answersTo i p0 tr []).length s0 tr' s L cs := by
  induction h with
  | nil =>
    refine ⟨rfl, fun p hp => ?_⟩
    rw [h0.px i] at hp
    cases hp
  | @snoc tr ps K a r ps' K' h hl hs ha ih =>
    obtain ⟨ih1, ih2⟩ := ih
    obtain ⟨KS, cs, pend, hi, hE⟩ := PReach.eff ⟨h0, tr, h⟩ hl hs
    obtain ⟨KS', cs', pend', hi'⟩ := (h.snoc hl hs ha).inv h0
    have ht : ps.s.w.top = p0.s.w.top := hi.reach.top
    have ht' : ps'.s.w.top = p0.s.w.top := hi'.reach.top
    rw [pview_snoc, answersTo_snoc h i hs]
    refine ⟨PView.next_wait hi ih1 hl hs ha, fun p' hp' s0 hs0 hm hh htop hc ho => ?_⟩
    by_cases hsp : ∃ k, a = .spawn i k
    · obtain ⟨k, rfl⟩ := hsp
      cases hl with
      | spawn hd =>
      have hx := hi.px i
      rw [hd] at hx
      obtain ⟨hpx, hled, hpb, _⟩ := hx.dead
      cases ha
      simp only [pstep, hpx] at hs
      split at hs
      · injection hs with hs; injection hs with hs; injection hs with _ e2
        subst e2
        rw [PS.setPx_same] at hp'
        injection hp' with hp'
        subst hp'
        simp only [PView.next, if_pos, PS.givenNext]
        refine ⟨[], s0, [], [], Mirror.start hs0 hh (htop.trans ht'.symm) ?_ hc ?_ ?_⟩
        · have := hi'.top; exact Nat.le_trans this (by decide)
        · have := hs0.root
          obtain ⟨w, ⟨r, m⟩⟩ := s0
          simp only at this hm
          subst this
          subst hm
          rfl
        · simp [PBook.blocks, hled, hpb]
      · cases hs
    · have hsp' : ∀ k, a ≠ .spawn i k := fun k e => hsp ⟨k, e⟩
      rw [PS.givenNext_of hsp'] at ho ⊢
      obtain ⟨p, hp, hpm⟩ := pstep_old hs hp' hsp'
      obtain ⟨tr1, s1, L1, cs1, M⟩ := ih2 p hp s0 hs0 (hm.trans hpm) hh htop hc (fun k o hk => ho k o (by
        rw [List.getElem?_append_left (by rw [List.getElem?_eq_some_iff] at hk; exact hk.1)]; exact hk))
      rw [List.length_append]
      refine M.follow hi hE hp ih1 hl hs ha hp' (ht'.trans ht.symm) fun k o hk => ho _ o ?_
      rw [List.getElem?_append_right (by omega)]
      rw [show (answersTo i p0 tr []).length + k - (answersTo i p0 tr []).length = k by omega]
      exact hk

end Blink
