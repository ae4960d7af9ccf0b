import Verif.Proofs.BlinkRun
/-
  What user code can observe of one action and of a history, derived from the invariant.
-/
namespace Blink

/-! ### The book -/

/-- References created by a (non-dropping) action. -/
theorem refs_split {types kind bk op resp} (hnd : ¬ op.drops) :
    (bookAfter types kind bk op resp).refs = (bookAfter types kind { bk with refs := [] } op resp).refs ++ bk.refs := by
  have hps : ∀ (bk : BBook) (t : RTy) (nd : Bool) (a n : Nat), (bk.pushSlice t nd a n).refs =
      (({ bk with refs := [] } : BBook).pushSlice t nd a n).refs ++ bk.refs := by
    intro bk t nd a n
    unfold BBook.pushSlice
    split <;> rfl
  have hland : ∀ (bk : BBook) (f : FBook), (bk.land types f resp).refs = (({ bk with refs := [] } : BBook).land types f resp).refs ++ bk.refs := by
    intro bk f
    unfold BBook.land
    split <;> first | rfl | exact hps _ _ _ _ _
  cases op with
  | value => simp only [bookAfter]; split <;> rfl
  | «with» => simp only [bookAfter]; split <;> rfl
  | fromIter => simp only [bookAfter]; split <;> rfl
  | copySlice => simp only [bookAfter]; split <;> rfl
  | uninit => simp only [bookAfter]; split <;> rfl
  | direct => rfl
  | write => rfl
  | reset => exact absurd trivial hnd
  | send => exact absurd trivial hnd
  | dropAll => exact absurd trivial hnd
  | dropBlink => exact absurd trivial hnd
  | ret => simp only [bookAfter]; split <;> first | rfl | exact hland _ _
  | panic => simp only [bookAfter]; split <;> first | rfl | exact hland _ _
  | hint => simp only [bookAfter]; split <;> first | rfl | exact hland _ _
  | next => simp only [bookAfter]; split <;> first | rfl | exact hland _ _
  | nth => simp only [bookAfter]; split <;> first | rfl | exact hland _ _

theorem BAfter.refs {types kind bk op resp bk'} (h : BAfter types kind bk op resp bk') : bk'.refs = (bookAfter types kind bk op resp).refs := by
  cases h <;> rfl

theorem BAfter.refs_mono {types kind bk op resp bk'} (h : BAfter types kind bk op resp bk') (hnd : ¬ op.drops) {r : Ref}
    (hr : r ∈ bk.refs) : r ∈ bk'.refs := by
  rw [h.refs, refs_split hnd]
  exact List.mem_append_right _ hr

theorem land_direct {types} {bk : BBook} {f : FBook} {resp} : (bk.land types f resp).direct = bk.direct := by
  have hps : ∀ (t : RTy) (nd : Bool) (a n : Nat), (bk.pushSlice t nd a n).direct = bk.direct := by
    intro t nd a n
    unfold BBook.pushSlice
    split <;> rfl
  unfold BBook.land
  split <;> first | rfl | exact hps _ _ _ _

theorem BAfter.direct_same {types kind bk op resp bk'} (h : BAfter types kind bk op resp bk') (hnd : ¬ op.drops) (hd : ∀ o, op ≠ .direct o) :
    bk'.direct = bk.direct := by
  cases h with
  | direct => exact absurd rfl (hd _)
  | other =>
    cases op with
    | value => simp only [bookAfter]; split <;> rfl
    | «with» => simp only [bookAfter]; split <;> rfl
    | fromIter => simp only [bookAfter]; split <;> rfl
    | copySlice => simp only [bookAfter]; split <;> rfl
    | uninit => simp only [bookAfter]; split <;> rfl
    | direct => rfl
    | write => rfl
    | reset => exact absurd trivial hnd
    | send => exact absurd trivial hnd
    | dropAll => exact absurd trivial hnd
    | dropBlink => exact absurd trivial hnd
    | ret => simp only [bookAfter]; split <;> first | rfl | exact land_direct
    | panic => simp only [bookAfter]; split <;> first | rfl | exact land_direct
    | hint => simp only [bookAfter]; split <;> first | rfl | exact land_direct
    | next => simp only [bookAfter]; split <;> first | rfl | exact land_direct
    | nth => simp only [bookAfter]; split <;> first | rfl | exact land_direct

theorem drop_book {types kind bk op resp bk'} (h : BAfter types kind bk op resp bk') (hd : op.drops) :
    bk' = { bk with refs := [], direct := if kind.keeps = true then bk.direct else [] } := by
  cases h with
  | direct => exact hd.elim
  | other => cases op <;> first | rfl | exact hd.elim

/-! ### Items -/

theorem Wk.owed_eq {b0 b bk cs items E K m0} (h : Wk b0 b bk cs items E K m0) (m : Nat → Byte) :
    owed m bk.refs = (items.filter (·.ref.drop)).flatMap (fun it => it.ref.events m) := by
  unfold owed
  rw [h.refs]
  rw [List.filter_map, List.flatMap_map]
  rfl

theorem Wk.ref_blk {b0 b bk cs items E K m0} (h : Wk b0 b bk cs items E K m0) {r : Ref} (hr : r ∈ bk.refs) {x : Nat} (hx : r.Has x) :
    ∃ o ∈ items.filterMap (·.blk), o.Has x := by
  rw [h.refs] at hr
  obtain ⟨it, hit, rfl⟩ := List.mem_map.mp hr
  obtain ⟨h1, h2⟩ := hx
  rcases (h.ok it hit).inside with h0 | ⟨o, ho, h3, h4⟩
  · omega
  · exact ⟨o, List.mem_filterMap.mpr ⟨it, hit, ho⟩, by constructor <;> omega⟩

/-! ### One action -/

/-- A non-dropping action: the destructor log, and the memory of references and direct blocks. -/
theorem Wk.other {b0 b bk cs items} {m0 : Nat → Byte} (h : Wk b0 b bk cs items [] [] m0) {op resp b'} (hl : b0.legal bk op) (hnd : ¬ op.drops)
    (hs : bstep b op = .ok (resp, b')) :
    b'.drops = looseDrops b0.types bk op ++ b.drops ∧
    (b'.over = b.over ∨ (resp = .aborted ∧ b'.over = true)) ∧
    (∀ x r, r ∈ bk.refs → r.Has x → (∀ v, op ≠ .write x v) → b'.s.w.mem x = b.s.w.mem x) ∧
    (∀ x o, o ∈ bk.direct → o.Has x → (∀ d, op ≠ .direct d) → b'.s.w.mem x = b.s.w.mem x) := by
  have hq := hl.2
  have hl : BLegal b0.types b0.s.w.held b0.s.w.debug bk op := hl.1
  -- reading the result off a `Keep`
  have fin : ∀ {b1 : BState} {bk1 cs1 items1 K}, Wk b0 b1 bk1 cs1 items1 [] K b.s.w.mem →
      (∀ o ∈ items.filterMap (·.blk), o ∈ K) →
      (∀ x r, r ∈ bk.refs → r.Has x → b1.s.w.mem x = b.s.w.mem x) := by
    intro b1 bk1 cs1 items1 K hw hK x r hr hx
    obtain ⟨o, ho, hox⟩ := h.ref_blk hr hx
    exact hw.keep o (hK o ho) x hox
  have fin2 : ∀ {b1 : BState} {bk1 cs1 items1 K}, Wk b0 b1 bk1 cs1 items1 [] K b.s.w.mem →
      (∀ o ∈ bk.direct, o ∈ K) →
      (∀ x o, o ∈ bk.direct → o.Has x → b1.s.w.mem x = b.s.w.mem x) := by
    intro b1 bk1 cs1 items1 K hw hK x o ho hx
    exact hw.keep o (hK o ho) x hx
  have hall := h.rebase (brest b0 b bk items) (fun o ho => ho)
  have k1 : ∀ o ∈ items.filterMap (·.blk), o ∈ brest b0 b bk items := fun o ho => List.mem_append_left _ ho
  have k2 : ∀ o ∈ bk.direct, o ∈ brest b0 b bk items := fun o ho => List.mem_append_right _ (List.mem_append_right _ ho)
  have inv : ∀ {r1 : BResp} {b1 : BState}, bstep b op = .ok (r1, b1) → r1 = resp ∧ b1 = b' := by
    intro r1 b1 he
    rw [he] at hs
    injection hs with hs
    injection hs with e1 e2
    exact ⟨e1, e2⟩
  have nobad : ∀ {P : Prop}, (∃ e, BadAnswer b.s.w e ∧ bstep b op = .error e) → P := by
    intro P ⟨e, _, he⟩
    rw [he] at hs
    cases hs
  have hloose : op.isRet = false → looseDrops b0.types bk op = [] := by
    intro hr
    unfold looseDrops
    split
    · cases op <;> first | rfl | (cases hr; done)
    · rfl
  by_cases h1 : op.isStart = true
  · rcases hall.startStep h1 hl hq with hb | ⟨r1, b1, cs', items', e1, e2, e3, e4, _⟩
    · exact nobad hb
    · obtain ⟨rfl, rfl⟩ := inv e1
      refine ⟨?_, .inl e3, fun x r hr hx _ => fin e4 k1 x r hr hx, fun x o ho hx _ => fin2 e4 k2 x o ho hx⟩
      rw [e2, hloose (by cases op <;> first | rfl | (cases h1; done))]; rfl
  by_cases h2 : op.isRet = true
  · cases hbf : bk.frames with
    | nil => exact absurd hbf (legal_frames h2 hl)
    | cons fb fbs =>
      have hK := h.rebase (items.filterMap (·.blk) ++ (b.frames.tail.filterMap (Frame.own b0.types) ++ bk.direct)) (by
        intro o ho
        rcases List.mem_append.mp ho with ho | ho
        · exact k1 o ho
        rcases List.mem_append.mp ho with ho | ho
        · refine List.mem_append_right _ (List.mem_append_left _ ?_)
          obtain ⟨f, hf, hfo⟩ := List.mem_filterMap.mp ho
          exact List.mem_filterMap.mpr ⟨f, List.mem_of_mem_tail hf, hfo⟩
        · exact k2 o ho)
      rcases hK.retStep h2 hl hq hbf (fun o ho => ho) with hb | ⟨r1, b1, cs', items', e1, e2, e3, e4, _⟩
      · exact nobad hb
      · obtain ⟨rfl, rfl⟩ := inv e1
        refine ⟨?_, e3, fun x r hr hx _ => fin e4 (fun o ho => List.mem_append_left _ ho) x r hr hx,
          fun x o ho hx _ => fin2 e4 (fun o ho => List.mem_append_right _ (List.mem_append_right _ ho)) x o ho hx⟩
        rw [e2]
        unfold looseDrops
        rw [hbf]
  have h2' : op.isRet = false := by simpa using h2
  cases hl with
  | copySlice hs1 hv =>
    rcases hall.copyStep hs1 hv with hb | ⟨r1, b1, cs', items', e1, e2, e3, e4, _⟩
    · exact nobad hb
    · obtain ⟨rfl, rfl⟩ := inv e1
      exact ⟨by rw [e2, hloose h2']; rfl, .inl e3, fun x r hr hx _ => fin e4 k1 x r hr hx, fun x o ho hx _ => fin2 e4 k2 x o ho hx⟩
  | uninit hv =>
    rcases hall.uninitStep hv with hb | ⟨r1, b1, cs', items', e1, e2, e3, e4, _⟩
    · exact nobad hb
    · obtain ⟨rfl, rfl⟩ := inv e1
      exact ⟨by rw [e2, hloose h2']; rfl, .inl e3, fun x r hr hx _ => fin e4 k1 x r hr hx, fun x o ho hx _ => fin2 e4 k2 x o ho hx⟩
  | direct hd hn =>
    have hK := h.rebase (items.filterMap (·.blk) ++ b.frames.filterMap (Frame.own b0.types)) (by
      intro o ho
      rcases List.mem_append.mp ho with ho | ho
      · exact k1 o ho
      · exact List.mem_append_right _ (List.mem_append_left _ ho))
    have hI : KindInv b0.kind b0.s b.s cs ((items.filterMap (·.blk) ++ b.frames.filterMap (Frame.own b0.types)) ++ bk.direct) := by
      have := h.inv
      unfold brest at this
      rw [List.append_assoc]
      exact this
    rcases hK.directStep hd hn hq.sized (fun o ho => ho) with hb | ⟨r, s', cs', e1, e2, _⟩
    · exact nobad hb
    · obtain ⟨rfl, rfl⟩ := inv e1
      refine ⟨by rw [hloose h2']; rfl, .inl rfl, ?_, fun x o ho hx hc => absurd rfl (hc _)⟩
      intro x r hr hx _
      obtain ⟨o, ho, hox⟩ := h.ref_blk hr hx
      exact hI.keepOthers hd hn hq.sized e2 o (List.mem_append_left _ ho) x hox
  | @write r1 x1 v hr hx hv =>
    obtain ⟨e1, _⟩ := h.writeStep hr hx hv
    obtain ⟨rfl, rfl⟩ := inv e1
    refine ⟨by rw [hloose h2']; rfl, .inl rfl, ?_, ?_⟩
    · intro x r hr' hx' hc
      have hne : x ≠ x1 := fun hxx => hc v (by rw [hxx])
      exact setBytes_out (m := b.s.w.mem) (a := x1) (n := 1) (f := fun _ => v) (x := x) (by omega)
    · intro x o ho hox _
      obtain ⟨o1, ho1, hox1⟩ := h.ref_blk hr hx
      have hne : x ≠ x1 := by
        intro hxx
        subst hxx
        have hap := h.inv.apart
        rw [List.nil_append] at hap
        unfold brest at hap
        exact (List.pairwise_append.mp hap).2.2 o1 ho1 o (List.mem_append_right _ ho) x ⟨hox1, hox⟩
      exact setBytes_out (m := b.s.w.mem) (a := x1) (n := 1) (f := fun _ => v) (x := x) (by omega)
  | value => exact absurd rfl h1
  | «with» => exact absurd rfl h1
  | fromIter => exact absurd rfl h1
  | ret => exact absurd rfl h2
  | panic => exact absurd rfl h2
  | hint => exact absurd rfl h2
  | next => exact absurd rfl h2
  | nth => exact absurd rfl h2
  | reset => exact absurd trivial hnd
  | send => exact absurd trivial hnd
  | dropAll => exact absurd trivial hnd
  | dropBlink => exact absurd trivial hnd

theorem inFlight_loose {types f op} : ∀ ev ∈ inFlight types f op, ∃ v, ev = .loose (types f.r).tid v := by
  have hl : ∀ (t : RTy) (v : Nat), ∀ ev ∈ t.loose v, ∃ v, ev = .loose t.tid v := by
    intro t v ev hev
    unfold RTy.loose at hev
    split at hev
    · rw [List.mem_singleton] at hev; exact ⟨v, hev⟩
    · cases hev
  intro ev hev
  unfold inFlight at hev
  split at hev
  · split at hev
    · exact hl _ _ _ hev
    · cases hev
  · split at hev
    · exact hl _ _ _ hev
    · cases hev
  · split at hev
    · cases hev
    · obtain ⟨v, _, hv⟩ := List.mem_flatMap.mp hev
      exact hl _ _ _ hv
  · cases hev

theorem looseDrops_loose {types bk op} : ∀ ev ∈ looseDrops types bk op, ∃ tid v, ev = .loose tid v := by
  intro ev hev
  unfold looseDrops at hev
  split at hev
  · obtain ⟨v, hv⟩ := inFlight_loose ev hev
    exact ⟨_, v, hv⟩
  · cases hev

/-! ### Dropping -/

/-- What a dropping action does, in terms of what user code holds. -/
theorem Wk.drop {b0 b bk cs items} {m0 : Nat → Byte} (h : Wk b0 b bk cs items [] [] m0) {op : BOp} (hl : b0.legal bk op) (hd : op.drops) :
    ∃ out evs m b', bstep b op = .ok (out.resp, b') ∧ b'.drops = evs.reverse ++ b.drops ∧ b'.root = 0 ∧
      evs <+: owed b.s.w.mem bk.refs ∧ (out = .fine → evs = owed b.s.w.mem bk.refs) ∧
      (out = .fine → ∀ k, k < evs.length → (b0.dtors (b.drops.length + k)).panics = false) ∧
      (out = .panicked → ∃ before r post, bk.refs.filter (·.drop) = before ++ r :: post ∧ evs = owed b.s.w.mem (before ++ [r])) ∧
      (out ≠ .fine → ∃ k, k < evs.length ∧ (b0.dtors (b.drops.length + k)).panics = true) ∧
      b'.over = (b.over || decide (op = .dropBlink) || decide (out = .aborted)) ∧
      (∀ x, (∀ r ∈ bk.refs, r.drop = true → ¬ r.Has x) → m x = b.s.w.mem x) ∧
      (renews b0.kind op out = false → b'.s = { b.s with w := { b.s.w with mem := m } }) ∧
      (renews b0.kind op out = true → ∃ r, b0.kind.step { b.s with w := { b.s.w with mem := m } }
        (if op = .dropBlink then .resetFinal else .reset) = .ok (r, b'.s)) := by
  have hq := hl.2
  have hl : BLegal b0.types b0.s.w.held b0.s.w.debug bk op := hl.1
  have h3 := isDrop_of hd
  obtain ⟨out, evs, m, b', cs', e1, e2, e3, e4, e5, e6, e7, e8, e9⟩ := h.dropStep h3 (hl.drop_frames h3) (by simp)
  have hdt : b.dtors = b0.dtors := h.dtors
  refine ⟨out, evs, m, b', e1, e2, e5, ?_, ?_, ?_, ?_, ?_, e4, ?_, e7, e8⟩
  · rw [h.owed_eq]; exact e3.pre
  · intro ho; rw [h.owed_eq]; exact (e3.fine ho).1
  · intro ho k hk; rw [← hdt]; exact (e3.fine ho).2 k hk
  · intro ho
    obtain ⟨before, it, post, f1, f2⟩ := e3.panicked ho
    refine ⟨before.map (·.ref), it.ref, post.map (·.ref), ?_, ?_⟩
    · rw [h.refs, List.filter_map]
      have : ((fun r : Ref => r.drop) ∘ fun it : Item => it.ref) = fun it : Item => it.ref.drop := rfl
      rw [this, f1]
      simp
    · rw [f2]
      have hdr : ∀ i ∈ before ++ [it], i.ref.drop = true := by
        intro i hi
        have : i ∈ items.filter (·.ref.drop) := by
          rw [f1]
          rcases List.mem_append.mp hi with hi | hi
          · exact List.mem_append_left _ hi
          · rw [List.mem_singleton] at hi; rw [hi]; simp
        exact (List.mem_filter.mp this).2
      unfold owed
      have hf : (before.map (·.ref) ++ [it.ref]).filter (·.drop) = (before ++ [it]).map (·.ref) := by
        rw [show before.map (·.ref) ++ [it.ref] = (before ++ [it]).map (·.ref) by simp]
        rw [List.filter_map, List.filter_eq_self.mpr]
        intro i hi
        exact hdr i hi
      rw [hf, List.flatMap_map]
  · intro ho; rw [← hdt]; exact e3.not ho
  · intro x hx
    apply e6 x
    intro it hit hdr
    exact hx it.ref (by rw [h.refs]; exact List.mem_map.mpr ⟨it, hit, rfl⟩) hdr

/-- Blocks allocated directly survive dropping if the allocator is not reset. -/
theorem Wk.drop_direct {b0 b bk cs items} {m0 : Nat → Byte} (h : Wk b0 b bk cs items [] [] m0) {op : BOp} (hl : b0.legal bk op) (hd : op.drops)
    (hk : b0.kind.keeps = true) {resp b'} (hs : bstep b op = .ok (resp, b')) :
    ∀ x o, o ∈ bk.direct → o.Has x → b'.s.w.mem x = b.s.w.mem x := by
  have hq := hl.2
  have hl : BLegal b0.types b0.s.w.held b0.s.w.debug bk op := hl.1
  have h3 := isDrop_of hd
  have hK := h.rebase bk.direct fun o ho => List.mem_append_right _ (List.mem_append_right _ ho)
  obtain ⟨out, evs, m, b1, cs', e1, e2, e3, e4, e5, e6, e7, e8, e9⟩ := hK.dropStep h3 (hl.drop_frames h3) (fun o ho => ⟨hk, ho⟩)
  rw [e1] at hs
  injection hs with hs
  injection hs with _ hs
  subst hs
  intro x o ho hx
  exact e9.keep o ho x hx

/-! ### The blocks user code holds -/

theorem Wk.refs_apart {b0 b bk cs items E K m0} (h : Wk b0 b bk cs items E K m0) :
    bk.refs.Pairwise (fun r s => ∀ x, ¬ (r.Has x ∧ s.Has x)) := by
  have hap := h.inv.apart
  unfold brest at hap
  have hi := (List.pairwise_append.mp (List.pairwise_append.mp hap).2.1).1
  rw [h.refs, List.pairwise_map]
  rw [List.pairwise_filterMap] at hi
  refine List.Pairwise.imp_of_mem ?_ hi
  intro i j hi hj hij x ⟨h1, h2⟩
  have e1 := (h.ok i hi).inside
  have e2 := (h.ok j hj).inside
  obtain ⟨a1, a2⟩ := h1
  obtain ⟨a3, a4⟩ := h2
  rcases e1 with e1 | ⟨o, ho, e11, e12⟩
  · omega
  rcases e2 with e2 | ⟨o', ho', e21, e22⟩
  · omega
  exact hij o ho o' ho' x ⟨⟨by omega, by omega⟩, ⟨by omega, by omega⟩⟩

theorem Wk.refs_direct {b0 b bk cs items E K m0} (h : Wk b0 b bk cs items E K m0) {r : Ref} (hr : r ∈ bk.refs) {o : Owned} (ho : o ∈ bk.direct)
    (x : Nat) : ¬ (r.Has x ∧ o.Has x) := by
  intro ⟨h1, h2⟩
  obtain ⟨o1, ho1, hox1⟩ := h.ref_blk hr h1
  have hap := h.inv.apart
  unfold brest at hap
  exact (List.pairwise_append.mp (List.pairwise_append.mp hap).2.1).2.2 o1 ho1 o (List.mem_append_right _ ho) x ⟨hox1, h2⟩

theorem Wk.refs_ok {b0 b bk cs items E K m0} (h : Wk b0 b bk cs items E K m0) {r : Ref} (hr : r ∈ bk.refs) :
    r.addr % r.align = 0 ∧ (r.count * r.size ≠ 0 → b.s.w.accessible r.addr (r.count * r.size) = true) := by
  rw [h.refs] at hr
  obtain ⟨it, hit, rfl⟩ := List.mem_map.mp hr
  refine ⟨(h.ok it hit).al, fun hne => ?_⟩
  rcases (h.ok it hit).inside with h0 | ⟨o, ho, h3, h4⟩
  · exact absurd h0 hne
  · refine h.inv.acc (List.mem_append_right _ (List.mem_append_left _ (List.mem_filterMap.mpr ⟨it, hit, ho⟩))) h3 h4

end Blink
