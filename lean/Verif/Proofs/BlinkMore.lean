import Verif.Proofs.BlinkStep
/-
  The remaining actions: copying slices, uninitialised memory, direct calls of the allocator, writes, and dropping.
-/
namespace Blink

/-! ### Copying -/

theorem BState.allocate_inv {b : BState} {l : Layout} {blk : Slice} {s' : St}
    (h : b.allocate l = .ok (some blk, { b with s := s' })) : b.kind.step b.s (.allocate l) = .ok (.block blk, s') := by
  unfold BState.allocate at h
  obtain ⟨⟨r, st⟩, h1, h2⟩ := ebind_split h
  cases r with
  | block s =>
    injection h2 with h2
    injection h2 with h3 h4
    injection h3 with h3
    injection h4 with h4
    rw [h1, h3, h4]
  | err => injection h2 with h2; injection h2 with h3 h4; cases h3
  | unit => injection h2 with h2; injection h2 with h3 h4; cases h3

/-- Where a readable range lies. -/
theorem Wk.readable {b0 b bk cs items E K m0} (h : Wk b0 b bk cs items E K m0) {a n : Nat}
    (hr : Readable b0.s.w.held bk a n) (hn : 0 < n) :
    (∃ o ∈ E ++ brest b0 b bk items, o.addr ≤ a ∧ a + n ≤ o.addr + o.len) ∨
      ∃ f ∈ b0.s.w.held, f.addr ≤ a ∧ a + n ≤ f.addr + f.len := by
  rcases hr with h0 | ⟨r, hr, h1, h2⟩ | ⟨o, ho, h1, h2⟩ | hf
  · omega
  · left
    rw [h.refs] at hr
    obtain ⟨it, hit, rfl⟩ := List.mem_map.mp hr
    rcases (h.ok it hit).inside with h3 | ⟨o, ho, h3, h4⟩
    · omega
    · exact ⟨o, List.mem_append_right _ (List.mem_append_left _ (List.mem_filterMap.mpr ⟨it, hit, ho⟩)), by omega, by omega⟩
  · exact .inl ⟨o, List.mem_append_right _ (List.mem_append_right _ (List.mem_append_right _ ho)), h1, h2⟩
  · exact .inr hf

theorem Wk.copyStep {b0 b bk cs items K m0} {src es ea n : Nat} (h : Wk b0 b bk cs items [] K m0)
    (hs : Readable b0.s.w.held bk src (n * es)) (hl : (Layout.mk (n * es) ea).Valid) :
    (∃ e, BadAnswer b.s.w e ∧ bstep b (.copySlice src es ea n) = .error e) ∨
    ∃ resp b' cs' items', bstep b (.copySlice src es ea n) = .ok (resp, b') ∧ b'.drops = b.drops ∧ b'.over = b.over ∧
      Wk b0 b' (bookAfter b0.types b0.kind bk (.copySlice src es ea n) resp) cs' items' [] K m0 ∧
      (resp = .back none ∨ ∃ a, resp = .slice a n ∧ ∀ i, i < n * es → b'.s.w.mem (a + i) = b.s.w.mem (src + i) ∧
        b'.s.w.mem (src + i) = b.s.w.mem (src + i) ∧ (src + i < a ∨ a + n * es ≤ src + i)) := by
  unfold bstep
  dsimp only
  rcases h.allocate hl with ⟨er, hbad, he⟩ | ⟨o, s', cs', he, h1, h2⟩
  · left; exact ⟨er, hbad, by rw [ebind_err' he]⟩
  · right
    rw [ebind_ok' he]
    cases o with
    | none => exact ⟨_, _, cs', items, rfl, rfl, rfl, h1 rfl, .inl rfl⟩
    | some blk =>
      dsimp only
      obtain ⟨h3, h4, _⟩ := h2 blk rfl
      have h4' : n * es ≤ blk.len := h4
      rw [ebind_ok' (BState.mem_id (require_ok (by omega)))]
      dsimp only
      have hcopy : ({ b with s := s' } : BState).mem (copyNonoverlapping src blk.addr (n * es)) =
          .ok ((), ({ b with s := s' } : BState).setM blk.addr (n * es) (fun i => s'.w.mem (src + i))) ∧
          ∀ i, i < n * es → s'.w.mem (src + i) = b.s.w.mem (src + i) ∧ (src + i < blk.addr ∨ blk.addr + n * es ≤ src + i) := by
        by_cases h0 : n * es = 0
        · refine ⟨?_, by omega⟩
          rw [BState.mem_ok (w := { s'.w with mem := setBytes s'.w.mem blk.addr (n * es) (fun i => s'.w.mem (src + i)) })]
          · rfl
          · unfold copyNonoverlapping
            rw [if_pos (.inl h0)]
        · obtain ⟨g1, g2, g3⟩ := h.inv.source hl (by rw [← h.kind]; exact BState.allocate_inv he) (a := src) (n := n * es)
            (h.readable hs (by omega))
          refine ⟨?_, fun i hi => ⟨g2 _ (by omega) (by omega), ?_⟩⟩
          case refine_2 =>
            have := g3 (src + i) (by omega) (by omega)
            simp only [Owned.of, Owned.Has] at this
            omega
          rw [BState.mem_ok (w := { s'.w with mem := setBytes s'.w.mem blk.addr (n * es) (fun i => s'.w.mem (src + i)) })]
          · rfl
          · unfold copyNonoverlapping
            rw [if_pos]
            refine .inr ⟨g1, h3.acc (o := Owned.of blk ⟨n * es, ea⟩) (Nat.le_refl _) (by simp only [Owned.of]; omega), ?_⟩
            apply Decidable.byContradiction
            intro hc
            refine g3 (max src blk.addr) (by omega) (by omega) ⟨?_, ?_⟩
            · simp only [Owned.of]; omega
            · simp only [Owned.of]; omega
      rw [ebind_ok' hcopy.1]
      have h5 := h3.setM (a := blk.addr) (n := n * es) (f := fun i => s'.w.mem (src + i)) (Nat.le_refl _) (by simp only [Owned.of]; omega)
      refine ⟨.slice blk.addr n, _, cs', ⟨⟨0, blk.addr, es, ea, n, false⟩, some (Owned.of blk ⟨n * es, ea⟩), 0⟩ :: items, rfl, rfl, rfl, ?_, ?_⟩
      · refine Wk.pushNoDrop (o := some (Owned.of blk ⟨n * es, ea⟩)) (E := []) (r := ⟨0, blk.addr, es, ea, n, false⟩) h5 rfl ⟨?_, ?_, ?_⟩
        · exact h5.al (o := Owned.of blk ⟨n * es, ea⟩) hl.1 (Nat.le_refl _)
        · right
          exact ⟨_, rfl, Nat.le_refl _, by simp only [Owned.of]; omega⟩
        · intro hx; cases hx
      · right
        refine ⟨blk.addr, rfl, fun i hi => ?_⟩
        obtain ⟨g1, g2⟩ := hcopy.2 i hi
        rw [← g1]
        refine ⟨setBytes_in (m := s'.w.mem) (a := blk.addr) (f := fun i => s'.w.mem (src + i)) hi, ?_, g2⟩
        exact setBytes_out (m := s'.w.mem) (f := fun i => s'.w.mem (src + i)) g2

theorem Wk.uninitStep {b0 b bk cs items K m0} {l : Layout} (h : Wk b0 b bk cs items [] K m0) (hl : l.Valid) :
    (∃ e, BadAnswer b.s.w e ∧ bstep b (.uninit l) = .error e) ∨
    ∃ resp b' cs' items', bstep b (.uninit l) = .ok (resp, b') ∧ b'.drops = b.drops ∧ b'.over = b.over ∧
      Wk b0 b' (bookAfter b0.types b0.kind bk (.uninit l) resp) cs' items' [] K m0 ∧ (resp = .back none ∨ ∃ a, resp = .ref a) := by
  unfold bstep
  dsimp only
  rcases h.allocate hl with ⟨er, hbad, he⟩ | ⟨o, s', cs', he, h1, h2⟩
  · left; exact ⟨er, hbad, by rw [ebind_err' he]⟩
  · right
    rw [ebind_ok' he]
    cases o with
    | none => exact ⟨_, _, cs', items, rfl, rfl, rfl, h1 rfl, .inl rfl⟩
    | some blk =>
      dsimp only
      obtain ⟨h3, h4, _⟩ := h2 blk rfl
      refine ⟨.ref blk.addr, _, cs', ⟨⟨0, blk.addr, l.size, l.align, 1, false⟩, some (Owned.of blk l), 0⟩ :: items, rfl, rfl, rfl, ?_, .inr ⟨_, rfl⟩⟩
      refine Wk.pushNoDrop (o := some (Owned.of blk l)) (E := []) (r := ⟨0, blk.addr, l.size, l.align, 1, false⟩) h3 rfl ⟨?_, ?_, ?_⟩
      · exact h3.al (o := Owned.of blk l) hl.1 (Nat.le_refl _)
      · right
        exact ⟨_, rfl, Nat.le_refl _, by simp only [Owned.of]; omega⟩
      · intro hx; cases hx

/-! ### Direct calls -/

theorem Wk.directStep {b0 b bk cs items K m0} {op : Op} (h : Wk b0 b bk cs items [] K m0) (hl : Legal bk.direct op) (hn : op.NoReset)
    (hz : b0.kind.isAny = true → op.Sized)
    (hK : ∀ o ∈ K, o ∈ items.filterMap (·.blk) ++ b.frames.filterMap (Frame.own b0.types)) :
    (∃ e, BadAnswer b.s.w e ∧ bstep b (.direct op) = .error e) ∨
    ∃ r s' cs', bstep b (.direct op) = .ok (.direct r, { b with s := s' }) ∧ b0.kind.step b.s op = .ok (r, s') ∧
      ∀ D, After bk.direct op r D → Wk b0 { b with s := s' } { bk with direct := D } cs' items [] K m0 := by
  have hI : KindInv b0.kind b0.s b.s cs ((items.filterMap (·.blk) ++ b.frames.filterMap (Frame.own b0.types)) ++ bk.direct) := by
    have := h.inv
    unfold brest at this
    rw [List.append_assoc]
    exact this
  unfold bstep
  dsimp only
  rcases hI.direct hl hn hz with ⟨e, hb, he⟩ | ⟨r, s', cs', he, hd, hk, hi⟩
  · exact .inl ⟨e, hb, by rw [h.kind, ebind_err' he]⟩
  · right
    refine ⟨r, s', cs', by rw [h.kind, ebind_ok' he]; rfl, he, fun D hD => ?_⟩
    have hI' := hi D hD
    exact {
      start := h.start
      types := h.types
      kind := h.kind
      dtors := h.dtors
      dbg := hd.trans h.dbg
      inv := by unfold brest; rw [List.nil_append, ← List.append_assoc]; exact hI'
      refs := h.refs
      ok := fun it hit => (h.ok it hit).congr h.start.types fun o ho => hk o (by
        refine List.mem_append_left _ (List.mem_filterMap.mpr ⟨it, hit, ho⟩))
      chain := h.chain.congr fun it hit o ho => hk o (by
        refine List.mem_append_left _ (List.mem_filterMap.mpr ⟨it, (List.mem_filter.mp hit).1, ho⟩))
      adds := h.adds
      frames := h.frames.congr (hk.sub fun o ho => List.mem_append_right _ ho)
      kin := fun o ho => by unfold brest; rw [← List.append_assoc]; exact List.mem_append_left _ (hK o ho)
      keep := h.keep.trans (hk.sub hK) }

/-! ### Writing through references -/

theorem Chain.congrNext {m m'} : ∀ {items : List Item} {root : Nat}, Chain m root items →
    (∀ it ∈ items, ∀ o, it.blk = some o → ∀ x, o.addr + 16 ≤ x → x < o.addr + 24 → m' x = m x) → Chain m' root items
  | [], _, h, _ => h
  | it :: brest, _, ⟨o, n, h1, h2, h3, h4, h5⟩, hm =>
    ⟨o, n, h1, h2, h3, h4.congr fun x hx1 hx2 => hm it List.mem_cons_self o h1 x (by omega) (by omega),
      h5.congrNext fun it' hit => hm it' (List.mem_cons_of_mem _ hit)⟩

theorem items_unique {items : List Item} (h : (items.filterMap (·.blk)).Pairwise Owned.Apart) {i j : Item} (hi : i ∈ items)
    (hj : j ∈ items) {o p : Owned} (ho : i.blk = some o) (hp : j.blk = some p) {x : Nat} (hx : o.Has x) (hy : p.Has x) : i = j := by
  induction items with
  | nil => cases hi
  | cons a l ih =>
    rw [List.filterMap_cons] at h
    have htail : (l.filterMap (·.blk)).Pairwise Owned.Apart := by
      cases ha : a.blk with
      | none => rw [ha] at h; exact h
      | some q => rw [ha] at h; exact (List.pairwise_cons.mp h).2
    rcases List.mem_cons.mp hi with hia | hil
    · rcases List.mem_cons.mp hj with hja | hjl
      · rw [hia, hja]
      · subst hia
        rw [ho] at h
        exact absurd ⟨hx, hy⟩ ((List.pairwise_cons.mp h).1 p (List.mem_filterMap.mpr ⟨j, hjl, hp⟩) x)
    · rcases List.mem_cons.mp hj with hja | hjl
      · subst hja
        rw [hp] at h
        exact absurd ⟨hy, hx⟩ ((List.pairwise_cons.mp h).1 o (List.mem_filterMap.mpr ⟨i, hil, ho⟩) x)
      · exact ih htail hil hjl

theorem Wk.writeStep {b0 b bk cs items K m0} {r : Ref} {x : Nat} {v : Byte} (h : Wk b0 b bk cs items [] K m0) (hr : r ∈ bk.refs)
    (hx : r.Has x) (hv : v.plain = true) :
    bstep b (.write x v) = .ok (.unit, b.setM x 1 (fun _ => v)) ∧
    ∀ m1, Wk b0 (b.setM x 1 (fun _ => v)) bk cs items [] [] m1 := by
  refine ⟨rfl, fun m1 => ?_⟩
  rw [h.refs] at hr
  obtain ⟨it, hit, rfl⟩ := List.mem_map.mp hr
  have hin := h.ok it hit
  obtain ⟨o, ho, h1, h2⟩ : ∃ o, it.blk = some o ∧ o.addr ≤ it.ref.addr ∧ it.ref.addr + it.ref.count * it.ref.size ≤ o.addr + o.len := by
    rcases hin.inside with h0 | h0
    · have := hx.1; have := hx.2; omega
    · exact h0
  have hx1 := hx.1
  have hx2 := hx.2
  have hoR : o ∈ brest b0 b bk items := List.mem_append_left _ (List.mem_filterMap.mpr ⟨it, hit, ho⟩)
  have hox : o.Has x := ⟨by omega, by omega⟩
  have hout : ∀ y, y ≠ x → setBytes b.s.w.mem x 1 (fun _ => v) y = b.s.w.mem y := fun y hy => setBytes_out (by omega)
  have hap := h.inv.apart
  rw [List.nil_append] at hap
  unfold brest at hap
  rw [List.pairwise_append] at hap
  have hmem : (b.setM x 1 (fun _ => v)).s.w.mem = setBytes b.s.w.mem x 1 (fun _ => v) := rfl
  have hat : setBytes b.s.w.mem x 1 (fun _ => v) x = v := by
    have := setBytes_in (m := b.s.w.mem) (a := x) (n := 1) (i := 0) (f := fun _ => v) (by omega)
    simpa using this
  -- other items
  have hoth : ∀ it' ∈ items, ∀ o', it'.blk = some o' → o'.Has x → it' = it := fun it' hit' o' ho' hx' =>
    items_unique hap.1 hit' hit ho' ho hx' hox
  -- the record of the item
  have hrec : it.ref.drop = true → o.addr + 24 ≤ x := by
    intro hd
    obtain ⟨o2, ho2, hD⟩ := hin.dr hd
    rw [ho] at ho2
    injection ho2 with ho2
    subst ho2
    have := hD.addr
    have := (valueOff_facts (h.start.types it.rid).align).1
    omega
  refine {
    start := h.start
    types := h.types
    kind := h.kind
    dtors := h.dtors
    dbg := h.dbg
    inv := h.inv.setMem (o := o) hoR (by omega) (by omega)
    refs := h.refs
    ok := ?_
    chain := ?_
    adds := h.adds
    frames := ?_
    kin := by simp
    keep := by intro o ho; cases ho }
  · intro it' hit'
    rw [hmem]
    refine { h.ok it' hit' with dr := fun hd => ?_ }
    obtain ⟨o', ho', hD⟩ := (h.ok it' hit').dr hd
    refine ⟨o', ho', ?_⟩
    by_cases hx' : o'.Has x
    · have := hoth it' hit' o' ho' hx'
      subst this
      rw [ho] at ho'
      injection ho' with ho'
      subst ho'
      have h24 := hrec hd
      refine { hD with cnt := hD.cnt.congr fun y h3 h4 => hout y (by omega), fn := hD.fn.congr fun y h3 h4 => hout y (by omega), disc := ?_ }
      intro d hdd
      by_cases hy : o.addr + valueOff (b0.types it'.rid).align + d = x
      · rw [hy, hat]; exact hv
      · rw [hout _ hy]; exact hD.disc d hdd
    · refine hD.congr h.start.types fun y hy => hout y ?_
      intro hc
      subst hc
      exact hx' hy
  · rw [hmem]
    refine h.chain.congrNext fun it' hit' o' ho' y hy1 hy2 => hout y ?_
    intro hc
    subst hc
    obtain ⟨hit'', hd⟩ := List.mem_filter.mp hit'
    obtain ⟨o2, ho2, hD⟩ := (h.ok it' hit'').dr hd
    rw [ho'] at ho2
    injection ho2 with ho2
    subst ho2
    have h24 := (valueOff_facts (h.start.types it'.rid).align).1
    have hlen := hD.len
    have := hoth it' hit'' o' ho' ⟨by omega, by omega⟩
    subst this
    rw [ho] at ho'
    injection ho' with ho'
    subst ho'
    have := hrec hd
    omega
  · rw [hmem]
    refine h.frames.congr fun o' ho' y hy => hout y ?_
    intro hc
    subst hc
    exact hap.2.2 o (List.mem_filterMap.mpr ⟨it, hit, ho⟩) o' (List.mem_append_left _ ho') y ⟨hox, hy⟩

/-! ### Dropping -/

def BOp.isDrop : BOp → Bool
  | .reset => true
  | .send => true
  | .dropAll => true
  | .dropBlink => true
  | _ => false

/-- What the caller sees of how the destructors went. -/
def DOut.resp : DOut → BResp
  | .fine => .unit
  | .panicked => .panicked none
  | .aborted => .aborted

theorem Wk.dropped {b0 b bk cs items K m0} (h : Wk b0 b bk cs items [] K m0) (hf : bk.frames = [])
    (hK : ∀ o ∈ K, o ∈ bk.direct) :
    ∃ out evs m, b.dropList = .ok (out, ({ b with root := 0 } : BState).after evs m) ∧
      RanAll b b.s.w.mem (items.filter (·.ref.drop)) evs out ∧
      (∀ x, (∀ it ∈ items, it.ref.drop = true → ¬ it.ref.Has x) → m x = b.s.w.mem x) ∧
      Wk b0 (({ b with root := 0 } : BState).after evs m) { bk with refs := [] } cs [] [] K m0 := by
  have hb : b.frames = [] := by
    have := h.frames
    rw [hf] at this
    cases hb : b.frames with
    | nil => rfl
    | cons f fs => rw [hb] at this; exact this.elim
  have hI := h.inv
  rw [List.nil_append] at hI
  have hsub : ((items.filter (·.ref.drop)).filterMap (·.blk)).Sublist (brest b0 b bk items) :=
    ((List.filter_sublist (p := fun it : Item => it.ref.drop) (l := items)).filterMap _).trans (List.sublist_append_left _ _)
  obtain ⟨out, evs, m, e1, e2, e3, e4⟩ := dropLoop_spec (s0 := b0.s) (types := b0.types) (cs := cs) (L := brest b0 b bk items)
    h.start.types (items.filter (·.ref.drop)) b.adds b.root { b with root := 0 } h.types hI hsub
    (fun it hit => by simpa using (List.mem_filter.mp hit).2)
    (fun it hit => h.ok it (List.mem_filter.mp hit).1) h.chain h.adds
  have hm : ∀ x, (∀ it ∈ items, it.ref.drop = true → ¬ it.ref.Has x) → m x = b.s.w.mem x := fun x hx =>
    e4 x fun it hit => hx it (List.mem_filter.mp hit).1 (by simpa using (List.mem_filter.mp hit).2)
  refine ⟨out, evs, m, e1, ⟨e2.pre, e2.fine, e2.panicked, e2.not⟩, hm, ?_⟩
  have hdir : ∀ o ∈ bk.direct, ∀ x, o.Has x → m x = b.s.w.mem x := by
    intro o ho x hx
    apply hm
    intro it hit _ hit2
    have hap := hI.apart
    unfold brest at hap
    rw [List.pairwise_append] at hap
    rcases (h.ok it hit).inside with h0 | ⟨o2, ho2, h1, h2⟩
    · have := hit2.1; have := hit2.2; omega
    · exact hap.2.2 o2 (List.mem_filterMap.mpr ⟨it, hit, ho2⟩) o (List.mem_append_right _ ho) x
        ⟨⟨by have := hit2.1; omega, by have := hit2.2; omega⟩, hx⟩
  exact {
    start := h.start
    types := h.types
    kind := h.kind
    dtors := h.dtors
    dbg := h.dbg
    inv := e3.sublist (by
      unfold brest
      exact List.sublist_append_right _ _)
    refs := rfl
    ok := by simp
    chain := rfl
    adds := Nat.zero_le _
    frames := by
      show FramesOK _ _ _ _ b.frames bk.frames
      rw [hb, hf]; trivial
    kin := fun o ho => by
      unfold brest
      exact List.mem_append_right _ (List.mem_append_right _ (hK o ho))
    keep := h.keep.trans fun o ho => hdir o (hK o ho) }

/-- Forget the blocks obtained directly. -/
theorem Wk.forgetDirect {b0 b bk cs K m0} (h : Wk b0 b bk cs [] [] K m0) (hK : ∀ o, o ∉ K) :
    Wk b0 b { bk with direct := [] } cs [] [] K m0 :=
  { h with
    inv := h.inv.sublist (by
      unfold brest
      simp)
    kin := fun o ho => absurd ho (hK o) }

/-- The allocator was reset or dropped. -/
theorem Wk.renewed {b0 b bk cs K m0} (h : Wk b0 b bk cs [] [] K m0) (hK : ∀ o, o ∉ K) (hf : bk.frames = []) {s' : St} {cs' : List Chunk}
    (hd : s'.w.debug = b.s.w.debug) (hi : KindInv b0.kind b0.s s' cs' []) :
    Wk b0 { b with s := s' } { bk with direct := [] } cs' [] [] K m0 := by
  have hb : b.frames = [] := by
    have := h.frames
    rw [hf] at this
    cases hb : b.frames with
    | nil => rfl
    | cons f fs => rw [hb] at this; exact this.elim
  exact {
    start := h.start
    types := h.types
    kind := h.kind
    dtors := h.dtors
    dbg := hd.trans h.dbg
    inv := by unfold brest; simp only [hb]; exact hi
    refs := h.refs
    ok := by simp
    chain := h.chain
    adds := Nat.zero_le _
    frames := by simp only [hb, hf]; trivial
    kin := fun o ho => absurd ho (hK o)
    keep := fun o ho => absurd ho (hK o) }

/-- Is the allocator reset or dropped by `op` if the destructors end with `out`? -/
def renews (kind : AKind) (op : BOp) (out : DOut) : Bool :=
  match op, out with
  | .reset, .fine => !kind.keeps
  | .send, .fine => !kind.keeps
  | .dropBlink, .fine => kind.frees
  | .dropBlink, .panicked => kind.frees
  | _, _ => false

theorem Wk.over {b0 b bk cs items E K m0} (h : Wk b0 b bk cs items E K m0) (v : Bool) :
    Wk b0 { b with over := v } bk cs items E K m0 := { h with inv := h.inv }

theorem BState.resetAlloc_ok {b : BState} {s' : St} (hk : b.kind.keeps = false) (h : b.kind.step b.s .reset = .ok (.unit, s')) :
    b.resetAlloc = .ok { b with s := s' } := by
  unfold BState.resetAlloc
  split
  · rename_i h1; rw [h1] at hk; cases hk
  · rw [ebind_ok' h]; rfl

/-- A `reset` that does nothing. -/
theorem BState.resetAlloc_keeps {b : BState} (hk : b.kind.keeps = true) : b.resetAlloc = .ok b := by
  unfold BState.resetAlloc
  cases h : b.kind with
  | shared => rfl
  | owned => rw [h] at hk; cases hk
  | refMut => rw [h] at hk; cases hk
  | any e k o =>
    rw [h] at hk
    have hk : k = true := hk
    subst hk
    cases b
    dsimp only at h
    subst h
    rfl

theorem BState.dropAlloc_ok {b : BState} {s' : St} (hk : b.kind.frees = true) (h : b.kind.step b.s .resetFinal = .ok (.unit, s')) :
    b.dropAlloc = .ok { b with s := s' } := by
  unfold BState.dropAlloc
  split
  · rename_i h1; rw [h1] at hk; cases hk
  · rename_i h1; rw [h1] at hk; cases hk
  · rw [ebind_ok' h]; rfl

/-- Dropping an allocator that does nothing then. -/
theorem BState.dropAlloc_keeps {b : BState} (hk : b.kind.frees = false) : b.dropAlloc = .ok b := by
  unfold BState.dropAlloc
  cases h : b.kind with
  | shared => rfl
  | owned => rw [h] at hk; cases hk
  | refMut => rfl
  | any e k o =>
    rw [h] at hk
    cases k with
    | true =>
      cases b
      dsimp only at h
      subst h
      rfl
    | false => cases hk

theorem Wk.dropStep {b0 b bk cs items K m0} {op : BOp} (h : Wk b0 b bk cs items [] K m0) (hop : op.isDrop = true)
    (hf : bk.frames = []) (hK : ∀ o ∈ K, b0.kind.keeps = true ∧ o ∈ bk.direct) :
    ∃ out evs m b' cs', bstep b op = .ok (out.resp, b') ∧ b'.drops = evs.reverse ++ b.drops ∧
      RanAll b b.s.w.mem (items.filter (·.ref.drop)) evs out ∧
      b'.over = (b.over || decide (op = .dropBlink) || decide (out = .aborted)) ∧ b'.root = 0 ∧
      (∀ x, (∀ it ∈ items, it.ref.drop = true → ¬ it.ref.Has x) → m x = b.s.w.mem x) ∧
      (renews b0.kind op out = false → b'.s = (b.withM m).s) ∧
      (renews b0.kind op out = true → ∃ r, b0.kind.step (b.withM m).s (if op = .dropBlink then .resetFinal else .reset) = .ok (r, b'.s)) ∧
      Wk b0 b' (bookAfter b0.types b0.kind bk op out.resp) cs' [] [] K m0 := by
  obtain ⟨out, evs, m, e1, e2, e3, e4⟩ := h.dropped hf fun o ho => (hK o ho).2
  have hbook : ∀ resp, bookAfter b0.types b0.kind bk op resp =
      { bk with refs := [], direct := if b0.kind.keeps = true then bk.direct else [] } := by
    intro resp
    cases op <;> first | (cases hop; done) | rfl
  simp only [hbook]
  -- without touching the allocator
  have hkeep : Wk b0 (({ b with root := 0 } : BState).after evs m)
      { bk with refs := [], direct := if b0.kind.keeps = true then bk.direct else [] } cs [] [] K m0 := by
    by_cases hs : b0.kind.keeps = true
    · rw [if_pos hs]; exact e4
    · rw [if_neg hs]
      exact e4.forgetDirect fun o ho => hs (hK o ho).1
  have hk : b.kind = b0.kind := h.kind
  have hdone : ∀ v, v = (b.over || decide (op = .dropBlink) || decide (out = .aborted)) → renews b0.kind op out = false →
      bstep b op = .ok (out.resp, { ({ b with root := 0 } : BState).after evs m with over := v }) →
      ∃ out evs m b' cs', bstep b op = .ok (out.resp, b') ∧ b'.drops = evs.reverse ++ b.drops ∧
        RanAll b b.s.w.mem (items.filter (·.ref.drop)) evs out ∧
        b'.over = (b.over || decide (op = .dropBlink) || decide (out = .aborted)) ∧ b'.root = 0 ∧
        (∀ x, (∀ it ∈ items, it.ref.drop = true → ¬ it.ref.Has x) → m x = b.s.w.mem x) ∧
        (renews b0.kind op out = false → b'.s = (b.withM m).s) ∧
        (renews b0.kind op out = true → ∃ r, b0.kind.step (b.withM m).s (if op = .dropBlink then .resetFinal else .reset) = .ok (r, b'.s)) ∧
        Wk b0 b' { bk with refs := [], direct := if b0.kind.keeps = true then bk.direct else [] } cs' [] [] K m0 := by
    intro v hv hr hb
    exact ⟨out, evs, m, _, cs, hb, rfl, e2, hv, rfl, e3, fun _ => rfl, (fun h1 => by rw [hr] at h1; cases h1), hkeep.over v⟩
  have hrenew : ∀ v s' cs', v = (b.over || decide (op = .dropBlink) || decide (out = .aborted)) → b0.kind.keeps = false →
      b0.kind.step (b.withM m).s (if op = .dropBlink then .resetFinal else .reset) = .ok (.unit, s') →
      s'.w.debug = b.s.w.debug → KindInv b0.kind b0.s s' cs' [] → renews b0.kind op out = true →
      bstep b op = .ok (out.resp, { ({ b with root := 0 } : BState).after evs m with s := s', over := v }) →
      ∃ out evs m b' cs', bstep b op = .ok (out.resp, b') ∧ b'.drops = evs.reverse ++ b.drops ∧
        RanAll b b.s.w.mem (items.filter (·.ref.drop)) evs out ∧
        b'.over = (b.over || decide (op = .dropBlink) || decide (out = .aborted)) ∧ b'.root = 0 ∧
        (∀ x, (∀ it ∈ items, it.ref.drop = true → ¬ it.ref.Has x) → m x = b.s.w.mem x) ∧
        (renews b0.kind op out = false → b'.s = (b.withM m).s) ∧
        (renews b0.kind op out = true → ∃ r, b0.kind.step (b.withM m).s (if op = .dropBlink then .resetFinal else .reset) = .ok (r, b'.s)) ∧
        Wk b0 b' { bk with refs := [], direct := if b0.kind.keeps = true then bk.direct else [] } cs' [] [] K m0 := by
    intro v s' cs' hv hs hst hdb hi hr hb
    refine ⟨out, evs, m, _, cs', hb, rfl, e2, hv, rfl, e3, (fun h1 => by rw [hr] at h1; cases h1), fun _ => ⟨_, hst⟩, ?_⟩
    rw [if_neg (by rw [hs]; simp)]
    exact (e4.renewed (fun o ho => by have := (hK o ho).1; rw [hs] at this; cases this) hf (s' := s') (cs' := cs') hdb hi).over v
  have hres : b0.kind.keeps = false → ∀ o : Op, o = .reset ∨ o = .resetFinal →
      ∃ s' cs', b0.kind.step (b.withM m).s o = .ok (.unit, s') ∧ s'.w.debug = b.s.w.debug ∧ KindInv b0.kind b0.s s' cs' [] := by
    intro hs o ho
    exact e4.inv.reset hs ho
  have hreset : ∀ out', out = out' → b.reset = match out' with
      | .fine => (({ b with root := 0 } : BState).after evs m).resetAlloc >>= fun b => pure (.unit, b)
      | .panicked => pure (.panicked none, ({ b with root := 0 } : BState).after evs m)
      | .aborted => pure (.aborted, { ({ b with root := 0 } : BState).after evs m with over := true }) := by
    intro out' ho
    subst ho
    unfold BState.reset
    rw [ebind_ok' e1]
    cases out <;> rfl
  have hRS : (op = .reset ∨ op = .send) → bstep b op = b.reset := by
    rintro (rfl | rfl) <;> rfl
  have hcase : (op = .reset ∨ op = .send) ∨ op = .dropAll ∨ op = .dropBlink := by
    cases op <;> simp [BOp.isDrop] at hop ⊢
  rcases hcase with hrs | rfl | rfl
  · have hnd : decide (op = .dropBlink) = false := by rcases hrs with rfl | rfl <;> rfl
    have hnd' : ¬ op = .dropBlink := by simpa using hnd
    cases hout : out with
    | fine =>
      have hbs := (hRS hrs).trans (hreset _ hout)
      dsimp only at hbs
      by_cases hs : b0.kind.keeps = true
      · refine hdone b.over (by rw [hnd, hout]; simp) (by rw [hout]; rcases hrs with rfl | rfl <;> simp [renews, hs]) ?_
        rw [hbs, hout]
        have : (({ b with root := 0 } : BState).after evs m).resetAlloc = pure (({ b with root := 0 } : BState).after evs m) :=
          BState.resetAlloc_keeps (by rw [show (({ b with root := 0 } : BState).after evs m).kind = b0.kind from hk]; exact hs)
        rw [this]
        rfl
      · have hs : b0.kind.keeps = false := by simpa using hs
        obtain ⟨s', cs', h1, h2, h3⟩ := hres hs .reset (.inl rfl)
        refine hrenew b.over s' cs' (by rw [hnd, hout]; simp) hs (by rw [if_neg hnd']; exact h1) h2 h3
          (by rw [hout]; rcases hrs with rfl | rfl <;> simp [renews, hs]) ?_
        rw [hbs, hout]
        have : (({ b with root := 0 } : BState).after evs m).resetAlloc =
            pure { ({ b with root := 0 } : BState).after evs m with s := s' } := by
          exact BState.resetAlloc_ok (by rw [show (({ b with root := 0 } : BState).after evs m).kind = b0.kind from hk]; exact hs)
            (by rw [show (({ b with root := 0 } : BState).after evs m).kind = b0.kind from hk]; exact h1)
        rw [this]
        rfl
    | panicked =>
      have hbs := (hRS hrs).trans (hreset _ hout)
      refine hdone b.over (by rw [hnd, hout]; simp) (by rw [hout]; rcases hrs with rfl | rfl <;> rfl) ?_
      rw [hbs, hout]; rfl
    | aborted =>
      have hbs := (hRS hrs).trans (hreset _ hout)
      refine hdone true (by rw [hnd, hout]; simp) (by rw [hout]; rcases hrs with rfl | rfl <;> rfl) ?_
      rw [hbs, hout]; rfl
  · have hbs : bstep b .dropAll = match out with
        | .fine => pure (.unit, ({ b with root := 0 } : BState).after evs m)
        | .panicked => pure (.panicked none, ({ b with root := 0 } : BState).after evs m)
        | .aborted => pure (.aborted, { ({ b with root := 0 } : BState).after evs m with over := true }) := by
      show (b.dropList >>= _) = _
      rw [ebind_ok' e1]
      cases out <;> rfl
    cases hout : out with
    | fine => exact hdone b.over (by rw [hout]; simp) (by rw [hout]; rfl) (by rw [hbs, hout]; rfl)
    | panicked => exact hdone b.over (by rw [hout]; simp) (by rw [hout]; rfl) (by rw [hbs, hout]; rfl)
    | aborted => exact hdone true (by rw [hout]; simp) (by rw [hout]; rfl) (by rw [hbs, hout]; rfl)
  · have hda : b0.kind.frees = true → ∀ s', b0.kind.step (b.withM m).s .resetFinal = .ok (.unit, s') →
        (({ b with root := 0 } : BState).after evs m).dropAlloc = pure { ({ b with root := 0 } : BState).after evs m with s := s' } := by
      intro hko s' h1
      exact BState.dropAlloc_ok (by rw [show (({ b with root := 0 } : BState).after evs m).kind = b0.kind from hk]; exact hko)
        (by rw [show (({ b with root := 0 } : BState).after evs m).kind = b0.kind from hk]; exact h1)
    have hdn : b0.kind.frees = false →
        (({ b with root := 0 } : BState).after evs m).dropAlloc = pure (({ b with root := 0 } : BState).after evs m) := by
      intro hko
      exact BState.dropAlloc_keeps (by rw [show (({ b with root := 0 } : BState).after evs m).kind = b0.kind from hk]; exact hko)
    have hbs : bstep b .dropBlink = match out with
        | .fine => (({ b with root := 0 } : BState).after evs m).dropAlloc >>= fun b => pure (.unit, { b with over := true })
        | .panicked => (({ b with root := 0 } : BState).after evs m).dropAlloc >>= fun b => pure (.panicked none, { b with over := true })
        | .aborted => pure (.aborted, { ({ b with root := 0 } : BState).after evs m with over := true }) := by
      show (b.dropList >>= _) = _
      rw [ebind_ok' e1]
      cases out <;> rfl
    cases hout : out with
    | aborted => exact hdone true (by rw [hout]; simp) (by rw [hout]; rfl) (by rw [hbs, hout]; rfl)
    | fine =>
      by_cases hko : b0.kind.frees = true
      · obtain ⟨s', cs', h1, h2, h3⟩ := hres (AKind.frees_keeps hko) .resetFinal (.inr rfl)
        refine hrenew true s' cs' (by simp) (AKind.frees_keeps hko) (by rw [if_pos rfl]; exact h1) h2 h3 (by rw [hout]; simp [renews, hko]) ?_
        rw [hbs, hout]; dsimp only; rw [hda hko s' h1]; rfl
      · have hko : b0.kind.frees = false := by simpa using hko
        refine hdone true (by simp) (by rw [hout]; simp [renews, hko]) ?_
        rw [hbs, hout]; dsimp only; rw [hdn hko]; rfl
    | panicked =>
      by_cases hko : b0.kind.frees = true
      · obtain ⟨s', cs', h1, h2, h3⟩ := hres (AKind.frees_keeps hko) .resetFinal (.inr rfl)
        refine hrenew true s' cs' (by simp) (AKind.frees_keeps hko) (by rw [if_pos rfl]; exact h1) h2 h3 (by rw [hout]; simp [renews, hko]) ?_
        rw [hbs, hout]; dsimp only; rw [hda hko s' h1]; rfl
      · have hko : b0.kind.frees = false := by simpa using hko
        refine hdone true (by simp) (by rw [hout]; simp [renews, hko]) ?_
        rw [hbs, hout]; dsimp only; rw [hdn hko]; rfl

end Blink
