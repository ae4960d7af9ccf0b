import Verif.Proofs.ProxyZeroStep
import Verif.Props.ProxyProgress
import Verif.Props.ProxyRoom
import Verif.Spec.ProxyZeroExec
/-
  Property theorems about `allocate_zeroed` and `grow_zeroed` of `LocalBlinkAlloc`, any number of proxies and direct users: C93.
  `ZPReach p0 z V` (Verif/Spec/ProxyZero.lean): `z` is reached from a fresh shared allocator without proxies in state `p0` by an arbitrary
  schedule of calls that respect the contract `ZPLegal`, zeroed calls of proxies among them; the callers' book is `V`.
-/
namespace Blink

theorem ZPReach.snoc {p0 z V a r z' V'} (h : ZPReach p0 z V) (hl : ZPLegal V a) (hs : zpstep z a = .ok (some (r, z')))
    (ha : ZPAfter z.p.s.w.mem V a r V') : ZPReach p0 z' V' := by
  obtain ⟨h0, tr, hr⟩ := h
  exact ⟨h0, _, hr.snoc hl hs ha⟩

/-- What the callers hold through a proxy is part of what is held through it in the book without default methods. -/
theorem ZPInv.blocks {p0 z V K} (h : ZPInv p0 z V K) (i : Nat) : ∃ extra, (K.blocks i).Perm (extra ++ V.blocks i) := by
  have ht := h.thr i
  have hp := h.parts i
  unfold ZPBook.blocks PBook.blocks
  generalize z.zpcs i = pc at ht hp
  generalize V.zbusy i = bz at ht hp
  generalize K.pbusy i = kp at ht
  generalize V.k.pbusy i = vp at ht
  cases ht with
  | off => exact ⟨[], hp.append_left _⟩
  | alloc hj => exact ⟨[], hp⟩
  | @zero j ob b k hj hk hz => exact ⟨[Owned.of b j.layout], hp⟩
  | @copy p old new o b k hj hk hlen hc hz => exact ⟨[Owned.of b new], hp⟩

theorem ZPInv.block_mem {p0 z V K} (h : ZPInv p0 z V K) {i b} (hb : b ∈ V.blocks i) : b ∈ K.blocks i := by
  obtain ⟨extra, hp⟩ := h.blocks i
  exact hp.mem_iff.mpr (List.mem_append_right _ hb)

/-- C93: whatever callers do, zeroed calls of proxies included, leads to a state that calls of the other methods lead to as well, the same
things being known about direct users and proxies, and no block being missing: so C26–C28, C69, C72–C78 speak about it too. -/
theorem C93_refines {p0 z V} (h : ZPReach p0 z V) : ∃ K, PReach p0 z.p K ∧ K.direct = V.k.direct ∧ K.live = V.k.live ∧
    (∀ i, ∀ b ∈ V.blocks i, b ∈ K.blocks i) ∧ ∀ i x, V.k.pbusy i = some x → K.pbusy i = some x := by
  obtain ⟨K, hi⟩ := h.inv
  refine ⟨K, hi.base, hi.direct, hi.live, fun i b hb => hi.block_mem hb, fun i x hx => ?_⟩
  by_cases hz : V.zbusy i = none
  · rw [(hi.idle hz).2.1]; exact hx
  · rw [hi.hidden hz] at hx; cases hx

/-- C93: at every moment of every schedule, the blocks obtained directly and those obtained through proxies, including those handed over to
calls in progress, have pairwise no byte in common. -/
theorem C93_no_overlap {p0 z V} (h : ZPReach p0 z V) {ids : List Nat} (hn : ids.Nodup) :
    (V.k.direct.owned ++ ids.flatMap V.blocks).Pairwise Owned.Apart := by
  obtain ⟨K, hi⟩ := h.inv
  have one : ∀ i, K.direct.owned.Pairwise Owned.Apart ∧ (K.blocks i).Pairwise Owned.Apart ∧
      ∀ b ∈ K.direct.owned, ∀ c ∈ K.blocks i, b.Apart c := by
    intro i
    have := C26_no_overlap hi.base (ids := [i]) (by simp)
    rw [List.pairwise_append] at this
    simpa using this
  rw [← hi.direct, List.pairwise_append]
  refine ⟨(one 0).1, ?_, ?_⟩
  · induction ids with
    | nil => exact .nil
    | cons i ids ih =>
      rw [List.nodup_cons] at hn
      rw [List.flatMap_cons, List.pairwise_append]
      refine ⟨?_, ih hn.2, ?_⟩
      · obtain ⟨extra, hp⟩ := hi.blocks i
        exact (List.pairwise_append.mp (apart_perm hp (one i).2.1)).2.1
      · intro b hb c hc
        obtain ⟨u, hu, hc⟩ := List.mem_flatMap.mp hc
        have hne : i ≠ u := fun he => hn.1 (he ▸ hu)
        have := C26_no_overlap hi.base (ids := [i, u]) (by simp [hne])
        rw [List.pairwise_append] at this
        simp only [List.flatMap_cons, List.flatMap_nil, List.append_nil] at this
        exact (List.pairwise_append.mp this.2.1).2.2 b (hi.block_mem hb) c (hi.block_mem hc)
  · intro b hb c hc
    obtain ⟨u, _, hc⟩ := List.mem_flatMap.mp hc
    exact (one u).2.2 b hb c (hi.block_mem hc)

/-- C93: every block is aligned and long enough for its layout, not null, and lies inside one block held from the underlying allocator. -/
theorem C93_memory {p0 z V} (h : ZPReach p0 z V) {b : Owned} (hb : b ∈ V.k.direct.owned ∨ ∃ i, b ∈ V.blocks i) :
    b.addr % b.align = 0 ∧ b.size ≤ b.len ∧ 0 < b.addr ∧
    ∃ B ∈ openBlocks z.p.s.w.log, B ∈ z.p.s.w.held ∧ B.addr ≤ b.addr ∧ b.addr + b.len ≤ B.addr + B.len := by
  obtain ⟨K, hi⟩ := h.inv
  refine C26_memory hi.base ?_
  rcases hb with hb | ⟨i, hb⟩
  · exact .inl (hi.direct ▸ hb)
  · exact .inr ⟨i, hi.block_mem hb⟩

theorem ZPInv.may {p0 z V K} (h : ZPInv p0 z V K) {a : PAct} (hp : ∀ i, a.proxy = some i → V.zbusy i = none)
    (hc : ∀ t c, a = .shared (.call t c) → V.zbusy t = none) : z.may a = true := by
  unfold ZPS.may
  split
  · rename_i i hm
    simp only [decide_eq_true_eq]
    refine (h.idle ?_).1
    unfold PAct.maker at hm
    split at hm <;> first | (cases hm; done) | (injection hm with hm; subst hm; first | exact hc _ _ rfl | exact hp _ rfl)
  · rfl

/-- C93: no step faults, unless the underlying allocator breaks its contract in that very step; the one exception is the debug assertion
described at `PS.EmptyChunk`, which C26 has already. -/
theorem C93_no_fault {p0 z V} (h : ZPReach p0 z V) {a : ZPAct} (hl : ZPLegal V a) {e : Fault} (he : zpstep z a = .error e) :
    BadAnswer z.p.s.w e ∨ ∃ a', a = .base a' ∧ z.p.EmptyChunk a' e := by
  obtain ⟨K, hi⟩ := h.inv
  have call : ∀ {i l}, V.k.Ready i → V.zbusy i = none → l.Modest → pstep z.p (.allocate i l) = .error e → BadAnswer z.p.s.w e := by
    intro i l hR hz hm hs
    have hl := hi.legal (PLegal.allocate hR hm) (fun u hu => by cases hu; exact hz) nofun
    rcases C26_no_ub hi.base hl hs with hb | ⟨_, _, _, _, _, h1, _⟩
    · exact hb
    · cases h1
  cases hl with
  | @base a hl hp hc =>
    simp only [zpstep, if_pos (hi.may hp hc)] at he
    cases hs : pstep z.p a with
    | error e' =>
      rw [hs] at he
      cases he
      rcases C26_no_ub hi.base (hi.legal hl hp hc) hs with hb | hb
      · exact .inl hb
      · exact .inr ⟨a, rfl, hb⟩
    | ok q =>
      rw [hs] at he
      rcases q with _ | ⟨r0, p'⟩
      · cases he
      · replace he : (match z.inside a with
          | some (i, j) => (pure (some (z.got i j p' r0)) : ZPRes)
          | none => pure (some (r0, { z with p := p' }))) = .error e := he
        split at he <;> cases he
  | @zeroed i l hR hz hm =>
    simp only [zpstep, if_pos (hi.idle hz).1] at he
    refine .inl (call hR hz hm ?_)
    show pstep z.p (.allocate i (ZJob.zeroed l).layout) = .error e
    cases hs : pstep z.p (.allocate i (ZJob.zeroed l).layout) with
    | error e' => rw [hs] at he; cases he; rfl
    | ok q => rw [hs] at he; rcases q with _ | ⟨r0, p'⟩ <;> cases he
  | @growZeroed i b p old new hR hz hb hf hm hsz =>
    simp only [zpstep, if_pos (hi.idle hz).1, dassert, if_neg (fun hh => hh.2 hsz : ¬ (z.p.s.w.debug = true ∧ ¬ old.size ≤ new.size))] at he
    refine .inl (call hR hz hm ?_)
    show pstep z.p (.allocate i (ZJob.growZeroed p old new).layout) = .error e
    cases hs : pstep z.p (.allocate i (ZJob.growZeroed p old new).layout) with
    | error e' => rw [hs] at he; cases he; rfl
    | ok q => rw [hs] at he; rcases q with _ | ⟨r0, p'⟩ <;> cases he
  | @zgo i =>
    simp only [zpstep, zpgoStep] at he
    split at he
    · rename_i j b k hpc
      obtain ⟨ob, hb, hj, hkp, hvp, hp, hk', hz⟩ := hi.at_zero hpc
      have hm : Owned.of b j.layout ∈ K.led i := hp.mem_iff.mpr List.mem_cons_self
      split at he
      · rename_i hlt
        simp only [zeroByte] at he
        have hacc : z.p.s.w.accessible (b.addr + k) 1 = true := hi.base.access hm ⟨Nat.le_add_right .., Nat.add_lt_add_left hlt _⟩
        rw [if_pos hacc] at he
        cases he
      · cases hj with
        | zeroed => cases he
        | @grow o p old new hf hv hsz same =>
          simp only [require] at he
          have hlen : new.size ≤ b.len := (C26_memory hi.base (.inr ⟨i, List.mem_append_right _ hm⟩)).2.1
          have hap : (Owned.of b new).Apart o :=
            (List.pairwise_cons.mp (apart_perm hp (hi.base.led_apart.2.1 i))).1 o (by simp)
          rw [if_pos ?_] at he
          · cases he
          · by_cases h0 : old.size = 0
            · exact .inl h0
            · have h1 := Owned.apart_ends hap (by show 0 < b.len; omega) (by have := hf.2.2.2; omega)
              have := hf.1; have := hf.2.2.2
              simp only [Owned.of] at h1
              omega
    · rename_i p old new b k hpc
      obtain ⟨o, hb, hj, hkp, hvp, hp, hk', hlen, hc, hz⟩ := hi.at_copy hpc
      cases hj with
      | grow hf hv hsz same =>
      have ho : o ∈ K.led i := hp.mem_iff.mpr (by simp)
      have hm : Owned.of b new ∈ K.led i := hp.mem_iff.mpr List.mem_cons_self
      split at he
      · rename_i hlt
        simp only [copyByte] at he
        have := hf.1; have := hf.2.2.2
        rw [if_pos ⟨hi.base.access ho ⟨by omega, by omega⟩,
          hi.base.access hm ⟨Nat.le_add_right .., by show b.addr + k < b.addr + b.len; omega⟩⟩] at he
        cases he
      · have hact := hi.act i (by rw [hb]; nofun)
        have hl : PLegal K (.deallocate i p old.size) :=
          .deallocate ⟨by rw [hi.live]; exact hact.1, hkp, by rw [hi.direct]; exact hact.2⟩ ho ⟨hf.1, hf.2.2.1, hf.2.2.2⟩
        cases hs : pstep z.p (.deallocate i p old.size) with
        | error e' =>
          rw [hs] at he
          cases he
          rcases C26_no_ub hi.base hl hs with hb | ⟨_, _, _, _, _, h1, _⟩
          · exact .inl hb
          · cases h1
        | ok q => rw [hs] at he; rcases q with _ | ⟨r0, p'⟩ <;> cases he
    · cases he

/-- C93: a step changes no byte of a block that is held, or was handed over to a call in progress, unless the step is the owner's store to that byte,
or the reset or drop of the proxy the block was obtained through. -/
theorem C93_frame {p0 z V} (h : ZPReach p0 z V) {a : ZPAct} (hl : ZPLegal V a) {r z'} (hs : zpstep z a = .ok (some (r, z'))) {b : Owned} {x : Nat}
    (hx : b.Has x) (hw : ∀ v, a ≠ .base (.shared (.write x v)))
    (hb : (b ∈ V.k.direct.owned ∧ ∀ a', a = .base (.shared a') → ¬ a'.isReset) ∨
      ∃ i, b ∈ V.blocks i ∧ a ≠ .base (.reset i) ∧ a ≠ .base (.resetUnchecked i) ∧ a ≠ .base (.drop i)) :
    z'.p.s.w.mem x = z.p.s.w.mem x := by
  obtain ⟨K, hi⟩ := h.inv
  have hgot : ∀ {i j p' r0}, z.got i j p' r0 = (r, z') → z'.p = p' := by
    intro i j p' r0 hg
    have : (z.got i j p' r0).2.p = p' := by unfold ZPS.got; split <;> rfl
    rw [hg] at this; exact this
  have plain : ∀ {a' r0 p'}, PLegal K a' → pstep z.p a' = .ok (some (r0, p')) → (∀ v, a' ≠ .shared (.write x v)) →
      (∀ a'', a' = .shared a'' → a''.isReset → a = .base a') → (∀ i, a' = .reset i ∨ a' = .resetUnchecked i ∨ a' = .drop i → a = .base a') →
      p'.s.w.mem x = z.p.s.w.mem x := by
    intro a' r0 p' hl' hs' hw' hr1 hr2
    refine C26_frame hi.base hl' hs' hx hw' ?_
    rcases hb with ⟨hb, hr⟩ | ⟨i, hb, h1, h2, h3⟩
    · exact .inl ⟨hi.direct ▸ hb, fun a'' he hre => hr a'' (by rw [hr1 a'' he hre, he]) hre⟩
    · refine .inr ⟨i, hi.block_mem hb, ?_, ?_, ?_⟩
      · exact fun he => h1 (by rw [hr2 i (.inl he), he])
      · exact fun he => h2 (by rw [hr2 i (.inr (.inl he)), he])
      · exact fun he => h3 (by rw [hr2 i (.inr (.inr he)), he])
  have store : ∀ {i : Nat} {c : Owned} {y : Nat} {v : Byte}, c ∈ K.led i → c.Has y → (∀ d, d ∈ V.blocks i → d.Apart c) →
      setBytes z.p.s.w.mem y 1 (fun _ => v) x = z.p.s.w.mem x := by
    intro i c y v hc hy hd
    refine setBytes_out ?_
    have : x ≠ y := by
      intro he
      subst he
      rcases hb with ⟨hb, _⟩ | ⟨u, hb, _⟩
      · exact hi.base.led_apart.1 b (hi.direct ▸ hb) i c hc x ⟨hx, hy⟩
      · by_cases hu : u = i
        · subst hu; exact hd b hb x ⟨hx, hy⟩
        · have := C26_no_overlap hi.base (ids := [u, i]) (by simp [hu])
          rw [List.pairwise_append] at this
          simp only [List.flatMap_cons, List.flatMap_nil, List.append_nil] at this
          exact (List.pairwise_append.mp this.2.1).2.2 b (hi.block_mem hb) c (List.mem_append_right _ hc) x ⟨hx, hy⟩
    omega
  cases hl with
  | @base a hl hp hc =>
    obtain ⟨_, r0, p', hs', hcase⟩ := zpstep_base hs
    have := plain (hi.legal hl hp hc) hs' (fun v he => hw v (by rw [he])) (fun _ _ _ => rfl) (fun _ _ => rfl)
    rcases hcase with ⟨i, ch, j, rfl, hpc, hg⟩ | ⟨_, _, rfl⟩
    · rw [hgot hg]; exact this
    · exact this
  | @zeroed i l hR hz hm =>
    obtain ⟨_, r0, p', hs', hg⟩ := zpstep_zcall hs
    rw [hgot hg]
    exact plain (hi.legal (PLegal.allocate hR hm) (fun u hu => by cases hu; exact hz) nofun) hs' nofun nofun
      (fun i he => by rcases he with he | he | he <;> cases he)
  | @growZeroed i b' p old new hR hz hb' hf hm hsz =>
    obtain ⟨_, r0, p', hs', hg⟩ := zpstep_zcall hs
    rw [hgot hg]
    exact plain (hi.legal (PLegal.allocate hR hm) (fun u hu => by cases hu; exact hz) nofun) hs' nofun nofun
      (fun i he => by rcases he with he | he | he <;> cases he)
  | @zgo i =>
    have vis : ∀ {c : Owned} {rest : List Owned} {ob : Option Owned} {j : ZJob}, V.zbusy i = some (j, ob) → V.k.pbusy i = none →
        (K.led i).Perm (c :: (ob.toList ++ V.k.led i)) → ∀ d, d ∈ V.blocks i → d.Apart c := by
      intro c rest ob j hb hvp hp d hd
      have := apart_perm hp (hi.base.led_apart.2.1 i)
      refine ((List.pairwise_cons.mp this).1 d ?_).symm
      unfold ZPBook.blocks PBook.blocks at hd
      rw [hb, hvp] at hd
      exact hd
    cases zpgo_cases hs with
    | @zero j c k p' hpc hk hs' =>
      obtain ⟨ob, hb', hj, hkp, hvp, hp, hk', hz⟩ := hi.at_zero hpc
      rw [pstep_write] at hs'
      cases hs'
      exact store (hp.mem_iff.mpr List.mem_cons_self) ⟨Nat.le_add_right .., Nat.add_lt_add_left hk _⟩ (vis (rest := []) hb' hvp hp)
    | zeroed => rfl
    | toCopy => rfl
    | @copy p old new c k p' hpc hk hs' =>
      obtain ⟨o, hb', hj, hkp, hvp, hp, hk', hlen, hc, hz⟩ := hi.at_copy hpc
      rw [pstep_write] at hs'
      cases hs'
      obtain ⟨_, _, _, hj', _, hsz, _⟩ := hj.old
      cases hj'
      exact store (hp.mem_iff.mpr List.mem_cons_self) ⟨Nat.le_add_right .., by show c.addr + k < c.addr + c.len; omega⟩
        (vis (rest := []) (ob := some o) hb' hvp hp)
    | @free p old new c k r' p' hpc hk hs' =>
      obtain ⟨o, hb', hj, hkp, hvp, hp, hk', hlen, hc, hz⟩ := hi.at_copy hpc
      cases hj with
      | grow hf hv hsz same =>
      have hact := hi.act i (by rw [hb']; nofun)
      exact plain (.deallocate ⟨by rw [hi.live]; exact hact.1, hkp, by rw [hi.direct]; exact hact.2⟩ (hp.mem_iff.mpr (by simp))
        ⟨hf.1, hf.2.2.1, hf.2.2.2⟩) hs' nofun nofun (fun i he => by rcases he with he | he | he <;> cases he)

theorem ZPAct.Runs.legal {a : ZPAct} {i} (h : a.Runs i) (V : ZPBook) : ZPLegal V a := by
  rcases h with rfl | ⟨ch, rfl⟩
  · exact .zgo
  · exact .base .go nofun nofun

/-- What `self.allocate` of a default method answers when it has waited for the shared allocator: a block or an error. -/
theorem PReach.alloc_answer {p0 ps K} (h : PReach p0 ps K) {i l ob} (hb : K.pbusy i = some (.allocate l, ob)) {ch v p'}
    (hs : pstep ps (.shared (.go i ch)) = .ok (some (some v, p'))) : v = .err ∨ ∃ b, v = .block b := by
  obtain ⟨KS, cs, pend, hi⟩ := h.inv
  have hx := hi.px i
  rw [hb] at hx
  generalize hpx : ps.px i = px at hx
  generalize K.live i = lv at hx
  generalize K.led i = ld at hx
  generalize K.direct.busy i = db at hx
  generalize KS.busy i = kb at hx
  generalize cs i = c at hx
  generalize pend i = pd at hx
  cases hx
  simp only [pstep, hpx] at hs
  obtain ⟨q, _, hs⟩ := ebind_inv hs
  rcases q with _ | ⟨_ | r, s'⟩
  · cases hs
  · cases hs
  · replace hs : PS.resume { ps with s := s' } i _ r (.alloc l) = .ok (some (some v, p')) := hs
    cases r with
    | block sl =>
      simp only [PS.resume] at hs
      obtain ⟨⟨b, w⟩, _, hs⟩ := ebind_inv hs
      cases hs
      exact .inr ⟨b, rfl⟩
    | _ => cases hs; exact .inl rfl

/-- How a zeroed call comes back. -/
theorem ZPInv.ret {p0 z V K} (h : ZPInv p0 z V K) {i j ob} (hb : V.zbusy i = some (j, ob)) {a : ZPAct} (ha : a.Runs i) {r z'}
    (hs : zpstep z a = .ok (some (some r, z'))) :
    (r = .err ∧ z.zpcs i = .alloc j ∧ ∃ ch p', pstep z.p (.shared (.go i ch)) = .ok (some (some .err, p'))) ∨
    (∃ l b k, j = .zeroed l ∧ z.zpcs i = .zero (.zeroed l) b k ∧ b.len ≤ k ∧ r = .block b ∧ z'.p = z.p) ∨
    ∃ p old new b k r', j = .growZeroed p old new ∧ z.zpcs i = .copy p old new b k ∧ old.size ≤ k ∧ r = .block b ∧
      pstep z.p (.deallocate i p old.size) = .ok (some (r', z'.p)) := by
  rcases ha with rfl | ⟨ch, rfl⟩
  · cases zpgo_cases hs with
    | zeroed hpc hk =>
      obtain ⟨ob', hb', _⟩ := h.at_zero hpc
      rw [hb] at hb'; cases hb'
      exact .inr (.inl ⟨_, _, _, rfl, hpc, hk, rfl, rfl⟩)
    | free hpc hk hs' =>
      obtain ⟨o, hb', _⟩ := h.at_copy hpc
      rw [hb] at hb'; cases hb'
      exact .inr (.inr ⟨_, _, _, _, _, _, rfl, hpc, hk, rfl, hs'⟩)
  · obtain ⟨_, r0, p', hs', hcase⟩ := zpstep_base hs
    rcases hcase with ⟨u, ch', j', he, hpc, hg⟩ | ⟨hna, rfl, rfl⟩
    · cases he
      obtain ⟨ob', hb', _, hkp, _⟩ := h.at_alloc hpc
      rw [hb] at hb'; cases hb'
      rcases r0 with _ | v
      · cases hg
      · rcases h.base.alloc_answer hkp hs' with rfl | ⟨b, rfl⟩
        · cases hg
          exact .inl ⟨rfl, hpc, ch, p', hs'⟩
        · cases hg
    · exfalso
      have ht := h.thr i
      rw [hb] at ht
      generalize hpc : z.zpcs i = pc at ht
      generalize hkp : K.pbusy i = kp at ht
      generalize hvp : V.k.pbusy i = vp at ht
      have hact := h.act i (by rw [hb]; nofun)
      have quiet : kp = none → False := by
        rintro rfl
        obtain ⟨KS, cs, pend, hi⟩ := h.base.inv
        have hx := hi.px i
        rw [hkp, h.direct, hact.2] at hx
        have hKS : KS.busy i = none := by
          generalize z.p.px i = px at hx
          generalize K.live i = lv at hx
          generalize K.led i = ld at hx
          generalize KS.busy i = kb at hx
          generalize cs i = c at hx
          generalize pend i = pd at hx
          cases hx <;> rfl
        simp only [pstep] at hs'
        obtain ⟨q, hq, hs'⟩ := ebind_inv hs'
        rcases q with _ | ⟨_ | r1, s'⟩
        · cases hs'
        · cases hs'
        · obtain ⟨_, _, c, ob, hk⟩ := hi.reach.ret_w hq
          rw [hKS] at hk
          cases hk
      cases ht with
      | alloc => exact hna i ch rfl _ hpc
      | zero => exact quiet rfl
      | copy => exact quiet rfl

/-- C93: `allocate_zeroed` returns a block of zeros, long enough and aligned, which has no byte in common with any block anybody holds; or it
fails, which it does only where `allocate` of the proxy fails. -/
theorem C93_allocate_zeroed {p0 z V} (h : ZPReach p0 z V) {i l ob} (hb : V.zbusy i = some (.zeroed l, ob)) {a : ZPAct} (ha : a.Runs i) {r z'}
    (hs : zpstep z a = .ok (some (some r, z'))) :
    (∃ b, r = .block b ∧ (∀ n, n < b.len → z'.p.s.w.mem (b.addr + n) = .raw 0) ∧ l.size ≤ b.len ∧ b.addr % l.align = 0 ∧
      (∀ c ∈ V.k.direct.owned, c.Apart (Owned.of b l)) ∧ (∀ u, ∀ c ∈ V.blocks u, c.Apart (Owned.of b l)) ∧
      ∃ V', ZPReach p0 z' V' ∧ V'.k.led i = Owned.of b l :: V.k.led i ∧ V'.zbusy i = none) ∨
    (r = .err ∧ (∃ ch p', pstep z.p (.shared (.go i ch)) = .ok (some (some .err, p'))) ∧
      ∃ V', ZPReach p0 z' V' ∧ V'.k.led i = V.k.led i ∧ V'.zbusy i = none) := by
  obtain ⟨K, hi⟩ := h.inv
  have h' := h.snoc (ha.legal V) hs (.ret ha hb)
  rcases hi.ret hb ha hs with ⟨rfl, hpc, he⟩ | ⟨l', b, k, hj, hpc, hk, rfl, hp'⟩ | ⟨_, _, _, _, _, _, hj, _⟩
  · obtain ⟨ob', hb', hj, _⟩ := hi.at_alloc hpc
    rw [hb] at hb'; cases hb'
    cases hj
    exact .inr ⟨rfl, he, _, h', put_same _ _ _, put_same _ _ _⟩
  · cases hj
    obtain ⟨ob', hb', hj, hkp, hvp, hp, _, hz⟩ := hi.at_zero hpc
    rw [hb] at hb'; cases hb'
    cases hj
    have hm : Owned.of b l ∈ K.led i := hp.mem_iff.mpr List.mem_cons_self
    have hmem := C26_memory hi.base (.inr ⟨i, List.mem_append_right _ hm⟩)
    refine .inl ⟨b, rfl, fun n hn => by rw [hp']; exact hz n (Nat.lt_of_lt_of_le hn hk), hmem.2.1, hmem.1, ?_, ?_, _, h', put_same _ _ _, put_same _ _ _⟩
    · exact fun c hc => hi.base.led_apart.1 c (hi.direct ▸ hc) i _ hm
    · intro u c hc
      by_cases hu : u = i
      · subst hu
        refine ((List.pairwise_cons.mp (apart_perm hp (hi.base.led_apart.2.1 u))).1 c ?_).symm
        unfold ZPBook.blocks PBook.blocks at hc
        rw [hb, hvp] at hc
        exact hc
      · have := C26_no_overlap hi.base (ids := [u, i]) (by simp [hu])
        rw [List.pairwise_append] at this
        simp only [List.flatMap_cons, List.flatMap_nil, List.append_nil] at this
        exact (List.pairwise_append.mp this.2.1).2.2 c (hi.block_mem hc) _ (List.mem_append_right _ hm)
  · cases hj

theorem ZPRun.snap {z1 V1 tr z2 V2} (h : ZPRun z1 V1 tr z2 V2) {i : Nat} {x} (hb : V1.zbusy i = some x)
    (hno : ∀ a r, ZPAct.Runs a i → (a, some r) ∉ tr) : V2.zbusy i = some x ∧ V2.snap i = V1.snap i := by
  induction h with
  | nil => exact ⟨hb, rfl⟩
  | @snoc tr z V a r z' V' hr hl hs ha ih =>
    obtain ⟨h1, h2⟩ := ih fun a r hat hm => hno a r hat (List.mem_append_left _ hm)
    cases ha with
    | base => exact ⟨h1, h2⟩
    | inside => exact ⟨h1, h2⟩
    | @ret _ u j ob r ha hb' =>
      have hne : i ≠ u := fun he => by subst he; exact hno a r ha (by simp)
      dsimp only; rw [put_ne _ _ hne]; exact ⟨h1, h2⟩
    | @zeroed u =>
      have hne : i ≠ u := fun he => by subst he; cases hl with | zeroed _ hb' => rw [hb'] at h1; cases h1
      cases r with
      | some v => exact ⟨h1, h2⟩
      | none => simp only [ZPBook.enter]; rw [put_ne _ _ hne, put_ne _ _ hne]; exact ⟨h1, h2⟩
    | @growZeroed u =>
      have hne : i ≠ u := fun he => by subst he; cases hl with | growZeroed _ hb' => rw [hb'] at h1; cases h1
      cases r with
      | some v => exact ⟨h1, h2⟩
      | none => simp only [ZPBook.enter]; rw [put_ne _ _ hne, put_ne _ _ hne]; exact ⟨h1, h2⟩

/-- C93: a `grow_zeroed` that returns a block returns one beginning with the old contents as they were when the call was made, and zero from
there to its end; one that fails, which it does only where `allocate` fails, leaves the old block with its contents; whatever the schedule `tr`
does between call and return. -/
theorem C93_grow_zeroed {p0 z z1 z2 z3 V V1 V2} (h : ZPReach p0 z V) {i p : Nat} {old new : Layout}
    (hl : ZPLegal V (.zcall i (.growZeroed p old new))) (hs : zpstep z (.zcall i (.growZeroed p old new)) = .ok (some (none, z1)))
    (ha : ZPAfter z.p.s.w.mem V (.zcall i (.growZeroed p old new)) none V1) {tr} (hr : ZPRun z1 V1 tr z2 V2)
    (hno : ∀ a r, ZPAct.Runs a i → (a, some r) ∉ tr) {a : ZPAct} (hat : a.Runs i) {r : Resp}
    (hret : zpstep z2 a = .ok (some (some r, z3))) :
    (∃ blk, r = .block blk ∧ (∀ n, n < old.size → z3.p.s.w.mem (blk.addr + n) = z.p.s.w.mem (p + n)) ∧
      (∀ n, old.size ≤ n → n < blk.len → z3.p.s.w.mem (blk.addr + n) = .raw 0) ∧ new.size ≤ blk.len ∧ blk.addr % new.align = 0 ∧
      ∃ V3, ZPReach p0 z3 V3 ∧ V3.k.led i = Owned.of blk new :: V2.k.led i) ∨
    (∃ b ∈ V.k.led i, r = .err ∧ b.Fits p old ∧ (∀ x, b.Has x → z3.p.s.w.mem x = z.p.s.w.mem x) ∧
      (∃ ch p', pstep z2.p (.shared (.go i ch)) = .ok (some (some .err, p'))) ∧ ∃ V3, ZPReach p0 z3 V3 ∧ V3.k.led i = b :: V2.k.led i) := by
  obtain ⟨h0, tr0, hr0⟩ := h
  have h2 : ZPReach p0 z2 V2 := ⟨h0, _, (hr0.snoc hl hs ha).trans hr⟩
  obtain ⟨K, hi⟩ := h2.inv
  cases ha with
  | inside ha => rcases ha with ha | ⟨_, ha⟩ <;> cases ha
  | @growZeroed _ b _ _ _ _ ho hf =>
    obtain ⟨hb2, hsn⟩ := hr.snap (i := i) (put_same _ _ _) hno
    replace hsn : V2.snap i = z.p.s.w.mem := hsn.trans (put_same _ _ _)
    have h' := h2.snoc (hat.legal V2) hret (.ret hat hb2)
    rcases hi.ret hb2 hat hret with ⟨rfl, hpc, he⟩ | ⟨_, _, _, hj, _⟩ | ⟨p', old', new', blk, k, r', hj, hpc, hk, rfl, hd⟩
    · obtain ⟨ob', hb', hj, _⟩ := hi.at_alloc hpc
      rw [hb2] at hb'; cases hb'
      rw [hsn] at hj
      cases hj with
      | grow hf' hv hsz same =>
        refine .inr ⟨b, ho, rfl, hf, fun x hx => ?_, he, _, h', put_same _ _ _⟩
        rw [← same x hx]
        refine C93_frame h2 (hat.legal V2) hret hx ?_ (.inr ⟨i, ?_, ?_, ?_, ?_⟩)
        · intro v hv; rcases hat with rfl | ⟨_, rfl⟩ <;> cases hv
        · unfold ZPBook.blocks; rw [hb2]; exact List.mem_append_left _ (by simp)
        all_goals (intro hv; rcases hat with rfl | ⟨_, rfl⟩ <;> cases hv)
    · cases hj
    · cases hj
      obtain ⟨o, hb', hj, hkp, hvp, hp, hk', hlen, hc, hz⟩ := hi.at_copy hpc
      rw [hb2] at hb'; cases hb'
      rw [hsn] at hc
      cases hj with
      | grow hf' hv hsz same =>
        have hm : Owned.of blk new ∈ K.led i := hp.mem_iff.mpr List.mem_cons_self
        have hact := hi.act i (by rw [hb2]; nofun)
        have hld : PLegal K (.deallocate i p old.size) :=
          .deallocate ⟨by rw [hi.live]; exact hact.1, hkp, by rw [hi.direct]; exact hact.2⟩ (hp.mem_iff.mpr (by simp)) ⟨hf'.1, hf'.2.2.1, hf'.2.2.2⟩
        have keep : ∀ n, n < blk.len → z3.p.s.w.mem (blk.addr + n) = z2.p.s.w.mem (blk.addr + n) := fun n hn =>
          C26_frame hi.base hld hd (b := Owned.of blk new) ⟨Nat.le_add_right .., Nat.add_lt_add_left hn _⟩ nofun
            (.inr ⟨i, List.mem_append_right _ hm, nofun, nofun, nofun⟩)
        have hmem := C26_memory hi.base (.inr ⟨i, List.mem_append_right _ hm⟩)
        exact .inl ⟨blk, rfl, fun n hn => (keep n (by omega)).trans (hc n (by omega)), fun n h1 h2 => (keep n h2).trans (hz n (by omega) h2),
          hlen, hmem.1, _, h', put_same _ _ _⟩

/-- C93: a zeroed call can always be made, without waiting, and never fails at once. -/
theorem C93_starts {p0 z V} (h : ZPReach p0 z V) {i : Nat} {j : ZJob} (hl : ZPLegal V (.zcall i j)) :
    ∃ z', zpstep z (.zcall i j) = .ok (some (none, z')) := by
  obtain ⟨K, hi⟩ := h.inv
  have go : ∀ {l}, V.k.Ready i → V.zbusy i = none → l.Modest → ∃ r0 p', pstep z.p (.allocate i l) = .ok (some (r0, p')) ∧ r0 ≠ some .err ∧ r0 ≠ some .unit := by
    intro l hR hz hm
    have hl : PLegal K (.allocate i l) := hi.legal (PLegal.allocate hR hm) (fun u hu => by cases hu; exact hz) nofun
    by_cases hf : z.p.Fits i l
    · obtain ⟨pos, e, q, hroom, h1, h2, h3⟩ := hf
      obtain ⟨b, p', he, _⟩ := C69_room hi.base hl hroom h1 h2 h3
      exact ⟨_, p', he, nofun, nofun⟩
    · have hR' : K.Ready i := by cases hl; assumption
      obtain ⟨_, _, _, _, _, hp, _⟩ := hi.base.ready hR'
      obtain ⟨R, p', he, _⟩ := C69_no_room hi.base hl hf hp
      exact ⟨_, p', he, nofun, nofun⟩
  have got : ∀ {r0 p'}, r0 ≠ some .err → r0 ≠ some .unit → ∃ z', z.got i j p' r0 = (none, z') := by
    intro r0 p' h1 h2
    rcases r0 with _ | _ | _ | _
    · exact ⟨_, rfl⟩
    all_goals first | exact ⟨_, rfl⟩ | exact absurd rfl h1 | exact absurd rfl h2
  cases hl with
  | @zeroed i l hR hz hm =>
    obtain ⟨r0, p', he, h1, h2⟩ := go hR hz hm
    obtain ⟨z', hg⟩ := got (p' := p') h1 h2
    refine ⟨z', ?_⟩
    simp only [zpstep, if_pos (hi.idle hz).1]
    show (do
      match ← pstep z.p (.allocate i l) with
      | none => pure none
      | some (r, p) => pure (some (z.got i (.zeroed l) p r)) : ZPRes) = _
    rw [he, ← hg]
    rfl
  | @growZeroed i b p old new hR hz hb hf hm hsz =>
    obtain ⟨r0, p', he, h1, h2⟩ := go hR hz hm
    obtain ⟨z', hg⟩ := got (p' := p') h1 h2
    refine ⟨z', ?_⟩
    simp only [zpstep, if_pos (hi.idle hz).1, dassert, if_neg (fun hh => hh.2 hsz : ¬ (z.p.s.w.debug = true ∧ ¬ old.size ≤ new.size))]
    show (do
      match ← pstep z.p (.allocate i new) with
      | none => pure none
      | some (r, p1) => pure (some (z.got i (.growZeroed p old new) p1 r)) : ZPRes) = _
    rw [he, ← hg]
    rfl

/-- The call of proxy `i` ends if its thread is scheduled alone. -/
def ZPDone (p0 : PS) (z : ZPS) (i : Nat) : Prop :=
  ∃ n, (∃ r z', zpsolo n z i = .ok (some (r, z'))) ∨ ∃ e w, zpsolo n z i = .error e ∧ w.oracle = p0.s.w.oracle ∧ BadAnswer w e

theorem ZPReach.step_done {p0 z V} (h : ZPReach p0 z V) {i} (hn : z.nextOf i = .zgo i) (hb : V.zbusy i ≠ none) (hno : zpstep z (.zgo i) ≠ .ok none)
    (next : ∀ z', zpstep z (.zgo i) = .ok (some (none, z')) → ZPReach p0 z' V → ZPDone p0 z' i) : ZPDone p0 z i := by
  obtain ⟨K, hi⟩ := h.inv
  cases hs : zpstep z (.zgo i) with
  | error e =>
    obtain ⟨KS, cs, pend, hP⟩ := hi.base.inv
    obtain ⟨_, _, hS⟩ := hP.reach.inv
    rcases C93_no_fault h .zgo hs with hbad | ⟨_, ha, _⟩
    · exact ⟨1, .inr ⟨e, z.p.s.w, by simp only [zpsolo, hn, hs], hS.oracle, hbad⟩⟩
    · cases ha
  | ok q =>
    rcases q with _ | ⟨_ | r, z'⟩
    · exact absurd hs hno
    · obtain ⟨m, hm⟩ := next z' hs (h.snoc .zgo hs (.inside (.inl rfl) hb))
      refine ⟨m + 1, ?_⟩
      simp only [zpsolo, hn, hs]
      exact hm
    · exact ⟨1, .inl ⟨r, z', by simp only [zpsolo, hn, hs]⟩⟩

/-- In the middle of a default method there is always a next step. -/
theorem ZPInv.goes {p0 z V K} (h : ZPInv p0 z V K) {i} (hpc : (∃ j b k, z.zpcs i = .zero j b k) ∨ ∃ p old new b k, z.zpcs i = .copy p old new b k) :
    zpstep z (.zgo i) ≠ .ok none := by
  intro hn
  rcases hpc with ⟨j, b, k, hpc⟩ | ⟨p, old, new, b, k, hpc⟩
  · simp only [zpstep, zpgoStep, hpc] at hn
    split at hn
    · simp only [zeroByte] at hn
      split at hn <;> cases hn
    · cases j with
      | zeroed => cases hn
      | growZeroed =>
        simp only [require] at hn
        split at hn <;> cases hn
  · simp only [zpstep, zpgoStep, hpc] at hn
    split at hn
    · simp only [copyByte] at hn
      split at hn <;> cases hn
    · obtain ⟨o, hb, hj, hkp, _⟩ := h.at_copy hpc
      have hact := h.act i (by rw [hb]; nofun)
      refine C72_starts h.base (i := i) ⟨by rw [h.live]; exact hact.1, hkp, by rw [h.direct]; exact hact.2⟩
        (.inr (.inr (.inl ⟨p, old.size, rfl⟩))) ?_
      cases hq : pstep z.p (.deallocate i p old.size) with
      | error e => rw [hq] at hn; cases hn
      | ok q => rw [hq] at hn; rcases q with _ | ⟨r0, p'⟩ <;> first | rfl | cases hn

theorem ZPReach.copy_done {p0 V i} (hb : V.zbusy i ≠ none) {p old new b} : ∀ (n k : Nat) (z : ZPS), old.size - k = n → ZPReach p0 z V →
    z.zpcs i = .copy p old new b k → ZPDone p0 z i := by
  intro n
  induction n with
  | zero =>
    intro k z hk h hpc
    obtain ⟨K, hi⟩ := h.inv
    refine h.step_done (by simp only [ZPS.nextOf, hpc]) hb (hi.goes (.inr ⟨_, _, _, _, _, hpc⟩)) fun z' hs _ => ?_
    cases zpgo_cases hs with
    | zero hpc' => rw [hpc] at hpc'; cases hpc'
    | toCopy hpc' => rw [hpc] at hpc'; cases hpc'
    | copy hpc' hk' => rw [hpc] at hpc'; cases hpc'; omega
  | succ n ih =>
    intro k z hk h hpc
    obtain ⟨K, hi⟩ := h.inv
    refine h.step_done (by simp only [ZPS.nextOf, hpc]) hb (hi.goes (.inr ⟨_, _, _, _, _, hpc⟩)) fun z' hs h' => ?_
    cases zpgo_cases hs with
    | zero hpc' => rw [hpc] at hpc'; cases hpc'
    | toCopy hpc' => rw [hpc] at hpc'; cases hpc'
    | copy hpc' hk' => rw [hpc] at hpc'; cases hpc'; exact ih (k + 1) _ (by omega) h' (ZPS.setZ_same ..)

theorem ZPReach.zero_done {p0 V i} (hb : V.zbusy i ≠ none) {j b} : ∀ (n k : Nat) (z : ZPS), b.len - k = n → ZPReach p0 z V →
    z.zpcs i = .zero j b k → ZPDone p0 z i := by
  intro n
  induction n with
  | zero =>
    intro k z hk h hpc
    obtain ⟨K, hi⟩ := h.inv
    refine h.step_done (by simp only [ZPS.nextOf, hpc]) hb (hi.goes (.inl ⟨_, _, _, hpc⟩)) fun z' hs h' => ?_
    cases zpgo_cases hs with
    | zero hpc' hk' => rw [hpc] at hpc'; cases hpc'; omega
    | toCopy hpc' => exact ZPReach.copy_done hb _ 0 _ rfl h' (ZPS.setZ_same ..)
    | copy hpc' => rw [hpc] at hpc'; cases hpc'
  | succ n ih =>
    intro k z hk h hpc
    obtain ⟨K, hi⟩ := h.inv
    refine h.step_done (by simp only [ZPS.nextOf, hpc]) hb (hi.goes (.inl ⟨_, _, _, hpc⟩)) fun z' hs h' => ?_
    cases zpgo_cases hs with
    | zero hpc' hk' => rw [hpc] at hpc'; cases hpc'; exact ih (k + 1) _ (by omega) h' (ZPS.setZ_same ..)
    | toCopy hpc' => exact ZPReach.copy_done hb _ 0 _ rfl h' (ZPS.setZ_same ..)
    | copy hpc' => rw [hpc] at hpc'; cases hpc'

/-- C93: a zeroed call of a proxy whose thread is scheduled alone while nobody else holds the lock of the shared allocator finishes (or meets a
broken answer of the underlying allocator, or the debug assertion described at `PS.EmptyChunk`). -/
theorem C93_finishes_alone {p0 z V} (h : ZPReach p0 z V) {i : Nat} (hb : V.zbusy i ≠ none) (hf : z.p.s.Free i) :
    ∃ n, (∃ r z', zpsolo n z i = .ok (some (r, z'))) ∨
      ∃ e, zpsolo n z i = .error e ∧ ((∃ w, w.oracle = p0.s.w.oracle ∧ BadAnswer w e) ∨ z.p.EmptyChunk (.shared (.go i fresh)) e) := by
  have weak : ZPDone p0 z i → ∃ n, (∃ r z', zpsolo n z i = .ok (some (r, z'))) ∨
      ∃ e, zpsolo n z i = .error e ∧ ((∃ w, w.oracle = p0.s.w.oracle ∧ BadAnswer w e) ∨ z.p.EmptyChunk (.shared (.go i fresh)) e) := by
    rintro ⟨n, hn | ⟨e, w, h1, h2, h3⟩⟩
    · exact ⟨n, .inl hn⟩
    · exact ⟨n, .inr ⟨e, h1, .inl ⟨w, h2, h3⟩⟩⟩
  -- waiting for the shared allocator
  have solo : ∀ (n : Nat) (z : ZPS) (j : ZJob), ZPReach p0 z V → z.zpcs i = .alloc j →
      (∀ e, psolo n z.p i = .error e → zpsolo n z i = .error e) ∧ (∀ r p', psolo n z.p i = .ok (some (r, p')) → ZPDone p0 z i) := by
    intro n
    induction n with
    | zero => intro z j h hpc; exact ⟨nofun, nofun⟩
    | succ n ih =>
      intro z j h hpc
      have hn : z.nextOf i = .base (.shared (.go i fresh)) := by simp only [ZPS.nextOf, hpc]
      have hstep : zpstep z (.base (.shared (.go i fresh))) = (do
          match ← pstep z.p (.shared (.go i fresh)) with
          | none => pure none
          | some (r, p) => pure (some (z.got i j p r))) := by
        simp only [zpstep, ZPS.may, PAct.maker, ZPS.inside, hpc, if_true]
        rfl
      cases hq : pstep z.p (.shared (.go i fresh)) with
      | error e =>
        rw [hq] at hstep
        refine ⟨fun e' he => ?_, fun r p' he => (by simp only [psolo, hq] at he; cases he)⟩
        simp only [psolo, hq] at he
        cases he
        have : zpstep z (.base (.shared (.go i fresh))) = .error e := hstep
        simp only [zpsolo, hn, this]
      | ok q =>
        rw [hq] at hstep
        rcases q with _ | ⟨_ | v, p1⟩
        · exact ⟨fun e he => (by simp only [psolo, hq] at he; cases he), fun r p' he => (by simp only [psolo, hq] at he; cases he)⟩
        · have hs : zpstep z (.base (.shared (.go i fresh))) = .ok (some (none, { z with p := p1 }.setZ i (.alloc j))) := hstep
          have h' := h.snoc (.base .go nofun nofun) hs (.inside (.inr ⟨_, rfl⟩) hb)
          obtain ⟨i1, i2⟩ := ih _ j h' (ZPS.setZ_same ..)
          refine ⟨fun e he => ?_, fun r p' he => ?_⟩
          · simp only [psolo, hq] at he
            simp only [zpsolo, hn, hs]
            exact i1 e he
          · simp only [psolo, hq] at he
            obtain ⟨m, hm⟩ := i2 r p' he
            refine ⟨m + 1, ?_⟩
            simp only [zpsolo, hn, hs]
            exact hm
        · refine ⟨fun e he => (by simp only [psolo, hq] at he; cases he), fun r p' _ => ?_⟩
          have err : ∀ {z'}, zpstep z (.base (.shared (.go i fresh))) = .ok (some (some .err, z')) → ZPDone p0 z i := fun {z'} hs =>
            ⟨1, .inl ⟨.err, z', by simp only [zpsolo, hn, hs]⟩⟩
          cases v with
          | block b =>
            have hs : zpstep z (.base (.shared (.go i fresh))) = .ok (some (none, { z with p := p1 }.setZ i (.zero j b 0))) := hstep
            have h' := h.snoc (.base .go nofun nofun) hs (.inside (.inr ⟨_, rfl⟩) hb)
            obtain ⟨m, hm⟩ := ZPReach.zero_done hb _ 0 _ rfl h' (ZPS.setZ_same ..)
            refine ⟨m + 1, ?_⟩
            simp only [zpsolo, hn, hs]
            exact hm
          | err => exact err hstep
          | unit => exact err hstep
  obtain ⟨K, hi⟩ := h.inv
  have ht := hi.thr i
  generalize hpc : z.zpcs i = pc at ht
  generalize hbz : V.zbusy i = bz at ht
  generalize hkp : K.pbusy i = kp at ht
  generalize hvp : V.k.pbusy i = vp at ht
  cases ht with
  | off => exact absurd hbz hb
  | zero => exact weak (ZPReach.zero_done hb _ _ _ rfl h hpc)
  | copy => exact weak (ZPReach.copy_done hb _ _ _ rfl h hpc)
  | @alloc j ob hj =>
    obtain ⟨s1, s2⟩ := solo 10 z j h hpc
    rcases C72_finishes_alone hi.base hkp nofun hf with ⟨r, p', he⟩ | ⟨e, he, hw⟩
    · exact weak (s2 r p' he)
    · exact ⟨10, .inr ⟨e, s1 e he, hw⟩⟩

/-! ### The hypotheses are met -/

/-- `n` undisturbed steps of proxy `i`'s thread in the shared allocator, and in default methods. -/
def pbgoes (i n : Nat) : List ZPAct := List.replicate n (.base (.shared (.go i fresh)))
def pzgoes (i n : Nat) : List ZPAct := List.replicate n (.zgo i)

/-- Ten zeroed bytes are allocated through proxy 0 while five are through proxy 1; the first are then written to. -/
def zpdemoPre : List ZPAct :=
  [.base (.spawn 0 0), .base (.spawn 1 0), .zcall 0 (.zeroed ⟨10, 8⟩)] ++ pbgoes 0 3 ++ [.zcall 1 (.zeroed ⟨5, 1⟩)] ++ pbgoes 0 2 ++ pzgoes 0 4 ++
  pbgoes 1 4 ++ pzgoes 0 7 ++ [.base (.shared (.write 65602 (.raw 9))), .base (.shared (.write 65609 (.raw 8)))]

/-- They are grown, which takes another chunk, while proxy 1 goes on. -/
def zpdemoMid : List ZPAct := pbgoes 0 2 ++ pzgoes 1 2 ++ pbgoes 0 2 ++ pzgoes 0 43 ++ pzgoes 1 3 ++ pzgoes 0 8

/-- The hypotheses of `C93_refines`, `C93_no_overlap`, `C93_memory`, `C93_no_fault`, `C93_frame` and `C93_finishes_alone` are met where
proxy 0 is copying in `grow_zeroed` and proxy 1 zeroing in `allocate_zeroed`; and those of `C93_starts` for proxy 2. -/
example : ∃ p0 z V z', ZPReach p0 z V ∧ V.blocks 0 = [⟨65600, 10, 10, 8⟩] ∧ z.zpcs 0 = .copy 65600 ⟨10, 8⟩ ⟨40, 8⟩ ⟨65728, 40⟩ 10 ∧
    z.zpcs 1 = .zero (.zeroed ⟨5, 1⟩) ⟨65664, 5⟩ 5 ∧ V.zbusy 0 ≠ none ∧ z.p.s.Free 0 ∧
    zpstep z (.zgo 0) = .ok (some (some (.block ⟨65728, 40⟩), z')) ∧ ZPLegal V (.zcall 2 (.zeroed ⟨7, 4⟩)) := by
  obtain ⟨z, V, h, hf⟩ := of_zpdemoAt (sizes := [4096, 8192]) (m := 1024)
    (as := [.base (.spawn 2 0)] ++ zpdemoPre ++ [.zcall 0 (.growZeroed 65600 ⟨10, 8⟩ ⟨40, 8⟩)] ++ zpdemoMid)
    (f := fun z V => decide (V.blocks 0 = [⟨65600, 10, 10, 8⟩]) && decide (z.zpcs 0 = .copy 65600 ⟨10, 8⟩ ⟨40, 8⟩ ⟨65728, 40⟩ 10) &&
      decide (z.zpcs 1 = .zero (.zeroed ⟨5, 1⟩) ⟨65664, 5⟩ 5) && decide (V.zbusy 0 ≠ none) &&
      decide (z.p.s.readers = []) && decide (z.p.s.writer = none) &&
      (match zpstep z (.zgo 0) with
      | .ok (some (some r, _)) => decide (r = .block ⟨65728, 40⟩)
      | _ => false) && (zpbook z.p.s.w.mem V (.zcall 2 (.zeroed ⟨7, 4⟩)) none).isSome) (by decide +kernel)
  simp only [Bool.and_eq_true, decide_eq_true_eq] at hf
  obtain ⟨⟨⟨⟨⟨⟨⟨h1, h2⟩, h3⟩, h4⟩, h5⟩, h6⟩, h7⟩, h8⟩ := hf
  obtain ⟨V', h8⟩ := Option.isSome_iff_exists.mp h8
  split at h7
  · rename_i r z' hs
    simp only [decide_eq_true_eq] at h7
    subst h7
    exact ⟨_, z, V, z', h, h1, h2, h3, h4, by rw [SS.Free, h5, h6]; simp, hs, (zpbook_sound h8).1⟩
  · cases h7

/-- The hypotheses of `C93_allocate_zeroed` are met: proxy 0 gives its block in the next step, proxy 1 being about to zero. -/
example : ∃ p0 z V z', ZPReach p0 z V ∧ V.zbusy 0 = some (.zeroed ⟨10, 8⟩, none) ∧ z.zpcs 1 = .zero (.zeroed ⟨5, 1⟩) ⟨65664, 5⟩ 0 ∧
    (ZPAct.zgo 0).Runs 0 ∧ zpstep z (.zgo 0) = .ok (some (some (.block ⟨65600, 10⟩), z')) := by
  obtain ⟨z, V, h, hf⟩ := of_zpdemoAt (sizes := [4096, 8192]) (m := 1024) (as := zpdemoPre.take 23)
    (f := fun z V => decide (V.zbusy 0 = some (.zeroed ⟨10, 8⟩, none)) && decide (z.zpcs 1 = .zero (.zeroed ⟨5, 1⟩) ⟨65664, 5⟩ 0) &&
      (match zpstep z (.zgo 0) with
      | .ok (some (some r, _)) => decide (r = .block ⟨65600, 10⟩)
      | _ => false)) (by decide +kernel)
  simp only [Bool.and_eq_true, decide_eq_true_eq] at hf
  obtain ⟨⟨h1, h2⟩, h3⟩ := hf
  split at h3
  · rename_i r z' hs
    simp only [decide_eq_true_eq] at h3
    subst h3
    exact ⟨_, z, V, z', h, h1, h2, .inl rfl, hs⟩
  · cases h3

/-- No response to proxy 0 in a trace. -/
def quietB (tr : List (ZPAct × Option Resp)) : Bool :=
  tr.all fun x => match x with
    | (.zgo 0, some _) => false
    | (.base (.shared (.go 0 _)), some _) => false
    | _ => true

theorem quietB_sound {tr} (h : quietB tr = true) : ∀ a r, ZPAct.Runs a 0 → (a, some r) ∉ tr := by
  rintro a r ha hm
  have := List.all_eq_true.mp h _ hm
  rcases ha with rfl | ⟨ch, rfl⟩ <;> cases this

/-- The hypotheses of `C93_grow_zeroed` are met: the block has moved, its bytes and zeros are there. -/
example : ∃ p0 z V z1 V1 tr z2 V2 z3, ZPReach p0 z V ∧ ZPLegal V (.zcall 0 (.growZeroed 65600 ⟨10, 8⟩ ⟨40, 8⟩)) ∧
    zpstep z (.zcall 0 (.growZeroed 65600 ⟨10, 8⟩ ⟨40, 8⟩)) = .ok (some (none, z1)) ∧
    ZPAfter z.p.s.w.mem V (.zcall 0 (.growZeroed 65600 ⟨10, 8⟩ ⟨40, 8⟩)) none V1 ∧ ZPRun z1 V1 tr z2 V2 ∧
    (∀ a r, ZPAct.Runs a 0 → (a, some r) ∉ tr) ∧ zpstep z2 (.zgo 0) = .ok (some (some (.block ⟨65728, 40⟩), z3)) ∧
    z3.p.s.w.mem 65730 = .raw 9 ∧ z3.p.s.w.mem 65737 = .raw 8 ∧ z3.p.s.w.mem 65738 = .raw 0 := by
  obtain ⟨z, V, z1, V1, tr, z2, V2, r, z3, h1, h2, h3, h4, h5, h6, hf⟩ :=
    of_zpcallAt (sizes := [4096, 8192]) (m := 1024) (pre := zpdemoPre) (c := .zcall 0 (.growZeroed 65600 ⟨10, 8⟩ ⟨40, 8⟩))
      (mid := zpdemoMid) (a := .zgo 0)
      (f := fun _ _ tr r z3 => quietB tr && decide (r = some (.block ⟨65728, 40⟩)) && decide (z3.p.s.w.mem 65730 = .raw 9) &&
        decide (z3.p.s.w.mem 65737 = .raw 8) && decide (z3.p.s.w.mem 65738 = .raw 0)) (by decide +kernel)
  simp only [Bool.and_eq_true, decide_eq_true_eq] at hf
  obtain ⟨⟨⟨⟨f0, rfl⟩, f2⟩, f3⟩, f4⟩ := hf
  exact ⟨_, z, V, z1, V1, tr, z2, V2, z3, h1, h2, h3, h4, h5, quietB_sound f0, h6, f2, f3, f4⟩

/-- And where the underlying allocator gives no more chunks the call fails and the block is the caller's again. -/
example : ∃ p0 z V z1 V1 tr z2 V2 z3, ZPReach p0 z V ∧ ZPLegal V (.zcall 0 (.growZeroed 65600 ⟨10, 8⟩ ⟨9999, 8⟩)) ∧
    zpstep z (.zcall 0 (.growZeroed 65600 ⟨10, 8⟩ ⟨9999, 8⟩)) = .ok (some (none, z1)) ∧
    ZPAfter z.p.s.w.mem V (.zcall 0 (.growZeroed 65600 ⟨10, 8⟩ ⟨9999, 8⟩)) none V1 ∧ ZPRun z1 V1 tr z2 V2 ∧
    (∀ a r, ZPAct.Runs a 0 → (a, some r) ∉ tr) ∧ zpstep z2 (.base (.shared (.go 0 fresh))) = .ok (some (some .err, z3)) := by
  obtain ⟨z, V, z1, V1, tr, z2, V2, r, z3, h1, h2, h3, h4, h5, h6, hf⟩ :=
    of_zpcallAt (sizes := [4096]) (m := 1024) (pre := zpdemoPre) (c := .zcall 0 (.growZeroed 65600 ⟨10, 8⟩ ⟨9999, 8⟩))
      (mid := pbgoes 0 3 ++ pzgoes 1 2 ++ pbgoes 0 3) (a := .base (.shared (.go 0 fresh)))
      (f := fun _ _ tr r _ => quietB tr && decide (r = some .err)) (by decide +kernel)
  simp only [Bool.and_eq_true, decide_eq_true_eq] at hf
  obtain ⟨f0, rfl⟩ := hf
  exact ⟨_, z, V, z1, V1, tr, z2, V2, z3, h1, h2, h3, h4, h5, quietB_sound f0, h6⟩

end Blink
