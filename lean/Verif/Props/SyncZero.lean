import Verif.Proofs.SyncZero
import Verif.Spec.SyncZeroExec
/-
  Property theorems about `allocate_zeroed` and `grow_zeroed` of a `SyncBlinkAlloc` used by any number of threads: C91.
  `ZReach s0 z K` (Verif/Spec/SyncZero.lean): `z` is reached from a fresh shared allocator in state `s0` by an arbitrary schedule of
  arbitrarily many threads making contract-respecting calls, zeroed ones among them; the callers' book is `K`.
-/
namespace Blink

theorem ZReach.inv {s0 z K} (h : ZReach s0 z K) : ∃ KS, ZInv s0 z K KS := by
  obtain ⟨h0, tr, hr⟩ := h
  induction hr with
  | nil =>
    refine ⟨Book.empty, ⟨h0, [], .nil⟩, ⟨[], List.nodup_nil, fun t _ => rfl, .refl _⟩, fun t => .idle⟩
  | snoc _ hl hs ha ih =>
    obtain ⟨KS, hi⟩ := ih
    exact hi.step hl hs ha

theorem ZReach.snoc {s0 z K a r z' K'} (h : ZReach s0 z K) (hl : ZLegal K a) (hs : zstep z a = .ok (some (r, z')))
    (ha : ZAfter z.s.w.mem K a r K') : ZReach s0 z' K' := by
  obtain ⟨h0, tr, hr⟩ := h
  exact ⟨h0, _, hr.snoc hl hs ha⟩

/-- C91: whatever threads do, zeroed calls included, leads the shared allocator to a state that calls of its other methods lead to as well,
with the same owners and more: so C20–C25 and C59–C61 speak about it too. -/
theorem C91_refines {s0 z K} (h : ZReach s0 z K) : ∃ KS, SReach s0 z.s KS ∧ (∀ b ∈ K.owned, b ∈ KS.owned) ∧
    ∀ t c ob, K.busy t = some (.plain c, ob) → KS.busy t = some (c, ob) := by
  obtain ⟨KS, hi⟩ := h.inv
  refine ⟨KS, hi.base, fun b hb => hi.parts.left hb, fun t c ob hb => ?_⟩
  have ht := hi.thr t
  rw [hb] at ht
  generalize z.zpcs t = pc at ht
  generalize KS.busy t = kb at ht
  cases ht
  rfl

/-- C91: at every moment of every schedule, any two owned blocks have no byte in common. -/
theorem C91_no_overlap {s0 z K} (h : ZReach s0 z K) : K.owned.Pairwise Owned.Apart := by
  obtain ⟨KS, hi⟩ := h.inv
  obtain ⟨ts, _, _, hp⟩ := hi.parts
  exact (List.pairwise_append.mp (apart_perm hp (C22_no_overlap hi.base))).1

/-- C91: every owned block is aligned and long enough for its layout, and lies inside one block held from the underlying allocator. -/
theorem C91_layout_and_memory {s0 z K} (h : ZReach s0 z K) {b : Owned} (hb : b ∈ K.owned) :
    b.addr % b.align = 0 ∧ b.size ≤ b.len ∧ 0 < b.addr ∧
    ∃ B ∈ openBlocks z.s.w.log, B ∈ z.s.w.held ∧ B.addr ≤ b.addr ∧ b.addr + b.len ≤ B.addr + B.len := by
  obtain ⟨KS, hi⟩ := h.inv
  exact C22_layout_and_memory hi.base (hi.parts.left hb)

theorem ZInv.access {s0 z K KS} (h : ZInv s0 z K KS) {b : Owned} (hb : b ∈ KS.owned) {x : Nat} (hx : b.Has x) : z.s.w.accessible x 1 = true := by
  obtain ⟨_, _, _, B, _, hB, h1, h2⟩ := C22_layout_and_memory h.base hb
  exact accessible_of_has hB h1 h2 hx

/-- C91: no step of any thread faults, unless the underlying allocator breaks its contract in that very step. -/
theorem C91_no_fault {s0 z K} (h : ZReach s0 z K) {a : ZAct} (hl : ZLegal K a) {e : Fault} (he : zstep z a = .error e) : BadAnswer z.s.w e := by
  obtain ⟨KS, hi⟩ := h.inv
  have off : ∀ {t c pc}, K.busy t = none → z.inner t c pc ≠ .error e := by
    intro t c pc hb he
    rw [zinner_eq (hi.base.busy_none (hi.busy_none hb).2)] at he
    cases he
  cases hl with
  | allocate hb hv => simp only [zstep, if_pos (hi.busy_none hb).1] at he; exact absurd he (off hb)
  | resize hb ho hf hv => simp only [zstep, if_pos (hi.busy_none hb).1] at he; exact absurd he (off hb)
  | deallocate hb ho hf => simp only [zstep, if_pos (hi.busy_none hb).1] at he; exact absurd he (off hb)
  | zeroed hb hv => simp only [zstep, if_pos (hi.busy_none hb).1] at he; exact absurd he (off hb)
  | @growZeroed t b p old new hb ho hf hv hsz =>
    simp only [zstep, if_pos (hi.busy_none hb).1, dassert, if_neg (fun hh => hh.2 hsz : ¬ (z.s.w.debug = true ∧ ¬ old.size ≤ new.size))] at he
    exact absurd he (off hb)
  | write ho hx => simp only [zstep, sstep] at he; cases he
  | @resets a har hq =>
    have hq' : ∀ t, KS.busy t = none := fun t => (hi.busy_none (hq t)).2
    have hlS : SLegal KS a := by
      cases a with
      | reset => exact .reset hq'
      | resetUnchecked => exact .resetUnchecked hq'
      | resetFinal => exact .resetFinal hq'
      | _ => cases har
    refine C22_no_ub hi.base hlS ?_
    cases hh : sstep z.s a with
    | error e' =>
      cases a <;> first | (cases har; done) | (simp only [zstep, hh] at he; cases he; rfl)
    | ok q =>
      rcases q with _ | ⟨r1, s1⟩ <;> cases a <;> first | (cases har; done) | (simp only [zstep, hh] at he; cases he)
  | @go t ch =>
    refine C22_no_ub hi.base (.go (t := t) (ch := ch)) ?_
    cases hh : sstep z.s (.go t ch) with
    | error e' => simp only [zstep, hh] at he; cases he; rfl
    | ok q => rcases q with _ | ⟨_ | r1, s1⟩ <;> simp only [zstep, hh] at he <;> cases he
  | @zgo t =>
    have ht := hi.thr t
    have hheld := fun b => hi.held_mem (t := t) (b := b)
    have hown := hi.parts.own (C22_no_overlap hi.base) t
    generalize hpc : z.zpcs t = pc at ht hheld hown
    generalize hbz : K.busy t = bz at ht hheld hown
    generalize hkb : KS.busy t = kb at ht
    simp only [zstep, zgoStep, hpc] at he
    cases ht with
    | idle => cases he
    | plain => cases he
    | alloc => cases he
    | free => cases he
    | @zero j ob b k hj hk hz =>
      dsimp only at he
      split at he
      · rename_i hlt
        simp only [zeroByte] at he
        rw [if_pos (hi.access (x := b.addr + k) (hheld (Owned.of b j.layout) List.mem_cons_self)
          ⟨Nat.le_add_right .., Nat.add_lt_add_left hlt _⟩)] at he
        cases he
      · cases hj with
        | zeroed => cases he
        | @grow o p old new hf hv hsz same =>
          simp only [require] at he
          have hlen : new.size ≤ b.len := (C22_layout_and_memory hi.base (hheld _ List.mem_cons_self)).2.1
          have hap : (Owned.of b new).Apart o := (List.pairwise_cons.mp hown).1 o (by simp)
          rw [if_pos ?_] at he
          · cases he
          · by_cases h0 : old.size = 0
            · exact .inl h0
            · have h1 := Owned.apart_ends hap (by show 0 < b.len; omega) (by have := hf.2.2.2; omega)
              have := hf.1; have := hf.2.2.2
              simp only [Owned.of] at h1
              omega
    | @copy p old new o b k hj hk hlen hc hz =>
      cases hj with
      | grow hf hv hsz same =>
      dsimp only at he
      split at he
      · rename_i hlt
        simp only [copyByte] at he
        have := hf.1; have := hf.2.2.2
        rw [if_pos ⟨hi.access (hheld o (List.mem_cons_of_mem _ (by simp))) ⟨by omega, by omega⟩,
          hi.access (hheld (Owned.of b new) List.mem_cons_self) ⟨Nat.le_add_right .., by show b.addr + k < b.addr + b.len; omega⟩⟩] at he
        cases he
      · rw [zinner_eq (hi.base.busy_none hkb)] at he
        cases he

/-- How a zeroed call comes back. -/
theorem ZInv.ret {s0 z K KS} (h : ZInv s0 z K KS) {t j ob} (hb : K.busy t = some (.zeroed j, ob)) {a : ZAct} (hat : a.runs = some t) {r z'}
    (hs : zstep z a = .ok (some (some r, z'))) : z'.s.w.mem = z.s.w.mem ∧
    ((z.zpcs t = .alloc j ∧ r = .err) ∨
     (∃ l b, j = .zeroed l ∧ z.zpcs t = .zero j b b.len ∧ r = .block b) ∨
     ∃ p old new b, j = .growZeroed p old new ∧ z.zpcs t = .free p old new b ∧ r = .block b) := by
  have ht := h.thr t
  generalize hpc : z.zpcs t = pc at ht
  generalize hkb : KS.busy t = kb at ht
  rw [hb] at ht
  have hcase : (∃ ch, a = .base (.go t ch)) ∨ a = .zgo t := by
    cases a with
    | base a => cases a <;> first | (cases hat; done) | (cases hat; exact .inl ⟨_, rfl⟩)
    | zcall => cases hat
    | zgo => cases hat; exact .inr rfl
  rcases hcase with ⟨ch, rfl⟩ | rfl
  · cases hh : sstep z.s (.go t ch) with
    | error e => simp only [zstep, hh] at hs; cases hs
    | ok q =>
      rcases q with _ | ⟨_ | r1, s1⟩
      · simp only [zstep, hh] at hs; cases hs
      · simp only [zstep, hh] at hs; cases hs
      · simp only [zstep, hh] at hs
        replace hs : ZSS.back { z with s := s1 } t r1 = (some r, z') := by
          injection hs with hs; injection hs
        obtain ⟨hw, _, c, ob', hkb'⟩ := h.base.ret_w hh
        rw [hkb] at hkb'
        subst hkb'
        cases ht with
        | alloc hj =>
          rcases (h.base.answer hh).1 _ _ hkb with rfl | ⟨b, rfl⟩
          · simp only [ZSS.back, hpc] at hs
            cases hs
            exact ⟨congrArg World.mem hw, .inl ⟨rfl, rfl⟩⟩
          · simp only [ZSS.back, hpc] at hs
            cases hs
        | free =>
          simp only [ZSS.back, hpc] at hs
          cases hs
          exact ⟨congrArg World.mem hw, .inr (.inr ⟨_, _, _, _, rfl, rfl, rfl⟩)⟩
  · simp only [zstep, zgoStep, hpc] at hs
    cases ht with
    | alloc => cases hs
    | free => cases hs
    | @zero _ _ b k hj hk hz =>
      dsimp only at hs
      split at hs
      · simp only [zeroByte] at hs
        split at hs <;> cases hs
      · rename_i hlt
        have hk' : k = b.len := by omega
        subst hk'
        cases hj with
        | zeroed => cases hs; exact ⟨rfl, .inr (.inl ⟨_, _, rfl, rfl, rfl⟩)⟩
        | grow =>
          simp only [require] at hs
          split at hs <;> cases hs
    | copy hj =>
      dsimp only at hs
      split at hs
      · simp only [copyByte] at hs
        split at hs <;> cases hs
      · rw [zinner_eq (h.base.busy_none hkb)] at hs
        cases hs

/-- A zeroed call fails where `allocate` fails. -/
theorem ZInv.err {s0 z K KS} (h : ZInv s0 z K KS) {t j ob} (hb : K.busy t = some (.zeroed j, ob)) (hpc : z.zpcs t = .alloc j) {a : ZAct}
    (hat : a.runs = some t) {r z'} (hs : zstep z a = .ok (some (some r, z'))) : ∃ ch s', sstep z.s (.go t ch) = .ok (some (some .err, s')) := by
  cases a with
  | base a =>
    cases a with
    | go u ch =>
      cases hat
      cases hh : sstep z.s (.go t ch) with
      | error e => simp only [zstep, hh] at hs; cases hs
      | ok q =>
        rcases q with _ | ⟨_ | r1, s1⟩
        · simp only [zstep, hh] at hs; cases hs
        · simp only [zstep, hh] at hs; cases hs
        · have hkb := h.thr t
          rw [hpc, hb] at hkb
          generalize hkb' : KS.busy t = kb at hkb
          cases hkb
          rcases (h.base.answer hh).1 _ _ hkb' with rfl | ⟨b, rfl⟩
          · exact ⟨ch, s1, hh⟩
          · simp only [zstep, hh, ZSS.back, hpc] at hs
            cases hs
    | _ => cases hat
  | zcall => cases hat
  | zgo u =>
    cases hat
    simp only [zstep, zgoStep, hpc] at hs
    cases hs

/-- C91: when a thread's `allocate_zeroed` returns a block, all of it is zero, whatever the other threads do meanwhile; the block is
fresh, aligned and long enough. It fails only where `allocate` fails. -/
theorem C91_allocate_zeroed {s0 z K} (h : ZReach s0 z K) {t l ob} (hb : K.busy t = some (.zeroed (.zeroed l), ob)) {a : ZAct}
    (hat : a.runs = some t) {r z'} (hs : zstep z a = .ok (some (some r, z'))) :
    (∃ b, r = .block b ∧ (∀ i, i < b.len → z'.s.w.mem (b.addr + i) = .raw 0) ∧ l.size ≤ b.len ∧ b.addr % l.align = 0 ∧
      (∀ c ∈ K.owned, c.Apart (Owned.of b l)) ∧ ∃ K', ZReach s0 z' K' ∧ K'.owned = Owned.of b l :: K.owned) ∨
    (r = .err ∧ (∃ ch s', sstep z.s (.go t ch) = .ok (some (some .err, s'))) ∧ ∃ K', ZReach s0 z' K' ∧ K'.owned = K.owned) := by
  obtain ⟨KS, hi⟩ := h.inv
  have hla : ZLegal K a := by
    cases a with
    | base a => cases a <;> first | (cases hat; done) | exact .go
    | zcall => cases hat
    | zgo => exact .zgo
  have h' := h.snoc hla hs (.ret hat hb)
  obtain ⟨hm, ⟨hpc, rfl⟩ | ⟨l', b, hj, hpc, rfl⟩ | ⟨_, _, _, _, hj, _⟩⟩ := hi.ret hb hat hs
  · exact .inr ⟨rfl, hi.err hb hpc hat hs, _, h', rfl⟩
  · cases hj
    have ht := hi.thr t
    rw [hpc, hb] at ht
    generalize KS.busy t = kb at ht
    have hlay := C91_layout_and_memory h' (b := Owned.of b l) List.mem_cons_self
    refine .inl ⟨b, rfl, ?_, hlay.2.1, hlay.1, ?_, _, h', rfl⟩
    · cases ht with
      | zero _ _ hz => intro i hi'; rw [hm]; exact hz i hi'
    · have := C91_no_overlap h'
      exact fun c hc => ((List.pairwise_cons.mp this).1 c hc).symm
  · cases hj

theorem ZRun.snap {z1 K1 tr z2 K2} (h : ZRun z1 K1 tr z2 K2) {t : Nat} {x} (hb : K1.busy t = some x)
    (hno : ∀ a r, a.runs = some t → (a, some r) ∉ tr) : K2.busy t = some x ∧ K2.snap t = K1.snap t := by
  induction h with
  | nil => exact ⟨hb, rfl⟩
  | @snoc tr z K a r z' K' hr hl hs ha ih =>
    obtain ⟨h1, h2⟩ := ih fun a r hat hm => hno a r hat (List.mem_append_left _ hm)
    cases ha with
    | @allocate u l =>
      have hne : t ≠ u := fun he => by subst he; cases hl with | allocate hb' => rw [hb'] at h1; cases h1 | resets ha => cases ha
      dsimp only; rw [put_ne _ _ hne]; exact ⟨h1, h2⟩
    | @resize u =>
      have hne : t ≠ u := fun he => by subst he; cases hl with | resize hb' => rw [hb'] at h1; cases h1 | resets ha => cases ha
      dsimp only; rw [put_ne _ _ hne]; exact ⟨h1, h2⟩
    | @deallocate u =>
      have hne : t ≠ u := fun he => by subst he; cases hl with | deallocate hb' => rw [hb'] at h1; cases h1 | resets ha => cases ha
      dsimp only; rw [put_ne _ _ hne]; exact ⟨h1, h2⟩
    | @zeroed u =>
      have hne : t ≠ u := fun he => by subst he; cases hl with | zeroed hb' => rw [hb'] at h1; cases h1
      dsimp only; rw [put_ne _ _ hne, put_ne _ _ hne]; exact ⟨h1, h2⟩
    | @growZeroed u =>
      have hne : t ≠ u := fun he => by subst he; cases hl with | growZeroed hb' => rw [hb'] at h1; cases h1
      dsimp only; rw [put_ne _ _ hne, put_ne _ _ hne]; exact ⟨h1, h2⟩
    | @ret _ u c ob r ha hb' =>
      have hne : t ≠ u := fun he => by subst he; exact hno a r ha (by simp)
      dsimp only; rw [put_ne _ _ hne]; exact ⟨h1, h2⟩
    | _ => exact ⟨h1, h2⟩

/-- C91: a `grow_zeroed` that returns a block returns one beginning with the old contents as they were when the call was made, and zero from
there to its end; one that fails, which it does only where `allocate` fails, leaves the old block with its contents; whatever the schedule `tr` does between call and return. -/
theorem C91_grow_zeroed {s0 z z1 z2 z3 K K1 K2} (h : ZReach s0 z K) {t p : Nat} {old new : Layout}
    (hl : ZLegal K (.zcall t (.growZeroed p old new))) (hs : zstep z (.zcall t (.growZeroed p old new)) = .ok (some (none, z1)))
    (ha : ZAfter z.s.w.mem K (.zcall t (.growZeroed p old new)) none K1) {tr} (hr : ZRun z1 K1 tr z2 K2)
    (hno : ∀ a r, a.runs = some t → (a, some r) ∉ tr) {a : ZAct} (hat : a.runs = some t) {r : Resp}
    (hret : zstep z2 a = .ok (some (some r, z3))) :
    (∃ blk, r = .block blk ∧ (∀ i, i < old.size → z3.s.w.mem (blk.addr + i) = z.s.w.mem (p + i)) ∧
      (∀ i, old.size ≤ i → i < blk.len → z3.s.w.mem (blk.addr + i) = .raw 0) ∧ new.size ≤ blk.len ∧ blk.addr % new.align = 0 ∧
      ∃ K3, ZReach s0 z3 K3 ∧ K3.owned = Owned.of blk new :: K2.owned) ∨
    (∃ b ∈ K.owned, r = .err ∧ b.Fits p old ∧ (∀ x, b.Has x → z3.s.w.mem x = z.s.w.mem x) ∧
      (∃ ch s', sstep z2.s (.go t ch) = .ok (some (some .err, s'))) ∧ ∃ K3, ZReach s0 z3 K3 ∧ K3.owned = b :: K2.owned) := by
  obtain ⟨h0, tr0, hr0⟩ := h
  have h2 : ZReach s0 z2 K2 := ⟨h0, _, (hr0.snoc hl hs ha).trans hr⟩
  obtain ⟨KS, hi⟩ := h2.inv
  have hla : ZLegal K2 a := by
    cases a with
    | base a => cases a <;> first | (cases hat; done) | exact .go
    | zcall => cases hat
    | zgo => exact .zgo
  cases ha with
  | inside ha => cases ha
  | @growZeroed _ b _ _ _ ho hf =>
    obtain ⟨hb2, hsn⟩ := hr.snap (t := t) (put_same _ _ _) hno
    dsimp only at hsn
    rw [put_same] at hsn
    have h' := h2.snoc hla hret (.ret hat hb2)
    have ht := hi.thr t
    rw [hb2, hsn] at ht
    generalize KS.busy t = kb at ht
    obtain ⟨hm, ⟨hpc, rfl⟩ | ⟨l', b, hj, _⟩ | ⟨p', old', new', blk, hj, hpc, rfl⟩⟩ := hi.ret hb2 hat hret
    · rw [hpc] at ht
      cases ht with
      | alloc hj =>
        cases hj with
        | grow hf' hv hsz same =>
          exact .inr ⟨b, ho, rfl, hf, fun x hx => by rw [hm]; exact same x hx, hi.err hb2 hpc hat hret, _, h', rfl⟩
    · cases hj
    · cases hj
      rw [hpc] at ht
      cases ht with
      | free hsz hlen hc hz =>
        have hlay := C91_layout_and_memory h' (b := Owned.of blk new) List.mem_cons_self
        exact .inl ⟨blk, rfl, fun i hi => by rw [hm]; exact hc i hi, fun i h1 h2 => by rw [hm]; exact hz i h1 h2, hlen, hlay.1, _, h', rfl⟩

/-- C91: nobody's step changes an owned byte, unless it is the owner's store or a reset. -/
theorem C91_frame {s0 z K} (h : ZReach s0 z K) {a : ZAct} (hl : ZLegal K a) {r z'} (hs : zstep z a = .ok (some (r, z'))) {b : Owned}
    (hb : b ∈ K.owned) {x : Nat} (hx : b.Has x) (hw : ∀ v, a ≠ .base (.write x v)) (hr : ∀ a', a = .base a' → a'.resets = false) :
    z'.s.w.mem x = z.s.w.mem x := by
  obtain ⟨KS, hi⟩ := h.inv
  have off : ∀ {t c pc}, K.busy t = none → z.inner t c pc = .ok (some (r, z')) → z'.s.w.mem x = z.s.w.mem x := by
    intro t c pc hb he
    rw [zinner_eq (hi.base.busy_none (hi.busy_none hb).2)] at he
    cases he
    rfl
  cases hl with
  | allocate hb hv => simp only [zstep, if_pos (hi.busy_none hb).1] at hs; exact off hb hs
  | resize hb ho hf hv => simp only [zstep, if_pos (hi.busy_none hb).1] at hs; exact off hb hs
  | deallocate hb ho hf => simp only [zstep, if_pos (hi.busy_none hb).1] at hs; exact off hb hs
  | zeroed hb hv => simp only [zstep, if_pos (hi.busy_none hb).1] at hs; exact off hb hs
  | @growZeroed t b p old new hb ho hf hv hsz =>
    simp only [zstep, if_pos (hi.busy_none hb).1, dassert, if_neg (fun hh => hh.2 hsz : ¬ (z.s.w.debug = true ∧ ¬ old.size ≤ new.size))] at hs
    exact off hb hs
  | @write b' y v ho hy =>
    simp only [zstep, sstep] at hs
    cases hs
    show setBytes z.s.w.mem y 1 (fun _ => v) x = z.s.w.mem x
    refine setBytes_out ?_
    have : x ≠ y := fun he => hw v (by rw [he])
    omega
  | resets har => rw [hr _ rfl] at har; cases har
  | @go t ch =>
    cases hh : sstep z.s (.go t ch) with
    | error e => simp only [zstep, hh] at hs; cases hs
    | ok q =>
      rcases q with _ | ⟨_ | r1, s1⟩
      · simp only [zstep, hh] at hs; cases hs
      · simp only [zstep, hh] at hs
        cases hs
        exact hi.frame .go hh rfl (hi.parts.left hb) hx nofun
      · simp only [zstep, hh] at hs
        replace hs : ZSS.back { z with s := s1 } t r1 = (r, z') := by
          injection hs with hs; injection hs
        have : z'.s = s1 := by
          have : (ZSS.back { z with s := s1 } t r1).2.s = s1 := by
            unfold ZSS.back
            split <;> rfl
          rw [hs] at this
          exact this
        rw [this]
        exact hi.frame .go hh rfl (hi.parts.left hb) hx nofun
  | @zgo t =>
    have ht := hi.thr t
    have happ := fun b => hi.apart (t := t) (b := b)
    generalize hpc : z.zpcs t = pc at ht happ
    generalize hbz : K.busy t = bz at ht happ
    generalize hkb : KS.busy t = kb at ht
    simp only [zstep, zgoStep, hpc] at hs
    have store : ∀ {c : Slice} {l : Layout} {k : Nat} {v : Byte}, Owned.of c l ∈ zheld pc bz → k < c.len →
        setBytes z.s.w.mem (c.addr + k) 1 (fun _ => v) x = z.s.w.mem x := by
      intro c l k v hc hk
      refine setBytes_out ?_
      have : x ≠ c.addr + k := fun he => (happ _ hc).1 b hb x ⟨hx, ⟨by show c.addr ≤ x; omega, by show x < c.addr + c.len; omega⟩⟩
      omega
    cases ht with
    | idle => cases hs
    | plain => cases hs
    | alloc => cases hs
    | free => cases hs
    | @zero j ob c k hj hk hz =>
      dsimp only at hs
      split at hs
      · rename_i hlt
        simp only [zeroByte] at hs
        split at hs
        case isFalse => cases hs
        cases hs
        exact store (l := j.layout) List.mem_cons_self hlt
      · cases hj with
        | zeroed => cases hs; rfl
        | grow =>
          simp only [require] at hs
          split at hs
          case isFalse => cases hs
          cases hs; rfl
    | @copy p old new o c k hj hk hlen hc hz =>
      cases hj with
      | grow hf hv hsz same =>
      dsimp only at hs
      split at hs
      · rename_i hlt
        simp only [copyByte] at hs
        split at hs
        case isFalse => cases hs
        cases hs
        exact store (l := new) List.mem_cons_self (by omega)
      · rw [zinner_eq (hi.base.busy_none hkb)] at hs
        cases hs; rfl

/-- C91: a thread in a default method, outside calls of the allocator's own methods, is never held up. -/
theorem C91_moves {s0 z K} (h : ZReach s0 z K) {t : Nat} (hb : K.busy t ≠ none) (hi : z.s.pcs t = .idle) :
    ∃ r z', zstep z (.zgo t) = .ok (some (r, z')) := by
  cases hs : zstep z (.zgo t) with
  | error e =>
    obtain ⟨l, sl, rfl, _⟩ := C91_no_fault h .zgo hs
    exfalso
    obtain ⟨KS, hi'⟩ := h.inv
    simp only [zstep, zgoStep] at hs
    split at hs
    · split at hs
      · simp only [zeroByte] at hs
        split at hs <;> cases hs
      · split at hs
        · cases hs
        · simp only [require] at hs
          split at hs <;> cases hs
    · split at hs
      · simp only [copyByte] at hs
        split at hs <;> cases hs
      · rw [zinner_eq hi] at hs; cases hs
    · cases hs
  | ok q =>
    rcases q with _ | ⟨r, z'⟩
    · exfalso
      obtain ⟨KS, hi'⟩ := h.inv
      have ht := hi'.thr t
      have hnb : KS.busy t = none := by
        obtain ⟨cs, B, hS⟩ := hi'.base.inv
        have htS := hS.thr t
        rw [hi] at htS
        generalize KS.busy t = kb at htS
        generalize B t = Bt at htS
        cases htS
        rfl
      rw [hnb] at ht
      generalize hpc : z.zpcs t = pc at ht
      generalize hbz : K.busy t = bz at ht
      simp only [zstep, zgoStep, hpc] at hs
      cases ht with
      | idle => exact hb hbz
      | @zero j ob b k hj hk hz =>
        dsimp only at hs
        split at hs
        · simp only [zeroByte] at hs
          split at hs <;> cases hs
        · cases hj with
          | zeroed => cases hs
          | grow =>
            simp only [require] at hs
            split at hs <;> cases hs
      | copy =>
        dsimp only at hs
        split at hs
        · simp only [copyByte] at hs
          split at hs <;> cases hs
        · rw [zinner_eq hi] at hs; cases hs
    · exact ⟨r, z', rfl⟩

/-- Phases of a call, last one 0. -/
def ZPc.phase : ZPc → Nat
  | .alloc _ => 3
  | .zero .. => 2
  | .copy .. => 1
  | _ => 0

/-- Steps left in the phase. -/
def ZSS.leftOf (z : ZSS) (t : Nat) : Nat :=
  match z.zpcs t with
  | .zero _ b k => b.len - k
  | .copy _ old _ _ k => old.size - k
  | _ => z.s.left (z.s.pcs t)

theorem ZInv.advance {s0 z K KS} (h : ZInv s0 z K KS) {t : Nat} (hb : K.busy t ≠ none) (hf : z.s.Free t) :
    zstep z (z.nextOf t) ≠ .ok none ∧ ∀ z', zstep z (z.nextOf t) = .ok (some (none, z')) → z'.s.Free t ∧
      ((z'.zpcs t).phase < (z.zpcs t).phase ∨ (z'.zpcs t).phase = (z.zpcs t).phase ∧ z'.leftOf t < z.leftOf t) := by
  have ht := h.thr t
  have inside : KS.busy t ≠ none →
      sstep z.s (.go t fresh) ≠ .ok none ∧ ∀ r s', sstep z.s (.go t fresh) = .ok (some (r, s')) → s'.Free t ∧ s'.left (s'.pcs t) < z.s.left (z.s.pcs t) := by
    intro hkb
    obtain ⟨cs, B, hi⟩ := h.base.inv
    rcases hi.go_exact t fresh with ⟨_, _, _, _, _, he⟩ | ⟨hw, _⟩ | ⟨r, s', he, hg⟩
    · have he' : sstep z.s (.go t fresh) = _ := he
      refine ⟨by rw [he']; nofun, fun r s' hs => by rw [he'] at hs; cases hs⟩
    · exact absurd hw (hi.not_waits hf hkb)
    · have he' : sstep z.s (.go t fresh) = _ := he
      refine ⟨by rw [he']; nofun, fun r s' hs => ?_⟩
      rw [he'] at hs
      cases hs
      exact ⟨hg.free' hf, hi.left_lt hg⟩
  generalize hpc : z.zpcs t = pc at ht
  generalize hbz : K.busy t = bz at ht
  generalize hkb : KS.busy t = kb at ht inside
  have call : kb ≠ none → z.nextOf t = .base (.go t fresh) → z.leftOf t = z.s.left (z.s.pcs t) → (∀ j b k, pc ≠ .zero j b k) →
      (∀ p old new b k, pc ≠ .copy p old new b k) →
      zstep z (z.nextOf t) ≠ .ok none ∧ ∀ z', zstep z (z.nextOf t) = .ok (some (none, z')) → z'.s.Free t ∧
        ((z'.zpcs t).phase < pc.phase ∨ (z'.zpcs t).phase = pc.phase ∧ z'.leftOf t < z.leftOf t) := by
    intro hne hn hl h1 h2
    obtain ⟨i1, i2⟩ := inside hne
    rw [hn, hl]
    cases hh : sstep z.s (.go t fresh) with
    | error e => simp only [zstep, hh]; exact ⟨nofun, nofun⟩
    | ok q =>
      rcases q with _ | ⟨_ | r1, s1⟩
      · exact absurd hh i1
      · obtain ⟨f1, f2⟩ := i2 _ _ hh
        simp only [zstep, hh]
        refine ⟨nofun, fun z' hz => ?_⟩
        replace hz : ({ z with s := s1 } : ZSS) = z' := by injection hz with hz; injection hz with hz; injection hz
        subst hz
        refine ⟨f1, .inr ⟨by show (z.zpcs t).phase = _; rw [hpc], ?_⟩⟩
        have : ZSS.leftOf { z with s := s1 } t = s1.left (s1.pcs t) := by
          simp only [ZSS.leftOf, hpc]
        rw [this]
        exact f2
      · obtain ⟨f1, f2⟩ := i2 _ _ hh
        simp only [zstep, hh]
        refine ⟨nofun, fun z' hz => ?_⟩
        replace hz : ZSS.back { z with s := s1 } t r1 = (none, z') := by injection hz with hz; injection hz
        simp only [ZSS.back, hpc] at hz
        split at hz
        · cases hz
          refine ⟨f1, .inl ?_⟩
          rw [ZSS.setZ_same]
          exact Nat.lt_succ_self 2
        all_goals cases hz
  cases ht with
  | idle => exact absurd hbz hb
  | plain => exact call nofun (by simp only [ZSS.nextOf, hpc]) (by simp only [ZSS.leftOf, hpc]) nofun nofun
  | alloc hj => exact call nofun (by simp only [ZSS.nextOf, hpc]) (by simp only [ZSS.leftOf, hpc]) nofun nofun
  | free => exact call nofun (by simp only [ZSS.nextOf, hpc]) (by simp only [ZSS.leftOf, hpc]) nofun nofun
  | @zero j ob b k hj hk hz =>
    have hn : z.nextOf t = .zgo t := by simp only [ZSS.nextOf, hpc]
    have hl : z.leftOf t = b.len - k := by simp only [ZSS.leftOf, hpc]
    rw [hn, hl]
    simp only [zstep, zgoStep, hpc]
    split
    · rename_i hlt
      simp only [zeroByte]
      split
      · refine ⟨nofun, fun z' hz => ?_⟩
        cases hz
        refine ⟨hf, .inr ⟨by rw [ZSS.setZ_same]; rfl, ?_⟩⟩
        simp only [ZSS.leftOf, ZSS.setZ_same]
        omega
      · exact ⟨nofun, nofun⟩
    · cases hj with
      | zeroed => exact ⟨nofun, nofun⟩
      | grow =>
        simp only [require]
        split
        · refine ⟨nofun, fun z' hz => ?_⟩
          cases hz
          exact ⟨hf, .inl (by rw [ZSS.setZ_same]; exact Nat.lt_succ_self 1)⟩
        · exact ⟨nofun, nofun⟩
  | @copy p old new o b k hj hk hlen hc hz =>
    have hn : z.nextOf t = .zgo t := by simp only [ZSS.nextOf, hpc]
    have hl : z.leftOf t = old.size - k := by simp only [ZSS.leftOf, hpc]
    rw [hn, hl]
    simp only [zstep, zgoStep, hpc]
    split
    · rename_i hlt
      simp only [copyByte]
      split
      · refine ⟨nofun, fun z' hz => ?_⟩
        cases hz
        refine ⟨hf, .inr ⟨by rw [ZSS.setZ_same]; rfl, ?_⟩⟩
        simp only [ZSS.leftOf, ZSS.setZ_same]
        omega
      · exact ⟨nofun, nofun⟩
    · rw [zinner_eq (h.base.busy_none hkb)]
      refine ⟨nofun, fun z' hz => ?_⟩
      cases hz
      exact ⟨hf, .inl (by rw [ZSS.setZ_same]; exact Nat.lt_succ_self 0)⟩

/-- C91: a thread whose call is running while nobody else holds the lock finishes it if it is scheduled alone and nothing fails spuriously (or
meets a broken answer of the underlying allocator). -/
theorem C91_finishes_alone {s0 z K} (h : ZReach s0 z K) {t : Nat} (hb : K.busy t ≠ none) (hf : z.s.Free t) :
    ∃ n, (∃ r z', zsolo n z t = .ok (some (r, z'))) ∨ ∃ e w, zsolo n z t = .error e ∧ w.oracle = s0.w.oracle ∧ BadAnswer w e := by
  suffices H : ∀ (ph n : Nat) (z : ZSS), ZReach s0 z K → z.s.Free t → (z.zpcs t).phase = ph → z.leftOf t = n →
      ∃ n, (∃ r z', zsolo n z t = .ok (some (r, z'))) ∨ ∃ e w, zsolo n z t = .error e ∧ w.oracle = s0.w.oracle ∧ BadAnswer w e from
    H _ _ z h hf rfl rfl
  intro ph
  induction ph using Nat.strongRecOn with
  | ind ph ihp =>
  intro n
  induction n using Nat.strongRecOn with
  | ind n ihn =>
  intro z h hf hp hn
  obtain ⟨KS, hi⟩ := h.inv
  obtain ⟨a1, a2⟩ := hi.advance hb hf
  have hrun : (z.nextOf t).runs = some t := by
    unfold ZSS.nextOf
    split <;> rfl
  have hl : ZLegal K (z.nextOf t) := by
    unfold ZSS.nextOf
    split
    · exact .zgo
    · exact .zgo
    · exact .go
  cases hs : zstep z (z.nextOf t) with
  | error e =>
    obtain ⟨cs, B, hS⟩ := hi.base.inv
    exact ⟨1, .inr ⟨e, z.s.w, by simp only [zsolo, hs], hS.oracle, C91_no_fault h hl hs⟩⟩
  | ok q =>
    rcases q with _ | ⟨_ | r, z'⟩
    · exact absurd hs a1
    · obtain ⟨f1, f2⟩ := a2 z' hs
      have h' := h.snoc hl hs (.inside hrun)
      have : ∃ n, (∃ r z'', zsolo n z' t = .ok (some (r, z''))) ∨ ∃ e w, zsolo n z' t = .error e ∧ w.oracle = s0.w.oracle ∧ BadAnswer w e := by
        rcases f2 with f2 | ⟨f2, f3⟩
        · exact ihp _ (by omega) _ z' h' f1 rfl rfl
        · exact ihn _ (by omega) z' h' f1 (by omega) rfl
      obtain ⟨m, hm⟩ := this
      refine ⟨m + 1, ?_⟩
      simp only [zsolo, hs]
      exact hm
    · exact ⟨1, .inl ⟨r, z', by simp only [zsolo, hs]⟩⟩

/-- C91: a response is the response to a call somebody made: every step that is possible is one after which the book says who owns what. -/
theorem C91_answers {s0 z K} (h : ZReach s0 z K) {a : ZAct} (hl : ZLegal K a) {r z'} (hs : zstep z a = .ok (some (r, z'))) :
    ∃ K', ZAfter z.s.w.mem K a r K' := by
  obtain ⟨KS, hi⟩ := h.inv
  have off : ∀ {t c pc}, K.busy t = none → z.inner t c pc = .ok (some (r, z')) → r = none := by
    intro t c pc hb he
    rw [zinner_eq (hi.base.busy_none (hi.busy_none hb).2)] at he
    cases he
    rfl
  have runs : ∀ {t}, a.runs = some t → (r ≠ none → K.busy t ≠ none) → ∃ K', ZAfter z.s.w.mem K a r K' := by
    intro t hat hb
    cases r with
    | none => exact ⟨_, .inside hat⟩
    | some r =>
      cases hk : K.busy t with
      | none => exact absurd hk (hb nofun)
      | some x => exact ⟨_, .ret (c := x.1) (ob := x.2) hat hk⟩
  cases hl with
  | allocate hb hv =>
    simp only [zstep, if_pos (hi.busy_none hb).1] at hs
    cases off hb hs; exact ⟨_, .allocate⟩
  | resize hb ho hf hv =>
    simp only [zstep, if_pos (hi.busy_none hb).1] at hs
    cases off hb hs; exact ⟨_, .resize ho hf⟩
  | deallocate hb ho hf =>
    simp only [zstep, if_pos (hi.busy_none hb).1] at hs
    cases off hb hs; exact ⟨_, .deallocate ho hf⟩
  | zeroed hb hv =>
    simp only [zstep, if_pos (hi.busy_none hb).1] at hs
    cases off hb hs; exact ⟨_, .zeroed⟩
  | @growZeroed t b p old new hb ho hf hv hsz =>
    simp only [zstep, if_pos (hi.busy_none hb).1, dassert, if_neg (fun hh => hh.2 hsz : ¬ (z.s.w.debug = true ∧ ¬ old.size ≤ new.size))] at hs
    cases off hb hs; exact ⟨_, .growZeroed ho hf⟩
  | write ho hx =>
    simp only [zstep, sstep] at hs
    cases hs
    exact ⟨_, .write⟩
  | @resets a har hq =>
    suffices r = none by subst this; exact ⟨_, .resets har⟩
    cases hh : sstep z.s a with
    | error e' =>
      cases a <;> first | (cases har; done) | (simp only [zstep, hh] at hs; cases hs)
    | ok q =>
      have key0 : ∀ {s2 : SS} {r1 : Option Resp} {k : Bool}, resetStep z.s k = .ok (some (r1, s2)) → r1 = none := by
        intro s2 r1 k hh
        simp only [resetStep] at hh
        generalize arenaReset z.s.root k z.s.w = q at hh
        rcases q with e | q <;> cases hh
        rfl
      have key : ∀ {s2 : SS} {r1 : Option Resp}, sstep z.s a = .ok (some (r1, s2)) → r1 = none := by
        intro s2 r1 hh
        cases a <;> first | (cases har; done) | skip
        · exact key0 hh
        · simp only [sstep] at hh
          split at hh
          · exact key0 hh
          · cases hh
        · exact key0 hh
      rcases q with _ | ⟨r1, s1⟩
      · cases a <;> first | (cases har; done) | (simp only [zstep, hh] at hs; cases hs)
      · have := key hh
        subst this
        cases a <;> first | (cases har; done) | (simp only [zstep, hh] at hs; cases hs; rfl)
  | @go t ch =>
    refine runs rfl fun hr hb => ?_
    obtain ⟨hoff, hkb⟩ := hi.busy_none hb
    cases hh : sstep z.s (.go t ch) with
    | error e => simp only [zstep, hh] at hs; cases hs
    | ok q =>
      rcases q with _ | ⟨_ | r1, s1⟩
      · simp only [zstep, hh] at hs; cases hs
      · simp only [zstep, hh] at hs; cases hs; exact hr rfl
      · obtain ⟨_, _, c, ob, hk⟩ := hi.base.ret_w hh
        rw [hkb] at hk
        cases hk
  | @zgo t =>
    refine runs rfl fun hr hb => ?_
    simp only [zstep, zgoStep, (hi.busy_none hb).1] at hs
    cases hs

/-- C91: a thread not inside a call can make any call. -/
theorem C91_calls_start {s0 z K} (h : ZReach s0 z K) {t : Nat} (hb : K.busy t = none) :
    (∀ c, ∃ z', zstep z (.base (.call t c)) = .ok (some (none, z'))) ∧ (∀ l, ∃ z', zstep z (.zcall t (.zeroed l)) = .ok (some (none, z'))) ∧
    ∀ p old new, old.size ≤ new.size → ∃ z', zstep z (.zcall t (.growZeroed p old new)) = .ok (some (none, z')) := by
  obtain ⟨KS, hi⟩ := h.inv
  obtain ⟨h1, h2⟩ := hi.busy_none hb
  have h3 := hi.base.busy_none h2
  refine ⟨fun c => ?_, fun l => ?_, fun p old new hsz => ?_⟩
  · simp only [zstep, if_pos h1, zinner_eq h3]
    exact ⟨_, rfl⟩
  · simp only [zstep, if_pos h1, zinner_eq h3]
    exact ⟨_, rfl⟩
  · simp only [zstep, if_pos h1, dassert, if_neg (fun hh => hh.2 hsz : ¬ (z.s.w.debug = true ∧ ¬ old.size ≤ new.size)), zinner_eq h3]
    exact ⟨_, rfl⟩

/-- C91: the only call a default method makes besides its first is `deallocate`, of the block handed over and with its layout. -/
theorem C91_gives_back {s0 z K} (h : ZReach s0 z K) {t : Nat} {r z'} (hs : zstep z (.zgo t) = .ok (some (r, z'))) (hne : z'.s.pcs t ≠ z.s.pcs t) :
    ∃ p old new o, K.busy t = some (.zeroed (.growZeroed p old new), some o) ∧ o.Fits p old ∧ z'.s = z.s.setPc t (.rd (.deallocate p old.size)) := by
  obtain ⟨KS, hi⟩ := h.inv
  have ht := hi.thr t
  generalize hpc : z.zpcs t = pc at ht
  generalize hbz : K.busy t = bz at ht
  generalize hkb : KS.busy t = kb at ht
  simp only [zstep, zgoStep, hpc] at hs
  cases ht with
  | idle => cases hs
  | plain => cases hs
  | alloc => cases hs
  | free => cases hs
  | @zero j ob b k hj hk hz =>
    dsimp only at hs
    split at hs
    · simp only [zeroByte] at hs
      split at hs <;> cases hs
      exact absurd rfl hne
    · cases hj with
      | zeroed => cases hs; exact absurd rfl hne
      | grow =>
        simp only [require] at hs
        split at hs <;> cases hs
        exact absurd rfl hne
  | @copy p old new o b k hj hk hlen hc hz =>
    cases hj with
    | grow hf hv hsz same =>
    dsimp only at hs
    split at hs
    · simp only [copyByte] at hs
      split at hs <;> cases hs
      exact absurd rfl hne
    · rw [zinner_eq (hi.base.busy_none hkb)] at hs
      cases hs
      exact ⟨p, old, new, o, rfl, hf, rfl⟩

/-! ### The hypotheses are met -/

/-- `n` undisturbed steps of thread `t` in methods of the allocator, and in default methods. -/
def bgoes (t n : Nat) : List ZAct := List.replicate n (.base (.go t fresh))
def zgoes (t n : Nat) : List ZAct := List.replicate n (.zgo t)

/-- Thread 1 allocates ten zeroed bytes and, while thread 2 is zeroing five bytes, gets them and stores into two. -/
def zdemoPre : List ZAct :=
  [.zcall 1 (.zeroed ⟨10, 8⟩)] ++ bgoes 1 5 ++ zgoes 1 4 ++ [.zcall 2 (.zeroed ⟨5, 1⟩)] ++ bgoes 2 4 ++ zgoes 1 7 ++
  [.base (.write 65570 (.raw 9)), .base (.write 65577 (.raw 8))]

/-- Thread 1 grows them while thread 2 gets its block and allocates another. -/
def zdemoMid : List ZAct :=
  bgoes 1 2 ++ zgoes 2 3 ++ bgoes 1 2 ++ zgoes 1 12 ++ zgoes 2 3 ++ zgoes 1 5 ++ [.zcall 2 (.zeroed ⟨3, 2⟩)] ++ bgoes 2 4 ++ zgoes 2 1 ++ zgoes 1 2

/-- The hypotheses of `C91_refines`, `C91_no_overlap`, `C91_layout_and_memory`, `C91_no_fault`, `C91_frame`, `C91_moves`, `C91_answers` and
`C91_finishes_alone` are met where thread 1 is copying in `grow_zeroed`, thread 2 zeroing in `allocate_zeroed`, and one block is owned. -/
example : ∃ s0 z K, ZReach s0 z K ∧ K.owned = [⟨65578, 5, 5, 1⟩] ∧
    z.zpcs 1 = .copy 65568 ⟨10, 8⟩ ⟨16, 8⟩ ⟨65584, 16⟩ 2 ∧ z.zpcs 2 = .zero (.zeroed ⟨3, 2⟩) ⟨65600, 3⟩ 1 ∧ z.s.pcs 1 = .idle ∧
    K.busy 1 ≠ none ∧ z.s.Free 1 ∧ ∃ r z', zstep z (.zgo 1) = .ok (some (r, z')) := by
  obtain ⟨z, K, h, hf⟩ := of_zdemoAt (sizes := [512, 1024, 2048]) (m := 256)
    (as := zdemoPre ++ [.zcall 1 (.growZeroed 65568 ⟨10, 8⟩ ⟨16, 8⟩)] ++ zdemoMid)
    (f := fun z K => decide (K.owned = [⟨65578, 5, 5, 1⟩]) && decide (z.zpcs 1 = .copy 65568 ⟨10, 8⟩ ⟨16, 8⟩ ⟨65584, 16⟩ 2) &&
      decide (z.zpcs 2 = .zero (.zeroed ⟨3, 2⟩) ⟨65600, 3⟩ 1) && decide (z.s.pcs 1 = .idle) && decide (K.busy 1 ≠ none) &&
      decide (z.s.readers = []) && decide (z.s.writer = none)) (by decide) (by decide +kernel)
  simp only [Bool.and_eq_true, decide_eq_true_eq] at hf
  obtain ⟨⟨⟨⟨⟨⟨h1, h2⟩, h3⟩, h4⟩, h5⟩, h6⟩, h7⟩ := hf
  exact ⟨_, z, K, h, h1, h2, h3, h4, h5, by rw [SS.Free, h6, h7]; simp, C91_moves h h5 h4⟩

/-- The hypotheses of `C91_allocate_zeroed` are met: thread 1 gets its block in the next step, thread 2 being in the middle of zeroing. -/
example : ∃ s0 z K z', ZReach s0 z K ∧ K.busy 1 = some (.zeroed (.zeroed ⟨10, 8⟩), none) ∧
    z.zpcs 2 = .zero (.zeroed ⟨5, 1⟩) ⟨65578, 5⟩ 0 ∧ zstep z (.zgo 1) = .ok (some (some (.block ⟨65568, 10⟩), z')) := by
  obtain ⟨z, K, h, hf⟩ := of_zdemoAt (sizes := [512, 1024, 2048]) (m := 256) (as := zdemoPre.take 21)
    (f := fun z K => decide (K.busy 1 = some (.zeroed (.zeroed ⟨10, 8⟩), none)) && decide (z.zpcs 2 = .zero (.zeroed ⟨5, 1⟩) ⟨65578, 5⟩ 0) &&
      (match zstep z (.zgo 1) with
      | .ok (some (some r, _)) => decide (r = .block ⟨65568, 10⟩)
      | _ => false)) (by decide) (by decide +kernel)
  simp only [Bool.and_eq_true, decide_eq_true_eq] at hf
  obtain ⟨⟨h1, h2⟩, h3⟩ := hf
  split at h3
  · rename_i r z' hs
    simp only [decide_eq_true_eq] at h3
    subst h3
    exact ⟨_, z, K, z', h, h1, h2, hs⟩
  · cases h3

/-- The hypotheses of `C91_grow_zeroed` are met: the block has moved, its bytes and zeros are there. -/
example : ∃ s0 z K z1 K1 tr z2 K2 z3, ZReach s0 z K ∧ ZLegal K (.zcall 1 (.growZeroed 65568 ⟨10, 8⟩ ⟨16, 8⟩)) ∧
    zstep z (.zcall 1 (.growZeroed 65568 ⟨10, 8⟩ ⟨16, 8⟩)) = .ok (some (none, z1)) ∧
    ZAfter z.s.w.mem K (.zcall 1 (.growZeroed 65568 ⟨10, 8⟩ ⟨16, 8⟩)) none K1 ∧ ZRun z1 K1 tr z2 K2 ∧
    (∀ a r, a.runs = some 1 → (a, some r) ∉ tr) ∧ zstep z2 (.base (.go 1 fresh)) = .ok (some (some (.block ⟨65584, 16⟩), z3)) ∧
    z3.s.w.mem 65586 = .raw 9 ∧ z3.s.w.mem 65593 = .raw 8 ∧ z3.s.w.mem 65594 = .raw 0 := by
  obtain ⟨z, K, z1, K1, tr, z2, K2, r, z3, h1, h2, h3, h4, h5, h6, h7, hf⟩ :=
    of_zcallAt (sizes := [512, 1024, 2048]) (m := 256) (pre := zdemoPre) (t := 1) (j := .growZeroed 65568 ⟨10, 8⟩ ⟨16, 8⟩)
      (mid := zdemoMid ++ zgoes 1 9 ++ bgoes 1 2) (a := .base (.go 1 fresh))
      (f := fun _ r z3 => decide (r = some (.block ⟨65584, 16⟩)) && decide (z3.s.w.mem 65586 = .raw 9) && decide (z3.s.w.mem 65593 = .raw 8) &&
        decide (z3.s.w.mem 65594 = .raw 0)) (by decide) (by decide +kernel)
  simp only [Bool.and_eq_true, decide_eq_true_eq] at hf
  obtain ⟨⟨⟨rfl, f2⟩, f3⟩, f4⟩ := hf
  exact ⟨_, z, K, z1, K1, tr, z2, K2, z3, h1, h2, h3, h4, h5, h6, h7, f2, f3, f4⟩

/-- The hypotheses of `C91_gives_back` and `C91_calls_start` are met: everything is copied; thread 3 has made no call. -/
example : ∃ s0 z K z', ZReach s0 z K ∧ K.busy 3 = none ∧ zstep z (.zgo 1) = .ok (some (none, z')) ∧ z'.s.pcs 1 ≠ z.s.pcs 1 := by
  obtain ⟨z, K, h, hf⟩ := of_zdemoAt (sizes := [512, 1024, 2048]) (m := 256)
    (as := zdemoPre ++ [.zcall 1 (.growZeroed 65568 ⟨10, 8⟩ ⟨16, 8⟩)] ++ zdemoMid ++ zgoes 1 8)
    (f := fun z K => decide (K.busy 3 = none) &&
      (match zstep z (.zgo 1) with
      | .ok (some (none, z')) => decide (z'.s.pcs 1 ≠ z.s.pcs 1)
      | _ => false)) (by decide) (by decide +kernel)
  simp only [Bool.and_eq_true, decide_eq_true_eq] at hf
  obtain ⟨h1, h2⟩ := hf
  split at h2
  · rename_i z' hs
    simp only [decide_eq_true_eq] at h2
    exact ⟨_, z, K, z', h, h1, hs, h2⟩
  · cases h2

/-- And where the underlying allocator gives no more chunks the call fails and the block is the caller's again. -/
example : ∃ s0 z K z1 K1 tr z2 K2 z3, ZReach s0 z K ∧ ZLegal K (.zcall 1 (.growZeroed 65568 ⟨10, 8⟩ ⟨999, 8⟩)) ∧
    zstep z (.zcall 1 (.growZeroed 65568 ⟨10, 8⟩ ⟨999, 8⟩)) = .ok (some (none, z1)) ∧
    ZAfter z.s.w.mem K (.zcall 1 (.growZeroed 65568 ⟨10, 8⟩ ⟨999, 8⟩)) none K1 ∧ ZRun z1 K1 tr z2 K2 ∧
    (∀ a r, a.runs = some 1 → (a, some r) ∉ tr) ∧ zstep z2 (.base (.go 1 fresh)) = .ok (some (some .err, z3)) := by
  obtain ⟨z, K, z1, K1, tr, z2, K2, r, z3, h1, h2, h3, h4, h5, h6, h7, hf⟩ :=
    of_zcallAt (sizes := [512]) (m := 256) (pre := zdemoPre) (t := 1) (j := .growZeroed 65568 ⟨10, 8⟩ ⟨999, 8⟩)
      (mid := bgoes 1 3 ++ zgoes 2 3 ++ bgoes 1 3) (a := .base (.go 1 fresh))
      (f := fun _ r _ => decide (r = some .err)) (by decide) (by decide +kernel)
  simp only [decide_eq_true_eq] at hf
  subst hf
  exact ⟨_, z, K, z1, K1, tr, z2, K2, z3, h1, h2, h3, h4, h5, h6, h7⟩

end Blink
