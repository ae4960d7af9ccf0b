import Verif.Spec.ZeroContract
import Verif.Proofs.SyncZero
import Verif.Proofs.Contract
/-
  Zeroed calls of threads can be thought of as happening at one moment as well: `allocate_zeroed` when it returns, `grow_zeroed` when it is
  about to give the old block back (or returns, if it fails).
-/
namespace Blink

/-- The call of `SyncBlinkAlloc`'s own methods a thread makes for itself. -/
def zplain : Option (ZCall × Option Owned) → Option (Call × Option Owned)
  | some (.plain c, ob) => some (c, ob)
  | _ => none

/-- The blocks a zeroed call has to do with, if it happens at its moment. -/
def zvis : ZPc → Option (ZCall × Option Owned) → List Owned
  | .free _ _ new b, some (.zeroed _, _) => [Owned.of b new]
  | _, some (.zeroed _, ob) => ob.toList
  | _, _ => []

/-- Where a thread is. -/
def zthr : ZPc → Option (ZCall × Option Owned) → AbsThr → ZAbsThr
  | .free _ _ _ b, some (.zeroed _, _), _ => .done (.block b)
  | _, some (.zeroed j, _), _ => .called (.zeroed j)
  | _, some (.plain c, _), .called _ => .called (.plain c)
  | _, some (.plain _, _), .done r => .done r
  | _, _, _ => .idle

theorem ZThr.vis_sub {m sn pc bz kb} (h : ZThr m sn pc bz kb) {b} (hb : b ∈ zvis pc bz) : b ∈ zheld pc bz := by
  cases h with
  | idle => cases hb
  | plain => cases hb
  | alloc => exact hb
  | zero => exact List.mem_cons_of_mem _ hb
  | copy => exact List.mem_cons_of_mem _ hb
  | free => exact hb

/-- The state `σ`, in which threads are as `T` says, is what the state `z` with the book `K` means. `M` is the book of the calls of the
methods of `SyncBlinkAlloc` that are visible as such. -/
structure ZSim (z : ZSS) (K : ZBook) (M : Book) (σ : AbsState) (T : Nat → ZAbsThr) : Prop where
  busy : ∀ t, M.busy t = zplain (K.busy t)
  own : Spread M.owned K.owned fun t => zvis (z.zpcs t) (K.busy t)
  sim : AbsSim z.s M σ fun t => (z.s.pcs t).abs (M.busy t)
  thr : ∀ t, T t = zthr (z.zpcs t) (K.busy t) ((z.s.pcs t).abs (M.busy t))

theorem AbsSim.norm {s M σ T} (h : AbsSim s M σ T) : AbsSim s M σ fun t => (s.pcs t).abs (M.busy t) := ⟨fun _ => rfl, h.own, h.mem⟩

theorem Spread.from {L owned A} (h : Spread L owned A) {b : Owned} (hb : b ∈ L) : b ∈ owned ∨ ∃ u, b ∈ A u := by
  obtain ⟨ts, _, _, hL⟩ := h
  rcases List.mem_append.mp (hL.mem_iff.mp hb) with h1 | h1
  · exact .inl h1
  · obtain ⟨u, _, h2⟩ := List.mem_flatMap.mp h1
    exact .inr ⟨u, h2⟩

theorem Spread.left {L owned A} (h : Spread L owned A) {b : Owned} (hb : b ∈ owned) : b ∈ L := by
  obtain ⟨ts, _, _, hL⟩ := h
  exact hL.mem_iff.mpr (List.mem_append_left _ hb)

theorem ZSim.part {s0 z K KS M σ T} (hz : ZInv s0 z K KS) (h : ZSim z K M σ T) : M.Part KS where
  owned := fun b hb => by
    rcases h.own.from hb with h1 | ⟨u, h1⟩
    · exact hz.parts.left h1
    · exact hz.held_mem ((hz.thr u).vis_sub h1)
  busy := fun t q hq => by
    rw [h.busy t] at hq
    have ht := hz.thr t
    generalize K.busy t = bz at hq ht
    generalize z.zpcs t = pc at ht
    generalize KS.busy t = kb at ht
    cases ht <;> first | exact hq | cases hq

/-- A thread moves. -/
theorem ZSim.move {z K M σ T} (h : ZSim z K M σ T) (t : Nat) {z' : ZSS} {K' : ZBook} {M' : Book} {σ' : AbsState} {X : ZAbsThr} {T'}
    (hz : ∀ u, u ≠ t → z'.zpcs u = z.zpcs u) (hs : ∀ u, u ≠ t → z'.s.pcs u = z.s.pcs u) (hk : ∀ u, u ≠ t → K'.busy u = K.busy u)
    (hm : ∀ u, u ≠ t → M'.busy u = M.busy u) (hb : M'.busy t = zplain (K'.busy t))
    (hp : ∀ R, M.owned.Perm (K.owned ++ (zvis (z.zpcs t) (K.busy t) ++ R)) → M'.owned.Perm (K'.owned ++ (zvis (z'.zpcs t) (K'.busy t) ++ R)))
    (hsim : AbsSim z'.s M' σ' T') (hX : zthr (z'.zpcs t) (K'.busy t) ((z'.s.pcs t).abs (M'.busy t)) = X) : ZSim z' K' M' σ' (put T t X) := by
  obtain ⟨R, hperm, _, hback⟩ := h.own.focus t
  refine ⟨fun u => ?_, hback (fun u hu => ?_) (hp R hperm), hsim.norm, fun u => ?_⟩
  · by_cases hu : u = t
    · subst hu; exact hb
    · rw [hm u hu, hk u hu]; exact h.busy u
  · rw [hz u hu, hk u hu]
  · by_cases hu : u = t
    · subst hu; rw [put_same]; exact hX.symm
    · rw [put_ne _ _ hu, hz u hu, hs u hu, hk u hu, hm u hu]; exact h.thr u

theorem put_put {α} (f : Nat → α) (t : Nat) (a b : α) : put (put f t a) t b = put f t b := by
  funext u
  by_cases hu : u = t
  · subst hu; rw [put_same, put_same]
  · rw [put_ne _ _ hu, put_ne _ _ hu, put_ne _ _ hu]

/-- The program counter of a thread that makes no visible call does not matter. -/
theorem AbsSim.setPc {s M σ T} (h : AbsSim s M σ T) {t : Nat} {pc : Pc} (hb : M.busy t = none) : AbsSim (s.setPc t pc) M σ T := by
  refine ⟨fun u => ?_, h.own.congr fun u => ?_, h.mem⟩
  · by_cases hu : u = t
    · subst hu; rw [h.thr u, hb]; cases s.pcs u <;> cases (s.setPc u pc).pcs u <;> rfl
    · rw [SS.setPc_ne _ _ hu]; exact h.thr u
  · by_cases hu : u = t
    · subst hu; rw [hb]; cases s.pcs u <;> cases (s.setPc u pc).pcs u <;> rfl
    · rw [SS.setPc_ne _ _ hu]

/-- A store to a byte in no block in use. -/
theorem AbsSim.store {s : SS} {M σ T} (h : AbsSim s M σ T) {x : Nat} {v : Byte} (hx : ∀ b ∈ σ.owned, ¬ b.Has x) :
    AbsSim { s with w := { s.w with mem := setBytes s.w.mem x 1 fun _ => v } } M σ T := by
  refine ⟨h.thr, h.own, fun b hb y hy => ?_⟩
  have : y ≠ x := fun he => hx b hb (he ▸ hy)
  show setBytes s.w.mem x 1 (fun _ => v) y = _
  rw [setBytes_out (by omega)]
  exact h.mem b hb y hy

/-- A block gets into use, one goes out of use. -/
theorem AbsSim.swap {s M σ T} (h : AbsSim s M σ T) (n : Owned) {oo : Option Owned} {L L' : List Owned} (hL : M.owned.Perm (oo.toList ++ L))
    (hσ : σ.owned.Perm (oo.toList ++ L')) : AbsSim s { M with owned := n :: L } ⟨n :: L', s.w.mem⟩ T := by
  refine ⟨h.thr, ?_, fun _ _ _ _ => rfl⟩
  obtain ⟨ts, h1, h2, h3⟩ := h.own
  refine ⟨ts, h1, h2, ?_⟩
  refine List.Perm.cons n ?_
  have h4 := hσ.symm.trans (h3.trans (hL.append_right _))
  rw [List.append_assoc] at h4
  exact (List.perm_append_left_iff _).mp h4

/-- A block a zeroed call is filling is none of the blocks in use. -/
theorem ZSim.apart {s0 z K KS M σ T} (hz : ZInv s0 z K KS) (h : ZSim z K M σ T) {t : Nat} {n : Owned} {L : List Owned}
    (hh : zheld (z.zpcs t) (K.busy t) = n :: L) (hv : ∀ b ∈ zvis (z.zpcs t) (K.busy t), b ∈ L) {b : Owned} (hb : b ∈ σ.owned) : b.Apart n := by
  have hn : n ∈ zheld (z.zpcs t) (K.busy t) := hh ▸ List.mem_cons_self
  obtain ⟨cs, B, hi⟩ := hz.base.inv
  intro x hx
  rcases h.sim.from hi (h.part hz) hb with h1 | ⟨u, _, h1⟩
  · rcases h.own.from h1 with h2 | ⟨u, h2⟩
    · exact (hz.apart hn).1 b h2 x hx
    · by_cases hu : u = t
      · subst hu
        have hown := hz.parts.own (C22_no_overlap hz.base) u
        rw [hh] at hown
        exact (List.pairwise_cons.mp hown).1 b (hv b h2) x ⟨hx.2, hx.1⟩
      · exact (hz.apart hn).2 u hu b ((hz.thr u).vis_sub h2) x hx
  · exact hi.blkOwned h1 hx.1 (hz.held_mem hn) hx.2

theorem FreshFor.held {s0 s K} (h : SReach s0 s K) {l : Layout} {sl : Slice} (hb : Owned.of sl l ∈ K.owned) {L : List Owned}
    (ha : ∀ b ∈ L, b.Apart (Owned.of sl l)) : FreshFor L l sl := by
  obtain ⟨cs, B, hi⟩ := h.inv
  obtain ⟨h1, _, h3, d, hd, h4, h5⟩ := hi.fam.owned.each _ hb
  have hd' := hi.arena.ok d hd
  have := hd'.lo; have := hd'.hi; have := hd'.pos
  have hr := hi.arena.held.rng _ (hi.arena.mem_held hd)
  have := hi.arena.held.top
  simp only [Owned.of, Chunk.blk] at *
  exact ⟨by omega, h3, h1, by omega, ha⟩

/-- Every legal step. -/
theorem ZSim.step {s0 z K KS M σ T} (hz : ZInv s0 z K KS) (h : ZSim z K M σ T) {a : ZAct} (hl : ZLegal K a) {r z'}
    (hs : zstep z a = .ok (some (r, z'))) {K'} (ha : ZAfter z.s.w.mem K a r K') {σ0 tr} (hr : ZLinRun σ0 tr σ T) :
    ∃ M' σ' T', ZLinRun σ0 (tr ++ [(a, r)]) σ' T' ∧ ZSim z' K' M' σ' T' := by
  obtain ⟨cs, B, hi⟩ := hz.base.inv
  have hM := h.part hz
  have off : ∀ {t c pc}, K.busy t = none → z.inner t c pc = .ok (some (r, z')) →
      r = none ∧ z' = { z with s := z.s.setPc t (.rd c) }.setZ t pc := by
    intro t c pc hb he
    rw [zinner_eq (hz.base.busy_none (hz.busy_none hb).2)] at he
    cases he
    exact ⟨rfl, rfl⟩
  have idle : ∀ {t}, K.busy t = none → T t = .idle ∧ M.busy t = none := by
    intro t hb
    refine ⟨?_, by rw [h.busy t, hb]; rfl⟩
    rw [h.thr t, hb]
    cases z.zpcs t <;> rfl
  -- a call of a method of `SyncBlinkAlloc`
  have enter : ∀ {t c ob L} {K' : ZBook}, K.busy t = none → zstep z (.base (.call t c)) = .ok (some (r, z')) →
      K.owned.Perm (Option.toList ob ++ L) → (∃ L', M.owned.Perm (Option.toList ob ++ L')) → K'.owned = L →
      K'.busy = put K.busy t (some (.plain c, ob)) →
      ∃ M' σ' T', ZLinRun σ0 (tr ++ [(.base (.call t c), r)]) σ' T' ∧ ZSim z' K' M' σ' T' := by
    intro t c ob L K' hb hs hL hLM ho hbz
    simp only [zstep, if_pos (hz.busy_none hb).1] at hs
    obtain ⟨rfl, rfl⟩ := off hb hs
    obtain ⟨L', hL'⟩ := hLM
    have hc := h.sim.call (c := c) (sn := M.snap) (idle hb).2 hL'
    refine ⟨_, σ, _, hr.call rfl (idle hb).1, h.move t (fun u hu => ZSS.setZ_ne _ _ hu) (fun u hu => ?_) (fun u hu => ?_) (fun u hu => ?_)
      ?_ (fun R hp => ?_) hc.2 ?_⟩
    · exact SS.setPc_ne _ _ hu
    · rw [hbz, put_ne _ _ hu]
    · exact put_ne _ _ hu
    · rw [hbz, put_same]; exact put_same ..
    · rw [hb, (hz.busy_none hb).1] at hp
      rw [ZSS.setZ_same, hbz, put_same, ho]
      show L'.Perm (L ++ R)
      have h1 := hL'.symm.trans (hp.trans (hL.append_right _))
      rw [List.append_assoc] at h1
      exact (List.perm_append_left_iff _).mp h1
    · rw [ZSS.setZ_same, hbz, put_same]
      show zthr .off (some (.plain c, ob)) (((z.s.setPc t (.rd c)).pcs t).abs (put M.busy t (some (c, ob)) t)) = _
      rw [put_same, SS.setPc_same]
      rfl
  cases hl with
  | allocate hb hv =>
    cases ha with
    | allocate => exact enter (ob := none) hb hs (.refl _) ⟨_, .refl _⟩ rfl rfl
    | inside ha => cases ha
    | ret ha => cases ha
    | resets ha => cases ha
  | resize hb ho hf hv =>
    cases ha with
    | resize ho' hf' =>
      exact enter (ob := some _) hb hs (List.perm_cons_erase ho') ⟨_, List.perm_cons_erase (h.own.left ho')⟩ rfl rfl
    | inside ha => cases ha
    | ret ha => cases ha
    | resets ha => cases ha
  | deallocate hb ho hf =>
    cases ha with
    | deallocate ho' hf' =>
      exact enter (ob := some _) hb hs (List.perm_cons_erase ho') ⟨_, List.perm_cons_erase (h.own.left ho')⟩ rfl rfl
    | inside ha => cases ha
    | ret ha => cases ha
    | resets ha => cases ha
  | @zeroed t l hb hv =>
    simp only [zstep, if_pos (hz.busy_none hb).1] at hs
    obtain ⟨rfl, rfl⟩ := off hb hs
    cases ha with
    | zeroed =>
      refine ⟨M, σ, _, hr.call rfl (idle hb).1, h.move t (fun u hu => ZSS.setZ_ne _ _ hu) (fun u hu => SS.setPc_ne _ _ hu)
        (fun u hu => put_other u hu) (fun u hu => rfl) ?_ (fun R hp => ?_) (h.sim.setPc (idle hb).2) ?_⟩
      · dsimp only; rw [put_same, (idle hb).2]; rfl
      · rw [hb, (hz.busy_none hb).1] at hp
        dsimp only
        rw [ZSS.setZ_same, put_same]
        exact hp
      · dsimp only
        rw [ZSS.setZ_same, put_same]
        rfl
    | inside ha => cases ha
  | @growZeroed t b p old new hb ho hf hv hsz =>
    simp only [zstep, if_pos (hz.busy_none hb).1, dassert, if_neg (fun hh => hh.2 hsz : ¬ (z.s.w.debug = true ∧ ¬ old.size ≤ new.size))] at hs
    replace hs : z.inner t (.allocate new) (.alloc (.growZeroed p old new)) = .ok (some (r, z')) := hs
    obtain ⟨rfl, rfl⟩ := off hb hs
    cases ha with
    | @growZeroed _ b' _ _ _ ho' hf' =>
      refine ⟨M, σ, _, hr.call rfl (idle hb).1, h.move t (fun u hu => ZSS.setZ_ne _ _ hu) (fun u hu => SS.setPc_ne _ _ hu)
        (fun u hu => put_other u hu) (fun u hu => rfl) ?_ (fun R hp => ?_) (h.sim.setPc (idle hb).2) ?_⟩
      · dsimp only; rw [put_same, (idle hb).2]; rfl
      · rw [hb, (hz.busy_none hb).1] at hp
        dsimp only
        rw [ZSS.setZ_same, put_same]
        exact hp.trans (((List.perm_cons_erase ho').append_right _).trans List.perm_middle.symm)
      · dsimp only
        rw [ZSS.setZ_same, put_same]
        rfl
    | inside ha => cases ha
  | @write b x v ho hx =>
    simp only [zstep, sstep] at hs
    cases hs
    have hK : K' = K := by
      cases ha with
      | inside ha => cases ha
      | write => rfl
      | resets ha => cases ha
    subst hK
    have hm : b ∈ σ.owned := h.sim.own.left (h.own.left ho)
    refine ⟨M, ⟨σ.owned, setBytes z.s.w.mem x 1 fun _ => v⟩, T, hr.write (.write hm hx ?_ fun c hc y hy hne => ?_),
      ⟨h.busy, h.own, ⟨fun _ => rfl, h.sim.own, fun _ _ _ _ => rfl⟩, h.thr⟩⟩
    · exact setBytes_in (m := z.s.w.mem) (a := x) (n := 1) (f := fun _ => v) (i := 0) (by omega)
    · rw [setBytes_out (by omega)]
      exact h.sim.mem c hc y hy
  | @resets a har hq =>
    have hs1 : ∃ s', z' = { z with s := s' } := by
      cases hh : sstep z.s a with
      | error e => cases a <;> first | (cases har; done) | (simp only [zstep, hh] at hs; cases hs)
      | ok q =>
        rcases q with _ | ⟨r1, s1⟩
        · cases a <;> first | (cases har; done) | (simp only [zstep, hh] at hs; cases hs)
        · refine ⟨s1, ?_⟩
          cases a <;> first | (cases har; done) | (simp only [zstep, hh] at hs; cases hs; rfl)
    obtain ⟨s', rfl⟩ := hs1
    have hr' : r = none ∧ K' = { K with owned := [] } := by
      cases ha with
      | resets => exact ⟨rfl, rfl⟩
      | inside ha => cases a <;> first | cases har; done | cases ha
      | ret ha => cases a <;> first | cases har; done | cases ha
      | _ => cases har
    obtain ⟨rfl, rfl⟩ := hr'
    refine ⟨{ M with owned := [] }, ⟨[], s'.w.mem⟩, T, hr.reset har (fun t => (idle (hq t)).1) .reset,
      ⟨h.busy, ⟨[], .nil, fun u _ => ?_, .refl _⟩, ⟨fun _ => rfl, ⟨[], .nil, fun u _ => ?_, .refl _⟩, fun b hb => by cases hb⟩, fun t => ?_⟩⟩
    · show zvis (z.zpcs u) (K.busy u) = []
      rw [hq u]
      cases z.zpcs u <;> rfl
    · show (s'.pcs u).pend (M.busy u) = []
      rw [(idle (hq u)).2]
      cases s'.pcs u <;> rfl
    · show T t = zthr (z.zpcs t) (K.busy t) _
      rw [(idle (hq t)).1, hq t]
      cases z.zpcs t <;> rfl
  | @go t ch =>
    cases hh : sstep z.s (.go t ch) with
    | error e => simp only [zstep, hh] at hs; cases hs
    | ok q =>
      have hother : ∀ {r s'}, sstep z.s (.go t ch) = .ok (some (r, s')) → ∀ u, u ≠ t → s'.pcs u = z.s.pcs u :=
        fun hh u hu => hi.goOther hh hu
      rcases q with _ | ⟨_ | r1, s1⟩
      · simp only [zstep, hh] at hs; cases hs
      · simp only [zstep, hh] at hs
        cases hs
        have hK : K' = K := by
          cases ha with
          | inside ha => rfl
          | resets ha => cases ha
        subst hK
        obtain ⟨cs', B', hi'⟩ := (hz.base.snoc .go hh .inside).inv
        have mv := fun {σ'} {X} {T'} => h.move t (z' := { z with s := s1 }) (K' := K') (M' := M) (σ' := σ') (X := X) (T' := T') (fun _ _ => rfl)
          (hother hh) (fun _ _ => rfl) (fun _ _ => rfl) (h.busy t) (fun R hp => hp)
        rcases h.sim.inside hi hM hh hi' with h1 | ⟨c, r, σ', h1, h2, h3⟩
        · refine ⟨M, σ, T, hr.inside rfl, ?_⟩
          have := mv h1 (X := T t) ?_
          · rwa [put_self] at this
          · rw [h.thr t]
            dsimp only
            rw [← h1.thr t]
        · have hb : K'.busy t = some (.plain c, ((M.busy t).bind (·.2))) := by
            have hb := h.busy t
            cases hq : M.busy t with
            | none => rw [hq] at h1; cases hp : z.s.pcs t <;> rw [hp] at h1 <;> cases h1
            | some q =>
              obtain ⟨c', ob⟩ := q
              have : c' = c := by
                rw [hq] at h1
                cases hp : z.s.pcs t <;> rw [hp] at h1 <;> cases h1 <;> rfl
              subst this
              rw [hq] at hb
              rcases hK : K'.busy t with _ | ⟨⟨c2⟩ | j, ob2⟩ <;> rw [hK] at hb <;> cases hb
              rfl
          have hT : T t = .called (.plain c) := by
            rw [h.thr t, hb, h1]
            cases z.zpcs t <;> rfl
          refine ⟨M, σ', _, (hr.acts hT h2).inside rfl, mv h3 ?_⟩
          have h4 := h3.thr t
          rw [put_same] at h4
          dsimp only
          rw [← h4, hb]
          cases z.zpcs t <;> rfl
      · simp only [zstep, hh] at hs
        replace hs : ZSS.back { z with s := s1 } t r1 = (r, z') := by
          injection hs with hs; injection hs
        obtain ⟨hw, _, c, ob, hkb⟩ := hz.base.ret_w hh
        obtain ⟨an1, an2⟩ := hz.base.answer hh
        have ht := hz.thr t
        have hbM := h.busy t
        have hTt := h.thr t
        have mv := fun {z'} {K'} {M'} {σ'} {X} {T'} => h.move t (z' := z') (K' := K') (M' := M') (σ' := σ') (X := X) (T' := T')
        rw [hkb] at ht
        generalize hpc : z.zpcs t = pc at ht hTt mv
        generalize hbz : K.busy t = bz at ht hbM hTt mv
        cases ht with
        | plain =>
          simp only [ZSS.back, hpc] at hs
          cases hs
          cases ha with
          | @ret _ t' c' ob' _ ha hb =>
            cases ha
            rw [hbz] at hb
            cases hb
            obtain ⟨h1, h2⟩ := h.sim.ret hi hh hbM
            rw [h1] at hTt
            refine ⟨_, σ, _, hr.ret rfl hTt, mv (fun _ _ => rfl) (hother hh) (fun u hu => put_other u hu) (fun u hu => put_other u hu) ?_ ?_ h2 ?_⟩
            · dsimp only; rw [put_same, put_same]; rfl
            · intro R hp
              dsimp only
              rw [put_same, hpc]
              show (gets c ob r1 ++ M.owned).Perm (gets c ob r1 ++ K.owned ++ _)
              rw [List.append_assoc]
              exact hp.append_left _
            · dsimp only; rw [put_same, hpc]; rfl
        | @alloc j ob' hj =>
          have hsim := h.sim.foreign hi hM hh hbM
          rcases an1 _ _ hkb with rfl | ⟨b, rfl⟩
          · simp only [ZSS.back, hpc] at hs
            cases hs
            cases ha with
            | @ret _ t' c' ob' _ ha hb =>
              cases ha
              rw [hbz] at hb
              cases hb
              have hk : SameOn σ.owned σ.mem s1.w.mem := fun b hb x hx => hsim.mem b hb x hx
              have hacts := hr.acts (r := .err) hTt (.refused (by cases j <;> rfl) hk)
              have hret := hacts.ret (a := .base (.go t ch)) rfl (put_same ..)
              rw [put_put] at hret
              refine ⟨M, _, _, hret, mv (fun u hu => ZSS.setZ_ne _ _ hu) (hother hh) (fun u hu => put_other u hu) (fun u hu => rfl) ?_ ?_
                (T' := fun t => (z.s.pcs t).abs (M.busy t)) ⟨hsim.thr, hsim.own, fun _ _ _ _ => rfl⟩ ?_⟩
              · dsimp only; rw [put_same]; exact hbM
              · intro R hp
                dsimp only
                rw [ZSS.setZ_same, put_same]
                cases hj with
                | zeroed => exact hp
                | grow => exact hp.trans List.perm_middle
              · dsimp only; rw [ZSS.setZ_same, put_same]; rfl
          · simp only [ZSS.back, hpc] at hs
            cases hs
            have hK : K' = K := by
              cases ha with
              | inside ha => rfl
              | resets ha => cases ha
            subst hK
            refine ⟨M, σ, T, hr.inside rfl, ?_⟩
            have := mv (X := T t) (K' := K') (M' := M) (fun u hu => ZSS.setZ_ne _ _ hu) (hother hh) (fun u hu => rfl) (fun u hu => rfl) (h.busy t) ?_
              (z' := ZSS.setZ { z with s := s1 } t (.zero j b 0)) hsim ?_
            · rwa [put_self] at this
            · intro R hp
              rw [ZSS.setZ_same, hbz]
              exact hp
            · rw [ZSS.setZ_same, hbz, hTt]; rfl
        | @free p old new o b hsz hlen hc hzz =>
          have hsim := h.sim.foreign hi hM hh hbM
          obtain rfl := an2 _ _ _ hkb
          simp only [ZSS.back, hpc] at hs
          cases hs
          cases ha with
          | @ret _ t' c' ob' _ ha hb =>
            cases ha
            rw [hbz] at hb
            cases hb
            refine ⟨M, σ, _, hr.ret rfl hTt, mv (fun u hu => ZSS.setZ_ne _ _ hu) (hother hh) (fun u hu => put_other u hu) (fun u hu => rfl) ?_ ?_ hsim ?_⟩
            · dsimp only; rw [put_same]; exact hbM
            · intro R hp
              dsimp only
              rw [ZSS.setZ_same, put_same]
              exact hp.trans List.perm_middle
            · dsimp only; rw [ZSS.setZ_same, put_same]; rfl
  | @zgo t =>
    have ht := hz.thr t
    have hheld := fun b => hz.held_mem (t := t) (b := b)
    have hap := fun {n} {L} => h.apart hz (t := t) (n := n) (L := L)
    have hbM := h.busy t
    have hTt := h.thr t
    have mv := fun {z'} {K'} {M'} {σ'} {X} {T'} => h.move t (z' := z') (K' := K') (M' := M') (σ' := σ') (X := X) (T' := T')
    have hvis : ∀ b, b ∈ zvis (z.zpcs t) (K.busy t) → b ∈ M.owned := by
      intro b hb
      obtain ⟨R, hp, _⟩ := h.own.focus t
      exact hp.mem_iff.mpr (List.mem_append_right _ (List.mem_append_left _ hb))
    generalize hpc : z.zpcs t = pc at ht hheld hap hTt mv hvis
    generalize hbz : K.busy t = bz at ht hheld hap hbM hTt mv hvis
    generalize hkb : KS.busy t = kb at ht
    simp only [zstep, zgoStep, hpc] at hs
    have inside : r = none → K' = K := by
      rintro rfl
      cases ha with
      | inside ha => rfl
    -- a byte of the new block is stored
    have store : ∀ {b : Slice} {l : Layout} {k : Nat} {v : Byte} {pc' : ZPc} {L}, zheld pc bz = Owned.of b l :: L → (∀ b ∈ zvis pc bz, b ∈ L) →
        k < b.len → zvis pc' bz = zvis pc bz → zthr pc' bz .idle = zthr pc bz .idle → zplain bz = none →
        ZSim ({ z with s := { z.s with w := { z.s.w with mem := setBytes z.s.w.mem (b.addr + k) 1 fun _ => v } } }.setZ t pc') K M σ T := by
      intro b l k v pc' L hh hv hk hvs hth hpl
      have hx : (Owned.of b l).Has (b.addr + k) := ⟨Nat.le_add_right .., Nat.add_lt_add_left hk _⟩
      have hsim := h.sim.store (x := b.addr + k) (v := v) fun c hc hy => hap hh hv hc _ ⟨hy, hx⟩
      have hidle : (z.s.pcs t).abs (M.busy t) = .idle := by rw [hbM, hpl]; cases z.s.pcs t <;> rfl
      have := mv (X := T t) (K' := K) (M' := M) (fun u hu => ZSS.setZ_ne _ _ hu) (fun u hu => rfl) (fun u hu => rfl) (fun u hu => rfl) (h.busy t) ?_
        (z' := ZSS.setZ { z with s := { z.s with w := { z.s.w with mem := setBytes z.s.w.mem (b.addr + k) 1 fun _ => v } } } t pc') hsim ?_
      · rwa [put_self] at this
      · intro R hp
        rw [ZSS.setZ_same, hbz, hvs]
        exact hp
      · rw [ZSS.setZ_same, hbz, hTt]
        show zthr pc' bz ((z.s.pcs t).abs (M.busy t)) = _
        rw [hidle]; exact hth
    cases ht with
    | idle => cases hs
    | plain => cases hs
    | alloc => cases hs
    | free => cases hs
    | @zero j ob b k hj hk hzz =>
      dsimp only at hs
      split at hs
      · rename_i hlt
        simp only [zeroByte] at hs
        split at hs
        case isFalse => cases hs
        cases hs
        obtain rfl := inside rfl
        exact ⟨M, σ, T, hr.inside rfl, store (l := j.layout) rfl (fun b hb => hb) hlt rfl rfl rfl⟩
      · rename_i hlt
        have hk' : k = b.len := by omega
        subst hk'
        cases hj with
        | @zeroed l hv =>
          cases hs
          cases ha with
          | @ret _ t' c' ob' _ ha hb =>
            cases ha
            rw [hbz] at hb
            cases hb
            have hf : FreshFor σ.owned l b := .held hz.base (hheld _ List.mem_cons_self) fun c hc => hap rfl (fun b hb => hb) hc
            have hacts := hr.acts hTt (.allocateZeroed hf (fun c hc x hx => h.sim.mem c hc x hx) hzz)
            have hret := hacts.ret (a := .zgo t) rfl (put_same ..)
            rw [put_put] at hret
            refine ⟨{ M with owned := Owned.of b l :: M.owned }, _, _, hret, mv (fun u hu => ZSS.setZ_ne _ _ hu) (fun u hu => rfl)
              (fun u hu => put_other u hu) (fun u hu => rfl) ?_ ?_
              (h.sim.swap (Owned.of b l) (oo := none) (.refl _) (.refl _)) ?_⟩
            · dsimp only; rw [put_same]; exact hbM
            · intro R hp
              dsimp only
              rw [ZSS.setZ_same, put_same]
              exact hp.cons _
            · dsimp only; rw [ZSS.setZ_same, put_same]; rfl
        | @grow o p old new hf hv hsz same =>
          dsimp only at hs
          simp only [require] at hs
          split at hs
          case isFalse => cases hs
          cases hs
          obtain rfl := inside rfl
          refine ⟨M, σ, T, hr.inside rfl, ?_⟩
          have := mv (X := T t) (K' := K') (M' := M) (fun u hu => ZSS.setZ_ne _ _ hu) (fun u hu => rfl) (fun u hu => rfl) (fun u hu => rfl) (h.busy t) ?_
            (z' := ZSS.setZ z t (.copy p old new b 0)) h.sim ?_
          · rwa [put_self] at this
          · intro R hp
            rw [ZSS.setZ_same, hbz]
            exact hp
          · rw [ZSS.setZ_same, hbz, hTt]; rfl
    | @copy p old new o b k hj hk hlen hc hzz =>
      have hj' := hj
      cases hj' with
      | grow hf hv hsz same =>
      dsimp only at hs
      split at hs
      · rename_i hlt
        simp only [copyByte] at hs
        split at hs
        case isFalse => cases hs
        cases hs
        obtain rfl := inside rfl
        exact ⟨M, σ, T, hr.inside rfl, store (l := new) rfl (fun b hb => hb) (by omega) rfl rfl rfl⟩
      · rename_i hlt
        have hk' : k = old.size := by omega
        subst hk'
        have hin := hz.base.busy_none hkb
        rw [zinner_eq hin] at hs
        cases hs
        obtain rfl := inside rfl
        have hoM : o ∈ M.owned := hvis o (List.mem_singleton.mpr rfl)
        have hoσ : o ∈ σ.owned := h.sim.own.left hoM
        have hfr : FreshFor (σ.owned.erase o) new b := .held hz.base (hheld _ List.mem_cons_self) fun c hc =>
          hap rfl (fun b hb => hb) (List.mem_of_mem_erase hc)
        have hacts := hr.acts hTt (.growZeroed hoσ hf hfr (fun c hc x hx => h.sim.mem c (List.mem_of_mem_erase hc) x hx) (fun i hi => by
          have hx : o.Has (p + i) := ⟨by have := hf.1; omega, by have := hf.1; have := hf.2.2.2; omega⟩
          rw [hc i hi, ← same _ hx]
          exact h.sim.mem o hoσ _ hx) hzz)
        refine ⟨{ M with owned := Owned.of b new :: M.owned.erase o }, _, _, hacts.inside rfl, mv (fun u hu => ZSS.setZ_ne _ _ hu)
          (fun u hu => SS.setPc_ne _ _ hu) (fun u hu => rfl) (fun u hu => rfl) (h.busy t) ?_
          ((h.sim.swap (Owned.of b new) (oo := some o) (List.perm_cons_erase hoM) (List.perm_cons_erase hoσ)).setPc hbM) ?_⟩
        · intro R hp
          rw [ZSS.setZ_same, hbz]
          show (Owned.of b new :: M.owned.erase o).Perm (K'.owned ++ (Owned.of b new :: R))
          have h1 := (List.perm_cons_erase hoM).symm.trans (hp.trans List.perm_middle)
          exact ((List.perm_cons o).mp h1 |>.cons _).trans List.perm_middle.symm
        · rw [ZSS.setZ_same, hbz]; rfl

end Blink
